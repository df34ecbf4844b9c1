import Verif.Lemmas.Schedule

/-!
# What a block computes (C12, C13)

The specification is the usual meaning of a dataflow graph and mentions neither buffers nor a
processing order: every node maps its state and the samples of its sources to a new state and output
samples, all in the same block.
-/

namespace Verif.G

section
variable {S St : Type} [Zero S]

/-- The samples arriving over a connection, when node `a` puts out `out a`. -/
def edgeVal (bs : Nat) (inp : Nat → Nat → S) (out : Key → Nat → Nat → S) : Option Edge → List S
  | some ⟨.node a, c, _⟩ => (List.range bs).map (out a c)
  | some ⟨.graph, c, _⟩ => (List.range bs).map (inp c)
  | none => List.replicate bs 0

/-- One block of the dataflow graph `g`. -/
structure BlockSpec (g : Graph) (bs : Nat) (proc : Proc S St) (inp : Nat → Nat → S)
    (st st' : Key → St) (out : Key → Nat → Nat → S) : Prop where
  step : ∀ (k : Key) (es : List (Option Edge)) (ps : List PEdge), Live g k → g.ins k = some es → g.pars k = some ps →
    proc k (st k) (es.map (edgeVal bs inp out))
      (ps.map fun pe => (pe.param, (List.range bs).map (out pe.source pe.chan))) = (st' k, out k)
  idle : ∀ k : Key, ¬ Live g k → st' k = st k

/-- Where the nodes put their output. -/
structure Layout (g : Graph) (order : List Key) (bs : Nat) (off : Key → Nat) : Prop where
  ge : ∀ k ∈ order, bs ≤ off k
  apart : ∀ pre b post, order = pre ++ b :: post → ∀ k ∈ pre,
    (depCount g k = 0 ∨ ∃ c ∈ b :: post, Needs g k c) →
    off k + outputsOf g k * bs ≤ off b ∨ off b + outputsOf g b * bs ≤ off k

/-- The memory holds the output of node `k`. -/
def Holds (g : Graph) (bs buf : Nat) (off : Key → Nat) (m : Mem S) (k : Key) (v : Nat → Nat → S) : Prop :=
  ∀ c < outputsOf g k, ∀ i < bs, m buf (off k + c * bs + i) = v c i

theorem chan_frame {c n i bs : Nat} (hc : c < n) (hi : i < bs) : c * bs + i < n * bs := by
  have : (c + 1) * bs ≤ n * bs := Nat.mul_le_mul_right _ hc
  rw [Nat.add_mul] at this
  omega

omit [Zero S] in
theorem holds_write {g : Graph} {bs buf : Nat} {off : Key → Nat} (m : Mem S) (k : Key)
    (v : Nat → Nat → S) :
    Holds g bs buf off (writeOut bs m (buf, off k) (outputsOf g k) v) k v := by
  intro c hc i hi
  have h1 := chan_frame hc hi
  have h2 : off k ≤ off k + c * bs + i := by omega
  have h3 : off k + c * bs + i < off k + outputsOf g k * bs := by omega
  have h4 : off k + c * bs + i - off k = c * bs + i := by omega
  have hbs : 0 < bs := by omega
  simp only [writeOut, h2, h3, true_and, h4, if_true]
  rw [Nat.add_comm (c * bs) i, Nat.add_mul_div_right _ _ hbs, Nat.div_eq_of_lt hi,
    Nat.add_mul_mod_self_right, Nat.mod_eq_of_lt hi, Nat.zero_add]

omit [Zero S] in
theorem holds_other {g : Graph} {bs buf : Nat} {off : Key → Nat} {m : Mem S} {k b : Key}
    {v w : Nat → Nat → S} (h : Holds g bs buf off m k v)
    (ha : off k + outputsOf g k * bs ≤ off b ∨ off b + outputsOf g b * bs ≤ off k) :
    Holds g bs buf off (writeOut bs m (buf, off b) (outputsOf g b) w) k v := by
  intro c hc i hi
  have h1 := chan_frame hc hi
  have h2 : ¬ (off b ≤ off k + c * bs + i ∧ off k + c * bs + i < off b + outputsOf g b * bs) := by
    omega
  simp only [writeOut, true_and, h2, if_false]
  exact h c hc i hi

theorem readIn_inOf {g : Graph} {bs buf : Nat} {off : Key → Nat} {m : Mem S} {inp : Nat → Nat → S}
    {out : Key → Nat → Nat → S} (hz : ∀ i < bs, m buf i = 0) (e : Option Edge)
    (he : ∀ ed a, e = some ed → ed.source = .node a → Holds g bs buf off m a (out a) ∧ ed.chan < outputsOf g a) :
    readIn bs inp m (inOf bs buf off e) = edgeVal bs inp out e := by
  match e, he with
  | none, _ =>
    simp only [inOf, readIn, edgeVal]
    rw [List.eq_replicate_iff]
    refine ⟨by simp, ?_⟩
    intro x hx
    simp only [List.mem_map, List.mem_range, Nat.zero_add] at hx
    obtain ⟨i, hi, rfl⟩ := hx
    exact hz i hi
  | some ⟨.graph, c, f⟩, _ => rfl
  | some ⟨.node a, c, f⟩, he =>
    obtain ⟨h1, h2⟩ := he _ a rfl rfl
    simp only [inOf, readIn, edgeVal]
    refine List.map_congr_left ?_
    intro i hi
    exact h1 c h2 i (List.mem_range.1 hi)

/-- The changes of linked parameters that belong to one node. -/
theorem filter_flatMap_key {α : Type} (l : List Key) (hnd : l.Nodup) (f : Key → List α) (k : Key)
    (key : α → Key) (hf : ∀ j, ∀ x ∈ f j, key x = j) :
    (l.flatMap f).filter (fun x => key x = k) = if k ∈ l then f k else [] := by
  induction l with
  | nil => simp
  | cons j l ih =>
    rw [List.nodup_cons] at hnd
    rw [List.flatMap_cons, List.filter_append, ih hnd.2]
    by_cases hj : j = k
    · subst hj
      have : (f j).filter (fun x => key x = j) = f j := by
        rw [List.filter_eq_self]
        intro x hx
        simp [hf j x hx]
      simp [this, hnd.1]
    · have : (f j).filter (fun x => key x = k) = [] := by
        rw [List.filter_eq_nil_iff]
        intro x hx
        simp [hf j x hx, hj]
      have hkj : (k = j) = False := by simp [Ne.symm hj]
      simp [this, List.mem_cons, hkj]

/-- The output of node `k` is still in memory when only the nodes `todo` are left to run. -/
def Keep (g : Graph) (order todo : List Key) (k : Key) : Prop :=
  depCount g k = 0 ∨ (∃ c ∈ todo, Needs g k c) ∨ ∃ l, order.getLast? = some l ∧ (l = k ∨ Needs g k l)

omit [Zero S] in
/-- A place no task writes to keeps its value. -/
theorem runTasks_frame (proc : Proc S St) {bs : Nat} (inp : Nat → Nat → S) (ar : List ArChange) {b p : Nat} :
    ∀ (ts : List Task) (m : Mem S) (st : Key → St),
      (∀ t ∈ ts, ¬ (b = t.out.1 ∧ t.out.2 ≤ p ∧ p < t.out.2 + t.outputs * bs)) →
      (runTasks proc bs inp ar m st ts).1 b p = m b p := by
  intro ts
  induction ts with
  | nil => intro m st _; rfl
  | cons t ts ih =>
    intro m st h
    rw [runTasks, ih _ _ (fun t' h' => h t' (List.mem_cons_of_mem _ h')), writeOut,
      if_neg (h t (List.mem_cons_self ..))]

/-- Running the tasks of a sound graph; what a node writes stays in memory until a later node writes to the
same place. -/
theorem run_spec_last {g : Graph} {order : List Key} (hs : Sound g order) {bs buf : Nat} {off : Key → Nat}
    (hl : Layout g order bs off) (proc : Proc S St) (inp : Nat → Nat → S) (ar : List ArChange)
    (har : ∀ k ∈ order, ar.filter (fun a => a.node = k) =
      ((g.pars k).getD []).map fun pe => ⟨k, pe.param, .mem buf (off pe.source + pe.chan * bs)⟩) :
    ∀ (todo pre : List Key) (m : Mem S) (st : Key → St) (out0 : Key → Nat → Nat → S),
      order = pre ++ todo → (∀ i < bs, m buf i = 0) →
      (∀ k ∈ pre, Keep g order todo k → Holds g bs buf off m k (out0 k)) →
      ∃ out : Key → Nat → Nat → S, (∀ k ∈ pre, out k = out0 k) ∧
        let r := runTasks proc bs inp ar m st (todo.map fun k =>
          ⟨k, ((g.ins k).getD []).map (inOf bs buf off), (buf, off k), outputsOf g k⟩)
        (∀ k ∈ todo, proc k (st k) (((g.ins k).getD []).map (edgeVal bs inp out))
          (((g.pars k).getD []).map fun pe => (pe.param, (List.range bs).map (out pe.source pe.chan)))
            = (r.2 k, out k)) ∧
        (∀ k, k ∉ todo → r.2 k = st k) ∧
        (∀ i < bs, r.1 buf i = 0) ∧
        (∀ k ∈ order, Keep g order [] k → Holds g bs buf off r.1 k (out k)) ∧
        (∀ x k y, todo = x ++ k :: y → ∀ c < outputsOf g k, ∀ i < bs,
          (∀ b ∈ y, ¬ (off b ≤ off k + c * bs + i ∧ off k + c * bs + i < off b + outputsOf g b * bs)) →
          r.1 buf (off k + c * bs + i) = out k c i) := by
  obtain ⟨rem, hord⟩ := hs.ord
  obtain ⟨hnd, hmem⟩ := order_nodup_mem hs.wf hord
  intro todo
  induction todo with
  | nil =>
    intro pre m st out0 e hz hh
    refine ⟨out0, fun _ _ => rfl, ?_, fun _ _ => rfl, hz, ?_, by simp⟩
    · intro k hk; simp at hk
    · intro k hk hd
      rw [e, List.append_nil] at hk
      exact hh k hk hd
  | cons b todo ih =>
    intro pre m st out0 e hz hh
    have hb : b ∈ order := by rw [e]; simp
    have hnd' := hnd
    rw [e, List.nodup_append, List.nodup_cons] at hnd'
    obtain ⟨-, ⟨hbt, -⟩, hdis⟩ := hnd'
    have hbp : b ∉ pre := fun h => hdis b h b (by simp) rfl
    -- what the node reads
    have hsrc : ∀ a, Needs g a b → a ∈ pre ∧ Holds g bs buf off m a (out0 a) := by
      intro a ha
      have := hs.topo pre b todo e a ha
      exact ⟨this, hh a this (.inr (.inl ⟨b, by simp, ha⟩))⟩
    have hins : ∀ out : Key → Nat → Nat → S, (∀ k ∈ pre, out k = out0 k) →
        (((g.ins b).getD []).map (inOf bs buf off)).map (readIn bs inp m) =
          ((g.ins b).getD []).map (edgeVal bs inp out) := by
      intro out hout
      rw [List.map_map]
      refine List.map_congr_left ?_
      intro e' he'
      refine readIn_inOf (g := g) hz e' ?_
      rintro ed a rfl hed
      cases hi : g.ins b with
      | none => simp [hi] at he'
      | some es =>
        simp only [hi, Option.getD_some] at he'
        obtain ⟨i, hix⟩ := List.mem_iff_getElem?.1 he'
        have hedge : g.edge b i = some ed := by rw [edge_of_ins hi, hix]; rfl
        obtain ⟨n, h5, -, h7⟩ := (hs.nodangle.1 b i ed hedge).1 a hed
        obtain ⟨h8, h9⟩ := hsrc a (.inl ⟨i, ed, hedge, hed⟩)
        rw [hout a h8]
        exact ⟨h9, by simpa [outputsOf, h5] using h7⟩
    have hps : ∀ out : Key → Nat → Nat → S, (∀ k ∈ pre, out k = out0 k) → readAr bs inp m ar b =
        ((g.pars b).getD []).map fun pe => (pe.param, (List.range bs).map (out pe.source pe.chan)) := by
      intro out hout
      rw [readAr, har b hb, List.map_map]
      refine List.map_congr_left ?_
      intro pe hpe
      cases hi : g.pars b with
      | none => simp [hi] at hpe
      | some es =>
        simp only [hi, Option.getD_some] at hpe
        obtain ⟨h8, h9⟩ := hsrc pe.source (.inr ⟨es, pe, hi, hpe, rfl⟩)
        simp only [Function.comp_apply, readIn, Prod.mk.injEq, true_and]
        refine List.map_congr_left ?_
        intro i hi'
        rw [hout _ h8]
        exact h9 _ (hs.params b es pe hi hpe).2 i (List.mem_range.1 hi')
    let r0 := proc b (st b) ((((g.ins b).getD []).map (inOf bs buf off)).map (readIn bs inp m))
      (readAr bs inp m ar b)
    let m1 := writeOut bs m (buf, off b) (outputsOf g b) r0.2
    let st1 : Key → St := fun k => if k = b then r0.1 else st k
    let out1 : Key → Nat → Nat → S := fun k => if k = b then r0.2 else out0 k
    have hz1 : ∀ i < bs, m1 buf i = 0 := by
      intro i hi
      have := hl.ge b hb
      have h2 : ¬ (off b ≤ i ∧ i < off b + outputsOf g b * bs) := by omega
      simp only [m1, writeOut, true_and, h2, if_false]
      exact hz i hi
    have hh1 : ∀ k ∈ pre ++ [b], Keep g order todo k → Holds g bs buf off m1 k (out1 k) := by
      intro k hk hkeep
      by_cases hkb : k = b
      · subst hkb
        simp only [out1, if_true]
        exact holds_write m k r0.2
      · have hkp : k ∈ pre := by simpa [hkb] using hk
        simp only [out1, hkb, if_false]
        have hkeep' : depCount g k = 0 ∨ ∃ c ∈ b :: todo, Needs g k c := by
          rcases hkeep with h | ⟨c, hc, h⟩ | ⟨l, h1, h2⟩
          · exact .inl h
          · exact .inr ⟨c, List.mem_cons_of_mem _ hc, h⟩
          · have hlm : l ∈ b :: todo := by
              rw [e, List.getLast?_append] at h1
              rw [List.getLast?_eq_some_getLast (List.cons_ne_nil b todo)] at h1
              simp only [Option.some_or, Option.some.injEq] at h1
              rw [← h1]
              exact List.getLast_mem _
            rcases h2 with rfl | h2
            · exact absurd rfl (hdis l hkp l hlm)
            · exact .inr ⟨l, hlm, h2⟩
        refine holds_other (hh k hkp ?_) (hl.apart pre b todo e k hkp hkeep')
        rcases hkeep' with h | h
        · exact .inl h
        · exact .inr (.inl h)
    obtain ⟨out, ho, h1, h2, h3, h4, h5⟩ := ih (pre ++ [b]) m1 st1 out1 (by simp [e]) hz1 hh1
    have hopre : ∀ k ∈ pre, out k = out0 k := by
      intro k hk
      rw [ho k (List.mem_append_left _ hk)]
      have : k ≠ b := fun h => hbp (h ▸ hk)
      simp [out1, this]
    have hob : out b = r0.2 := by rw [ho b (by simp)]; simp [out1]
    refine ⟨out, hopre, ?_, ?_, h3, h4, ?_⟩
    · intro k hk
      by_cases hkb : k = b
      · subst hkb
        have hst : (runTasks proc bs inp ar m1 st1 (todo.map fun k =>
          ⟨k, ((g.ins k).getD []).map (inOf bs buf off), (buf, off k), outputsOf g k⟩)).2 k = r0.1 := by
          rw [h2 k hbt]; simp [st1]
        rw [hob, ← hins out hopre, ← hps out hopre]
        show r0 = ((runTasks proc bs inp ar m1 st1 (todo.map fun k =>
          ⟨k, ((g.ins k).getD []).map (inOf bs buf off), (buf, off k), outputsOf g k⟩)).2 k, r0.2)
        rw [hst]
      · have hkt : k ∈ todo := by simpa [hkb] using hk
        have := h1 k hkt
        simp only [st1, hkb, if_false] at this
        exact this
    · intro k hk
      have := h2 k (fun h => hk (List.mem_cons_of_mem _ h))
      have hkb : k ≠ b := fun h => hk (by simp [h])
      simp only [st1, hkb, if_false] at this
      exact this
    · intro x k y hxy c hc i hi hfree
      cases x with
      | nil =>
        simp only [List.nil_append, List.cons.injEq] at hxy
        obtain ⟨rfl, rfl⟩ := hxy
        rw [hob, ← holds_write m b r0.2 c hc i hi]
        refine runTasks_frame proc inp ar _ m1 st1 ?_
        intro t ht
        obtain ⟨k, hk, rfl⟩ := List.mem_map.1 ht
        rintro ⟨-, q⟩
        exact hfree k hk q
      | cons z x =>
        simp only [List.cons_append, List.cons.injEq] at hxy
        exact h5 x k y hxy.2 c hc i hi hfree

/-- Running the tasks of a sound graph. -/
theorem run_spec {g : Graph} {order : List Key} (hs : Sound g order) {bs buf : Nat} {off : Key → Nat}
    (hl : Layout g order bs off) (proc : Proc S St) (inp : Nat → Nat → S) (ar : List ArChange)
    (har : ∀ k ∈ order, ar.filter (fun a => a.node = k) =
      ((g.pars k).getD []).map fun pe => ⟨k, pe.param, .mem buf (off pe.source + pe.chan * bs)⟩) :
    ∀ (todo pre : List Key) (m : Mem S) (st : Key → St) (out0 : Key → Nat → Nat → S),
      order = pre ++ todo → (∀ i < bs, m buf i = 0) →
      (∀ k ∈ pre, Keep g order todo k → Holds g bs buf off m k (out0 k)) →
      ∃ out : Key → Nat → Nat → S, (∀ k ∈ pre, out k = out0 k) ∧
        let r := runTasks proc bs inp ar m st (todo.map fun k =>
          ⟨k, ((g.ins k).getD []).map (inOf bs buf off), (buf, off k), outputsOf g k⟩)
        (∀ k ∈ todo, proc k (st k) (((g.ins k).getD []).map (edgeVal bs inp out))
          (((g.pars k).getD []).map fun pe => (pe.param, (List.range bs).map (out pe.source pe.chan)))
            = (r.2 k, out k)) ∧
        (∀ k, k ∉ todo → r.2 k = st k) ∧
        (∀ i < bs, r.1 buf i = 0) ∧
        (∀ k ∈ order, Keep g order [] k → Holds g bs buf off r.1 k (out k)) := by
  intro todo pre m st out0 e hz hh
  obtain ⟨out, h1, h2, h3, h4, h5, -⟩ := run_spec_last hs hl proc inp ar har todo pre m st out0 e hz hh
  exact ⟨out, h1, h2, h3, h4, h5⟩

/-- The layout of a schedule made by a commit. -/
theorem schedule_layout {g : Graph} {order : List Key} (hs : Sound g order) {bs : Nat} (hbs : 0 < bs)
    {s s' : AState} {sch : Schedule} (h : makeSchedule g bs s = .ok (s', sch)) :
    ∃ off : Key → Nat, Layout g order bs off ∧
      sch.tasks = order.map (fun k => ⟨k, ((g.ins k).getD []).map (inOf bs s'.alloc.buf off),
        (s'.alloc.buf, off k), outputsOf g k⟩) ∧
      sch.outs = g.outs.map (fun e => e.map fun ed => inOf bs s'.alloc.buf off (some ed)) ∧
      (∀ k ∈ order, off k + outputsOf g k * bs ≤ s'.alloc.bufLen) ∧
      ∀ k ∈ order, sch.ar.filter (fun a => a.node = k) = ((g.pars k).getD []).map fun pe =>
        (⟨k, pe.param, .mem s'.alloc.buf (off pe.source + pe.chan * bs)⟩ : ArChange) := by
  obtain ⟨s1, sch1, off, h1, h2, h3, h4, -, h6, h7⟩ := makeSchedule_spec hs hbs s
  rw [h] at h1
  simp only [Except.ok.injEq, Prod.mk.injEq] at h1
  obtain ⟨rfl, rfl⟩ := h1
  refine ⟨off, ⟨fun k hk => (h6 k hk).1, h7⟩, h2, h3, fun k hk => (h6 k hk).2, ?_⟩
  intro k hk
  obtain ⟨rem, hord⟩ := hs.ord
  obtain ⟨-, hmem⟩ := order_nodup_mem hs.wf hord
  rw [h4, filter_flatMap_key _ (hs.wf.nodup.filter _) _ k ArChange.node]
  · rw [if_pos]
    rw [List.mem_filter]
    exact ⟨(get_isSome g k).1 ((hmem k).1 hk).1, by simpa using hk⟩
  · intro j x hx
    simp only [List.mem_map] at hx
    obtain ⟨pe, -, rfl⟩ := hx
    rfl

/-- **C12.**  A block processed with the schedule of a sound graph computes exactly the dataflow
meaning of the graph, whatever was in the buffers before (apart from the silent channel), although
buffers are reused. -/
theorem C12_dataflow_partial {g : Graph} {order : List Key} (hs : Sound g order) {bs : Nat} (hbs : 0 < bs)
    {s s' : AState} {sch : Schedule} (h : makeSchedule g bs s = .ok (s', sch))
    (proc : Proc S St) (inp : Nat → Nat → S) (m : Mem S) (st : Key → St)
    (hz : ∀ i < bs, m s'.alloc.buf i = 0) :
    ∃ out, BlockSpec g bs proc inp st (runTasks proc bs inp sch.ar m st sch.tasks).2 out := by
  obtain ⟨rem, hord⟩ := hs.ord
  obtain ⟨-, hmem⟩ := order_nodup_mem hs.wf hord
  obtain ⟨off, hl, ht, -, -, har⟩ := schedule_layout hs hbs h
  obtain ⟨out, -, h1, h2, -, -⟩ := run_spec hs hl proc inp sch.ar har order [] m st (fun _ _ _ => 0)
    rfl hz (by simp)
  rw [ht]
  refine ⟨out, ?_, ?_⟩
  · intro k es ps hk he hp
    have := h1 k ((hmem k).2 hk)
    simpa [he, hp] using this
  · intro k hk
    exact h2 k (fun hm => hk ((hmem k).1 hm))

/-- The dataflow meaning does not leave a choice. -/
theorem BlockSpec.unique {g : Graph} {order : List Key} (hs : Sound g order) {bs : Nat}
    {proc : Proc S St} {inp : Nat → Nat → S} {st st1 st2 : Key → St} {out1 out2 : Key → Nat → Nat → S}
    (h1 : BlockSpec g bs proc inp st st1 out1) (h2 : BlockSpec g bs proc inp st st2 out2) :
    st1 = st2 ∧ ∀ k, Live g k → out1 k = out2 k := by
  obtain ⟨rem, hord⟩ := hs.ord
  obtain ⟨-, hmem⟩ := order_nodup_mem hs.wf hord
  have key : ∀ n, ∀ pre post, order = pre ++ post → pre.length = n →
      ∀ k ∈ pre, out1 k = out2 k ∧ st1 k = st2 k := by
    intro n
    induction n with
    | zero => intro pre post _ hp k hk; simp [List.length_eq_zero_iff.1 hp] at hk
    | succ n ih =>
      intro pre post e hp k hk
      obtain ⟨pre', b, rfl⟩ : ∃ p b, pre = p ++ [b] := by
        rcases List.eq_nil_or_concat pre with h | h
        · simp [h] at hp
        · simpa using h
      simp only [List.length_append, List.length_singleton,
        Nat.add_right_cancel_iff, List.append_assoc, List.mem_append, List.mem_singleton,
        List.singleton_append] at hp hk e
      have ih' := ih pre' (b :: post) e hp
      rcases hk with hk | rfl
      · exact ih' k hk
      · have hlive : Live g k := (hmem k).1 (by rw [e]; simp)
        obtain ⟨es, hes⟩ := Option.isSome_iff_exists.1 ((live_iff_ins hs.wf k).1 hlive)
        obtain ⟨ps, hps⟩ := Option.isSome_iff_exists.1 ((live_iff_pars hs.wf k).1 hlive)
        have e1 := h1.step k es ps hlive hes hps
        have e2 := h2.step k es ps hlive hes hps
        have hsrc : ∀ a, Needs g a k → out1 a = out2 a := fun a ha =>
          (ih' a (hs.topo pre' k post e a ha)).1
        have e3 : es.map (edgeVal bs inp out1) = es.map (edgeVal bs inp out2) := by
          refine List.map_congr_left ?_
          intro ed hed
          match ed, hed with
          | none, _ => rfl
          | some ⟨.graph, c, f⟩, _ => rfl
          | some ⟨.node a, c, f⟩, hed =>
            obtain ⟨i, hix⟩ := List.mem_iff_getElem?.1 hed
            have hedge : g.edge k i = some ⟨.node a, c, f⟩ := by rw [edge_of_ins hes, hix]; rfl
            simp only [edgeVal]
            rw [hsrc a (.inl ⟨i, _, hedge, rfl⟩)]
        have e4 : (ps.map fun pe => (pe.param, (List.range bs).map (out1 pe.source pe.chan))) =
            ps.map fun pe => (pe.param, (List.range bs).map (out2 pe.source pe.chan)) := by
          refine List.map_congr_left ?_
          intro pe hpe
          rw [hsrc pe.source (.inr ⟨ps, pe, hps, hpe, rfl⟩)]
        rw [e3, e4, e2] at e1
        simp only [Prod.mk.injEq] at e1
        exact ⟨e1.2.symm, e1.1.symm⟩
  have key' : ∀ k, Live g k → out1 k = out2 k ∧ st1 k = st2 k := fun k hk =>
    key order.length order [] (by simp) rfl k ((hmem k).2 hk)
  refine ⟨?_, fun k hk => (key' k hk).1⟩
  funext k
  by_cases hk : Live g k
  · exact (key' k hk).2
  · rw [h1.idle k hk, h2.idle k hk]

/-- **C12.**  A task never writes into the memory it reads from. -/
theorem C12_no_alias_partial {g : Graph} {order : List Key} (hs : Sound g order) {bs : Nat} (hbs : 0 < bs)
    {s s' : AState} {sch : Schedule} (h : makeSchedule g bs s = .ok (s', sch)) :
    ∀ t ∈ sch.tasks, ∀ b o, In.mem b o ∈ t.ins → ∀ i < bs,
      ¬ (t.out.2 ≤ o + i ∧ o + i < t.out.2 + t.outputs * bs) := by
  obtain ⟨off, hl, ht, -, -, -⟩ := schedule_layout hs hbs h
  rw [ht]
  intro t htm b o hin i hi
  obtain ⟨k, hk, rfl⟩ := List.mem_map.1 htm
  simp only [List.mem_map] at hin
  obtain ⟨e, he, hin⟩ := hin
  simp only
  match e, he, hin with
  | none, _, hin =>
    simp only [inOf, In.mem.injEq] at hin
    have := hl.ge k hk
    omega
  | some ⟨.graph, c, f⟩, _, hin => simp [inOf] at hin
  | some ⟨.node a, c, f⟩, he, hin =>
    simp only [inOf, In.mem.injEq] at hin
    cases hi : g.ins k with
    | none => simp [hi] at he
    | some es =>
      simp only [hi, Option.getD_some] at he
      obtain ⟨j, hix⟩ := List.mem_iff_getElem?.1 he
      have hedge : g.edge k j = some ⟨.node a, c, f⟩ := by rw [edge_of_ins hi, hix]; rfl
      have hn : Needs g a k := .inl ⟨j, _, hedge, rfl⟩
      obtain ⟨pre, post, e⟩ := List.append_of_mem hk
      have hap := hl.apart pre k post e a (hs.topo pre k post e a hn) (.inr ⟨k, by simp, hn⟩)
      obtain ⟨n, h5, -, h7⟩ := (hs.nodangle.1 k j _ hedge).1 a rfl
      have h8 : c < outputsOf g a := by simpa [outputsOf, h5] using h7
      have := chan_frame h8 ‹i < bs›
      omega

/-- **C12.**  Every task stays inside the allocation. -/
theorem C12_in_bounds_partial {g : Graph} {order : List Key} (hs : Sound g order) {bs : Nat} (hbs : 0 < bs)
    {s s' : AState} {sch : Schedule} (h : makeSchedule g bs s = .ok (s', sch)) :
    ∀ t ∈ sch.tasks, t.out.1 = s'.alloc.buf ∧ t.out.2 + t.outputs * bs ≤ s'.alloc.bufLen := by
  obtain ⟨off, -, ht, -, hb, -⟩ := schedule_layout hs hbs h
  rw [ht]
  intro t htm
  obtain ⟨k, hk, rfl⟩ := List.mem_map.1 htm
  exact ⟨rfl, hb k hk⟩

omit [Zero S] in
theorem sum_zero {l : List Nat} (h : ∀ x ∈ l, x = 0) : l.sum = 0 := by
  induction l with
  | nil => rfl
  | cons x l ih =>
    rw [List.sum_cons, h x (by simp), ih (fun y hy => h y (List.mem_cons_of_mem _ hy))]

/-- **C13.**  A graph output carries what the connected node computed in this block, provided the
node feeds nothing else or its last dependent is the last node of the order. -/
theorem C13_outputs_partial {g : Graph} {order : List Key} (hs : Sound g order) {bs : Nat} (hbs : 0 < bs)
    {s s' : AState} {sch : Schedule} (h : makeSchedule g bs s = .ok (s', sch))
    (hk : ∀ e a, some e ∈ g.outs → e.source = .node a → (∀ b, ¬ Needs g a b) ∨
      ∃ l, order.getLast? = some l ∧ (l = a ∨ Needs g a l))
    (proc : Proc S St) (inp : Nat → Nat → S) (m : Mem S) (st : Key → St)
    (hz : ∀ i < bs, m s'.alloc.buf i = 0) :
    ∃ out, BlockSpec g bs proc inp st (runTasks proc bs inp sch.ar m st sch.tasks).2 out ∧
      readOuts bs inp (runTasks proc bs inp sch.ar m st sch.tasks).1 sch.outs =
        g.outs.map (edgeVal bs inp out) := by
  obtain ⟨rem, hord⟩ := hs.ord
  obtain ⟨hnd, hmem⟩ := order_nodup_mem hs.wf hord
  obtain ⟨off, hl, ht, hout, -, har⟩ := schedule_layout hs hbs h
  obtain ⟨out, -, h1, h2, h3, h4⟩ := run_spec hs hl proc inp sch.ar har order [] m st (fun _ _ _ => 0)
    rfl hz (by simp)
  rw [ht]
  refine ⟨out, ⟨?_, ?_⟩, ?_⟩
  · intro k es ps hk he hp
    have := h1 k ((hmem k).2 hk)
    simpa [he, hp] using this
  · intro k hk
    exact h2 k (fun hm => hk ((hmem k).1 hm))
  · rw [hout, readOuts, List.map_map]
    refine List.map_congr_left ?_
    intro e he
    match e, he with
    | none, _ => rfl
    | some ed, he =>
      simp only [Function.comp_apply, Option.map_some]
      refine readIn_inOf (g := g) h3 (some ed) ?_
      intro ed' a heq ha
      simp only [Option.some.injEq] at heq
      subst heq
      obtain ⟨i, hix⟩ := List.mem_iff_getElem?.1 he
      obtain ⟨n, h5, h6, h7⟩ := (hs.nodangle.2 i ed (by rw [Graph.out, hix]; rfl)).1 a ha
      refine ⟨h4 a ((hmem a).2 ⟨by simp [h5], h6⟩) ?_, by simpa [outputsOf, h5] using h7⟩
      rcases hk ed a he ha with hk | hk
      · refine .inl ?_
        rw [depCount_order hs.wf hnd hmem, sum_zero]
        intro x hx
        obtain ⟨b, -, rfl⟩ := List.mem_map.1 hx
        rw [List.count_eq_zero]
        exact fun hm => hk b (mem_sourcesOf.1 hm)
      · exact .inr (.inr hk)

end

theorem sound_of_wf {g : Graph} (hg : WF g) (hacyc : Acyclic (Feeds g)) (hd : NoDangle g)
    (hp : ∀ b es pe, g.pars b = some es → pe ∈ es → Live g pe.source ∧ pe.chan < outputsOf g pe.source)
    (ho : ∀ k, Live g k → 0 < outputsOf g k) (hf : ∀ k i e, g.edge k i = some e → e.fb = false)
    (hac : Acyclic (Dep g)) (hro : RootsOk g) (hh : ∀ a b, Needs g a b → Heard g b) :
    ∃ order, Sound g order := by
  obtain ⟨order, rem, hord⟩ := calcOrder_total hg hacyc hd (fun b es pe h1 h2 => (hp b es pe h1 h2).1)
  have hnd : ∀ a b, Needs g a b → Dep g a b := by
    rintro a b (⟨i, e, h1, h2⟩ | h)
    · exact .inl ⟨i, e, h1, h2, hf _ _ _ h1⟩
    · exact .inr h
  refine ⟨order, hg, hd, hp, ho, ⟨rem, hord⟩, ?_⟩
  intro pre b post e a ha
  obtain ⟨x, y, z, h⟩ := order_before hg hac hf hro hord (hh a b ha) (hnd a b ha)
  obtain ⟨hnodup, -⟩ := order_nodup_mem hg hord
  have h' : order = (x ++ a :: y) ++ b :: z := by simpa using h
  have hpre : pre = x ++ a :: y := by
    rw [e] at hnodup
    rw [h'] at e
    rw [List.append_eq_append_iff] at e
    rcases e with ⟨m, h1, h2⟩ | ⟨m, h1, h2⟩
    · cases m with
      | nil => simpa using h1
      | cons c m =>
        simp only [List.cons_append, List.cons.injEq] at h2
        exfalso
        rw [h1, ← h2.1] at hnodup
        rw [List.nodup_append] at hnodup
        exact hnodup.2.2 b (by simp) b (by simp) rfl
    · cases m with
      | nil => simpa using h1.symm
      | cons c m =>
        simp only [List.cons_append, List.cons.injEq] at h2
        exfalso
        obtain ⟨rfl, rfl⟩ := h2
        rw [List.nodup_append, List.nodup_cons] at hnodup
        exact hnodup.2.1.1 (by simp)
  rw [hpre]
  simp

/-- When the hypotheses of C12 hold: no dangling connections, nodes with outputs, no feedback
connections, dependencies without cycles, a graph the ordering handles (see C11), and no node that
depends on others without reaching a graph output. -/
theorem sound_of {sl} {g : Graph} (hr : Reach sl g) (hd : NoDangle g)
    (hp : ∀ b es pe, g.pars b = some es → pe ∈ es → Live g pe.source ∧ pe.chan < outputsOf g pe.source)
    (ho : ∀ k, Live g k → 0 < outputsOf g k) (hf : ∀ k i e, g.edge k i = some e → e.fb = false)
    (hac : Acyclic (Dep g)) (hro : RootsOk g) (hh : ∀ a b, Needs g a b → Heard g b) :
    ∃ order, Sound g order :=
  sound_of_wf hr.wf hr.acyclic hd hp ho hf hac hro hh

/-- The chain of C11 meets all hypotheses. -/
theorem chainGraph_sound : ∃ order, Sound chainGraph order := by
  have hdep : ∀ a b, Dep chainGraph a b → Feeds chainGraph a b := fun a b h =>
    dep_feeds (fun b es => chainGraph_pars) h
  have hlive : ∀ k, Live chainGraph k → k = 0 ∨ k = 1 := by
    intro k hk
    have := (get_isSome chainGraph k).1 hk.1
    simpa [chainGraph] using this
  refine sound_of chainGraph_reach ⟨?_, ?_⟩ ?_ ?_ ?_ (Acyclic.mono chainGraph_reach.acyclic hdep)
    (.inr ⟨?_, ?_⟩) ?_
  · intro k i e h
    rw [(chainGraph_edge h).2]
    refine ⟨?_, by simp⟩
    intro a ha
    simp only [Src.node.injEq] at ha
    subst ha
    exact ⟨_, rfl, rfl, by decide⟩
  · intro i e h
    have he : e = ⟨.node 0, 0, false⟩ := by
      match i, h with
      | 0, h => simpa [Graph.out, chainGraph] using h.symm
      | 1, h => simpa [Graph.out, chainGraph] using h.symm
      | i + 2, h => simp [Graph.out, chainGraph] at h
    rw [he]
    refine ⟨?_, by simp⟩
    intro a ha
    simp only [Src.node.injEq] at ha
    subst ha
    exact ⟨_, rfl, rfl, by decide⟩
  · intro b es pe h hm
    rw [chainGraph_pars h] at hm
    simp at hm
  · intro k hk
    rcases hlive k hk with rfl | rfl <;> decide
  · intro k i e h; rw [(chainGraph_edge h).2]
  · intro b es h; exact chainGraph_pars h
  · rintro a b c ⟨i, e, h1, h2⟩ ⟨i', e', h3, h4⟩
    rw [(chainGraph_edge h1).1, (chainGraph_edge h3).1]
  · rintro a b (⟨i, e, h1, -⟩ | ⟨es, pe, h, hm, -⟩)
    · rw [(chainGraph_edge h1).1]
      exact ⟨0, ⟨0, ⟨.node 0, 0, false⟩, by decide, rfl⟩, .refl⟩
    · rw [chainGraph_pars h] at hm
      simp at hm

/-- A unit generator for the examples: it puts out the sum of its inputs plus its key plus one. -/
def demoProc : Proc Int Unit := fun k _ ins _ => ((), fun _ i =>
  (ins.map fun c => c.getD i 0).sum + k + 1)

/-- Run the first block of a graph and look at the outputs. -/
def demoOuts (g : Graph) (bs : Nat) : R (List (List Int)) := do
  let (_, sch) ← makeSchedule g bs (.init bs)
  .ok (readOuts bs (fun _ _ => 0) (runTasks demoProc bs (fun _ _ => 0) sch.ar (fun _ _ => 0)
    (fun _ => ()) sch.tasks).1 sch.outs)

-- node 1 puts out 2, node 0 adds 1
example : demoOuts chainGraph 2 = .ok [[3, 3], [3, 3]] := by decide

/-- C13 is violated when a node connected to a graph output also feeds other nodes: here node 0 feeds
node 1, which feeds node 2, and nodes 0 and 2 are connected to the outputs.  The connection to the
output is not counted as a use, so node 2 gets the buffer of node 0 and output 0 carries the signal of
node 2. -/
theorem C13_violated : ∃ g : Graph, Reach id g ∧
    (∃ order rem, calcOrder g = .ok (order, rem) ∧ order = [0, 1, 2]) ∧
    g.out 0 = some ⟨.node 0, 0, false⟩ ∧ g.out 1 = some ⟨.node 2, 0, false⟩ ∧
    -- node 0 puts out 1 and node 2 puts out 1 + 2 + 3
    demoOuts g 1 = .ok [[6], [6]] := by
  refine ⟨_, reach_runOps [.push 0 1 [], .push 1 1 [], .push 1 1 [],
    .connect (.node (nd 0)) 0 0 (.node (nd 1)) true false,
    .connect (.node (nd 1)) 0 0 (.node (nd 2)) true false,
    .connect (.node (nd 0)) 0 0 .graph true false,
    .connect (.node (nd 2)) 0 1 .graph true false] (Reach.init 0 0 2)
    (rs := [.ok (), .ok (), .ok (), .ok (), .ok (), .ok (), .ok ()]) rfl, ⟨_, _, rfl, ?_⟩, ?_, ?_, ?_⟩ <;> decide

/-- A unit generator that remembers its inputs and puts out ones. -/
def recProc : Proc Int (List (List Int)) := fun _ _ ins _ => (ins, fun _ _ => 1)

/-- The graph of `C11_unconnected_violated`. -/
def unconnGraph : Graph :=
  { id := 0, outs := [none], numIn := 0, nextKey := 2, recalc := true, nodes :=
      [(0, { inputs := 1, outputs := 1, ins := some [some ⟨.node 1, 0, false⟩], pars := some [] }),
       (1, { inputs := 1, outputs := 1, ins := some [none], pars := some [] })] }

/-- C12 is violated when the order is wrong (see `C11_unconnected_violated`): in the first block node 0
reads silence instead of what node 1 puts out. -/
theorem C12_order_violated : Reach id unconnGraph ∧
    ∃ s sch, makeSchedule unconnGraph 1 (.init 1) = .ok (s, sch) ∧ ∀ out,
      ¬ BlockSpec unconnGraph 1 recProc (fun _ _ => 0) (fun _ => [])
        (runTasks recProc 1 (fun _ _ => 0) sch.ar (fun _ _ => 0) (fun _ => []) sch.tasks).2 out := by
  refine ⟨reach_runOps [.push 1 1 [], .push 1 1 [],
    .connect (.node (nd 1)) 0 0 (.node (nd 0)) true false] (Reach.init 0 0 1)
    (rs := [.ok (), .ok (), .ok ()]) rfl, _, _, rfl, ?_⟩
  intro out h
  have h1 := h.step 1 [none] [] ⟨rfl, rfl⟩ rfl rfl
  have h0 := h.step 0 [some ⟨.node 1, 0, false⟩] [] ⟨rfl, rfl⟩ rfl rfl
  simp only [recProc, Prod.mk.injEq, List.map_cons, List.map_nil, edgeVal] at h1 h0
  rw [← h1.2] at h0
  exact absurd h0.1 (by decide)

end Verif.G
