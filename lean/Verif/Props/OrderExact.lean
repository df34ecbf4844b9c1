import Verif.Lemmas.OrderExact
import Verif.Lemmas.System
import Verif.Props.Dataflow

/-!
# C11, C12 and C13: exactly when the order, the blocks and the outputs are right
-/

namespace Verif.G

open Relation

/-- **C11, exactly.**  Whenever an order is computed for a reachable graph, every node comes after all
the nodes it depends on if and only if three things hold: there is no cycle of dependencies, no root of
the search depends on a root that was pushed before it was, and every source that the search does not
reach sits in a lower slot than the nodes it feeds. -/
theorem C11_exact {sl} {g : Graph} (hr : Reach sl g) {order rem rs : List Key}
    (h : calcOrder g = .ok (order, rem)) (hrs : roots g = .ok rs) :
    (∀ pre b post, order = pre ++ b :: post → ∀ a, Dep g a b → a ∈ pre) ↔
      Acyclic (Dep g) ∧ (rs.Pairwise fun a b => ¬ TransGen (Dep g) b a) ∧
      ∀ a b, Dep g a b → Reached g rs a ∨ Live g a ∧ Before (g.nodes.map Prod.fst) a b :=
  order_exact hr.wf h hrs

/-- The roots and the order of a graph. -/
def rootsOrder (g : Graph) : R (List Key × List Key) := do
  let rs ← roots g
  let (o, _) ← calcOrder g
  .ok (rs, o)

-- A node that is connected to an output and feeds another such node, and two nodes nothing is connected
-- to: 1 feeds 0, 0 feeds 2, 0 and 2 are heard, 3 feeds 4.
example : ∃ g : Graph, Reach id g ∧ rootsOrder g = .ok ([2], [1, 0, 2, 3, 4]) := by
  refine ⟨_, reach_runOps [.push 1 1 [], .push 1 1 [], .push 1 1 [], .push 1 1 [], .push 1 1 [],
    .connect (.node (nd 1)) 0 0 (.node (nd 0)) true false,
    .connect (.node (nd 0)) 0 0 (.node (nd 2)) true false,
    .connect (.node (nd 0)) 0 0 .graph true false,
    .connect (.node (nd 2)) 0 1 .graph true false,
    .connect (.node (nd 3)) 0 0 (.node (nd 4)) true false] (Reach.init 0 0 2)
    (rs := [.ok (), .ok (), .ok (), .ok (), .ok (), .ok (), .ok (), .ok (), .ok (), .ok ()]) rfl, ?_⟩
  decide +kernel

/-! ### Blocks -/

/-- A unit generator that remembers what it got and puts out its key plus one. -/
def keyProc : Proc Nat (List (List Nat) × List (Nat × List Nat)) := fun k _ ins ps =>
  ((ins, ps), fun _ _ => k + 1)

/-- Zero or the mark of one of the nodes `l`. -/
def Mark (l : List Key) (v : Nat) : Prop := v = 0 ∨ ∃ k ∈ l, v = k + 1

theorem Mark.mono {l l' : List Key} {v : Nat} (h : Mark l v) (hl : ∀ k ∈ l, k ∈ l') : Mark l' v := by
  rcases h with h | ⟨k, hk, h⟩
  · exact .inl h
  · exact .inr ⟨k, hl k hk, h⟩

/-- What a node gets in a block comes from nodes that ran before it. -/
theorem run_marks {bs : Nat} {ar : List ArChange} : ∀ (ts : List Task) (pre : List Key) (m : Mem Nat)
    (st : Key → List (List Nat) × List (Nat × List Nat)), (ts.map Task.key).Nodup →
    (∀ b p, Mark pre (m b p)) →
    ∀ x t y, ts = x ++ t :: y →
      (∀ l ∈ ((runTasks keyProc bs (fun _ _ => 0) ar m st ts).2 t.key).1, ∀ v ∈ l,
        Mark (pre ++ x.map Task.key) v) ∧
      ∀ l ∈ ((runTasks keyProc bs (fun _ _ => 0) ar m st ts).2 t.key).2, ∀ v ∈ l.2,
        Mark (pre ++ x.map Task.key) v := by
  have hread : ∀ (pre : List Key) (m : Mem Nat), (∀ b p, Mark pre (m b p)) → ∀ i,
      ∀ v ∈ readIn bs (fun _ _ => 0) m i, Mark pre v := by
    intro pre m hm i v hv
    cases i with
    | mem b o =>
      simp only [readIn, List.mem_map] at hv
      obtain ⟨j, -, rfl⟩ := hv
      exact hm b _
    | graph c =>
      simp only [readIn, List.mem_map] at hv
      obtain ⟨j, -, rfl⟩ := hv
      exact .inl rfl
  have hkeep : ∀ (ts : List Task) (m : Mem Nat) (st : Key → List (List Nat) × List (Nat × List Nat)) (k : Key),
      k ∉ ts.map Task.key → (runTasks keyProc bs (fun _ _ => 0) ar m st ts).2 k = st k := by
    intro ts
    induction ts with
    | nil => intro m st k _; rfl
    | cons t ts ih =>
      intro m st k hk
      simp only [List.map_cons, List.mem_cons, not_or] at hk
      rw [runTasks, ih _ _ _ hk.2]
      exact if_neg hk.1
  intro ts
  induction ts with
  | nil => intro pre m st _ _ x t y h; simp at h
  | cons t0 ts ih =>
    intro pre m st hn hm x t y h
    rw [List.map_cons, List.nodup_cons] at hn
    rw [runTasks]
    cases x with
    | nil =>
      simp only [List.nil_append, List.cons.injEq] at h
      obtain ⟨rfl, rfl⟩ := h
      rw [hkeep _ _ _ _ hn.1]
      simp only [if_true, keyProc, List.map_nil, List.append_nil]
      constructor
      · intro l hl
        obtain ⟨i, -, rfl⟩ := List.mem_map.1 hl
        exact hread pre m hm i
      · intro l hl
        simp only [readAr, List.mem_map] at hl
        obtain ⟨a, -, rfl⟩ := hl
        exact hread pre m hm a.buffer
    | cons z x =>
      simp only [List.cons_append, List.cons.injEq] at h
      obtain ⟨rfl, h⟩ := h
      have := ih (pre ++ [t0.key]) (writeOut bs m t0.out t0.outputs (keyProc t0.key (st t0.key)
        (t0.ins.map (readIn bs (fun _ _ => 0) m)) (readAr bs (fun _ _ => 0) m ar t0.key)).2)
        (fun k => if k = t0.key then (keyProc t0.key (st t0.key)
        (t0.ins.map (readIn bs (fun _ _ => 0) m)) (readAr bs (fun _ _ => 0) m ar t0.key)).1 else st k) hn.2 (by
          intro b p
          rw [writeOut]
          split
          · exact .inr ⟨t0.key, by simp, rfl⟩
          · exact (hm b p).mono (fun k hk => List.mem_append_left _ hk)) x t y h
      simpa [List.append_assoc] using this

/-- The samples in the dataflow meaning when every node puts out its mark. -/
theorem spec_key {g : Graph} {bs : Nat} {inp : Nat → Nat → Nat} {st st'} {out : Key → Nat → Nat → Nat}
    (hw : WF g) (h : BlockSpec g bs keyProc inp st st' out) {k : Key} (hk : Live g k) :
    out k = fun _ _ => k + 1 := by
  obtain ⟨es, he⟩ := Option.isSome_iff_exists.1 ((live_iff_ins hw k).1 hk)
  obtain ⟨ps, hp⟩ := Option.isSome_iff_exists.1 ((live_iff_pars hw k).1 hk)
  have := h.step k es ps hk he hp
  simp only [keyProc, Prod.mk.injEq] at this
  exact this.2.symm

/-- **C12, exactly.**  A schedule made for a graph without dangling connections computes the dataflow
meaning of the graph, for all unit generators and all contents of the buffers, if and only if every node
comes after all the nodes it is connected to. -/
theorem C12_exact {sl} {g : Graph} (hr : Reach sl g) (hd : NoDangle g)
    (hp : ∀ b es pe, g.pars b = some es → pe ∈ es → Live g pe.source ∧ pe.chan < outputsOf g pe.source)
    (ho : ∀ k, Live g k → 0 < outputsOf g k) {bs : Nat} (hbs : 0 < bs) {s s' : AState} {sch : Schedule}
    (h : makeSchedule g bs s = .ok (s', sch)) :
    (∀ (S St : Type) [Zero S] (proc : Proc S St) (inp : Nat → Nat → S) (m : Mem S) (st : Key → St),
      (∀ i < bs, m s'.alloc.buf i = 0) →
      ∃ out, BlockSpec g bs proc inp st (runTasks proc bs inp sch.ar m st sch.tasks).2 out) ↔
    ∀ pre b post, sch.tasks.map Task.key = pre ++ b :: post → ∀ a, Needs g a b → a ∈ pre := by
  have hw := hr.wf
  obtain ⟨rem, hord⟩ := Sys.makeSchedule_keys h
  obtain ⟨hn, hm⟩ := order_nodup_mem hw hord
  constructor
  · intro hall pre b post e a hab
    obtain ⟨out, hb⟩ := hall Nat _ keyProc (fun _ _ => 0) (fun _ _ => 0) (fun _ => ([], [])) (fun _ _ => rfl)
    have hbl : Live g b := (hm b).1 (by rw [e]; simp)
    obtain ⟨es, he⟩ := Option.isSome_iff_exists.1 ((live_iff_ins hw b).1 hbl)
    obtain ⟨ps, hps⟩ := Option.isSome_iff_exists.1 ((live_iff_pars hw b).1 hbl)
    have hstep := hb.step b es ps hbl he hps
    obtain ⟨x, ty, hts, hx, hy⟩ := List.map_eq_append_iff.1 e
    obtain ⟨t, y, rfl, ht, -⟩ := List.map_eq_cons_iff.1 hy
    obtain ⟨h1, h2⟩ := run_marks (bs := bs) (ar := sch.ar) sch.tasks [] (fun _ _ => 0) (fun _ => ([], [])) hn (fun _ _ => .inl rfl) x t y hts
    rw [ht] at h1 h2
    simp only [keyProc, Prod.mk.injEq] at hstep
    have hs1 := congrArg Prod.fst hstep.1
    have hs2 := congrArg Prod.snd hstep.1
    simp only at hs1 hs2
    have hmark : Mark ([] ++ x.map Task.key) (a + 1) := by
      rcases hab with ⟨i, ed, hed, hsrc⟩ | ⟨ps', pe, hps', hpe, rfl⟩
      · obtain ⟨n, h3, h4, -⟩ := (hd.1 b i ed hed).1 a hsrc
        have hal : Live g a := ⟨by simp [h3], h4⟩
        rw [edge_of_ins he, Option.join_eq_some_iff] at hed
        refine h1 (edgeVal bs (fun _ _ => 0) out (some ed)) ?_ _ ?_
        · rw [← hs1]
          exact List.mem_map_of_mem (List.mem_of_getElem? hed)
        · obtain ⟨sr, c, f⟩ := ed
          simp only at hsrc
          subst hsrc
          simp only [edgeVal, spec_key hw hb hal, List.mem_map, List.mem_range]
          exact ⟨0, hbs, trivial⟩
      · have hal := (hp b ps' pe hps' hpe).1
        rw [hps] at hps'
        simp only [Option.some.injEq] at hps'
        subst hps'
        refine h2 (pe.param, (List.range bs).map (out pe.source pe.chan)) ?_ _ ?_
        · rw [← hs2]
          exact List.mem_map_of_mem (f := fun pe : PEdge => (pe.param, (List.range bs).map (out pe.source pe.chan))) hpe
        · simp only [spec_key hw hb hal, List.mem_map, List.mem_range]
          exact ⟨0, hbs, trivial⟩
    rcases hmark with h3 | ⟨k, hk, h3⟩
    · exact absurd h3 (Nat.succ_ne_zero _)
    · rw [List.nil_append, hx] at hk
      have : a = k := Nat.succ.inj h3
      rw [this]
      exact hk
  · intro ht S St _ proc inp m st hz
    exact C12_dataflow_partial ⟨hw, hd, hp, ho, ⟨rem, hord⟩, ht⟩ hbs h proc inp m st hz

/-- **C12, exactly, in terms of the graph.** -/
theorem C12_exact_graph {sl} {g : Graph} (hr : Reach sl g) (hd : NoDangle g)
    (hp : ∀ b es pe, g.pars b = some es → pe ∈ es → Live g pe.source ∧ pe.chan < outputsOf g pe.source)
    (ho : ∀ k, Live g k → 0 < outputsOf g k) (hf : ∀ k i e, g.edge k i = some e → e.fb = false)
    {bs : Nat} (hbs : 0 < bs) {s s' : AState} {sch : Schedule} {rs : List Key} (hrs : roots g = .ok rs)
    (h : makeSchedule g bs s = .ok (s', sch)) :
    (∀ (S St : Type) [Zero S] (proc : Proc S St) (inp : Nat → Nat → S) (m : Mem S) (st : Key → St),
      (∀ i < bs, m s'.alloc.buf i = 0) →
      ∃ out, BlockSpec g bs proc inp st (runTasks proc bs inp sch.ar m st sch.tasks).2 out) ↔
    Acyclic (Needs g) ∧ (rs.Pairwise fun a b => ¬ TransGen (Needs g) b a) ∧
      ∀ a b, Needs g a b → (∃ r ∈ rs, ReflTransGen (Needs g) a r) ∨ Before (g.nodes.map Prod.fst) a b := by
  have hdn : Dep g = Needs g := by
    funext a b
    refine propext ⟨?_, ?_⟩
    · rintro (⟨i, e, h1, h2, -⟩ | h)
      · exact .inl ⟨i, e, h1, h2⟩
      · exact .inr h
    · rintro (⟨i, e, h1, h2⟩ | h)
      · exact .inl ⟨i, e, h1, h2, hf _ _ _ h1⟩
      · exact .inr h
  obtain ⟨rem, hord⟩ := Sys.makeSchedule_keys h
  rw [C12_exact hr hd hp ho hbs h]
  have := C11_exact hr hord hrs
  unfold Reached at this
  rw [hdn] at this
  rw [this]
  refine and_congr_right fun _ => and_congr_right fun _ => forall_congr' fun a => forall_congr' fun b =>
    imp_congr_right fun hab => or_congr_right ?_
  refine and_iff_right ?_
  rcases hab with ⟨i, ed, hed, hsrc⟩ | ⟨ps', pe, hps', hpe, rfl⟩
  · obtain ⟨n, h3, h4, -⟩ := (hd.1 b i ed hed).1 a hsrc
    exact ⟨by simp [h3], h4⟩
  · exact (hp b ps' pe hps' hpe).1

-- The chain of C11 meets the hypotheses, and so do both sides.
example : Reach id chainGraph ∧ NoDangle chainGraph ∧ (∀ k i e, chainGraph.edge k i = some e → e.fb = false) ∧
    (∀ k, Live chainGraph k → 0 < outputsOf chainGraph k) ∧ roots chainGraph = .ok [0] ∧
    ∃ s sch, makeSchedule chainGraph 2 (.init 2) = .ok (s, sch) ∧ sch.tasks.map Task.key = [1, 0] := by
  obtain ⟨order, hs⟩ := chainGraph_sound
  refine ⟨chainGraph_reach, hs.nodangle, ?_, hs.outputs, by decide +kernel, _, _, rfl, by decide +kernel⟩
  intro k i e h; rw [(chainGraph_edge h).2]

/-! ### Outputs -/

/-- The tasks of a block leave the mark of the last one that writes to a place. -/
theorem run_last {bs : Nat} {ar : List ArChange} {inp : Nat → Nat → Nat} {b p : Nat} : ∀ (ts : List Task) (m : Mem Nat)
    (st : Key → List (List Nat) × List (Nat × List Nat)),
    (∃ t ∈ ts, b = t.out.1 ∧ t.out.2 ≤ p ∧ p < t.out.2 + t.outputs * bs) →
    ∃ t ∈ ts, (runTasks keyProc bs inp ar m st ts).1 b p = t.key + 1 := by
  intro ts
  induction ts with
  | nil => rintro m st ⟨t, ht, -⟩; simp at ht
  | cons t ts ih =>
    intro m st h
    rw [runTasks]
    by_cases h1 : ∃ t ∈ ts, b = t.out.1 ∧ t.out.2 ≤ p ∧ p < t.out.2 + t.outputs * bs
    · obtain ⟨t', ht', e⟩ := ih (writeOut bs m t.out t.outputs (keyProc t.key (st t.key)
        (t.ins.map (readIn bs inp m)) (readAr bs inp m ar t.key)).2) (fun k => if k = t.key then (keyProc t.key (st t.key)
        (t.ins.map (readIn bs inp m)) (readAr bs inp m ar t.key)).1 else st k) h1
      exact ⟨t', List.mem_cons_of_mem _ ht', e⟩
    · refine ⟨t, by simp, ?_⟩
      rw [runTasks_frame]
      · obtain ⟨t', ht', h2⟩ := h
        rcases List.mem_cons.1 ht' with rfl | ht'
        · rw [writeOut, if_pos h2]
          rfl
        · exact absurd ⟨t', ht', h2⟩ h1
      · intro t' ht' h2
        exact h1 ⟨t', ht', h2⟩

theorem runTasks_append {S St : Type} (proc : Proc S St) {bs : Nat} (inp : Nat → Nat → S) (ar : List ArChange) :
    ∀ (x y : List Task) (m : Mem S) (st : Key → St), runTasks proc bs inp ar m st (x ++ y) =
      runTasks proc bs inp ar (runTasks proc bs inp ar m st x).1 (runTasks proc bs inp ar m st x).2 y := by
  intro x
  induction x with
  | nil => intro y m st; rfl
  | cons t x ih => intro y m st; rw [List.cons_append, runTasks, ih]; rfl

/-- **C13, exactly.**  For a graph whose blocks are computed right (C12), the graph outputs carry what the
connected nodes computed, for all unit generators and all contents of the buffers, if and only if no task
that runs after a node connected to a graph output writes to the channel the output is read from. -/
theorem C13_exact {g : Graph} {order : List Key} (hs : Sound g order) {bs : Nat} (hbs : 0 < bs)
    {s s' : AState} {sch : Schedule} (h : makeSchedule g bs s = .ok (s', sch)) :
    (∀ (S St : Type) [Zero S] (proc : Proc S St) (inp : Nat → Nat → S) (m : Mem S) (st : Key → St),
      (∀ i < bs, m s'.alloc.buf i = 0) →
      ∃ out, BlockSpec g bs proc inp st (runTasks proc bs inp sch.ar m st sch.tasks).2 out ∧
        readOuts bs inp (runTasks proc bs inp sch.ar m st sch.tasks).1 sch.outs =
          g.outs.map (edgeVal bs inp out)) ↔
    ∀ (i : Nat) (e : Edge), g.out i = some e → ∀ x t y, sch.tasks = x ++ t :: y → e.source = .node t.key →
      ∀ t' ∈ y, t'.out.2 + t'.outputs * bs ≤ t.out.2 + e.chan * bs ∨
        t.out.2 + e.chan * bs + bs ≤ t'.out.2 := by
  have hw := hs.wf
  obtain ⟨rem, hord⟩ := hs.ord
  obtain ⟨hn, hm⟩ := order_nodup_mem hw hord
  obtain ⟨off, hl, ht, hout, -, har⟩ := schedule_layout hs hbs h
  have hkeys : sch.tasks.map Task.key = order := by
    rw [ht, List.map_map]; exact List.map_id _
  constructor
  · intro hall i e he x t y hts hsrc t' ht'
    obtain ⟨out, hb, hro⟩ := hall Nat _ keyProc (fun _ _ => 0) (fun _ _ => 0) (fun _ => ([], [])) (fun _ _ => rfl)
    obtain ⟨n, h3, h4, h5⟩ := (hs.nodangle.2 i e he).1 _ hsrc
    have hal : Live g t.key := ⟨by simp [h3], h4⟩
    have htask : ∀ u ∈ sch.tasks, u.out = (s'.alloc.buf, off u.key) ∧ u.outputs = outputsOf g u.key := by
      intro u hu
      rw [ht] at hu
      obtain ⟨k, -, rfl⟩ := List.mem_map.1 hu
      exact ⟨rfl, rfl⟩
    have ht1 := htask t (by rw [hts]; simp)
    have ht2 := htask t' (by rw [hts]; exact List.mem_append_right _ (List.mem_cons_of_mem _ ht'))
    -- the samples of this output
    have hval : ∀ j < bs, (runTasks keyProc bs (fun _ _ => 0) sch.ar (fun _ _ => 0) (fun _ => ([], [])) sch.tasks).1
        s'.alloc.buf (off t.key + e.chan * bs + j) = t.key + 1 := by
      intro j hj
      rw [Graph.out, Option.join_eq_some_iff] at he
      have h6 := congrArg (fun l => l[i]?) hro
      simp only [readOuts, hout, List.getElem?_map, he, Option.map_some, Option.some.injEq] at h6
      obtain ⟨sr, c, f⟩ := e
      simp only at hsrc
      subst hsrc
      simp only [inOf, readIn, edgeVal, spec_key hw hb hal, List.map_inj_left, List.mem_range] at h6
      exact h6 j hj
    by_contra hover
    have hpos : 0 < t'.outputs * bs := by
      rw [ht2.2]
      refine Nat.mul_pos (hs.outputs _ ((hm t'.key).1 ?_)) hbs
      rw [← hkeys, hts]
      exact List.mem_map_of_mem (List.mem_append_right _ (List.mem_cons_of_mem _ ht'))
    obtain ⟨j, hj, hj1, hj2⟩ : ∃ j < bs, t'.out.2 ≤ t.out.2 + e.chan * bs + j ∧
        t.out.2 + e.chan * bs + j < t'.out.2 + t'.outputs * bs := by
      by_cases hc : t'.out.2 ≤ t.out.2 + e.chan * bs
      · exact ⟨0, hbs, by omega, by omega⟩
      · exact ⟨t'.out.2 - (t.out.2 + e.chan * bs), by omega, by omega, by omega⟩
    have h7 := hval j hj
    rw [hts] at h7
    have happ : x ++ t :: y = (x ++ [t]) ++ y := by simp
    rw [happ, runTasks_append] at h7
    obtain ⟨u, hu, h8⟩ := run_last (bs := bs) (ar := sch.ar) (inp := fun _ _ => 0) (b := s'.alloc.buf)
      (p := off t.key + e.chan * bs + j) y
      (runTasks keyProc bs (fun _ _ => 0) sch.ar (fun _ _ => 0) (fun _ => ([], [])) (x ++ [t])).1
      (runTasks keyProc bs (fun _ _ => 0) sch.ar (fun _ _ => 0) (fun _ => ([], [])) (x ++ [t])).2
      ⟨t', ht', by rw [ht2.1], by rw [ht1.1] at hj1; exact hj1, by rw [ht1.1] at hj2; exact hj2⟩
    rw [h8] at h7
    have h9 : u.key = t.key := Nat.succ.inj h7
    rw [← hkeys, hts, List.map_append, List.map_cons, List.nodup_append, List.nodup_cons] at hn
    exact hn.2.1.1 (h9 ▸ List.mem_map_of_mem hu)
  · intro hfree S St _ proc inp m st hz
    obtain ⟨out, -, h1, h2, h3, -, h5⟩ := run_spec_last hs hl proc inp sch.ar har order [] m st
      (fun _ _ _ => 0) rfl hz (by simp)
    rw [← ht] at h1 h2 h3 h5
    refine ⟨out, ⟨?_, ?_⟩, ?_⟩
    · intro k es ps hk he hp
      have := h1 k ((hm k).2 hk)
      simpa [he, hp] using this
    · intro k hk
      exact h2 k (fun hm' => hk ((hm k).1 hm'))
    · rw [hout, readOuts, List.map_map]
      refine List.map_congr_left ?_
      intro e he
      match e, he with
      | none, _ => rfl
      | some ⟨.graph, c, f⟩, he => rfl
      | some ⟨.node a, c, f⟩, he =>
        obtain ⟨i, hix⟩ := List.mem_iff_getElem?.1 he
        have hgo : g.out i = some ⟨.node a, c, f⟩ := by rw [Graph.out, hix]; rfl
        obtain ⟨n, h6, h7, h8⟩ := (hs.nodangle.2 i _ hgo).1 a rfl
        have hal : a ∈ order := (hm a).2 ⟨by simp [h6], h7⟩
        obtain ⟨x, y, hxy⟩ := List.append_of_mem hal
        simp only [Function.comp_apply, Option.map_some, inOf, readIn, edgeVal]
        refine List.map_congr_left ?_
        intro j hj
        refine h5 x a y hxy c (by simpa [outputsOf, h6] using h8) j (List.mem_range.1 hj) ?_
        intro b hb
        have hts : sch.tasks = (x.map fun k => (⟨k, ((g.ins k).getD []).map (inOf bs s'.alloc.buf off),
            (s'.alloc.buf, off k), outputsOf g k⟩ : Task)) ++
            ⟨a, ((g.ins a).getD []).map (inOf bs s'.alloc.buf off), (s'.alloc.buf, off a), outputsOf g a⟩ ::
            y.map fun k => (⟨k, ((g.ins k).getD []).map (inOf bs s'.alloc.buf off),
            (s'.alloc.buf, off k), outputsOf g k⟩ : Task) := by
          rw [ht, hxy, List.map_append, List.map_cons]
        have := hfree i _ hgo _ _ _ hts rfl _ (List.mem_map_of_mem hb)
        simp only at this
        have hj' := List.mem_range.1 hj
        omega

-- The chain of C11: node 0 is the last task.
example : ∃ order, Sound chainGraph order ∧ ∃ s sch, makeSchedule chainGraph 2 (.init 2) = .ok (s, sch) ∧
    sch.tasks.map (fun t => (t.key, t.out, t.outputs)) = [(1, (0, 2), 1), (0, (0, 4), 1)] ∧
    sch.outs = [some (.mem 0 4), some (.mem 0 4)] := by
  obtain ⟨order, hs⟩ := chainGraph_sound
  exact ⟨order, hs, _, _, rfl, by decide +kernel, by decide +kernel⟩

end Verif.G
