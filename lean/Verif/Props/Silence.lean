import Verif.Lemmas.Schedule

/-!
# Unconnected inputs are silent forever (C14)

This holds for every graph, also for those where the order or the connections are wrong, because the
silent channel is never handed out.
-/

namespace Verif.G

/-- The silent channel is out of reach: `n` is the number of times a block was returned. -/
structure A0 (bs : Nat) (a : Alloc) (n : Nat) : Prop where
  first : ∃ b, a.blocks[0]? = some ⟨0, bs, b⟩ ∧ U64 - 1 ≤ b + n
  rest : ∀ (i : Nat) (c : Blk), i ≠ 0 → a.blocks[i]? = some c → bs ≤ c.start
  next : bs ≤ a.next
  ret0 : 0 ∉ a.ret

theorem A0.new {bs n len bo : Nat} {a : Alloc} (h : A0 bs a n) : A0 bs (newBlock a len bo).1 n := by
  obtain ⟨b, hb, hle⟩ := h.first
  have hlen : 0 < a.blocks.length := by
    rcases Nat.eq_zero_or_pos a.blocks.length with h0 | h0
    · simp [List.length_eq_zero_iff.1 h0] at hb
    · exact h0
  refine ⟨⟨b, ?_, hle⟩, ?_, Nat.le_trans h.next (Nat.le_add_right _ _), h.ret0⟩
  · simp only [newBlock]
    rw [List.getElem?_append_left hlen]
    exact hb
  · intro i c hi hc
    simp only [newBlock] at hc
    rw [List.getElem?_append] at hc
    split at hc
    · exact h.rest i c hi hc
    · cases hj : i - a.blocks.length with
      | zero =>
        rw [hj] at hc
        simp only [List.getElem?_cons_zero, Option.some.injEq] at hc
        subst hc
        exact h.next
      | succ j => rw [hj] at hc; simp at hc

theorem A0.get {bs n chans bo : Nat} {a : Alloc} (h : A0 bs a n) :
    A0 bs (getBlock a chans bs bo).1 n ∧ bs ≤ (getBlock a chans bs bo).2 := by
  unfold getBlock
  cases hf : a.ret.find? (fits a (chans * bs)) with
  | none => exact ⟨h.new, h.next⟩
  | some idx =>
    simp only
    cases hb : a.blocks[idx]? with
    | none => exact ⟨h.new, h.next⟩
    | some b =>
      simp only
      have hidx : idx ≠ 0 := fun e => h.ret0 (e ▸ List.mem_of_find?_eq_some hf)
      have hst := h.rest idx b hidx hb
      refine ⟨⟨?_, ?_, h.next, ?_⟩, hst⟩
      · obtain ⟨b0, hb0, hle⟩ := h.first
        refine ⟨b0, ?_, hle⟩
        rw [List.getElem?_set_ne hidx]
        exact hb0
      · intro i c hi hc
        by_cases hii : idx = i
        · subst hii
          rw [List.getElem?_set_self'] at hc
          simp only [hb, Option.map_eq_map, Option.map_some, Option.some.injEq] at hc
          subst hc
          exact hst
        · rw [List.getElem?_set_ne hii] at hc
          exact h.rest i c hi hc
      · exact fun hm => h.ret0 (List.mem_of_mem_erase hm)

theorem returnLoop_starts {off : Nat} : ∀ (l : List Blk) (i : Nat) {l' : List Blk} {r : Option Nat},
    returnLoop off i l = .ok (l', r) → l'.map Blk.start = l.map Blk.start ∧ ∀ j, r = some j → i ≤ j := by
  intro l
  induction l with
  | nil =>
    intro i l' r h
    simp only [returnLoop, Except.ok.injEq, Prod.mk.injEq] at h
    obtain ⟨rfl, rfl⟩ := h
    simp
  | cons b l ih =>
    intro i l' r h
    rw [returnLoop] at h
    by_cases hb : b.start = off
    · rw [if_pos hb] at h
      cases hs : subC b.borrows 1 with
      | error e => simp [hs] at h
      | ok n =>
        simp only [hs, bind_ok, Except.ok.injEq, Prod.mk.injEq] at h
        obtain ⟨rfl, rfl⟩ := h
        refine ⟨by simp, ?_⟩
        intro j hj
        split at hj
        · simp only [Option.some.injEq] at hj; omega
        · simp at hj
    · rw [if_neg hb] at h
      cases hs : returnLoop off (i + 1) l with
      | error e => simp [hs] at h
      | ok x =>
        obtain ⟨l1, r1⟩ := x
        simp only [hs, bind_ok, Except.ok.injEq, Prod.mk.injEq] at h
        obtain ⟨rfl, rfl⟩ := h
        obtain ⟨h1, h2⟩ := ih (i + 1) hs
        refine ⟨by simp [h1], ?_⟩
        intro j hj
        have := h2 j hj
        omega

theorem A0.ret {bs n off : Nat} {a a' : Alloc} (h : A0 bs a n) (hn : n + 1 < U64 - 1)
    (hr : returnBlock a off = .ok a') : A0 bs a' (n + 1) := by
  obtain ⟨b0, hb0, hle⟩ := h.first
  obtain ⟨c, l, hl⟩ : ∃ c l, a.blocks = c :: l := by
    cases hc : a.blocks with
    | nil => simp [hc] at hb0
    | cons c l => exact ⟨c, l, rfl⟩
  rw [hl] at hb0
  simp only [List.getElem?_cons_zero, Option.some.injEq] at hb0
  subst hb0
  have hrest : ∀ x ∈ l, bs ≤ x.start := by
    intro x hx
    obtain ⟨i, hi⟩ := List.mem_iff_getElem?.1 hx
    exact h.rest (i + 1) x (by omega) (by rw [hl]; simpa using hi)
  unfold returnBlock at hr
  rw [hl, returnLoop] at hr
  by_cases h0 : (0 : Nat) = off
  · rw [if_pos h0] at hr
    have hs : subC b0 1 = .ok (b0 - 1) := by
      unfold subC
      rw [if_pos (by omega)]
    have hne : b0 - 1 ≠ 0 := by omega
    simp only [hs, bind_ok, hne, if_false, Except.ok.injEq] at hr
    subst hr
    refine ⟨⟨b0 - 1, rfl, by omega⟩, ?_, h.next, h.ret0⟩
    intro i x hi hx
    cases i with
    | zero => exact absurd rfl hi
    | succ i =>
      simp only [List.getElem?_cons_succ] at hx
      exact hrest x (List.mem_of_getElem? hx)
  · rw [if_neg h0] at hr
    cases hs : returnLoop off (0 + 1) l with
    | error e => simp [hs] at hr
    | ok x =>
      obtain ⟨l1, r1⟩ := x
      simp only [hs, bind_ok, Except.ok.injEq] at hr
      subst hr
      obtain ⟨h1, h2⟩ := returnLoop_starts l _ hs
      refine ⟨⟨b0, rfl, by omega⟩, ?_, h.next, ?_⟩
      · intro i x hi hx
        cases i with
        | zero => exact absurd rfl hi
        | succ i =>
          simp only [List.getElem?_cons_succ] at hx
          have hm : x.start ∈ l1.map Blk.start := List.mem_map_of_mem (List.mem_of_getElem? hx)
          rw [h1] at hm
          obtain ⟨y, hy, e⟩ := List.mem_map.1 hm
          rw [← e]
          exact hrest y hy
      · cases r1 with
        | none => exact h.ret0
        | some j =>
          have := h2 j rfl
          simp only [List.mem_cons, not_or]
          exact ⟨by omega, h.ret0⟩

theorem A0.returnAll {g : Graph} {bs : Nat} : ∀ (ks : List Key) {n : Nat} {s s' : AState},
    A0 bs s.alloc n → n + ks.length < U64 - 1 → Verif.G.returnAll g s ks = .ok s' →
    A0 bs s'.alloc (n + ks.length) ∧ s'.outm = s.outm := by
  intro ks
  induction ks with
  | nil =>
    intro n s s' h _ hr
    simp only [Verif.G.returnAll, Except.ok.injEq] at hr
    subst hr
    exact ⟨h, rfl⟩
  | cons k ks ih =>
    intro n s s' h hn hr
    rw [Verif.G.returnAll] at hr
    simp only [List.length_cons] at hn ⊢
    cases hk : returnKey g s k with
    | error e => simp [hk] at hr
    | ok s1 =>
      simp only [hk, bind_ok] at hr
      have h1 : A0 bs s1.alloc (n + 1) ∧ s1.outm = s.outm := by
        unfold returnKey at hk
        cases hg : g.get k with
        | none => simp [hg] at hk
        | some nd =>
          simp only [hg] at hk
          cases ho : s.outm k with
          | ptr b o =>
            simp only [ho, Except.ok.injEq] at hk
            subst hk
            obtain ⟨b, hb, hle⟩ := h.first
            exact ⟨⟨⟨b, hb, by omega⟩, h.rest, h.next, h.ret0⟩, rfl⟩
          | off o =>
            simp only [ho] at hk
            cases hb : returnBlock s.alloc o with
            | error e => simp [hb] at hk
            | ok a =>
              simp only [hb, bind_ok, Except.ok.injEq] at hk
              subst hk
              exact ⟨h.ret (by omega) hb, rfl⟩
      obtain ⟨h2, h3⟩ := ih h1.1 (by omega) hr
      refine ⟨?_, by rw [h3, h1.2]⟩
      have : n + (ks.length + 1) = n + 1 + ks.length := by omega
      rw [this]
      exact h2

/-- The offsets handed out so far avoid the silent channel. -/
theorem A0.assignAll {g : Graph} {bs : Nat} : ∀ (todo done : List Key) {n : Nat}
    {s s' : AState}, A0 bs s.alloc n → (∀ k ∈ done, ∃ o, s.outm k = .off o ∧ bs ≤ o) →
    n + (todo.map fun k => (sourcesOf g k).length).sum < U64 - 1 →
    Verif.G.assignAll g bs s todo = .ok s' →
    ∀ k ∈ done ++ todo, ∃ o, s'.outm k = .off o ∧ bs ≤ o := by
  intro todo
  induction todo with
  | nil =>
    intro done n s s' h hd _ hr
    simp only [Verif.G.assignAll, Except.ok.injEq] at hr
    subst hr
    simpa using hd
  | cons b todo ih =>
    intro done n s s' h hd hn hr
    rw [Verif.G.assignAll] at hr
    cases hb : assignNode g bs s b with
    | error e => simp [hb] at hr
    | ok s1 =>
      simp only [hb, bind_ok] at hr
      unfold assignNode at hb
      cases hg : g.get b with
      | none => simp [hg] at hb
      | some nd =>
        simp only [hg] at hb
        cases hi : nd.ins with
        | none => simp [hi] at hb
        | some es =>
          cases hp : nd.pars with
          | none => simp [hi, hp] at hb
          | some ps =>
            simp only [hi, hp] at hb
            have hsl : sourcesOf g b = srcKeys es ++ ps.map PEdge.source := by
              simp [sourcesOf, hg, recSources, hi, hp]
            obtain ⟨h1, h2⟩ := h.get (chans := nd.outputs) (bo := depCount g b)
            simp only [List.map_cons, List.sum_cons, hsl] at hn
            obtain ⟨h3, h4⟩ := A0.returnAll _ (n := n) h1 (by omega) hb
            have hd1 : ∀ k ∈ done ++ [b], ∃ o, s1.outm k = .off o ∧ bs ≤ o := by
              intro k hk
              rw [h4]
              by_cases hkb : k = b
              · subst hkb
                exact ⟨_, by simp, h2⟩
              · simp only [hkb, if_false]
                exact hd k (by simpa [hkb] using hk)
            have := ih (done ++ [b]) h3 hd1 (by omega) hr
            simpa using this

theorem A0.reset (a : Alloc) (bs : Nat) : A0 bs (a.reset bs) 0 := by
  have : a.reset bs = { a with next := bs, vsize := bs, blocks := [⟨0, bs, U64 - 1⟩], ret := [] } := by
    simp [Alloc.reset, getBlock, newBlock]
  rw [this]
  refine ⟨⟨_, rfl, Nat.le_refl _⟩, ?_, Nat.le_refl _, by simp⟩
  intro i c hi hc
  cases i with
  | zero => exact absurd rfl hi
  | succ i => simp at hc

/-- The number of connections stored in the graph. -/
def conns (g : Graph) : Nat := (g.nodes.map fun p => (recSources p.2).length).sum

theorem conns_order {g : Graph} (hg : WF g) {order : List Key} (hnd : order.Nodup)
    (hmem : ∀ k, k ∈ order ↔ Live g k) :
    conns g = (order.map fun b => (sourcesOf g b).length).sum := by
  have h1 : conns g = ((g.nodes.map Prod.fst).map fun b => (sourcesOf g b).length).sum := by
    unfold conns
    rw [List.map_map]
    congr 1
    refine List.map_congr_left ?_
    intro p hp
    have := get_of_mem hg.nodup (k := p.1) (n := p.2) hp
    simp [sourcesOf, this]
  rw [h1, sum_map_filter _ (fun b => decide (b ∈ order))]
  · refine List.Perm.sum_nat (List.Perm.map _ ?_)
    refine (List.perm_ext_iff_of_nodup (hg.nodup.filter _) hnd).2 ?_
    intro a
    rw [List.mem_filter]
    simp only [decide_eq_true_eq, and_iff_right_iff_imp]
    intro ha
    exact (get_isSome g a).1 ((hmem a).1 ha).1
  · intro b _ hb
    rw [List.length_eq_zero_iff, List.eq_nil_iff_forall_not_mem]
    intro a hm
    have := (hmem b).2 (sourcesOf_live hg hm)
    simp [this] at hb

theorem mapR_get {α β} {f : α → R β} : ∀ {l : List α} {ys : List β}, mapR f l = .ok ys →
    ∀ (i : Nat) (x : α), l[i]? = some x → ∃ y, ys[i]? = some y ∧ f x = .ok y := by
  intro l
  induction l with
  | nil => intro ys h i x hx; simp at hx
  | cons z l ih =>
    intro ys h i x hx
    rw [mapR] at h
    cases hz : f z with
    | error e => simp [hz] at h
    | ok w =>
      rw [hz] at h
      simp only [bind_ok] at h
      cases hl : mapR f l with
      | error e => simp [hl] at h
      | ok ws =>
        rw [hl] at h
        simp only [bind_ok, Except.ok.injEq] at h
        subst h
        cases i with
        | zero =>
          simp only [List.getElem?_cons_zero, Option.some.injEq] at hx
          subst hx
          exact ⟨w, rfl, hz⟩
        | succ i =>
          simp only [List.getElem?_cons_succ] at hx
          obtain ⟨y, h1, h2⟩ := ih hl i x hx
          exact ⟨y, by simpa using h1, h2⟩

/-- No task of any schedule writes to the silent channel, and unconnected inputs are read from it. -/
theorem schedule_silent {sl} {g : Graph} (hr : Reach sl g) (hc : conns g < U64 - 1) {bs : Nat}
    {s s' : AState} {sch : Schedule} (h : makeSchedule g bs s = .ok (s', sch)) :
    ∀ t ∈ sch.tasks, bs ≤ t.out.2 ∧
      ∀ (i : Nat) (es : List (Option Edge)), g.ins t.key = some es → es[i]? = some none →
        ∃ b, t.ins[i]? = some (.mem b 0) := by
  unfold makeSchedule at h
  cases ho : calcOrder g with
  | error e => simp [ho] at h
  | ok x =>
    obtain ⟨order, rem⟩ := x
    obtain ⟨hnd, hmem⟩ := order_nodup_mem hr.wf ho
    simp only [ho, bind_ok] at h
    split at h
    · simp at h
    · cases ha : assignAll g bs { s with alloc := s.alloc.reset bs } order with
      | error e => simp [ha] at h
      | ok s1 =>
        simp only [ha, bind_ok] at h
        have hoff := A0.assignAll (g := g) order [] (n := 0) (s := { s with alloc := s.alloc.reset bs })
          (A0.reset s.alloc bs) (by simp) (by rw [← conns_order hr.wf hnd hmem]; omega) ha
        let s2 : AState := swapAll { s1 with alloc := s1.alloc.finish } order
        change (mapR (makeTask g bs s2) order >>= _) = _ at h
        cases ht : mapR (makeTask g bs s2) order with
        | error e => simp [ht] at h
        | ok tasks =>
          simp only [ht, bind_ok] at h
          cases h1 : mapR (makeOut g bs s2) g.outs with
          | error e =>
            change (mapR (makeOut g bs s2) g.outs >>= _) = _ at h
            simp [h1] at h
          | ok outs =>
            change (mapR (makeOut g bs s2) g.outs >>= _) = _ at h
            simp only [h1, bind_ok] at h
            cases h2 : mapR (fun kp => makeAr g bs s2 kp.1 kp.2)
                ((g.nodes.map Prod.fst).filter (· ∈ order) |>.flatMap fun k =>
                  ((g.pars k).getD []).map fun pe => (k, pe)) with
            | error e =>
              change (mapR (fun kp : Key × PEdge => makeAr g bs s2 kp.1 kp.2) _ >>= _) = _ at h
              simp [h2] at h
            | ok ar =>
              change (mapR (fun kp : Key × PEdge => makeAr g bs s2 kp.1 kp.2) _ >>= _) = _ at h
              simp only [h2, bind_ok, Except.ok.injEq, Prod.mk.injEq] at h
              obtain ⟨-, rfl⟩ := h
              intro t htm
              obtain ⟨k, hk, hmk⟩ := mapR_mem ht t htm
              obtain ⟨o, ho1, ho2⟩ := hoff k (by simpa using hk)
              unfold makeTask at hmk
              cases hg : g.get k with
              | none => simp [hg] at hmk
              | some nd =>
                simp only [hg] at hmk
                cases hi : nd.ins with
                | none => simp [hi] at hmk
                | some es =>
                  simp only [hi] at hmk
                  cases hes : mapR (makeIn g bs s2) es with
                  | error e => simp [hes] at hmk
                  | ok ins =>
                    simp only [hes, bind_ok] at hmk
                    by_cases hlt : o < s1.alloc.finish.bufLen
                    · have hptr : s2.outm k = .ptr s2.alloc.buf o := by
                        simp only [s2, swapAll, hk, if_true, ho1, hlt]
                      simp only [hptr, Except.ok.injEq] at hmk
                      subst hmk
                      refine ⟨ho2, ?_⟩
                      intro i es' hes' hie
                      have : es' = es := by
                        simp only [ins_eq, hg, Option.bind_some, hi, Option.some.injEq] at hes'
                        exact hes'.symm
                      subst this
                      obtain ⟨y, hy1, hy2⟩ := mapR_get hes i none hie
                      simp only [makeIn] at hy2
                      split at hy2
                      · simp at hy2
                      · simp only [Except.ok.injEq] at hy2
                        subst hy2
                        exact ⟨_, hy1⟩
                    · have hptr : s2.outm k = .off o := by
                        simp only [s2, swapAll, hk, if_true, ho1, hlt, if_false]
                      simp [hptr] at hmk

section
variable {S St : Type} [Zero S]

/-- All silent channels are zero. -/
def Silent (bs : Nat) (m : Mem S) : Prop := ∀ b, ∀ i < bs, m b i = 0

theorem silent_run {proc : Proc S St} {bs : Nat} {inp : Nat → Nat → S} {ar : List ArChange} :
    ∀ (ts : List Task) {m : Mem S} {st : Key → St}, Silent bs m → (∀ t ∈ ts, bs ≤ t.out.2) →
    Silent bs (runTasks proc bs inp ar m st ts).1 := by
  intro ts
  induction ts with
  | nil => intro m st h _; exact h
  | cons t ts ih =>
    intro m st h ht
    rw [runTasks]
    refine ih ?_ (fun t' h' => ht t' (List.mem_cons_of_mem _ h'))
    intro b i hi
    have := ht t (by simp)
    have h2 : ¬ (b = t.out.1 ∧ t.out.2 ≤ i ∧ i < t.out.2 + t.outputs * bs) := by omega
    simp only [writeOut, h2, if_false]
    exact h b i hi

/-- A running system: the allocator on the control thread, all schedules committed so far with the
graph they were made for, and the memory.  A block may use any schedule committed so far (which one it
is does not matter here), with any unit generators and any input. -/
inductive Sys (S : Type) [Zero S] (bs : Nat) : AState → List (Graph × Schedule) → Mem S → Prop
  | init : Sys S bs (.init bs) [] (fun _ _ => 0)
  | commit {s s' : AState} {hist m sl g sch} : Sys S bs s hist m → Reach sl g → conns g < U64 - 1 →
      makeSchedule g bs s = .ok (s', sch) → Sys S bs s' ((g, sch) :: hist) m
  | block {s hist m g sch} (St : Type) (proc : Proc S St) (st : Key → St) (inp : Nat → Nat → S) :
      Sys S bs s hist m → (g, sch) ∈ hist → Sys S bs s hist (runTasks proc bs inp sch.ar m st sch.tasks).1

theorem Sys.tasks {bs : Nat} {s : AState} {hist : List (Graph × Schedule)} {m : Mem S}
    (h : Sys S bs s hist m) : ∀ p ∈ hist, ∀ t ∈ p.2.tasks, bs ≤ t.out.2 ∧
      ∀ (i : Nat) (es : List (Option Edge)), p.1.ins t.key = some es → es[i]? = some none →
        ∃ b, t.ins[i]? = some (.mem b 0) := by
  induction h with
  | init => simp
  | commit _ hr hc hm ih =>
    intro p hp
    rcases List.mem_cons.1 hp with rfl | hp
    · exact schedule_silent hr hc hm
    · exact ih p hp
  | block _ _ _ _ _ _ ih => exact ih

theorem Sys.silent {bs : Nat} {s : AState} {hist : List (Graph × Schedule)} {m : Mem S}
    (h : Sys S bs s hist m) : Silent bs m := by
  induction h with
  | init => intro b i _; rfl
  | commit _ _ _ _ ih => exact ih
  | block St proc st inp h hm ih =>
    exact silent_run _ ih (fun t ht => (h.tasks _ hm t ht).1)

/-- **C14.**  At whatever time a task of whatever committed schedule runs, the inputs of its node that
nothing is connected to hold zeros.  The only condition is that the graph has fewer than `2^64 - 1`
connections. -/
theorem C14_silent {bs : Nat} {s : AState} {hist : List (Graph × Schedule)} {m : Mem S}
    (h : Sys S bs s hist m) {g : Graph} {sch : Schedule} (hm : (g, sch) ∈ hist)
    {pre post : List Task} {t : Task} (ht : sch.tasks = pre ++ t :: post) {i : Nat}
    {es : List (Option Edge)} (hes : g.ins t.key = some es) (hi : es[i]? = some none)
    (proc : Proc S St) (st : Key → St) (inp : Nat → Nat → S) :
    ∃ x, t.ins[i]? = some x ∧
      readIn bs inp (runTasks proc bs inp sch.ar m st pre).1 x = List.replicate bs 0 := by
  have hts := h.tasks _ hm
  obtain ⟨b, hb⟩ := (hts t (by rw [ht]; simp)).2 i es hes hi
  refine ⟨_, hb, ?_⟩
  rw [List.eq_replicate_iff]
  refine ⟨by simp [readIn], ?_⟩
  intro x hx
  simp only [readIn, List.mem_map, List.mem_range, Nat.zero_add] at hx
  obtain ⟨j, hj, rfl⟩ := hx
  exact silent_run pre (h.silent) (fun t' h' => (hts t' (by rw [ht]; exact List.mem_append_left _ h')).1)
    b j hj

end

-- the chain: node 1 has an unconnected input and is processed first
example : ∃ s sch, Sys Int 4 s [(chainGraph, sch)] (fun _ _ => 0) ∧
    ∃ t post, sch.tasks = [] ++ t :: post ∧ t.key = 1 ∧ chainGraph.ins t.key = some [none] ∧
      [(none : Option Edge)][0]? = some none := by
  refine ⟨_, _, .commit .init chainGraph_reach (by decide) rfl, _, _, rfl, ?_⟩
  decide

end Verif.G
