import Verif.Model.Tasks

/-!
# Lemmas about handing over schedules
-/

namespace Verif.T

open Verif.G (Key)

/-- What a node puts into its task. -/
def slotOf : NU → UG
  | .loc u => u
  | .live j => .take j

theorem makeTasks_spec : ∀ (order : List Key) (i : Nat) (ug : Key → Option NU), order.Nodup →
    (∀ k ∈ order, (ug k).isSome) → ∃ ts ug', makeTasks i order ug = .ok (ts, ug') ∧
      ts.map Prod.fst = order ∧ (∀ k, k ∉ order → ug' k = ug k) ∧
      (∀ j k, order[j]? = some k → ug' k = some (.live (i + j))) ∧
      ∀ p ∈ ts, ∃ nu, ug p.1 = some nu ∧ p.2 = slotOf nu := by
  intro order
  induction order with
  | nil => intro i ug _ _; exact ⟨[], ug, rfl, rfl, fun _ _ => rfl, by simp, by simp⟩
  | cons k ks ih =>
    intro i ug hnd hs
    rw [List.nodup_cons] at hnd
    obtain ⟨nu, hnu⟩ := Option.isSome_iff_exists.1 (hs k (by simp))
    obtain ⟨ts, ug', h1, h2, h3, h4, h5⟩ := ih (i + 1)
      (fun k' => if k' = k then some (.live i) else ug k') hnd.2 (by
        intro k' hk'
        have : k' ≠ k := fun e => hnd.1 (e ▸ hk')
        simp only [this, if_false]
        exact hs k' (List.mem_cons_of_mem _ hk'))
    refine ⟨(k, slotOf nu) :: ts, ug', ?_, ?_, ?_, ?_, ?_⟩
    · rw [makeTasks, hnu]
      simp only [h1, bind_ok]
      cases nu <;> rfl
    · simp [h2]
    · intro k' hk'
      simp only [List.mem_cons, not_or] at hk'
      rw [h3 k' hk'.2]
      simp [hk'.1]
    · intro j k' hj
      cases j with
      | zero =>
        simp only [List.getElem?_cons_zero, Option.some.injEq] at hj
        subst hj
        rw [h3 k hnd.1]
        simp
      | succ j =>
        simp only [List.getElem?_cons_succ] at hj
        rw [h4 j k' hj]
        congr 2
        omega
    · intro p hp
      rcases List.mem_cons.1 hp with rfl | hp
      · exact ⟨nu, hnu, rfl⟩
      · obtain ⟨nu', h6, h7⟩ := h5 p hp
        have hpk : p.1 ∈ ks := by rw [← h2]; exact List.mem_map_of_mem hp
        have : p.1 ≠ k := fun e => hnd.1 (e ▸ hpk)
        simp only [this, if_false] at h6
        exact ⟨nu', h6, h7⟩

/-- The unit generator a task ends up with. -/
def resolve (old : List (Key × UG)) : UG → UG
  | .take j => match old[j]? with
    | some p => p.2
    | none => .none
  | u => u

/-- The references of a schedule fit the nodes of the schedule before. -/
def Link (prev : List Key) (ts : List (Key × UG)) : Prop :=
  ∀ p ∈ ts, (∃ n, p.2 = .own p.1 n) ∨ ∃ j, p.2 = .take j ∧ prev[j]? = some p.1

theorem applyTasks_spec : ∀ (ts old : List (Key × UG)), (ts.map Prod.fst).Nodup →
    Link (old.map Prod.fst) ts →
    applyTasks ts old = .ok (ts.map fun p => (p.1, resolve old p.2)) := by
  intro ts
  induction ts with
  | nil => intro old _ _; rfl
  | cons p ts ih =>
    intro old hnd hl
    obtain ⟨k, u⟩ := p
    rw [List.map_cons, List.nodup_cons] at hnd
    have hlt : Link (old.map Prod.fst) ts := fun q hq => hl q (List.mem_cons_of_mem _ hq)
    rcases hl (k, u) (by simp) with ⟨n, h⟩ | ⟨j, h, hj⟩
    · simp only at h
      subst h
      rw [applyTasks]
      · rw [ih old hnd.2 hlt]
        rfl
      · intro j h; simp at h
    · simp only at h hj
      subst h
      rw [List.getElem?_map] at hj
      cases ho : old[j]? with
      | none => simp [ho] at hj
      | some q =>
        obtain ⟨k', u'⟩ := q
        simp only [ho, Option.map_some, Option.some.injEq] at hj
        subst hj
        have hne : ∀ q ∈ ts, ∀ j', q.2 = .take j' → (old.map Prod.fst)[j']? = some q.1 → j' ≠ j := by
          intro q hq j' _ h2 e
          subst e
          rw [List.getElem?_map, ho] at h2
          simp only [Option.map_some, Option.some.injEq] at h2
          have hm := List.mem_map_of_mem (f := Prod.fst) hq
          rw [← h2] at hm
          exact hnd.1 hm
        have hkeys : ((old.set j (k', UG.none)).map Prod.fst) = old.map Prod.fst := by
          rw [List.map_set]
          refine List.ext_getElem? ?_
          intro i
          by_cases hi : j = i
          · subst hi
            rw [List.getElem?_set_self', List.getElem?_map, ho]
            rfl
          · rw [List.getElem?_set_ne hi]
        simp only [applyTasks, ho]
        rw [ih _ hnd.2 (by rw [hkeys]; exact hlt)]
        simp only [bind_ok, List.map_cons, resolve, ho, Except.ok.injEq, List.cons.injEq, true_and]
        refine List.map_congr_left ?_
        intro q hq
        simp only [Prod.mk.injEq, true_and]
        rcases hlt q hq with ⟨n, h⟩ | ⟨j', h, hj'⟩
        · rw [h]
        · rw [h]
          simp only
          rw [List.getElem?_set_ne (hne q hq j' h hj').symm]

/-- All references of the waiting schedules fit. -/
def Chain : List Key → List TD → Prop
  | _, [] => True
  | p, t :: r => Link p t.tasks ∧ Chain t.keys r

theorem chain_append {t : TD} : ∀ {p : List Key} {c : TD} {r : List TD}, c.keys = p → Chain p r →
    Link (r.getLast?.getD c).keys t.tasks → Chain p (r ++ [t]) := by
  intro p c r
  induction r generalizing p c with
  | nil =>
    intro hc _ hl
    simp only [List.getLast?_nil, Option.getD_none, hc] at hl
    exact ⟨hl, trivial⟩
  | cons x r ih =>
    intro hc h hl
    refine ⟨h.1, ih (c := x) rfl h.2 ?_⟩
    rw [List.getLast?_cons] at hl
    simpa using hl

/-- Every task of the schedule has its own unit generator in the right state. -/
def Owned (ran : Key → Nat) (ts : List (Key × UG)) : Prop := ∀ p ∈ ts, p.2 = .own p.1 (ran p.1)

/-- Fresh unit generators in a waiting schedule have not run. -/
def Fresh (ran : Key → Nat) (ts : List (Key × UG)) : Prop :=
  ∀ p ∈ ts, ∀ k n, p.2 = .own k n → k = p.1 ∧ n = 0 ∧ ran p.1 = 0

theorem owned_resolve {ran : Key → Nat} {ts old : List (Key × UG)} (hl : Link (old.map Prod.fst) ts)
    (hf : Fresh ran ts) (ho : Owned ran old) : Owned ran (ts.map fun p => (p.1, resolve old p.2)) := by
  intro q hq
  obtain ⟨p, hp, rfl⟩ := List.mem_map.1 hq
  simp only
  rcases hl p hp with ⟨n, h⟩ | ⟨j, h, hj⟩
  · obtain ⟨-, h1, h2⟩ := hf p hp p.1 n h
    rw [h, h1, h2]
    rfl
  · rw [h]
    rw [List.getElem?_map] at hj
    cases hoj : old[j]? with
    | none => simp [hoj] at hj
    | some q =>
      simp only [hoj, Option.map_some, Option.some.injEq] at hj
      simp only [resolve, hoj]
      rw [ho q (List.mem_of_getElem? hoj), hj]

theorem applyAll_spec {ran : Key → Nat} : ∀ (r : List TD) (cur : TD), Owned ran cur.tasks →
    Chain cur.keys r → (∀ t ∈ r, t.keys.Nodup ∧ Fresh ran t.tasks) →
    ∃ c, applyAll cur r = .ok c ∧ Owned ran c.tasks ∧ c.keys = (r.getLast?.getD cur).keys ∧
      c.flag = (r.getLast?.getD cur).flag := by
  intro r
  induction r with
  | nil => intro cur h _ _; exact ⟨cur, rfl, h, rfl, rfl⟩
  | cons t r ih =>
    intro cur h hc ht
    obtain ⟨h1, h2⟩ := ht t (by simp)
    have ha := applyTasks_spec t.tasks cur.tasks h1 hc.1
    have hk : (TD.mk (t.tasks.map fun p => (p.1, resolve cur.tasks p.2)) t.flag).keys = t.keys := by
      simp [TD.keys]
    obtain ⟨c, h3, h4, h5, h6⟩ := ih ⟨t.tasks.map fun p => (p.1, resolve cur.tasks p.2), t.flag⟩
      (owned_resolve hc.1 h2 h) (by rw [hk]; exact hc.2) (fun t' ht' => ht t' (List.mem_cons_of_mem _ ht'))
    refine ⟨c, ?_, h4, ?_, ?_⟩
    · rw [applyAll, ha]
      exact h3
    · rw [h5, List.getLast?_cons]
      cases hr : r.getLast? with
      | none => simp [hk]
      | some t' => rfl
    · rw [h6, List.getLast?_cons]
      cases hr : r.getLast? with
      | none => rfl
      | some t' => rfl

theorem runAll_spec {ran : Key → Nat} : ∀ (ts : List (Key × UG)), Owned ran ts →
    runAll ts = .ok (ts.map fun p => (p.1, .own p.1 (ran p.1 + 1))) := by
  intro ts
  induction ts with
  | nil => intro _; rfl
  | cons p ts ih =>
    intro h
    obtain ⟨k, u⟩ := p
    have := h (k, u) (by simp)
    simp only at this
    subst this
    rw [runAll, ih (fun q hq => h q (List.mem_cons_of_mem _ hq))]
    rfl

/-- The invariant of both threads. -/
structure Inv (s : S) : Prop where
  own : Owned s.ran s.cur.tasks ∨
    ∃ t r, s.ring = t :: r ∧ ∀ p ∈ t.tasks, ∃ n, p.2 = .own p.1 n
  nodup : ∀ t ∈ s.cur :: s.ring, t.keys.Nodup
  chain : Chain s.cur.keys s.ring
  fresh : ∀ t ∈ s.ring, Fresh s.ran t.tasks
  loc : ∀ k u, s.ug k = some (.loc u) → u = .own k 0 ∧ s.ran k = 0 ∧ ∀ t ∈ s.cur :: s.ring, k ∉ t.keys
  idx : ∀ k ∈ s.live, ∀ j, s.ug k = some (.live j) → (s.ring.getLast?.getD s.cur).keys[j]? = some k
  some : ∀ k ∈ s.live, (s.ug k).isSome
  flags : s.ring.map TD.flag = List.range' (s.cur.flag + 1) s.ring.length
  flag : s.flag = s.cur.flag + s.ring.length + 1
  applied : ∀ f, s.applied f = true ↔ 1 ≤ f ∧ f ≤ s.cur.flag
  pend : ∀ p ∈ s.pending, 1 ≤ p.2 ∧ p.2 ≤ s.flag ∧ p.1 ∉ s.live ∧ (s.ug p.1).isSome ∧
    ∀ t ∈ s.cur :: s.ring, p.2 ≤ t.flag → p.1 ∉ t.keys
  pnd : (s.pending.map Prod.fst).Nodup
  lt : (∀ k ∈ s.live, k < s.next) ∧ (∀ p ∈ s.pending, p.1 < s.next) ∧ (∀ k, (s.ug k).isSome → k < s.next) ∧
    ∀ t ∈ s.cur :: s.ring, ∀ k ∈ t.keys, k < s.next
  ran0 : ∀ k, s.next ≤ k → s.ran k = 0

theorem Inv.flag_lt {s : S} (h : Inv s) : ∀ t ∈ s.cur :: s.ring, t.flag < s.flag := by
  intro t ht
  rcases List.mem_cons.1 ht with rfl | ht
  · have := h.flag; omega
  · have : t.flag ∈ s.ring.map TD.flag := List.mem_map_of_mem ht
    rw [h.flags, List.mem_range'_1] at this
    have := h.flag
    omega

theorem Inv.flag_ge {s : S} (h : Inv s) : ∀ t ∈ s.cur :: s.ring, s.cur.flag ≤ t.flag := by
  intro t ht
  rcases List.mem_cons.1 ht with rfl | ht
  · exact Nat.le_refl _
  · have : t.flag ∈ s.ring.map TD.flag := List.mem_map_of_mem ht
    rw [h.flags, List.mem_range'_1] at this
    omega

theorem inv_push {s : S} (h : Inv s) : Inv (push s) := by
  obtain ⟨hl1, hl2, hl3, hl4⟩ := h.lt
  have hnl : s.next ∉ s.live := fun hm => absurd (hl1 _ hm) (Nat.lt_irrefl _)
  constructor
  · exact h.own
  · exact h.nodup
  · exact h.chain
  · exact h.fresh
  · intro k u hk
    simp only [push] at hk ⊢
    by_cases hkn : k = s.next
    · subst hkn
      simp only [if_true, Option.some.injEq, NU.loc.injEq] at hk
      refine ⟨hk.symm, ?_, ?_⟩
      · exact h.ran0 _ (Nat.le_refl _)
      · intro t ht hm
        exact absurd (hl4 t ht _ hm) (Nat.lt_irrefl _)
    · simp only [hkn, if_false] at hk
      exact h.loc k u hk
  · intro k hk j hj
    simp only [push] at hk hj ⊢
    by_cases hkn : k = s.next
    · simp [hkn] at hj
    · simp only [hkn, if_false] at hj
      exact h.idx k (by simpa [hkn] using hk) j hj
  · intro k hk
    simp only [push] at hk ⊢
    by_cases hkn : k = s.next
    · simp [hkn]
    · simp only [hkn, if_false]
      exact h.some k (by simpa [hkn] using hk)
  · exact h.flags
  · exact h.flag
  · exact h.applied
  · intro p hp
    obtain ⟨h1, h2, h3, h4, h5⟩ := h.pend p hp
    have hpn : p.1 ≠ s.next := fun e => absurd (hl2 p hp) (by rw [e]; exact Nat.lt_irrefl _)
    refine ⟨h1, h2, ?_, ?_, h5⟩
    · simp [push, h3, hpn]
    · simp only [push, hpn, if_false]; exact h4
  · exact h.pnd
  · refine ⟨?_, ?_, ?_, ?_⟩
    · intro k hk
      simp only [push, List.mem_append, List.mem_singleton] at hk ⊢
      rcases hk with hk | rfl
      · exact Nat.lt_succ_of_lt (hl1 k hk)
      · exact Nat.lt_succ_self _
    · intro p hp; exact Nat.lt_succ_of_lt (hl2 p hp)
    · intro k hk
      simp only [push] at hk ⊢
      by_cases hkn : k = s.next
      · rw [hkn]; exact Nat.lt_succ_self _
      · simp only [hkn, if_false] at hk
        exact Nat.lt_succ_of_lt (hl3 k hk)
    · intro t ht k hk
      exact Nat.lt_succ_of_lt (hl4 t ht k hk)
  · intro k hk
    exact h.ran0 k (Nat.le_of_succ_le hk)

theorem inv_touch {s : S} (h : Inv s) : Inv (touch s) :=
  ⟨h.own, h.nodup, h.chain, h.fresh, h.loc, h.idx, h.some, h.flags, h.flag, h.applied, h.pend, h.pnd,
    h.lt, h.ran0⟩

theorem inv_free {s : S} (h : Inv s) (k : Key) : Inv (free s k) := by
  rw [free]
  split
  · rename_i hk
    obtain ⟨hl1, hl2, hl3, hl4⟩ := h.lt
    refine ⟨h.own, h.nodup, h.chain, h.fresh, h.loc, ?_, ?_, h.flags, h.flag, h.applied, ?_, ?_,
      ⟨?_, ?_, hl3, hl4⟩, h.ran0⟩
    · intro k' hk' j hj
      exact h.idx k' (List.mem_filter.1 hk').1 j hj
    · intro k' hk'
      exact h.some k' (List.mem_filter.1 hk').1
    · intro p hp
      rcases List.mem_append.1 hp with hp | hp
      · obtain ⟨h1, h2, h3, h4, h5⟩ := h.pend p hp
        exact ⟨h1, h2, fun hm => h3 (List.mem_filter.1 hm).1, h4, h5⟩
      · rw [List.mem_singleton] at hp
        subst hp
        refine ⟨?_, Nat.le_refl _, ?_, h.some k hk, ?_⟩
        · have := h.flag
          simp only
          omega
        · simp
        · intro t ht hf
          have := h.flag_lt t ht
          simp only at hf
          omega
    · simp only [List.map_append, List.map_cons, List.map_nil]
      rw [List.nodup_append]
      refine ⟨h.pnd, by simp, ?_⟩
      intro a ha b hb e
      rw [List.mem_singleton] at hb
      obtain ⟨p, hp, rfl⟩ := List.mem_map.1 ha
      have hn := (h.pend p hp).2.2.1
      rw [e, hb] at hn
      exact hn hk
    · intro k' hk'
      exact hl1 k' (List.mem_filter.1 hk').1
    · intro p hp
      rcases List.mem_append.1 hp with hp | hp
      · exact hl2 p hp
      · rw [List.mem_singleton] at hp
        subst hp
        exact hl1 k hk
  · exact h

theorem dropped_iff {s : S} {k : Key} :
    (s.pending.any fun p => p.1 == k && s.applied p.2) = true ↔
      ∃ p ∈ s.pending, p.1 = k ∧ s.applied p.2 = true := by
  simp [List.any_eq_true]

theorem pend_inj {s : S} (h : Inv s) {p q : Key × Nat} (hp : p ∈ s.pending) (hq : q ∈ s.pending)
    (e : p.1 = q.1) : p = q := by
  have := h.pnd
  clear h
  revert hp hq this
  generalize s.pending = l
  intro hp hq this
  induction l with
  | nil => simp at hp
  | cons a l ih =>
    rw [List.map_cons, List.nodup_cons] at this
    rcases List.mem_cons.1 hp with rfl | hp' <;> rcases List.mem_cons.1 hq with rfl | hq'
    · rfl
    · have hm := List.mem_map_of_mem (f := Prod.fst) hq'
      rw [← e] at hm
      exact absurd hm this.1
    · have hm := List.mem_map_of_mem (f := Prod.fst) hp'
      rw [e] at hm
      exact absurd hm this.1
    · exact ih hp' hq' this.2

theorem inv_dropOld {s : S} (h : Inv s) : Inv (dropOld s) := by
  obtain ⟨hl1, hl2, hl3, hl4⟩ := h.lt
  have hlive : ∀ k ∈ s.live, (dropOld s).ug k = s.ug k := by
    intro k hk
    simp only [dropOld]
    rw [if_neg]
    rw [dropped_iff]
    rintro ⟨p, hp, rfl, -⟩
    exact (h.pend p hp).2.2.1 hk
  have hsome : ∀ k x, (dropOld s).ug k = some x → s.ug k = some x := by
    intro k x hx
    simp only [dropOld] at hx
    split at hx
    · simp at hx
    · exact hx
  refine ⟨h.own, h.nodup, h.chain, h.fresh, ?_, ?_, ?_, h.flags, h.flag, h.applied, ?_, ?_,
    ⟨hl1, ?_, ?_, hl4⟩, h.ran0⟩
  · intro k u hk; exact h.loc k u (hsome k _ hk)
  · intro k hk j hj; exact h.idx k hk j (hsome k _ hj)
  · intro k hk; rw [hlive k hk]; exact h.some k hk
  · intro p hp
    obtain ⟨hp, ha⟩ := List.mem_filter.1 hp
    obtain ⟨h1, h2, h3, h4, h5⟩ := h.pend p hp
    refine ⟨h1, h2, h3, ?_, h5⟩
    simp only [dropOld]
    rw [if_neg]
    · exact h4
    · rw [dropped_iff]
      rintro ⟨q, hq, e, hqa⟩
      have := pend_inj h hq hp e
      subst this
      simp [hqa] at ha
  · exact (List.filter_sublist.map Prod.fst).nodup h.pnd
  · intro p hp; exact hl2 p (List.mem_filter.1 hp).1
  · intro k hk
    obtain ⟨x, hx⟩ := Option.isSome_iff_exists.1 hk
    exact hl3 k (by rw [hsome k x hx]; rfl)

theorem getLast_mem {c : TD} {r : List TD} : r.getLast?.getD c ∈ c :: r := by
  cases hr : r.getLast? with
  | none => simp
  | some t =>
    simp only [Option.getD_some]
    exact List.mem_cons_of_mem _ (List.mem_of_getLast? hr)

/-- A commit either changes nothing but the dropped storage, or sends the order. -/
theorem inv_commit {s s' : S} {order : List Key} (h : Inv s) (ho : OrderOk s.live order)
    (hc : commit s order = .ok (s', Option.none)) : Inv s' ∧
    ((s.recalc = false ∧ s' = dropOld s) ∨ (s.recalc = true ∧ ∃ t, s'.ring = s.ring ++ [t] ∧
      t.keys = order ∧ t.flag = s.flag ∧ s'.cur = s.cur)) := by
  have hd := inv_dropOld h
  rw [commit] at hc
  split at hc
  · rename_i hr
    obtain ⟨ts, ug', h1, h2, h3, h4, h5⟩ := makeTasks_spec order 0 (dropOld s).ug ho.1
      (fun k hk => hd.some k ((ho.2 k).1 hk))
    rw [h1] at hc
    simp only [bind_ok] at hc
    split at hc
    · simp only [Except.ok.injEq, Prod.mk.injEq, and_true] at hc
      subst hc
      obtain ⟨hl1, hl2, hl3, hl4⟩ := hd.lt
      have hmem : ∀ k, k ∈ order ↔ k ∈ (dropOld s).live := ho.2
      have hslot : ∀ p ∈ ts, p.1 ∈ (dropOld s).live ∧ ∃ nu, (dropOld s).ug p.1 = some nu ∧ p.2 = slotOf nu := by
        intro p hp
        refine ⟨(hmem _).1 ?_, h5 p hp⟩
        rw [← h2]; exact List.mem_map_of_mem hp
      have hug : ∀ k x, ug' k = some x → (∃ j, x = .live j ∧ order[j]? = some k) ∨
          (k ∉ order ∧ (dropOld s).ug k = some x) := by
        intro k x hx
        by_cases hk : k ∈ order
        · obtain ⟨j, hj⟩ := List.mem_iff_getElem?.1 hk
          rw [h4 j k hj] at hx
          left
          refine ⟨j, ?_, hj⟩
          simpa using hx.symm
        · rw [h3 k hk] at hx
          exact .inr ⟨hk, hx⟩
      have hkeys : (TD.mk ts ((dropOld s).flag + 1 - 1)).keys = order := h2
      have hmemr : ∀ t, t ∈ (dropOld s).cur :: ((dropOld s).ring ++ [⟨ts, (dropOld s).flag + 1 - 1⟩]) →
          t ∈ (dropOld s).cur :: (dropOld s).ring ∨ t = ⟨ts, (dropOld s).flag + 1 - 1⟩ := by
        intro t ht
        rw [← List.cons_append, List.mem_append, List.mem_singleton] at ht
        exact ht
      refine ⟨?_, .inr ⟨hr, ⟨ts, s.flag⟩, rfl, h2, rfl, rfl⟩⟩
      constructor
      · rcases hd.own with ho' | ⟨t, r, e, he⟩
        · exact .inl ho'
        · right
          refine ⟨t, r ++ [⟨ts, (dropOld s).flag + 1 - 1⟩], ?_, he⟩
          simp only
          rw [e]
          rfl
      · intro t ht
        rcases hmemr t ht with ht | rfl
        · exact hd.nodup t ht
        · rw [hkeys]; exact ho.1
      · refine chain_append (c := (dropOld s).cur) rfl hd.chain ?_
        intro p hp
        obtain ⟨hpl, nu, hnu, hps⟩ := hslot p hp
        cases nu with
        | loc u => exact .inl ⟨0, by rw [hps, (hd.loc _ _ hnu).1]; rfl⟩
        | live j => exact .inr ⟨j, hps, hd.idx _ hpl j hnu⟩
      · intro t ht
        simp only [List.mem_append, List.mem_singleton] at ht
        rcases ht with ht | rfl
        · exact hd.fresh t ht
        · intro p hp k n hpo
          obtain ⟨hpl, nu, hnu, hps⟩ := hslot p hp
          cases nu with
          | loc u =>
            obtain ⟨e1, e2, -⟩ := hd.loc _ _ hnu
            rw [hps, e1] at hpo
            simp only [slotOf, UG.own.injEq] at hpo
            exact ⟨hpo.1.symm, hpo.2.symm, e2⟩
          | live j => rw [hps] at hpo; simp [slotOf] at hpo
      · intro k u hk
        rcases hug k _ hk with ⟨j, e, -⟩ | ⟨hko, hk'⟩
        · simp at e
        · obtain ⟨e1, e2, e3⟩ := hd.loc k u hk'
          refine ⟨e1, e2, ?_⟩
          intro t ht
          rcases hmemr t ht with ht | rfl
          · exact e3 t ht
          · rw [hkeys]; exact hko
      · intro k hk j hj
        simp only [List.getLast?_append, List.getLast?_singleton, Option.some_or, Option.getD_some]
        rw [hkeys]
        rcases hug k _ hj with ⟨j', e, hj'⟩ | ⟨hko, -⟩
        · simp only [NU.live.injEq] at e
          rw [e]; exact hj'
        · exact absurd ((hmem k).2 hk) hko
      · intro k hk
        obtain ⟨j, hj⟩ := List.mem_iff_getElem?.1 ((hmem k).2 hk)
        simp only
        rw [h4 j k hj]
        rfl
      · simp only [List.map_append, List.map_cons, List.map_nil, List.length_append, List.length_cons,
          List.length_nil]
        rw [hd.flags, List.range'_concat]
        have := hd.flag
        simp only [List.append_cancel_left_eq, List.cons.injEq, and_true]
        omega
      · have := hd.flag
        simp only [List.length_append, List.length_cons, List.length_nil]
        omega
      · exact hd.applied
      · intro p hp
        obtain ⟨e1, e2, e3, e4, e5⟩ := hd.pend p hp
        have hpo : p.1 ∉ order := fun hm => e3 ((hmem _).1 hm)
        refine ⟨e1, Nat.le_succ_of_le e2, e3, ?_, ?_⟩
        · simp only
          rw [h3 _ hpo]; exact e4
        · intro t ht hf
          rcases hmemr t ht with ht | rfl
          · exact e5 t ht hf
          · rw [hkeys]; exact hpo
      · exact hd.pnd
      · refine ⟨hl1, hl2, ?_, ?_⟩
        · intro k hk
          obtain ⟨x, hx⟩ := Option.isSome_iff_exists.1 hk
          rcases hug k x hx with ⟨j, -, hj⟩ | ⟨-, hx'⟩
          · exact hl1 k ((hmem k).1 (List.mem_of_getElem? hj))
          · exact hl3 k (by rw [hx']; rfl)
        · intro t ht k hk
          rcases hmemr t ht with ht | rfl
          · exact hl4 t ht k hk
          · rw [hkeys] at hk
            exact hl1 k ((hmem k).1 hk)
      · exact hd.ran0
    · simp at hc
  · rename_i hr
    simp only [Except.ok.injEq, Prod.mk.injEq, and_true] at hc
    subst hc
    refine ⟨hd, .inl ⟨?_, rfl⟩⟩
    simpa [dropOld] using hr

/-- What a block does. -/
theorem block_spec {s : S} (h : Inv s) : ∃ s' log, block s = .ok (s', log) ∧ Inv s' ∧
    log.map Prod.fst = (s.ring.getLast?.getD s.cur).keys ∧
    (∀ p ∈ log, p.2 = .own p.1 (s.ran p.1)) ∧ s'.ring = [] ∧
    s'.cur.keys = (s.ring.getLast?.getD s.cur).keys ∧
    s'.cur.tasks = log.map (fun p => (p.1, .own p.1 (s.ran p.1 + 1))) ∧
    s'.cur.flag + 1 = s.flag := by
  have hkey : ∃ c, applyAll s.cur s.ring = .ok c ∧ Owned s.ran c.tasks ∧
      c.keys = (s.ring.getLast?.getD s.cur).keys ∧ c.flag = (s.ring.getLast?.getD s.cur).flag := by
    rcases h.own with ho | ⟨t, r, e, he⟩
    · exact applyAll_spec s.ring s.cur ho h.chain (fun t ht => ⟨h.nodup t (List.mem_cons_of_mem _ ht), h.fresh t ht⟩)
    · have hc := h.chain
      rw [e] at hc
      have ht : t ∈ s.ring := by rw [e]; simp
      have hnd := h.nodup t (List.mem_cons_of_mem _ ht)
      have ha := applyTasks_spec t.tasks s.cur.tasks hnd hc.1
      have hres : (t.tasks.map fun p => (p.1, resolve s.cur.tasks p.2)) = t.tasks := by
        conv => rhs; rw [← List.map_id t.tasks]
        refine List.map_congr_left ?_
        intro p hp
        obtain ⟨n, hn⟩ := he p hp
        obtain ⟨k, u⟩ := p
        simp only at hn
        subst hn
        rfl
      have ho : Owned s.ran t.tasks := by
        intro p hp
        obtain ⟨n, hn⟩ := he p hp
        obtain ⟨-, h1, h2⟩ := h.fresh t ht p hp p.1 n hn
        rw [hn, h1, h2]
      obtain ⟨c, h1, h2, h3, h4⟩ := applyAll_spec r t ho hc.2 (fun t' ht' => by
        have : t' ∈ s.ring := by rw [e]; exact List.mem_cons_of_mem _ ht'
        exact ⟨h.nodup t' (List.mem_cons_of_mem _ this), h.fresh t' this⟩)
      refine ⟨c, ?_, h2, ?_, ?_⟩
      · rw [e, applyAll, ha, hres]
        exact h1
      · rw [h3, e, List.getLast?_cons]; rfl
      · rw [h4, e, List.getLast?_cons]; rfl
  obtain ⟨c, h1, h2, h3, h4⟩ := hkey
  have hrun := runAll_spec c.tasks h2
  have hb : block s = .ok ({ s with
    cur := { c with tasks := c.tasks.map fun p => (p.1, .own p.1 (s.ran p.1 + 1)) }
    ring := []
    applied := fun f => s.applied f || s.ring.any (fun t => t.flag == f)
    ran := fun k => s.ran k + if k ∈ c.keys then 1 else 0 }, c.tasks) := by
    rw [block, h1]
    simp only [bind_ok]
    rw [hrun]
    rfl
  have hck : (TD.mk (c.tasks.map fun p => (p.1, UG.own p.1 (s.ran p.1 + 1))) c.flag).keys = c.keys := by
    simp [TD.keys]
  have hlast : s.ring.getLast?.getD s.cur ∈ s.cur :: s.ring := getLast_mem
  have hflag : c.flag + 1 = s.flag := by
    rw [h4, h.flag]
    have hf := h.flags
    cases hr : s.ring.getLast? with
    | none =>
      rw [List.getLast?_eq_none_iff] at hr
      simp [hr]
    | some t =>
      obtain ⟨r, hr'⟩ := List.getLast?_eq_some_iff.1 hr
      rw [hr'] at hf ⊢
      simp only [List.map_append, List.map_cons, List.map_nil, List.length_append, List.length_cons,
        List.length_nil, List.range'_concat] at hf ⊢
      have := List.append_inj_right hf (by simp)
      simp only [List.cons.injEq, and_true] at this
      simp only [Option.getD_some]
      omega
  refine ⟨_, _, hb, ?_, h3, h2, rfl, ?_, rfl, hflag⟩
  · obtain ⟨hl1, hl2, hl3, hl4⟩ := h.lt
    constructor
    · left
      intro p hp
      obtain ⟨q, hq, rfl⟩ := List.mem_map.1 hp
      simp only
      rw [if_pos]
      exact List.mem_map_of_mem hq
    · intro t ht
      simp only [List.mem_singleton] at ht
      subst ht
      rw [hck, h3]
      exact h.nodup _ hlast
    · exact trivial
    · intro t ht
      simp at ht
    · intro k u hk
      obtain ⟨e1, e2, e3⟩ := h.loc k u hk
      have : k ∉ c.keys := by rw [h3]; exact e3 _ hlast
      refine ⟨e1, ?_, ?_⟩
      · simp [this, e2]
      · intro t ht
        simp only [List.mem_singleton] at ht
        subst ht
        rw [hck]; exact this
    · intro k hk j hj
      simp only [List.getLast?_nil, Option.getD_none]
      rw [hck, h3]
      exact h.idx k hk j hj
    · exact h.some
    · rfl
    · simp only [List.length_nil]
      exact hflag.symm
    · intro f
      simp only [Bool.or_eq_true, h.applied, List.any_eq_true, beq_iff_eq]
      have hf := h.flags
      have hfl := h.flag
      constructor
      · rintro (hx | ⟨t, ht, rfl⟩)
        · omega
        · have hm : t.flag ∈ s.ring.map TD.flag := List.mem_map_of_mem ht
          rw [hf, List.mem_range'_1] at hm
          omega
      · intro hx
        by_cases hle : f ≤ s.cur.flag
        · exact .inl ⟨hx.1, hle⟩
        · right
          have hm : f ∈ s.ring.map TD.flag := by
            rw [hf, List.mem_range'_1]
            omega
          obtain ⟨t, ht, e⟩ := List.mem_map.1 hm
          exact ⟨t, ht, e⟩
    · intro p hp
      obtain ⟨e1, e2, e3, e4, e5⟩ := h.pend p hp
      refine ⟨e1, e2, e3, e4, ?_⟩
      intro t ht hft
      simp only [List.mem_singleton] at ht
      subst ht
      rw [hck, h3]
      refine e5 _ hlast ?_
      rw [← h4]; exact hft
    · exact h.pnd
    · refine ⟨hl1, hl2, hl3, ?_⟩
      intro t ht k hk
      simp only [List.mem_singleton] at ht
      subst ht
      rw [hck, h3] at hk
      exact hl4 _ hlast k hk
    · intro k hk
      have : k ∉ c.keys := by
        intro hm
        rw [h3] at hm
        exact absurd (hl4 _ hlast k hm) (Nat.not_lt.2 hk)
      simp [this, h.ran0 k hk]
  · rw [hck, h3]

theorem inv_init {cap n : Nat} {order : List Key} {s : S} (ho : OrderOk (List.range n) order)
    (hi : init cap n order = .ok s) : Inv s := by
  rw [init] at hi
  revert hi
  generalize hs0 : (S.mk (fun k => if k < n then some (.loc (.own k 0)) else Option.none) n (List.range n)
    [] 1 (0 < n) (fun _ => false) [] cap ⟨[], 0⟩ (fun _ => 0) : S) = s0
  intro hi
  have hug : ∀ k x, s0.ug k = some x → k < n ∧ x = .loc (.own k 0) := by
    intro k x hx
    subst hs0
    simp only at hx
    split at hx
    · rename_i hk
      exact ⟨hk, by simpa using hx.symm⟩
    · simp at hx
  have h0 : Inv s0 := by
    constructor
    · left; subst hs0; intro p hp; simp at hp
    · subst hs0; simp [TD.keys]
    · subst hs0; exact trivial
    · subst hs0; intro t ht; simp at ht
    · intro k u hk
      obtain ⟨-, e⟩ := hug k _ hk
      subst hs0
      exact ⟨by simpa using e, rfl, by simp [TD.keys]⟩
    · intro k _ j hj
      obtain ⟨-, e⟩ := hug k _ hj
      simp at e
    · intro k hk
      subst hs0
      simp only [List.mem_range] at hk
      simp [hk]
    · subst hs0; rfl
    · subst hs0; rfl
    · subst hs0
      intro f
      simp only [Bool.false_eq_true, false_iff]
      omega
    · subst hs0; simp
    · subst hs0; simp
    · refine ⟨?_, ?_, ?_, ?_⟩
      · subst hs0; simp
      · subst hs0; simp
      · intro k hk
        obtain ⟨x, hx⟩ := Option.isSome_iff_exists.1 hk
        have := (hug k x hx).1
        subst hs0
        exact this
      · subst hs0; simp [TD.keys]
    · subst hs0; intro k _; rfl
  have hlive : s0.live = List.range n := by subst hs0; rfl
  have hrec : s0.recalc = decide (0 < n) := by subst hs0; rfl
  have hring : s0.ring = [] := by subst hs0; rfl
  have hcur : s0.cur = ⟨[], 0⟩ := by subst hs0; rfl
  have hpen : s0.pending = [] := by subst hs0; rfl
  have happ : s0.applied = fun _ => false := by subst hs0; rfl
  cases hc : commit s0 order with
  | error e => rw [hc] at hi; simp [bind_error] at hi
  | ok x =>
    obtain ⟨s1, e⟩ := x
    rw [hc] at hi
    simp only [bind_ok] at hi
    cases e with
    | some e => simp at hi
    | none =>
      simp only at hi
      obtain ⟨h1, hcase⟩ := inv_commit h0 (by rw [hlive]; exact ho) hc
      rcases hcase with ⟨hr, rfl⟩ | ⟨hr, t, ht1, ht2, ht3, ht4⟩
      · rw [hrec] at hr
        have hn : ¬ 0 < n := by simpa using hr
        simp only [hn, if_false, makeTasks, bind_ok, Except.ok.injEq] at hi
        subst hi
        have : (dropOld s0).cur = ⟨[], 0⟩ := hcur
        rw [← this]
        exact h1
      · rw [hrec] at hr
        have hn : 0 < n := by simpa using hr
        simp only [hn, if_true] at hi
        have hl1 : s1.live = s0.live ∧ s1.pending = [] ∧ s1.applied = s0.applied ∧ s1.next = s0.next := by
          rw [commit] at hc
          split at hc
          · change (makeTasks 0 order (dropOld s0).ug >>= _) = _ at hc
            cases hm : makeTasks 0 order (dropOld s0).ug with
            | error e => rw [hm] at hc; simp [bind_error] at hc
            | ok x =>
              rw [hm] at hc
              simp only [bind_ok] at hc
              split at hc
              · simp only [Except.ok.injEq, Prod.mk.injEq, and_true] at hc
                subst hc
                exact ⟨rfl, by simp [dropOld, hpen], rfl, rfl⟩
              · simp at hc
          · simp only [Except.ok.injEq, Prod.mk.injEq, and_true] at hc
            subst hc
            exact ⟨rfl, by simp [dropOld, hpen], rfl, rfl⟩
        obtain ⟨e1, e2, e3, e4⟩ := hl1
        rw [hring, List.nil_append] at ht1
        obtain ⟨ts, ug', m1, m2, m3, m4, m5⟩ := makeTasks_spec order 0 s1.ug ho.1 (by
          intro k hk
          refine h1.some k ?_
          rw [e1, hlive]
          exact (ho.2 k).1 hk)
        rw [m1] at hi
        simp only [bind_ok, Except.ok.injEq] at hi
        subst hi
        have htown : ∀ p ∈ t.tasks, ∃ n, p.2 = UG.own p.1 n := by
          have := h1.chain
          rw [ht1, ht4, hcur] at this
          intro p hp
          rcases this.1 p hp with h | ⟨j, -, hj⟩
          · exact h
          · simp [TD.keys] at hj
        have hkeys : (TD.mk ts 0).keys = order := m2
        obtain ⟨g1, g2, g3, g4⟩ := h1.lt
        have hmem : ∀ t', t' ∈ (TD.mk ts 0) :: s1.ring → t'.keys = order := by
          intro t' ht'
          rw [ht1] at ht'
          simp only [List.mem_cons, List.not_mem_nil, or_false] at ht'
          rcases ht' with rfl | rfl
          · exact hkeys
          · exact ht2
        constructor
        · exact .inr ⟨t, [], ht1, htown⟩
        · intro t' ht'
          rw [hmem t' ht']; exact ho.1
        · simp only [ht1]
          exact ⟨fun p hp => .inl (htown p hp), trivial⟩
        · exact h1.fresh
        · intro k u hk
          by_cases hko : k ∈ order
          · obtain ⟨j, hj⟩ := List.mem_iff_getElem?.1 hko
            simp only [m4 j k hj] at hk
            simp at hk
          · simp only [m3 k hko] at hk
            obtain ⟨f1, f2, f3⟩ := h1.loc k u hk
            refine ⟨f1, f2, ?_⟩
            intro t' ht'
            rw [hmem t' ht']; exact hko
        · intro k hk j hj
          simp only [ht1, List.getLast?_singleton, Option.getD_some]
          have hko : k ∈ order := (ho.2 k).2 (by rw [← hlive, ← e1]; exact hk)
          obtain ⟨j', hj'⟩ := List.mem_iff_getElem?.1 hko
          simp only [m4 j' k hj', Option.some.injEq, NU.live.injEq, Nat.zero_add] at hj
          rw [ht2, ← hj]; exact hj'
        · intro k hk
          have hko : k ∈ order := (ho.2 k).2 (by rw [← hlive, ← e1]; exact hk)
          obtain ⟨j', hj'⟩ := List.mem_iff_getElem?.1 hko
          simp only [m4 j' k hj', Option.isSome_some]
        · have := h1.flags
          rw [ht4, hcur] at this
          exact this
        · have := h1.flag
          rw [ht4, hcur] at this
          exact this
        · have := h1.applied
          rw [ht4, hcur] at this
          exact this
        · intro p hp
          simp only [e2, List.not_mem_nil] at hp
        · simp only [e2]; simp
        · refine ⟨g1, g2, ?_, ?_⟩
          · intro k hk
            by_cases hko : k ∈ order
            · refine g1 k ?_
              rw [e1, hlive]
              exact (ho.2 k).1 hko
            · simp only [m3 k hko] at hk
              exact g3 k hk
          · intro t' ht' k hk
            rw [hmem t' ht'] at hk
            refine g1 k ?_
            rw [e1, hlive]
            exact (ho.2 k).1 hk
        · exact h1.ran0

theorem Reach.inv {s : S} (h : Reach s) : Inv s := by
  induction h with
  | init ho hi => exact inv_init ho hi
  | push _ ih => exact inv_push ih
  | free k _ ih => exact inv_free ih k
  | touch _ ih => exact inv_touch ih
  | commit _ ho hc ih => exact (inv_commit ih ho hc).1
  | block _ hb ih =>
    obtain ⟨s', log, h1, h2, -⟩ := block_spec ih
    rw [h1] at hb
    simp only [Except.ok.injEq, Prod.mk.injEq] at hb
    rw [← hb.1]; exact h2

end Verif.T
