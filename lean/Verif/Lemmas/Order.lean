import Verif.Model.Order
import Verif.Lemmas.GraphPath

/-!
# Lemmas about the processing order
-/

namespace Verif.G

open Relation

/-- `b` depends on `a` within one block: `a` feeds an audio input of `b` through a connection that is
not marked as feedback, or a parameter of `b`. -/
def Dep (g : Graph) (a b : Key) : Prop :=
  (∃ (i : Nat) (e : Edge), g.edge b i = some e ∧ e.source = .node a ∧ e.fb = false) ∨
  ∃ (es : List PEdge) (pe : PEdge), g.pars b = some es ∧ pe ∈ es ∧ pe.source = a

theorem mem_directKeys {es : List (Option Edge)} {a : Key} :
    a ∈ directKeys es ↔ ∃ (i : Nat) (e : Edge), (es[i]?).join = some e ∧ e.source = .node a ∧
      e.fb = false := by
  unfold directKeys
  rw [List.mem_filterMap]
  constructor
  · rintro ⟨o, ho, h⟩
    obtain ⟨i, hi⟩ := List.mem_iff_getElem?.1 ho
    split at h
    · next k c =>
      simp only [Option.some.injEq] at h
      exact ⟨i, ⟨.node k, c, false⟩, by rw [hi]; rfl, by simp [h], rfl⟩
    · simp at h
  · rintro ⟨i, e, hi, he, hf⟩
    cases hi' : es[i]? with
    | none => simp [hi'] at hi
    | some o =>
      rw [hi'] at hi
      simp only [Option.join_some] at hi
      subst hi
      refine ⟨some e, List.mem_of_getElem? hi', ?_⟩
      obtain ⟨s, c, f⟩ := e
      simp only at he hf
      subst he
      subst hf
      rfl

theorem dep_iff {g : Graph} {b : Key} {es ps} (h : g.ins b = some es) (hp : g.pars b = some ps)
    (a : Key) : Dep g a b ↔ a ∈ directKeys es ∨ a ∈ ps.map PEdge.source := by
  rw [mem_directKeys]
  unfold Dep
  simp only [edge_of_ins h, hp, List.mem_map, Option.some.injEq]
  refine or_congr Iff.rfl ⟨?_, ?_⟩
  · rintro ⟨_, pe, rfl, h1, h2⟩; exact ⟨pe, h1, h2⟩
  · rintro ⟨pe, h1, h2⟩; exact ⟨ps, pe, rfl, h1, h2⟩

theorem nextSource_some {g : Graph} {v k s} (h : nextSource g v k = .ok (some s)) :
    s ∉ v ∧ Dep g s k ∧ (g.ins k).isSome := by
  unfold nextSource at h
  split at h
  · simp at h
  · next es hes =>
    split at h
    · next s' hs =>
      simp only [Except.ok.injEq, Option.some.injEq] at h
      subst h
      have h1 := List.find?_some hs
      have h2 := List.mem_of_find?_eq_some hs
      refine ⟨by simpa using h1, .inl ?_, by simp [hes]⟩
      simpa only [edge_of_ins hes] using mem_directKeys.1 h2
    · next hs =>
      split at h
      · simp at h
      · next ps hps =>
        simp only [Except.ok.injEq] at h
        have h1 := List.find?_some h
        have h2 := List.mem_of_find?_eq_some h
        exact ⟨by simpa using h1, (dep_iff hes hps s).2 (.inr h2), by simp [hes]⟩

theorem nextSource_none {g : Graph} {v k} (h : nextSource g v k = .ok none) :
    (∀ a, Dep g a k → a ∈ v) ∧ (g.ins k).isSome ∧ (g.pars k).isSome := by
  unfold nextSource at h
  split at h
  · simp at h
  · next es hes =>
    split at h
    · simp at h
    · next hs =>
      split at h
      · simp at h
      · next ps hps =>
        simp only [Except.ok.injEq] at h
        refine ⟨fun a ha => ?_, by simp [hes], by simp [hps]⟩
        rw [List.find?_eq_none] at hs h
        rcases (dep_iff hes hps a).1 ha with h1 | h1
        · simpa using hs a h1
        · simpa using h a h1

theorem nextSource_ok {g : Graph} {v k} (h : (g.ins k).isSome) (hp : (g.pars k).isSome) :
    ∃ r, nextSource g v k = .ok r := by
  obtain ⟨es, hes⟩ := Option.isSome_iff_exists.1 h
  obtain ⟨ps, hps⟩ := Option.isSome_iff_exists.1 hp
  unfold nextSource
  rw [hes, hps]
  simp only
  split <;> exact ⟨_, rfl⟩

/-- Every entry comes after all its dependencies. -/
def Topo (g : Graph) (order : List Key) : Prop :=
  ∀ pre b post, order = pre ++ b :: post → ∀ a, Dep g a b → a ∈ pre

theorem topo_append {g : Graph} {o : List Key} {k : Key} (h : Topo g o)
    (hk : ∀ a, Dep g a k → a ∈ o) : Topo g (o ++ [k]) := by
  intro pre b post e a ha
  rcases List.append_eq_append_iff.1 e with ⟨m, h1, h2⟩ | ⟨m, h1, h2⟩
  · cases m with
    | nil =>
      simp only [List.nil_append, List.cons.injEq] at h2
      rw [List.append_nil] at h1
      rw [h1]
      exact hk a (h2.1 ▸ ha)
    | cons x m =>
      simp at h2
  · cases m with
    | nil =>
      simp only [List.nil_append, List.cons.injEq] at h2
      rw [List.append_nil] at h1
      rw [← h1]
      exact hk a (h2.1 ▸ ha)
    | cons x m =>
      simp only [List.cons_append, List.cons.injEq] at h2
      obtain ⟨rfl, h3⟩ := h2
      exact h pre b m h1 a ha

/-- What holds during the search. -/
structure DInv (g : Graph) (rs : List Key) (visited stack order : List Key) : Prop where
  nodup : (order ++ stack).Nodup
  vis : ∀ k, k ∈ visited ↔ k ∈ order ∨ k ∈ stack
  live : ∀ k ∈ order, (g.ins k).isSome
  closed : ∀ b ∈ order, ∀ a, Dep g a b → a ∈ visited
  heard : ∀ b ∈ visited, ∃ r ∈ rs, ReflTransGen (Dep g) b r
  root : ∀ r ∈ rs, r ∈ visited

theorem dinv_push {g : Graph} {rs v k st o s} (h : DInv g rs v (k :: st) o)
    (hs : nextSource g v k = .ok (some s)) : DInv g rs (s :: v) (s :: k :: st) o := by
  obtain ⟨h1, h2, -⟩ := nextSource_some hs
  constructor
  · have : (s :: (o ++ k :: st)).Nodup := by
      refine List.nodup_cons.2 ⟨?_, h.nodup⟩
      intro hm
      exact h1 ((h.vis s).2 (List.mem_append.1 hm))
    exact (List.perm_middle.nodup_iff).2 this
  · intro x
    simp only [List.mem_cons, h.vis x]
    tauto
  · exact h.live
  · intro b hb a ha
    exact List.mem_cons_of_mem _ (h.closed b hb a ha)
  · intro b hb
    rcases List.mem_cons.1 hb with rfl | hb
    · obtain ⟨r, hr, hp⟩ := h.heard k ((h.vis k).2 (.inr (by simp)))
      exact ⟨r, hr, .head h2 hp⟩
    · exact h.heard b hb
  · intro r hr
    exact List.mem_cons_of_mem _ (h.root r hr)

theorem dinv_pop {g : Graph} {rs v k st o} (h : DInv g rs v (k :: st) o)
    (hs : nextSource g v k = .ok none) : DInv g rs v st (o ++ [k]) := by
  obtain ⟨h1, h2, -⟩ := nextSource_none hs
  constructor
  · simpa [List.append_assoc] using h.nodup
  · intro x
    simp only [h.vis x, List.mem_append, List.mem_cons, List.not_mem_nil, or_false, or_assoc]
  · intro x hx
    rcases List.mem_append.1 hx with hx | hx
    · exact h.live x hx
    · simp only [List.mem_cons, List.not_mem_nil, or_false] at hx; exact hx ▸ h2
  · intro b hb a ha
    rcases List.mem_append.1 hb with hx | hx
    · exact h.closed b hx a ha
    · simp only [List.mem_cons, List.not_mem_nil, or_false] at hx; exact h1 a (hx ▸ ha)
  · exact h.heard
  · exact h.root

theorem dfsLoop_inv {g : Graph} {rs : List Key} : ∀ (fuel : Nat) {v st o v' o'},
    DInv g rs v st o → dfsLoop g fuel v st o = .ok (v', o') → DInv g rs v' [] o' := by
  intro fuel
  induction fuel with
  | zero =>
    intro v st o v' o' h hd
    cases st with
    | nil => simp only [dfsLoop, Except.ok.injEq, Prod.mk.injEq] at hd; exact hd.1 ▸ hd.2 ▸ h
    | cons k st => simp [dfsLoop] at hd
  | succ fuel ih =>
    intro v st o v' o' h hd
    cases st with
    | nil => simp only [dfsLoop, Except.ok.injEq, Prod.mk.injEq] at hd; exact hd.1 ▸ hd.2 ▸ h
    | cons k st =>
      rw [dfsLoop] at hd
      cases hn : nextSource g v k with
      | error e => simp [hn] at hd
      | ok r =>
        rw [hn] at hd
        simp only [bind_ok] at hd
        cases r with
        | none => exact ih (dinv_pop h hn) hd
        | some s => exact ih (dinv_push h hn) hd

/-- If no node on the stack (transitively) feeds a node above it, the search produces a topological
order. -/
theorem dfsLoop_topo {g : Graph} {rs : List Key} (hac : Acyclic (Dep g)) : ∀ (fuel : Nat) {v st o v' o'},
    DInv g rs v st o → st.Pairwise (fun x y => ¬ TransGen (Dep g) y x) → Topo g o →
    dfsLoop g fuel v st o = .ok (v', o') → Topo g o' := by
  intro fuel
  induction fuel with
  | zero =>
    intro v st o v' o' h hp ht hd
    cases st with
    | nil => simp only [dfsLoop, Except.ok.injEq, Prod.mk.injEq] at hd; exact hd.2 ▸ ht
    | cons k st => simp [dfsLoop] at hd
  | succ fuel ih =>
    intro v st o v' o' h hp ht hd
    cases st with
    | nil => simp only [dfsLoop, Except.ok.injEq, Prod.mk.injEq] at hd; exact hd.2 ▸ ht
    | cons k st =>
      rw [dfsLoop] at hd
      have hp' := List.pairwise_cons.1 hp
      cases hn : nextSource g v k with
      | error e => simp [hn] at hd
      | ok r =>
        rw [hn] at hd
        simp only [bind_ok] at hd
        cases r with
        | none =>
          refine ih (dinv_pop h hn) hp'.2 (topo_append ht ?_) hd
          intro a ha
          rcases (h.vis a).1 ((nextSource_none hn).1 a ha) with h1 | h1
          · exact h1
          · rcases List.mem_cons.1 h1 with rfl | h1
            · exact absurd (.single ha) (hac a)
            · exact absurd (.single ha) (hp'.1 a h1)
        | some s =>
          have hd' := (nextSource_some hn).2.1
          refine ih (dinv_push h hn) (List.pairwise_cons.2 ⟨?_, hp⟩) ht hd
          intro y hy hys
          rcases List.mem_cons.1 hy with rfl | hy
          · exact hac _ (hys.tail hd')
          · exact hp'.1 y hy (hys.tail hd')

theorem filter_length_lt {α} {l : List α} {p q : α → Bool} (hpq : ∀ x ∈ l, p x = true → q x = true)
    {y : α} (hy : y ∈ l) (hq : q y = true) (hp : p y = false) :
    (l.filter p).length < (l.filter q).length := by
  induction l with
  | nil => simp at hy
  | cons x l ih =>
    have hsub : (l.filter p).length ≤ (l.filter q).length := by
      have : ∀ l : List α, (∀ x ∈ l, p x = true → q x = true) →
          (l.filter p).length ≤ (l.filter q).length := by
        intro l
        induction l with
        | nil => simp
        | cons x l ih =>
          intro h
          have h1 := ih (fun y hy => h y (List.mem_cons_of_mem _ hy))
          have h2 := h x (by simp)
          simp only [List.filter_cons]
          cases hpx : p x with
          | true => simp [h2 hpx, h1]
          | false => cases q x <;> simp <;> omega
      exact this l (fun y hy => hpq y (List.mem_cons_of_mem _ hy))
    simp only [List.filter_cons]
    rcases List.mem_cons.1 hy with rfl | hy'
    · simp only [hq, hp, if_true, List.length_cons]
      simp only [Bool.false_eq_true, if_false]
      omega
    · have h1 := ih (fun y hy => hpq y (List.mem_cons_of_mem _ hy)) hy'
      have h2 := hpq x (by simp)
      cases hpx : p x with
      | true => simp [h2 hpx, h1]
      | false => cases q x <;> simp <;> omega

/-- Keys not visited yet. -/
def unvis (g : Graph) (v : List Key) : Nat := ((g.nodes.map Prod.fst).filter (fun k => k ∉ v)).length

theorem ins_isSome_mem {g : Graph} {k} (h : (g.ins k).isSome) : k ∈ g.nodes.map Prod.fst := by
  rw [← get_isSome]
  rw [ins_eq] at h
  cases hk : g.get k with
  | none => simp [hk] at h
  | some n => rfl

/-- The search ends without a panic when every dependency is on a node whose secondary map entries
exist. -/
theorem dfsLoop_total {g : Graph} {rs : List Key}
    (hl : ∀ a b, Dep g a b → (g.ins a).isSome ∧ (g.pars a).isSome) : ∀ (fuel : Nat) {v st o},
    DInv g rs v st o → (∀ k ∈ st, (g.ins k).isSome ∧ (g.pars k).isSome) →
    2 * unvis g v + st.length ≤ fuel → ∃ r, dfsLoop g fuel v st o = .ok r := by
  intro fuel
  induction fuel with
  | zero =>
    intro v st o h hs hf
    cases st with
    | nil => exact ⟨_, rfl⟩
    | cons k st => simp at hf
  | succ fuel ih =>
    intro v st o h hs hf
    cases st with
    | nil => exact ⟨_, rfl⟩
    | cons k st =>
      obtain ⟨r, hr⟩ := nextSource_ok (v := v) (hs k (by simp)).1 (hs k (by simp)).2
      rw [dfsLoop, hr]
      simp only [bind_ok]
      simp only [List.length_cons] at hf
      cases r with
      | none =>
        exact ih (dinv_pop h hr) (fun x hx => hs x (List.mem_cons_of_mem _ hx)) (by omega)
      | some s =>
        obtain ⟨h1, h2, -⟩ := nextSource_some hr
        have h3 := hl s k h2
        refine ih (dinv_push h hr) ?_ ?_
        · intro x hx
          rcases List.mem_cons.1 hx with rfl | hx
          · exact h3
          · exact hs x hx
        · have hlt : unvis g (s :: v) < unvis g v := by
            refine filter_length_lt (y := s) ?_ (ins_isSome_mem h3.1) ?_ ?_
            · intro x _ hx
              simp only [List.mem_cons, not_or, decide_eq_true_eq] at hx ⊢
              exact hx.2
            · simpa using h1
            · simp
          simp only [List.length_cons]
          omega

theorem anyFrom_iff {k : Key} {es : List (Option Edge)} :
    anyFrom k es = true ↔ k ∈ srcKeys es := by
  rw [mem_srcKeys]
  unfold anyFrom
  rw [List.any_eq_true]
  constructor
  · rintro ⟨o, ho, h⟩
    obtain ⟨i, hi⟩ := List.mem_iff_getElem?.1 ho
    cases o with
    | none => simp at h
    | some ed => exact ⟨i, ed, by rw [hi]; rfl, by simpa using h⟩
  · rintro ⟨i, e, h1, h2⟩
    cases hi : es[i]? with
    | none => simp [hi] at h1
    | some o =>
      rw [hi] at h1
      simp only [Option.join_some] at h1
      subst h1
      exact ⟨some e, List.mem_of_getElem? hi, by simpa using h2⟩

/-- Node `k` is connected to a graph output. -/
def OutNode (g : Graph) (k : Key) : Prop := ∃ (i : Nat) (e : Edge), g.out i = some e ∧ e.source = .node k

theorem isOutNode_iff {g : Graph} {k : Key} : isOutNode g k = true ↔ OutNode g k := by
  unfold isOutNode
  rw [anyFrom_iff, mem_srcKeys]
  rfl

theorem mem_outs_iff {g : Graph} {k : Key} : k ∈ srcKeys g.outs ↔ OutNode g k := by
  rw [mem_srcKeys]
  rfl

theorem find_feeds {g : Graph} (hn : (g.nodes.map Prod.fst).Nodup) {last : Key} {p}
    (h : g.nodes.find? (fun p => anyFrom last (p.2.ins.getD [])) = some p) : Feeds g last p.1 := by
  have h1 := List.find?_some h
  have h2 := List.mem_of_find?_eq_some h
  have h3 := get_of_mem hn (k := p.1) (n := p.2) h2
  cases hi : p.2.ins with
  | none => simp [hi, anyFrom] at h1
  | some es =>
    rw [hi] at h1
    refine (feeds_iff_mem (es := es) (by rw [ins_eq, h3]; exact hi) last).2 ?_
    exact anyFrom_iff.1 h1

theorem find_feeds_none {g : Graph} {last : Key}
    (h : g.nodes.find? (fun p => anyFrom last (p.2.ins.getD [])) = none) (b : Key) :
    ¬ Feeds g last b := by
  intro hf
  rw [List.find?_eq_none] at h
  cases hi : g.ins b with
  | none => exact not_feeds_of_none hi _ hf
  | some es =>
    have hm := (feeds_iff_mem hi last).1 hf
    rw [ins_eq] at hi
    cases hb : g.get b with
    | none => simp [hb] at hi
    | some n =>
      rw [hb] at hi
      simp only [Option.bind_some] at hi
      have := h _ (mem_of_get hb)
      simp only [hi, Option.getD_some, Bool.not_eq_true] at this
      exact absurd (anyFrom_iff.2 hm) (by simp [this])

open Classical in
/-- The nodes downstream of `k`. -/
noncomputable def down (g : Graph) (k : Key) : Nat :=
  ((g.nodes.map Prod.fst).filter (fun j => decide (TransGen (Feeds g) k j))).length

theorem feeds_mem {g : Graph} {a b : Key} (h : Feeds g a b) : b ∈ g.nodes.map Prod.fst := by
  refine ins_isSome_mem ?_
  cases hi : g.ins b with
  | none => exact absurd h (not_feeds_of_none hi _)
  | some es => rfl

theorem down_lt {g : Graph} (hac : Acyclic (Feeds g)) {a b : Key} (h : Feeds g a b) :
    down g b < down g a := by
  classical
  refine filter_length_lt (y := b) ?_ (feeds_mem h) ?_ ?_
  · intro x _ hx
    simp only [decide_eq_true_eq] at hx ⊢
    exact .head h hx
  · simpa using TransGen.single h
  · simpa using hac b

/-- The walk ends (the fuel is never used up). -/
theorem deepestLoop_total {g : Graph} (hn : (g.nodes.map Prod.fst).Nodup) (hac : Acyclic (Feeds g))
    (v : List Key) : ∀ (fuel : Nat) (last lastOut : Key), down g last < fuel →
    ∃ d, deepestLoop g v fuel last lastOut = .ok d := by
  intro fuel
  induction fuel with
  | zero => intro last lastOut h; omega
  | succ fuel ih =>
    intro last lastOut h
    rw [deepestLoop]
    split
    · exact ⟨_, rfl⟩
    · split
      · exact ⟨_, rfl⟩
      · next p hp =>
        have := down_lt hac (find_feeds hn hp)
        exact ih _ _ (by omega)

theorem deepest_total {g : Graph} (hn : (g.nodes.map Prod.fst).Nodup) (hac : Acyclic (Feeds g))
    (v : List Key) (s : Key) : ∃ d, deepest g v s = .ok d := by
  classical
  refine deepestLoop_total hn hac v _ s s ?_
  have : down g s ≤ g.nodes.length := by
    unfold down
    exact Nat.le_trans (List.length_filter_le _ _) (by simp)
  omega

theorem deepestLoop_out {g : Graph} (v : List Key) : ∀ (fuel : Nat) (last lastOut d : Key),
    deepestLoop g v fuel last lastOut = .ok d → OutNode g lastOut → OutNode g d := by
  intro fuel
  induction fuel with
  | zero => intro last lastOut d h; simp [deepestLoop] at h
  | succ fuel ih =>
    intro last lastOut d h ho
    rw [deepestLoop] at h
    split at h
    · simp only [Except.ok.injEq] at h; exact h ▸ ho
    · split at h
      · simp only [Except.ok.injEq] at h; exact h ▸ ho
      · refine ih _ _ _ h ?_
        split
        · next hb => exact isOutNode_iff.1 hb
        · exact ho

theorem deepestLoop_reach {g : Graph} (hn : (g.nodes.map Prod.fst).Nodup) (v : List Key) (s : Key) :
    ∀ (fuel : Nat) (last lastOut d : Key), deepestLoop g v fuel last lastOut = .ok d →
    ReflTransGen (Feeds g) s last → ReflTransGen (Feeds g) s lastOut → ReflTransGen (Feeds g) s d := by
  intro fuel
  induction fuel with
  | zero => intro last lastOut d h; simp [deepestLoop] at h
  | succ fuel ih =>
    intro last lastOut d h h1 h2
    rw [deepestLoop] at h
    split at h
    · simp only [Except.ok.injEq] at h; exact h ▸ h2
    · split at h
      · simp only [Except.ok.injEq] at h; exact h ▸ h2
      · next p hp =>
        have h3 := h1.tail (find_feeds hn hp)
        refine ih _ _ _ h h3 ?_
        split
        · exact h3
        · exact h2

theorem rootsLoop_total {g : Graph} (hn : (g.nodes.map Prod.fst).Nodup) (hac : Acyclic (Feeds g)) :
    ∀ (ss rs : List Key), ∃ r, rootsLoop g rs ss = .ok r := by
  intro ss
  induction ss with
  | nil => intro rs; exact ⟨_, rfl⟩
  | cons s ss ih =>
    intro rs
    obtain ⟨d, hd⟩ := deepest_total hn hac rs s
    rw [rootsLoop, hd]
    simp only [bind_ok]
    exact ih _

theorem rootsLoop_inv {g : Graph} : ∀ (ss rs rs' : List Key), rootsLoop g rs ss = .ok rs' →
    (∀ s ∈ ss, OutNode g s) → (∀ r ∈ rs, OutNode g r) → rs.Nodup →
    (∀ r ∈ rs', OutNode g r) ∧ rs'.Nodup ∧ (∀ r ∈ rs, r ∈ rs') := by
  intro ss
  induction ss with
  | nil =>
    intro rs rs' h _ h2 h3
    simp only [rootsLoop, Except.ok.injEq] at h
    exact h ▸ ⟨h2, h3, fun r hr => hr⟩
  | cons s ss ih =>
    intro rs rs' h h1 h2 h3
    rw [rootsLoop] at h
    cases hd : deepest g rs s with
    | error e => simp [hd] at h
    | ok d =>
      rw [hd] at h
      simp only [bind_ok] at h
      have hout : OutNode g d := deepestLoop_out _ _ _ _ _ hd (h1 s (by simp))
      have h1' : ∀ s ∈ ss, OutNode g s := fun x hx => h1 x (List.mem_cons_of_mem _ hx)
      split at h
      · exact ih _ _ h h1' h2 h3
      · next hm =>
        obtain ⟨a, b, c⟩ := ih _ _ h h1' (by
          intro r hr
          rcases List.mem_cons.1 hr with rfl | hr
          · exact hout
          · exact h2 r hr) (List.nodup_cons.2 ⟨hm, h3⟩)
        exact ⟨a, b, fun r hr => c r (List.mem_cons_of_mem _ hr)⟩

/-- Every graph output source feeds one of the roots. -/
theorem rootsLoop_covers {g : Graph} (hn : (g.nodes.map Prod.fst).Nodup) : ∀ (ss rs rs' : List Key),
    rootsLoop g rs ss = .ok rs' → (∀ r ∈ rs, r ∈ rs') ∧
    ∀ s ∈ ss, ∃ r ∈ rs', ReflTransGen (Feeds g) s r := by
  intro ss
  induction ss with
  | nil =>
    intro rs rs' h
    simp only [rootsLoop, Except.ok.injEq] at h
    exact h ▸ ⟨fun r hr => hr, by simp⟩
  | cons s ss ih =>
    intro rs rs' h
    rw [rootsLoop] at h
    cases hd : deepest g rs s with
    | error e => simp [hd] at h
    | ok d =>
      rw [hd] at h
      simp only [bind_ok] at h
      obtain ⟨h1, h2⟩ := ih _ _ h
      have h3 : d ∈ rs' := by
        refine h1 d ?_
        split
        · assumption
        · simp
      refine ⟨fun r hr => h1 r ?_, ?_⟩
      · split
        · exact hr
        · exact List.mem_cons_of_mem _ hr
      · intro x hx
        rcases List.mem_cons.1 hx with rfl | hx
        · exact ⟨d, h3, deepestLoop_reach hn _ _ _ _ _ _ hd .refl .refl⟩
        · exact h2 x hx

theorem roots_inv {g : Graph} {rs} (h : roots g = .ok rs) :
    (∀ r ∈ rs, OutNode g r) ∧ rs.Nodup := by
  obtain ⟨a, b, -⟩ := rootsLoop_inv _ _ _ h (fun s hs => mem_outs_iff.1 hs) (by simp) (by simp)
  exact ⟨a, b⟩

theorem dinv_start {g : Graph} {rs : List Key} (h : rs.Nodup) : DInv g rs rs rs [] where
  nodup := by simpa using h
  vis := by simp
  live := by simp
  closed := by simp
  heard := fun b hb => ⟨b, hb, .refl⟩
  root := fun r hr => hr

/-- Inversion of `calcOrder`. -/
theorem calcOrder_ok {g : Graph} {order rem} (h : calcOrder g = .ok (order, rem)) :
    ∃ rs v o, roots g = .ok rs ∧
      dfsLoop g (2 * g.nodes.length + rs.length + 2) rs rs [] = .ok (v, o) ∧ DInv g rs v [] o ∧
      order = o ++ rem ∧
      rem = (g.nodes.map Prod.fst).filter (fun k => k ∉ v && !g.isPending k) := by
  unfold calcOrder at h
  cases hr : roots g with
  | error e => simp [hr] at h
  | ok rs =>
    rw [hr] at h
    simp only [bind_ok] at h
    cases hd : dfsLoop g (2 * g.nodes.length + rs.length + 2) rs rs [] with
    | error e => simp [hd] at h
    | ok p =>
      obtain ⟨v, o⟩ := p
      rw [hd] at h
      simp only [bind_ok, Except.ok.injEq, Prod.mk.injEq] at h
      obtain ⟨h1, h2⟩ := h
      refine ⟨rs, v, o, rfl, hd, dfsLoop_inv _ (dinv_start (roots_inv hr).2) hd, ?_, h2.symm⟩
      rw [← h1, ← h2]

/-- The walk of `get_deepest_output_node` when every node feeds at most one node: either it ends at a
visited node, or nothing downstream of the result is connected to a graph output. -/
theorem deepestLoop_last {g : Graph} (hn : (g.nodes.map Prod.fst).Nodup)
    (hf : ∀ a b c, Feeds g a b → Feeds g a c → b = c) (v : List Key)
    (hv : ∀ k ∈ v, OutNode g k) : ∀ (fuel : Nat) (last lastOut d : Key),
    deepestLoop g v fuel last lastOut = .ok d →
    (∀ x, TransGen (Feeds g) lastOut x → OutNode g x → TransGen (Feeds g) last x) →
    (OutNode g last → lastOut = last) →
    d ∈ v ∨ ∀ x, TransGen (Feeds g) d x → ¬ OutNode g x := by
  intro fuel
  induction fuel with
  | zero => intro last lastOut d h; simp [deepestLoop] at h
  | succ fuel ih =>
    intro last lastOut d h h1 h2
    rw [deepestLoop] at h
    split at h
    · next hm =>
      simp only [Except.ok.injEq] at h
      subst h
      left
      rw [h2 (hv _ hm)]
      exact hm
    · split at h
      · next hnone =>
        simp only [Except.ok.injEq] at h
        subst h
        right
        intro x hx hox
        obtain ⟨y, hy, -⟩ := TransGen.head'_iff.1 (h1 x hx hox)
        exact find_feeds_none hnone y hy
      · next p hp =>
        have hfe := find_feeds hn hp
        have hstep : ∀ x, TransGen (Feeds g) last x → OutNode g x → p.1 = x ∨ TransGen (Feeds g) p.1 x := by
          intro x hx _
          obtain ⟨y, hy, hyx⟩ := TransGen.head'_iff.1 hx
          have := hf last y p.1 hy hfe
          subst this
          rcases ReflTransGen.cases_head hyx with rfl | ⟨z, hz, hzx⟩
          · exact .inl rfl
          · exact .inr (TransGen.head'_iff.2 ⟨z, hz, hzx⟩)
        refine ih _ _ _ h ?_ ?_
        · intro x hx hox
          split at hx
          · exact hx
          · next hb =>
            rcases hstep x (h1 x hx hox) hox with rfl | h3
            · exact absurd (isOutNode_iff.2 hox) hb
            · exact h3
        · intro hox
          rw [if_pos (isOutNode_iff.2 hox)]

theorem rootsLoop_indep {g : Graph} (hn : (g.nodes.map Prod.fst).Nodup)
    (hf : ∀ a b c, Feeds g a b → Feeds g a c → b = c) : ∀ (ss rs rs' : List Key),
    rootsLoop g rs ss = .ok rs' → (∀ s ∈ ss, OutNode g s) → (∀ r ∈ rs, OutNode g r) →
    (∀ r ∈ rs, ∀ x, TransGen (Feeds g) r x → ¬ OutNode g x) →
    ∀ r ∈ rs', ∀ x, TransGen (Feeds g) r x → ¬ OutNode g x := by
  intro ss
  induction ss with
  | nil =>
    intro rs rs' h _ _ h3
    simp only [rootsLoop, Except.ok.injEq] at h
    exact h ▸ h3
  | cons s ss ih =>
    intro rs rs' h h1 h2 h3
    rw [rootsLoop] at h
    cases hd : deepest g rs s with
    | error e => simp [hd] at h
    | ok d =>
      rw [hd] at h
      simp only [bind_ok] at h
      have hout : OutNode g d := deepestLoop_out _ _ _ _ _ hd (h1 s (by simp))
      have hlast := deepestLoop_last hn hf rs h2 _ _ _ _ hd (fun _ hx _ => hx) (fun _ => rfl)
      have h1' : ∀ s ∈ ss, OutNode g s := fun x hx => h1 x (List.mem_cons_of_mem _ hx)
      split at h
      · exact ih _ _ h h1' h2 h3
      · next hm =>
        refine ih _ _ h h1' ?_ ?_
        · intro r hr
          rcases List.mem_cons.1 hr with rfl | hr
          · exact hout
          · exact h2 r hr
        · intro r hr
          rcases List.mem_cons.1 hr with rfl | hr
          · exact hlast.resolve_left hm
          · exact h3 r hr

end Verif.G
