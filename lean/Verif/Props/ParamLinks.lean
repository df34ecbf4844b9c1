import Verif.Props.GraphSignals
import Verif.Props.Commit
import Mathlib.Data.List.Perm.Basic

/-!
# C103: connecting to a parameter adds, replacing replaces, nothing else changes
-/

namespace Verif.Pl

open Verif.G

/-- The connections that drive a parameter of a node. -/
def drivers (g : Graph) (k : Key) (p : Nat) : List PEdge := ((g.pars k).getD []).filter fun e => e.param == p

/-- The signal that drives a parameter, if there is exactly one. -/
def driven {S : Type} (s : Signals S) (g : Graph) (k : Key) (p : Nat) : Option S :=
  match drivers g k p with
  | [e] => some (s.v e.source e.chan)
  | _ => none

theorem bind_inv {α β : Type} {x : R α} {f : α → R β} {c : β} (h : (x >>= f) = .ok c) : ∃ a, x = .ok a ∧ f a = .ok c := by
  cases x with
  | error e => simp at h
  | ok a => exact ⟨a, rfl, by simpa using h⟩

/-! ### At most one connection per parameter -/

/-- No parameter of the node has two connections. -/
def Single (n : NodeRec) : Prop := ∀ es, n.pars = some es → ∀ p, (es.filter fun e => e.param == p).length ≤ 1

theorem single_mod {g : Graph} {k} {f : NodeRec → NodeRec} (h : All Single g) (hf : ∀ n, Single n → Single (f n)) :
    All Single (g.modify k f) := by
  intro a n hn
  rw [get_modify] at hn
  split at hn
  · next e =>
    subst e
    cases h1 : g.get a with
    | none => simp [h1] at hn
    | some m =>
      simp only [h1, Option.map_some, Option.some.injEq] at hn
      subst hn
      exact hf m (h a m h1)
  · exact h a n hn

theorem single_setEdge {g g' : Graph} {k i e} (h : All Single g) (hs : setEdge g k i e = .ok g') : All Single g' := by
  obtain ⟨es, -, -, rfl⟩ := setEdge_ok hs
  exact single_mod h fun n hn => hn

theorem single_setOut {g g' : Graph} {i e} (h : All Single g) (hs : setOut g i e = .ok g') : All Single g' := by
  obtain ⟨-, rfl⟩ := setOut_ok hs
  exact h

theorem single_push {sl} {g : Graph} {n : NodeRec} (hw : WF g) (h : All Single g) : All Single (pushNode sl g n) := by
  intro a m hm
  rw [get_pushNode sl g _ a hw.fresh] at hm
  split at hm
  · simp only [Option.some.injEq] at hm
    subst hm
    intro es he p
    simp only [Option.some.injEq] at he
    subst he
    simp
  · exact h a m hm

theorem single_free1 {g : Graph} (h : All Single g) (k) : All Single (free1 g k) := by
  intro a n hn
  rw [get_free1] at hn
  split at hn
  · cases h1 : g.get k with
    | none => simp [h1] at hn
    | some m =>
      simp only [h1, Option.map_some, Option.some.injEq] at hn
      subst hn
      intro es he
      simp at he
  · cases h1 : g.get a with
    | none => simp [h1] at hn
    | some m => simp only [h1, Option.map_some, Option.some.injEq] at hn; subst hn; exact h a m h1

theorem single_bypass {g : Graph} (h : All Single g) (k e) : All Single (bypass g k e) := by
  intro a n hn
  rw [get_bypass] at hn
  cases h1 : g.get a with
  | none => simp [h1] at hn
  | some m => simp only [h1, Option.map_some, Option.some.injEq] at hn; subst hn; exact h a m h1

theorem single_tail {sl} {g g' : Graph} (hw : WF g) (h : All Single g) {source sink so si add fb}
    (he : connectTail sl g source sink so si add fb = .ok g') : All Single g' := by
  unfold connectTail at he
  split at he
  · exact single_setEdge h he
  · obtain ⟨o, -, he⟩ := bind_inv he
    cases o with
    | none => exact single_setEdge h he
    | some ex =>
      obtain ⟨g2, h2, he⟩ := bind_inv he
      obtain ⟨g3, h3, he⟩ := bind_inv he
      exact single_setEdge (single_setEdge (single_setEdge (single_push hw h) h2) h3) he

theorem single_newFeedback {sl} {g : Graph} (hw : WF g) (h : All Single g) : All Single (newFeedback sl g) := by
  unfold newFeedback
  exact single_push (wf_push hw (by simp)) (single_push hw h)

theorem single_connectToNode {sl} {g g' : Graph} (hw : WF g) (h : All Single g) {source sink so si add fb}
    (hs : ∀ a, source = .node a → a < g.nextKey) (he : connectToNode sl g source sink so si add fb = .ok g') :
    All Single g' := by
  have hw0 : WF { g with recalc := true } := hw.congr rfl rfl rfl rfl
  have h0 : All Single { g with recalc := true } := h
  unfold connectToNode at he
  dsimp only at he
  split at he
  · obtain ⟨g1, h1, he⟩ := bind_inv he
    refine single_tail (wf_setEdge (wf_newFeedback hw0) h1 ?_) (single_setEdge (single_newFeedback hw0 h0) h1) he
    intro ed a e1 e2
    simp only [Option.some.injEq] at e1
    subst e1
    have := hs a e2
    simp only [newFeedback_nextKey]
    exact Nat.lt_of_lt_of_le this (Nat.le_of_lt (Nat.lt_succ_of_lt (Nat.lt_succ_self _)))
  · exact single_tail hw0 h0 he

theorem single_connectToOut {sl} {g g' : Graph} (hw : WF g) (h : All Single g) {source so si add}
    (he : connectToOut sl g source so si add = .ok g') : All Single g' := by
  have hw0 : WF { g with recalc := true } := hw.congr rfl rfl rfl rfl
  have h0 : All Single { g with recalc := true } := h
  unfold connectToOut at he
  dsimp only at he
  split at he
  · exact single_setOut h0 he
  · obtain ⟨o, -, he⟩ := bind_inv he
    cases o with
    | none => exact single_setOut h0 he
    | some ex =>
      obtain ⟨g2, h2, he⟩ := bind_inv he
      obtain ⟨g3, h3, he⟩ := bind_inv he
      exact single_setOut (single_setEdge (single_setEdge (single_push hw0 h0) h2) h3) he

/-! ### `swap_remove` -/

theorem swapRemove_perm {α} (l : List α) (i : Nat) (hi : i < l.length) : (swapRemove l i).Perm (l.eraseIdx i) := by
  rcases List.eq_nil_or_concat l with rfl | ⟨l', x, rfl⟩
  · simp at hi
  · rw [List.concat_eq_append] at hi ⊢
    simp only [swapRemove, List.getLast?_append, List.getLast?_singleton, Option.some_or]
    by_cases h : i < l'.length
    · rw [List.set_append_left _ _ h, List.dropLast_concat, List.eraseIdx_append_of_lt_length h]
      exact (List.set_perm_cons_eraseIdx h x).trans (List.perm_append_singleton x _).symm
    · have : i = l'.length := by
        simp at hi
        omega
      subst this
      rw [List.set_append_right _ _ (Nat.le_refl _), List.eraseIdx_append_of_length_le (Nat.le_refl _)]
      simp

theorem position_spec {α} (q : α → Bool) : ∀ {l : List α} {i : Nat}, position q l = some i →
    ∃ a, l[i]? = some a ∧ q a = true
  | [], i, h => by simp [position] at h
  | a :: l, i, h => by
    simp only [position] at h
    split at h
    · next hq =>
      simp only [Option.some.injEq] at h
      subst h
      exact ⟨a, rfl, hq⟩
    · cases h1 : position q l with
      | none => simp [h1] at h
      | some j =>
        simp only [h1, Option.map_some, Option.some.injEq] at h
        subst h
        obtain ⟨b, h2, h3⟩ := position_spec q h1
        exact ⟨b, by simpa using h2, h3⟩

theorem position_none {α} (q : α → Bool) : ∀ {l : List α}, position q l = none → l.filter q = []
  | [], h => rfl
  | a :: l, h => by
    simp only [position] at h
    split at h
    · simp at h
    · next hq =>
      rw [List.filter_cons_of_neg hq]
      exact position_none q (by simpa using h)

/-- What is left after a connection was taken out. -/
theorem filter_swapRemove {es : List PEdge} {pos : Nat} {ex : PEdge} {idx : Nat} (hex : es[pos]? = some ex)
    (hp : ex.param = idx) (h1 : ∀ p, (es.filter fun e => e.param == p).length ≤ 1) :
    es.filter (fun e => e.param == idx) = [ex] ∧ (swapRemove es pos).filter (fun e => e.param == idx) = [] ∧
      ∀ p, p ≠ idx → ((swapRemove es pos).filter fun e => e.param == p).Perm (es.filter fun e => e.param == p) := by
  have hl : pos < es.length := (List.getElem?_eq_some_iff.1 hex).1
  have he : es[pos] = ex := (List.getElem?_eq_some_iff.1 hex).2
  have e1 : es = es.take pos ++ ex :: es.drop (pos + 1) := by
    rw [← he, ← List.drop_eq_getElem_cons hl, List.take_append_drop]
  have hperm := swapRemove_perm es pos hl
  rw [List.eraseIdx_eq_take_drop_succ] at hperm
  have h2 := h1 idx
  rw [e1, List.filter_append, List.filter_cons_of_pos (by simp [hp])] at h2
  simp only [List.length_append, List.length_cons] at h2
  have h3 : (es.take pos).filter (fun e => e.param == idx) = [] := List.length_eq_zero_iff.1 (by omega)
  have h4 : (es.drop (pos + 1)).filter (fun e => e.param == idx) = [] := List.length_eq_zero_iff.1 (by omega)
  refine ⟨?_, ?_, fun p hp' => ?_⟩
  · rw [e1, List.filter_append, List.filter_cons_of_pos (by simp [hp]), h3, h4]
    rfl
  · have := hperm.filter fun e => e.param == idx
    rw [List.filter_append, h3, h4] at this
    exact List.perm_nil.1 this
  · have := hperm.filter fun e => e.param == p
    rw [List.filter_append] at this
    refine this.trans (List.Perm.of_eq ?_)
    conv_rhs => rw [e1]
    rw [List.filter_append, List.filter_cons_of_neg (by simp [hp]; exact fun h => hp' h.symm)]

theorem eq_of_perm {α} {l m : List α} (h : l.Perm m) (hm : m.length ≤ 1) : l = m := by
  match m, hm with
  | [], _ => exact List.perm_nil.1 h
  | [a], _ => exact List.perm_singleton.1 h

/-! ### One connection -/

/-- The effect of connecting channel `so` of node `source` to parameter `idx` of node `k`. -/
structure Linked (g g' : Graph) (source : Key) (so : Nat) (k : Key) (idx : Nat) (add : Bool) : Prop where
  /-- the parameter follows the new signal, added to the old one if there was one and adding was asked for -/
  here : ∀ {S : Type} [AddZeroClass S] (s : Signals S), SumsOk g' s →
    driven s g' k idx = some ((if add then (driven s g k idx).getD 0 else 0) + s.v source so)
  /-- it has one connection -/
  one : (drivers g' k idx).length = 1
  /-- every other parameter keeps its connections -/
  other : ∀ j q, j < g.nextKey → (j ≠ k ∨ q ≠ idx) → drivers g' j q = drivers g j q
  /-- new nodes have none -/
  new : ∀ j q, g.nextKey ≤ j → drivers g' j q = []
  /-- every input keeps its connection -/
  inputs : ∀ j i, j < g.nextKey → g'.edge j i = g.edge j i
  /-- so does every graph output -/
  outs : ∀ i, g'.out i = g.out i
  /-- nothing is asked of the signals that was not asked before, except of new nodes -/
  back : ∀ {S : Type} [AddZeroClass S] (s : Signals S), SumsOk g' s → SumsOk g s
  /-- signals of the graph before stay possible, without changing the output of any existing node -/
  extend : ∀ {S : Type} [AddZeroClass S] (s : Signals S), SumsOk g s →
    ∃ s' : Signals S, SumsOk g' s' ∧ (∀ k, k < g.nextKey → s'.v k = s.v k) ∧ s'.gin = s.gin

theorem get_mod_auto {g : Graph} {k} {f : NodeRec → NodeRec} (hf : ∀ n, (f n).autoMath = n.autoMath) (a : Key) :
    ((g.modify k f).get a).map (·.autoMath) = (g.get a).map (·.autoMath) := by
  rw [get_modify]
  split
  · next e => subst e; cases g.get a <;> simp [hf]
  · rfl

theorem edge_mod {g : Graph} {k} {f : NodeRec → NodeRec} (hf : ∀ n, (f n).ins = n.ins) (j i) :
    (g.modify k f).edge j i = g.edge j i := by
  rw [edge_eq, edge_eq, ins_eq, ins_eq, get_modify]
  split
  · next e => subst e; cases g.get j <;> simp [hf]
  · rfl

theorem pars_mod (g : Graph) (k) (f : NodeRec → NodeRec) (j) :
    (g.modify k f).pars j = if j = k then (g.get k).bind (fun n => (f n).pars) else g.pars j := by
  rw [pars_eq, get_modify]
  split
  · next e => subst e; cases g.get j <;> simp
  · rfl

/-- The equations only depend on which nodes are math nodes and on the connections. -/
theorem sums_mod {S : Type} [AddZeroClass S] {g : Graph} {k} {f : NodeRec → NodeRec}
    (hm : ∀ n, (f n).autoMath = n.autoMath) (hf : ∀ n, (f n).ins = n.ins) (s : Signals S) :
    SumsOk (g.modify k f) s ↔ SumsOk g s := by
  constructor
  · intro h a n hn ha hp
    have := get_mod_auto (g := g) (k := k) hm a
    rw [hn] at this
    cases hg : (g.modify k f).get a with
    | none => simp [hg] at this
    | some n' =>
      simp only [hg, Option.map_some, Option.some.injEq] at this
      have := h a n' hg (this.trans ha) hp
      rwa [edge_mod hf, edge_mod hf] at this
  · intro h a n hn ha hp
    have := get_mod_auto (g := g) (k := k) hm a
    rw [hn] at this
    cases hg : g.get a with
    | none => simp [hg] at this
    | some n' =>
      simp only [hg, Option.map_some, Option.some.injEq] at this
      rw [edge_mod hf, edge_mod hf]
      exact h a n' hg (this.symm.trans ha) hp

/-- The equations of a graph with one more math node. -/
theorem sums_add {S : Type} [AddZeroClass S] {sl} {g g2 g3 : Graph} (hw : WF g) {e0 e1 : Option Edge}
    (h2 : setEdge (newAdd sl g) g.nextKey 0 e0 = .ok g2) (h3 : setEdge g2 g.nextKey 1 e1 = .ok g3) (s : Signals S) :
    SumsOk g3 s ↔ SumsOk g s ∧ s.v g.nextKey 0 = s.at e0 + s.at e1 := by
  obtain ⟨-, i2, -, -, -, i6⟩ := noDangle_add hw h2 h3
  obtain ⟨⟨n0, j1, j2⟩, j3⟩ := add_auto hw h2 h3
  have hpen : ∀ a, g3.isPending a = g.isPending a := by intro a; rw [isPending_eq, i2]; rfl
  have hfr : g.isPending g.nextKey = false := by
    cases hh : g.isPending g.nextKey with
    | false => rfl
    | true =>
      have := hw.pend _ hh
      rw [hw.fresh] at this
      simp at this
  constructor
  · intro h
    constructor
    · intro a n hn ha hp
      have hne : a ≠ g.nextKey := by
        intro e
        rw [e, hw.fresh] at hn
        simp at hn
      have k0 : (newAdd sl g).get a = some n := by
        unfold newAdd
        rw [get_pushNode sl g _ _ hw.fresh, if_neg hne]
        exact hn
      obtain ⟨n1, k1, k2⟩ := get_auto_setEdge h2 _ _ k0
      obtain ⟨n2, k3, k4⟩ := get_auto_setEdge h3 _ _ k1
      have := h a n2 k3 (by rw [k4, k2, ha]) (by rw [hpen]; exact hp)
      rwa [i6, i6, if_neg (fun c => hne c.1), if_neg (fun c => hne c.1), if_neg (fun c => hne c.1),
        if_neg (fun c => hne c.1)] at this
    · have := h g.nextKey n0 j1 j2 (by rw [hpen]; exact hfr)
      rw [i6, i6, if_neg (by simp), if_pos ⟨rfl, rfl⟩, if_pos ⟨rfl, rfl⟩] at this
      exact this
  · rintro ⟨h, hv⟩ a n hn ha hp
    rcases j3 a n hn with rfl | ⟨m, hm, he⟩
    · rw [i6, i6, if_neg (by simp), if_pos ⟨rfl, rfl⟩, if_pos ⟨rfl, rfl⟩]
      exact hv
    · have hne : a ≠ g.nextKey := by
        intro e
        rw [e, hw.fresh] at hm
        simp at hm
      rw [i6, i6, if_neg (fun c => hne c.1), if_neg (fun c => hne c.1), if_neg (fun c => hne c.1),
        if_neg (fun c => hne c.1)]
      exact h a m hm (by rw [← he, ha]) (by rw [← hpen]; exact hp)

theorem drivers_of {g : Graph} {k es} (h : g.pars k = some es) (p) :
    drivers g k p = es.filter fun e => e.param == p := by
  simp [drivers, h]

theorem driven_of {S : Type} {s : Signals S} {g : Graph} {k p e} (h : drivers g k p = [e]) :
    driven s g k p = some (s.v e.source e.chan) := by
  simp [driven, h]

theorem new_none {g : Graph} (hw : WF g) {j} (hj : g.nextKey ≤ j) : g.pars j = none := by
  cases hg : g.get j with
  | none => simp [pars_eq, hg]
  | some n => exact absurd (hw.lt _ _ hg) (Nat.not_lt.2 hj)

/-- C103 for one connection to a parameter. -/
theorem linked {sl} {g g' : Graph} {source so p sink add} (hw : WF g) (ha : All Single g)
    (h : connectParam sl g source so p sink add = .ok (g', .ok ())) :
    ∃ nk idx, g.get sink.key = some nk ∧ paramIndex nk p = some idx ∧
      Linked g g' source.key so sink.key idx add := by
  rcases connectParam_ok h with ⟨-, e, he⟩ | ⟨-, ns, nk, idx, es, hns, hso, hnk, hidx, hes, h⟩
  · simp at he
  refine ⟨nk, idx, hnk, hidx, ?_⟩
  have hS := ha _ _ hnk es hes
  have hp : g.pars sink.key = some es := by simp [pars_eq, hnk, hes]
  have hlt := hw.lt _ _ hnk
  -- a connection without a math node
  have plain : ∀ es' : List PEdge, es'.filter (fun e => e.param == idx) = [⟨source.key, so, idx⟩] →
      (∀ q, q ≠ idx → es'.filter (fun e => e.param == q) = es.filter fun e => e.param == q) →
      (add = false ∨ es.filter (fun e => e.param == idx) = []) →
      Linked g (g.modify sink.key fun n => { n with pars := some es' }) source.key so sink.key idx add := by
    intro es' f1 f2 f3
    have hp' : (g.modify sink.key fun n => { n with pars := some es' }).pars sink.key = some es' := by
      rw [pars_mod, if_pos rfl, hnk]
      rfl
    have hd := drivers_of hp' idx
    rw [f1] at hd
    refine ⟨?_, ?_, ?_, ?_, ?_, ?_, ?_, ?_⟩
    · intro S _ s hs
      rw [driven_of hd]
      rcases f3 with rfl | f3
      · simp
      · have : driven s g sink.key idx = none := by simp [driven, drivers_of hp, f3]
        simp [this]
    · rw [hd]
      rfl
    · intro j q hj hjq
      by_cases hk : j = sink.key
      · subst hk
        rw [drivers_of hp', drivers_of hp]
        exact f2 q (hjq.resolve_left (fun c => c rfl))
      · rw [drivers, drivers, pars_mod, if_neg hk]
    · intro j q hj
      rw [drivers, pars_mod, if_neg (fun e : j = sink.key => absurd hlt (Nat.not_lt.2 (e ▸ hj))), new_none hw hj]
      rfl
    · intro j i _
      exact edge_mod (by intro _; rfl) j i
    · intro i
      rfl
    · intro S _ s hs
      exact (sums_mod (by intro _; rfl) (by intro _; rfl) s).1 hs
    · intro S _ s hs
      exact ⟨s, (sums_mod (by intro _; rfl) (by intro _; rfl) s).2 hs, fun _ _ => rfl, rfl⟩
  rcases h with ⟨rfl, rfl⟩ | ⟨rfl, hnone, rfl⟩ | ⟨rfl, pos, ex, g2, g3, hpos, hex, h2, h3, rfl⟩
  · refine plain _ ?_ ?_ (.inl rfl)
    · simp [List.filter_filter]
    · intro q hq
      have e1 : ([⟨source.key, so, idx⟩] : List PEdge).filter (fun e => e.param == q) = [] := by
        simp [Ne.symm hq]
      rw [List.filter_append, e1, List.append_nil, List.filter_filter]
      refine List.filter_congr fun e _ => ?_
      by_cases h : e.param = q
      · simp [h, hq]
      · simp [h]
  · refine plain _ ?_ ?_ (.inr (position_none _ hnone))
    · rw [List.filter_append, position_none _ hnone]
      simp
    · intro q hq
      have e1 : ([⟨source.key, so, idx⟩] : List PEdge).filter (fun e => e.param == q) = [] := by
        simp [Ne.symm hq]
      rw [List.filter_append, e1, List.append_nil]
  · obtain ⟨ex', hex', hq'⟩ := position_spec _ hpos
    rw [hex] at hex'
    cases hex'
    obtain ⟨f1, f2, f3⟩ := filter_swapRemove hex (by simpa using hq') hS
    set gm := g.modify sink.key fun n => { n with pars := some (swapRemove es pos) } with hgm
    have w1 : WF gm := by
      refine wf_modify hw _ (fun _ => rfl) (fun _ => ⟨rfl, rfl, rfl⟩) ?_ ?_
      · intro n hn; rw [hnk] at hn; simp only [Option.some.injEq] at hn; subst hn; simp [hes]
      · intro n es' pe _ h1 h2
        simp only [Option.some.injEq] at h1
        subst h1
        exact hw.parLt _ _ _ hp (mem_swapRemove h2)
    have hnx : gm.nextKey = g.nextKey := rfl
    have h2' : setEdge (newAdd sl gm) gm.nextKey 0 (some ⟨.node ex.source, ex.chan, false⟩) = .ok g2 := h2
    have h3' : setEdge g2 gm.nextKey 1 (some ⟨.node source.key, so, false⟩) = .ok g3 := h3
    obtain ⟨-, -, i3, -, -, i6⟩ := noDangle_add w1 h2' h3'
    -- the parameter connections of the graph with the math node
    have hpar : ∀ b, g3.pars b = if b = g.nextKey then some [] else
        if b = sink.key then some (swapRemove es pos) else g.pars b := by
      intro b
      have e1 : ∀ {g g' : Graph} {k i e}, setEdge g k i e = .ok g' → g'.pars b = g.pars b := by
        intro g g' k i e h
        obtain ⟨es, -, -, rfl⟩ := setEdge_ok h
        rw [pars_mod, pars_eq]
        split
        · next e => subst e; rfl
        · rfl
      rw [e1 h3, e1 h2]
      unfold newAdd
      rw [pars_eq, get_pushNode sl gm _ _ w1.fresh, hnx]
      split
      · rfl
      · rw [← pars_eq, hgm, pars_mod, hnk]
        rfl
    set g' := g3.modify sink.key fun n => { n with pars := n.pars.map (· ++ [⟨g.nextKey, 0, idx⟩]) } with hg'
    have hpar' : ∀ b, g'.pars b = if b = sink.key then some (swapRemove es pos ++ [⟨g.nextKey, 0, idx⟩]) else g3.pars b := by
      intro b
      rw [hg', pars_mod]
      split
      · have := hpar sink.key
        rw [if_neg (Nat.ne_of_lt hlt), if_pos rfl, pars_eq] at this
        cases hx : g3.get sink.key with
        | none => simp [hx] at this
        | some n =>
          simp only [hx, Option.bind_some] at this
          simp [this]
      · rfl
    have hp' : g'.pars sink.key = some (swapRemove es pos ++ [⟨g.nextKey, 0, idx⟩]) := by
      rw [hpar', if_pos rfl]
    have hd : drivers g' sink.key idx = [⟨g.nextKey, 0, idx⟩] := by
      rw [drivers_of hp', List.filter_append, f2]
      simp
    have hsum : ∀ {S : Type} [AddZeroClass S] (s : Signals S), SumsOk g' s ↔
        SumsOk g s ∧ s.v g.nextKey 0 = s.v ex.source ex.chan + s.v source.key so := by
      intro S _ s
      rw [hg', sums_mod (by intro _; rfl) (by intro _; rfl), sums_add w1 h2' h3', hgm,
        sums_mod (by intro _; rfl) (by intro _; rfl)]
      rfl
    refine ⟨?_, ?_, ?_, ?_, ?_, ?_, ?_, ?_⟩
    · intro S _ s hs
      rw [driven_of hd, driven_of ((drivers_of hp idx).trans f1)]
      simp only [if_true, Option.getD_some]
      exact congrArg some ((hsum s).1 hs).2
    · rw [hd]
      rfl
    · intro j q hj hjq
      by_cases hk : j = sink.key
      · subst hk
        have hq := hjq.resolve_left (fun c => c rfl)
        have e1 : ([⟨g.nextKey, 0, idx⟩] : List PEdge).filter (fun e => e.param == q) = [] := by
          simp [Ne.symm hq]
        rw [drivers_of hp', drivers_of hp, List.filter_append, e1, List.append_nil]
        exact eq_of_perm (f3 q hq) (hS q)
      · rw [drivers, drivers, hpar', if_neg hk, hpar, if_neg (Nat.ne_of_lt hj), if_neg hk]
    · intro j q hj
      have hk : j ≠ sink.key := fun e => absurd hlt (Nat.not_lt.2 (e ▸ hj))
      rw [drivers, hpar', if_neg hk, hpar]
      split
      · rfl
      · simp [new_none hw hj]
    · intro j i hj
      rw [hg', edge_mod (by intro _; rfl), i6, if_neg (fun c => absurd c.1 (Nat.ne_of_lt hj)),
        if_neg (fun c => absurd c.1 (Nat.ne_of_lt hj)), hgm, edge_mod (by intro _; rfl)]
    · intro i
      show g3.out i = g.out i
      simp only [Graph.out, i3]
      rfl
    · intro S _ s hs
      exact ((hsum s).1 hs).1
    · intro S _ s hs
      have hex' : ex.source < g.nextKey := hw.parLt _ _ _ hp (List.mem_of_getElem? hex)
      have hsrc := hw.lt _ _ hns
      let s' : Signals S := ⟨fun k c => if k = g.nextKey then s.v ex.source ex.chan + s.v source.key so else s.v k c, s.gin⟩
      have hv : ∀ k, k < g.nextKey → s'.v k = s.v k := by
        intro k hk
        funext c
        exact if_neg (Nat.ne_of_lt hk)
      refine ⟨s', (hsum s').2 ⟨?_, ?_⟩, hv, rfl⟩
      · intro a n hn hm hpe
        have hat : ∀ i, s'.at (g.edge a i) = s.at (g.edge a i) := by
          intro i
          cases hc : g.edge a i with
          | none => rfl
          | some e =>
            simp only [Signals.at]
            cases hcs : e.source with
            | graph => rfl
            | node b =>
              simp only [Signals.src]
              rw [hv b (hw.srcLt a i e b hc hcs)]
        rw [hv a (hw.lt _ _ hn), hat, hat]
        exact hs a n hn hm hpe
      · rw [hv _ hex', hv _ hsrc]
        exact if_pos rfl

theorem single_iff (g : Graph) : All Single g ↔ ∀ k q, (drivers g k q).length ≤ 1 := by
  constructor
  · intro h k q
    unfold drivers
    cases hg : g.get k with
    | none => simp [pars_eq, hg]
    | some n =>
      cases hp : n.pars with
      | none => simp [pars_eq, hg, hp]
      | some es =>
        simp only [pars_eq, hg, Option.bind_some, hp, Option.getD_some]
        exact h k n hg es hp q
  · intro h k n hg es hp q
    have := h k q
    rwa [drivers_of (es := es) (by simp [pars_eq, hg, hp])] at this

theorem single_param {sl} {g g' : Graph} {source so p sink add r} (hw : WF g) (ha : All Single g)
    (h : connectParam sl g source so p sink add = .ok (g', r)) : All Single g' := by
  cases r with
  | error e =>
    rcases connectParam_ok h with ⟨rfl, -⟩ | ⟨h, -⟩
    · exact ha
    · simp at h
  | ok u =>
    obtain ⟨nk, idx, hnk, -, hl⟩ := linked hw ha h
    rw [single_iff] at ha ⊢
    intro k q
    by_cases hk : k < g.nextKey
    · by_cases hq : k ≠ sink.key ∨ q ≠ idx
      · rw [hl.other k q hk hq]
        exact ha k q
      · rw [not_or, not_not, not_not] at hq
        rw [hq.1, hq.2, hl.one]
        exact Nat.le_refl 1
    · rw [hl.new k q (Nat.not_lt.1 hk)]
      simp

theorem single_step {sl} {g g' : Graph} {op : Op} {r} (hg : WF g) (ha : All Single g)
    (h : op.run sl g = .ok (g', r)) : All Single g' := by
  have hF : ∀ g k n, All Single g → g.get k = some n → n.mortal = true →
      g.isPending k = false → All Single (free1 g k) := fun g k _ h _ _ _ => single_free1 h k
  have hB : ∀ g k n e, All Single g → g.get k = some n → n.autoMath = true →
      ((g.edge k 0 = none ∧ g.edge k 1 = some e) ∨ (g.edge k 0 = some e ∧ g.edge k 1 = none)) →
      All Single (bypass g k e) := fun g k _ e h _ _ _ => single_bypass h k e
  have hO : ∀ g g' i, All Single g → setOut g i none = .ok g' → All Single g' := fun g g' i h hs => single_setOut h hs
  have hE : ∀ g g' k i, All Single g → setEdge g k i none = .ok g' → All Single g' :=
    fun g g' k i h hs => single_setEdge h hs
  have hD : ∀ g s c, All Single g → All Single (dropAll g s c) := by
    intro g s c h a n hn
    rw [dropAll_get] at hn
    cases h1 : g.get a with
    | none => simp [h1] at hn
    | some m => simp only [h1, Option.map_some, Option.some.injEq] at hn; subst hn; exact h a m h1
  cases op with
  | push i o d =>
    simp only [Op.run, Except.ok.injEq, Prod.mk.injEq] at h
    rw [← h.1]
    exact single_push hg ha
  | connect s so si k a f =>
    simp only [Op.run, connect2] at h
    split at h
    · rcases connectInputToNode_ok h with ⟨rfl, -⟩ | ⟨-, nk, hso, hk, -, h1⟩
      · exact ha
      · exact single_connectToNode hg ha (by simp) h1
    · rcases connectNodes_ok h with ⟨rfl, -⟩ | ⟨-, ns, nk, hns, hso, hk, -, -, h1⟩
      · exact ha
      · refine single_connectToNode hg ha ?_ h1
        intro a e
        simp only [Src.node.injEq] at e
        subst e
        exact hg.lt _ _ hns
    · rcases connectNodeToOutput_ok h with ⟨rfl, -⟩ | ⟨-, ns, hns, hso, -, h1⟩
      · exact ha
      · exact single_connectToOut hg ha h1
    · rcases connectInputToOutput_ok h with ⟨rfl, -⟩ | ⟨-, hso, -, h1⟩
      · exact ha
      · exact single_connectToOut hg ha h1
  | param s so p k a => exact single_param hg ha h
  | disconnectSource s c =>
    rcases disconnectSource_ok h with ⟨rfl, -⟩ | ⟨-, ⟨n, rec, -, -, -, -, rfl⟩ | ⟨g1, -, -, h1, -, rfl⟩⟩
    · exact ha
    · exact hD _ _ _ ha
    · exact hD _ _ _ (takeOut_ind hF hB hO ha h1)
  | disconnectSink c k =>
    rcases disconnectSink_ok h with ⟨rfl, -⟩ |
      ⟨-, ⟨n, rec, es, g1, -, -, -, -, -, h1, rfl⟩ | ⟨-, -, h1⟩⟩
    · exact ha
    · exact (takeIn_ind hF hB hE ha h1 : All Single g1)
    · exact takeOut_ind hF hB hO ha h1
  | free n =>
    simp only [Op.run, editFree] at h
    split at h
    · simp only [Except.ok.injEq, Prod.mk.injEq] at h; exact h.1 ▸ ha
    · simp only [Except.ok.injEq] at h
      have : g' = (freeNode g n.key).1 := by rw [h]
      rw [this]
      exact freeNode_ind hF _ _ ha
  | mortality n m st =>
    simp only [Op.run, Except.ok.injEq] at h
    have hg' : g' = (setMortality g n m st).1 := by rw [h]
    rw [hg']
    unfold setMortality
    split
    · exact ha
    · exact single_mod ha fun n hn => hn
  | commit rm fs =>
    simp only [Op.run] at h
    cases h1 : commitEdits rm fs g with
    | error e => simp [h1] at h
    | ok g1 =>
      simp only [h1, bind_ok, Except.ok.injEq, Prod.mk.injEq] at h
      rw [← h.1]
      unfold commitEdits at h1
      cases h2 : freeOld rm fs g with
      | error e => simp [h2] at h1
      | ok g2 =>
        have hac2 : All Single g2 := by
          obtain ⟨g3, h3, rfl⟩ := freeOld_ok h2
          have hn3 := evalMany_ind hF hB _ (freeMany_ind hF _ _ ha) h3
          intro a n hn
          rw [get_dropFlagged] at hn
          split at hn
          · simp at hn
          · exact hn3 a n hn
        simp only [h2, bind_ok, pure_ok, Except.ok.injEq] at h1
        split at h1 <;> subst h1 <;> exact hac2

theorem reach_single {sl} {g : Graph} (h : Reach sl g) : All Single g := by
  induction h with
  | init a b c => intro k n hn; simp [Graph.init, get_eq] at hn
  | step op hr hs ih => exact single_step hr.wf ih hs

/-- C103, one connection each: in every history no parameter is driven by two connections. -/
theorem C103_single {sl} {g : Graph} (h : Reach sl g) (k : Key) (p : Nat) : (drivers g k p).length ≤ 1 :=
  (single_iff g).1 (reach_single h) k p

/-- C103, one call: connecting a node to a parameter adds its signal to what drives the parameter, or replaces it;
every other parameter, every input and every graph output keep what they had. -/
theorem C103_connect {sl} {g g' : Graph} (hr : Reach sl g) (source so p sink add)
    (h : (Op.param source so p sink add).run sl g = .ok (g', .ok ())) :
    ∃ nk idx, g.get sink.key = some nk ∧ paramIndex nk p = some idx ∧
      Linked g g' source.key so sink.key idx add :=
  linked hr.wf (reach_single hr) h

/-- C103, names: a parameter named by its description is the one at the position of the description. -/
theorem C103_name {sl} (g : Graph) (source so sink add) {nk : NodeRec} (hk : g.get sink.key = some nk) (d i : Nat)
    (hd : position (· == d) nk.descs = some i) :
    (Op.param source so (.desc d) sink add).run sl g = (Op.param source so (.index i) sink add).run sl g := by
  simp only [Op.run, connectParam, hk, hd, Option.map_some]

/-- C103, several calls: sources connected to one parameter one after the other are added from left to right to what
drove the parameter before. -/
theorem C103_sum {sl} (sink : NodeId) {i : Nat} (hi : i < 65536) : ∀ (l : List (NodeId × Nat)) {g g' : Graph} {rs},
    Reach sl g → l ≠ [] → runOps sl g (l.map fun c => .param c.1 c.2 (.index i) sink true) = .ok (g', rs) →
    (∀ r ∈ rs, r = .ok ()) → ∀ {S : Type} [AddZeroClass S] (s : Signals S), SumsOk g' s → SumsOk g s ∧
      driven s g' sink.key i =
        some ((l.map fun c => s.v c.1.key c.2).foldl (· + ·) ((driven s g sink.key i).getD 0))
  | [], g, g', rs, hr, hne, h, hok, S, _, s, hs => absurd rfl hne
  | c :: l, g, g', rs, hr, hne, h, hok, S, _, s, hs => by
    simp only [List.map_cons, runOps] at h
    split at h
    · simp at h
    next g1 r h1 =>
    split at h
    · simp at h
    next g2 rs1 h2 =>
    simp only [Except.ok.injEq, Prod.mk.injEq] at h
    obtain ⟨rfl, rfl⟩ := h
    have hr0 : r = .ok () := hok r (by simp)
    subst hr0
    obtain ⟨nk, idx, -, hidx, hl⟩ := C103_connect hr _ _ _ _ _ h1
    simp only [paramIndex, Option.some.injEq, Nat.mod_eq_of_lt hi] at hidx
    subst hidx
    cases l with
    | nil =>
      simp only [List.map_nil, runOps, Except.ok.injEq, Prod.mk.injEq] at h2
      obtain ⟨rfl, -⟩ := h2
      exact ⟨hl.back s hs, by simpa using hl.here s hs⟩
    | cons c' l =>
      obtain ⟨k1, k2⟩ := C103_sum sink hi (c' :: l) (hr.step _ h1) (by simp) h2 (fun r hm => hok r (by simp [hm])) s hs
      refine ⟨hl.back s k1, ?_⟩
      rw [k2, hl.here s k1]
      simp

/-! ### What is wrong -/

/-- C103 violated, disconnecting: disconnecting an output of a node never disconnects it from a parameter. -/
theorem C103_disconnect_violated {sl} {g g' : Graph} {n : NodeId} {c : Nat}
    (h : (Op.disconnectSource (.node n) c).run sl g = .ok (g', .ok ())) (k : Key) (p : Nat) :
    drivers g' k p = drivers g k p := by
  simp only [Op.run] at h
  rcases disconnectSource_ok h with ⟨-, e, he⟩ | ⟨-, ⟨m, rec, -, -, -, -, rfl⟩ | ⟨g1, hh, -⟩⟩
  · simp at he
  · unfold drivers
    rw [pars_eq, pars_eq, dropAll_get]
    cases g.get k <;> rfl
  · simp at hh

/-- Two generators that are added to drive the parameter of a third, which is heard. -/
def build : List Op := [.push 0 1 [], .push 0 1 [], .push 0 1 [5], .connect (.node (nd 2)) 0 0 .graph true false,
  .param (nd 0) 0 (.index 0) (nd 2) true, .param (nd 1) 0 (.desc 5) (nd 2) true]

/-- C103 violated, sums: of two sources added to drive a parameter one is disconnected; the next commit panics, because
the math node is freed without passing the other source on to the parameter. -/
theorem C103_sum_violated : ∃ g g' : Graph, Reach id g ∧ drivers g 2 0 = [⟨3, 0, 0⟩] ∧
    (∀ {S : Type} [AddZeroClass S] (s : Signals S), SumsOk g s → driven s g 2 0 = some (s.v 0 0 + s.v 1 0)) ∧
    (∃ x, commitFull (fun _ => false) (fun _ => false) true 4 g (.init 4) = .ok x) ∧
    (Op.disconnectSource (.node (nd 0)) 0).run id g = .ok (g', .ok ()) ∧
    (∀ {S : Type} [AddZeroClass S] (s : Signals S), SumsOk g' s → driven s g' 2 0 = some (s.v 1 0)) ∧
    ∀ room, commitFull (fun _ => false) (fun _ => false) room 4 g' (.init 4) = .error .index := by
  refine ⟨_, _, reach_runOps build (Reach.init 0 0 1) (rs := [.ok (), .ok (), .ok (), .ok (), .ok (), .ok ()]) rfl,
    by decide, ?_, ⟨_, rfl⟩, rfl, ?_, fun room => eq_error ?_⟩
  · intro S _ s hs
    rw [driven_of (e := ⟨3, 0, 0⟩) (by decide)]
    exact congrArg some (hs 3 _ rfl rfl rfl)
  · intro S _ s hs
    rw [driven_of (e := ⟨3, 0, 0⟩) (by decide)]
    have : s.v 3 0 = 0 + s.v 1 0 := hs 3 _ rfl rfl rfl
    rw [zero_add] at this
    exact congrArg some this
  · cases room <;> decide

/-- C103 violated, indices: an index past the last parameter is accepted, and one that is larger by 65536 drives the
parameter instead of being refused. -/
theorem C103_index_violated : ∃ g g1 g2 : Graph, Reach id g ∧ (g.get 1).map (·.descs.length) = some 1 ∧
    (Op.param (nd 0) 0 (.index 7) (nd 1) true).run id g = .ok (g1, .ok ()) ∧ drivers g1 1 7 = [⟨0, 0, 7⟩] ∧
    (Op.param (nd 0) 0 (.index 65536) (nd 1) true).run id g = .ok (g2, .ok ()) ∧ drivers g2 1 0 = [⟨0, 0, 0⟩] :=
  ⟨_, _, _, reach_runOps [.push 0 1 [], .push 0 1 [5]] (Reach.init 0 0 1) (rs := [.ok (), .ok ()]) rfl, by decide, rfl,
    by decide, rfl, by decide⟩

/-- The hypotheses of `C103_connect` and `C103_sum` hold for a graph in which the parameter is already driven. -/
example : ∃ g g' rs, Reach id g ∧ drivers g 2 0 = [⟨3, 0, 0⟩] ∧
    runOps id g ([(nd 1, 0), (nd 1, 0)].map fun c => .param c.1 c.2 (.index 0) (nd 2) true) = .ok (g', rs) ∧
    (∀ r ∈ rs, r = .ok ()) ∧ drivers g' 2 0 = [⟨5, 0, 0⟩] ∧
    position (· == 5) [5] = some 0 ∧ ∃ s : Signals Int, SumsOk g s ∧ driven s g 2 0 = some 3 := by
  have hr := reach_runOps (sl := id) build (Reach.init 0 0 1) (rs := [.ok (), .ok (), .ok (), .ok (), .ok (), .ok ()]) rfl
  refine ⟨_, _, [.ok (), .ok ()], hr, by decide, rfl, by simp, by decide, by decide,
    ⟨fun k _ => if k = 3 then 3 else k + 1, fun _ => 0⟩, ?_, ?_⟩
  · intro k n hn hm _
    rcases k with _ | _ | _ | _ | k
    · exfalso; revert hm; cases hn; decide
    · exfalso; revert hm; cases hn; decide
    · exfalso; revert hm; cases hn; decide
    · rfl
    · exact absurd (hr.wf.lt _ _ hn) (Nat.not_lt.2 (Nat.le_add_left 4 k))
  · rw [driven_of (e := ⟨3, 0, 0⟩) (by decide)]
    rfl

end Verif.Pl
