import Verif.Model.Inspect
import Verif.Lemmas.System

/-!
# Lemmas for the inspection: how edits change the set of nodes
-/

namespace Verif.In

open Verif.G
open Verif.Sys (bind_inv live_dropFlagged)

/-- What every edit keeps: the flag, the nodes, and, unless a new schedule is asked for, the set of nodes
and of freed nodes. -/
structure Kp (g g' : Graph) : Prop where
  flag : g'.flag = g.flag
  keys : ∀ k ∈ g.nodes.map Prod.fst, k ∈ g'.nodes.map Prod.fst
  pend : ∀ p ∈ g'.pending, p ∈ g.pending ∨ p.2 = g.flag
  ask : g.recalc = true → g'.recalc = true
  quiet : g'.recalc = false → g'.nodes.map Prod.fst = g.nodes.map Prod.fst ∧ g'.pending = g.pending

theorem Kp.refl (g : Graph) : Kp g g := ⟨rfl, fun _ h => h, fun _ h => .inl h, fun h => h, fun _ => ⟨rfl, rfl⟩⟩

theorem Kp.trans {g g' g'' : Graph} (h : Kp g g') (h' : Kp g' g'') : Kp g g'' where
  flag := h'.flag.trans h.flag
  keys k hk := h'.keys k (h.keys k hk)
  pend p hp := by
    rcases h'.pend p hp with h1 | h1
    · exact h.pend p h1
    · exact .inr (h1.trans h.flag)
  ask hr := h'.ask (h.ask hr)
  quiet hr := by
    have h1 : g'.recalc = false := by
      cases hg : g'.recalc with
      | false => rfl
      | true => rw [h'.ask hg] at hr; simp at hr
    exact ⟨(h'.quiet hr).1.trans (h.quiet h1).1, (h'.quiet hr).2.trans (h.quiet h1).2⟩

theorem kp_same {g g' : Graph} (h1 : g'.nodes.map Prod.fst = g.nodes.map Prod.fst) (h2 : g'.pending = g.pending)
    (h3 : g'.flag = g.flag) (h4 : g.recalc = true → g'.recalc = true) : Kp g g' :=
  ⟨h3, fun k hk => by rw [h1]; exact hk, fun p hp => .inl (h2 ▸ hp), h4, fun _ => ⟨h1, h2⟩⟩

theorem kp_modify (g : Graph) (k : Key) (f : NodeRec → NodeRec) : Kp g (g.modify k f) :=
  kp_same (keys_modify g k f) rfl rfl (fun h => h)

theorem kp_recalc (g : Graph) : Kp g { g with recalc := true } := kp_same rfl rfl rfl (fun _ => rfl)

theorem kp_free1 (g : Graph) (k : Key) : Kp g (free1 g k) where
  flag := rfl
  keys j hj := by rw [free1_keys]; exact hj
  pend p hp := by
    rw [free1_pending] at hp
    rcases List.mem_append.1 hp with h | h
    · exact .inl h
    · exact .inr (by rw [List.mem_singleton.1 h])
  ask _ := rfl
  quiet h := by simp at h

theorem kp_bypass (g : Graph) (k : Key) (e : Edge) : Kp g (bypass g k e) :=
  kp_same (bypass_keys g k e) rfl rfl (fun h => h)

theorem kp_push (sl) (g : Graph) (n : NodeRec) : Kp g (pushNode sl g n) where
  flag := rfl
  keys j hj := by
    have : j ∈ (g.nodes.take (sl g.nextKey)).map Prod.fst ∨ j ∈ (g.nodes.drop (sl g.nextKey)).map Prod.fst := by
      rw [← List.mem_append, ← List.map_append, List.take_append_drop]
      exact hj
    simp only [pushNode, List.map_append, List.map_cons, List.mem_append, List.mem_cons]
    tauto
  pend p hp := .inl hp
  ask _ := rfl
  quiet h := by simp [pushNode] at h

theorem kp_setEdge {g g' : Graph} {k i e} (h : setEdge g k i e = .ok g') : Kp g g' := by
  obtain ⟨es, -, -, rfl⟩ := setEdge_ok h
  exact kp_modify g k _

theorem kp_setOut {g g' : Graph} {i e} (h : setOut g i e = .ok g') : Kp g g' := by
  obtain ⟨-, rfl⟩ := setOut_ok h
  exact kp_same rfl rfl rfl (fun h => h)

theorem kp_dropAll (g : Graph) (s c) : Kp g (dropAll g s c) := kp_same (dropAll_keys g s c) rfl rfl (fun _ => rfl)

theorem kp_tail {sl} {g g' : Graph} {source sink so si add fb}
    (he : connectTail sl g source sink so si add fb = .ok g') : Kp g g' := by
  unfold connectTail at he
  split at he
  · exact kp_setEdge he
  · obtain ⟨o, -, he⟩ := bind_inv he
    cases o with
    | none => exact kp_setEdge he
    | some ex =>
      obtain ⟨g2, h2, he⟩ := bind_inv he
      obtain ⟨g3, h3, he⟩ := bind_inv he
      exact (((kp_push sl g _).trans (kp_setEdge h2)).trans (kp_setEdge h3)).trans (kp_setEdge he)

theorem kp_connectToNode {sl} {g g' : Graph} {source sink so si add fb}
    (he : connectToNode sl g source sink so si add fb = .ok g') : Kp g g' := by
  unfold connectToNode at he
  dsimp only at he
  refine (kp_recalc g).trans ?_
  split at he
  · obtain ⟨g1, h1, he⟩ := bind_inv he
    exact (((kp_push sl _ _).trans (kp_push sl _ _)).trans (kp_setEdge h1)).trans (kp_tail he)
  · exact kp_tail he

theorem kp_connectToOut {sl} {g g' : Graph} {source so si add}
    (he : connectToOut sl g source so si add = .ok g') : Kp g g' := by
  unfold connectToOut at he
  dsimp only at he
  refine (kp_recalc g).trans ?_
  split at he
  · exact kp_setOut he
  · obtain ⟨o, -, he⟩ := bind_inv he
    cases o with
    | none => exact kp_setOut he
    | some ex =>
      obtain ⟨g2, h2, he⟩ := bind_inv he
      obtain ⟨g3, h3, he⟩ := bind_inv he
      exact (((kp_push sl _ _).trans (kp_setEdge h2)).trans (kp_setEdge h3)).trans (kp_setOut he)

theorem kp_takeOut {g g' : Graph} {ch e} (h : takeOut g ch e = .ok g') : Kp g g' :=
  takeOut_ind (P := Kp g) (fun _ _ _ hg _ _ _ => hg.trans (kp_free1 _ _))
    (fun _ _ _ _ hg _ _ _ => hg.trans (kp_bypass _ _ _)) (fun _ _ _ hg hs => hg.trans (kp_setOut hs)) (.refl g) h

theorem kp_takeIn {g g' : Graph} {k ch e} (h : takeIn g k ch e = .ok g') : Kp g g' :=
  takeIn_ind (P := Kp g) (fun _ _ _ hg _ _ _ => hg.trans (kp_free1 _ _))
    (fun _ _ _ _ hg _ _ _ => hg.trans (kp_bypass _ _ _)) (fun _ _ _ _ hg hs => hg.trans (kp_setEdge hs)) (.refl g) h

theorem kp_step {sl} {g g' : Graph} {op : Op} {r} (hl : ∀ rm fs, op ≠ .commit rm fs)
    (h : op.run sl g = .ok (g', r)) : Kp g g' := by
  cases op with
  | push i o d =>
    simp only [Op.run, Except.ok.injEq, Prod.mk.injEq] at h
    rw [← h.1]
    exact kp_push _ _ _
  | connect s so si k a f =>
    simp only [Op.run, connect2] at h
    split at h
    · rcases connectInputToNode_ok h with ⟨rfl, -⟩ | ⟨-, nk, -, -, -, h1⟩
      · exact .refl _
      · exact kp_connectToNode h1
    · rcases connectNodes_ok h with ⟨rfl, -⟩ | ⟨-, ns, nk, hns, -, -, -, -, h1⟩
      · exact .refl _
      · exact kp_connectToNode h1
    · rcases connectNodeToOutput_ok h with ⟨rfl, -⟩ | ⟨-, ns, hns, -, -, h1⟩
      · exact .refl _
      · exact kp_connectToOut h1
    · rcases connectInputToOutput_ok h with ⟨rfl, -⟩ | ⟨-, -, -, h1⟩
      · exact .refl _
      · exact kp_connectToOut h1
  | param s so p k a =>
    rcases connectParam_ok h with ⟨rfl, -⟩ | ⟨-, ns, nk, idx, es, -, -, -, -, -, h⟩
    · exact .refl _
    · rcases h with ⟨-, rfl⟩ | ⟨-, -, rfl⟩ | ⟨-, pos, ex, g2, g3, -, -, h2, h3, rfl⟩
      · exact kp_modify _ _ _
      · exact kp_modify _ _ _
      · exact ((((kp_modify _ _ _).trans (kp_push _ _ _)).trans (kp_setEdge h2)).trans (kp_setEdge h3)).trans
          (kp_modify _ _ _)
  | disconnectSource s c =>
    rcases disconnectSource_ok h with ⟨rfl, -⟩ | ⟨-, ⟨n, rec, -, -, -, -, rfl⟩ | ⟨g1, -, -, h1, -, rfl⟩⟩
    · exact .refl _
    · exact kp_dropAll _ _ _
    · exact (kp_takeOut h1).trans (kp_dropAll _ _ _)
  | disconnectSink c k =>
    rcases disconnectSink_ok h with ⟨rfl, -⟩ |
      ⟨-, ⟨n, rec, es, g1, -, -, -, -, -, h1, rfl⟩ | ⟨-, -, h1⟩⟩
    · exact .refl _
    · exact (kp_takeIn h1).trans (kp_recalc _)
    · exact kp_takeOut h1
  | free n =>
    simp only [Op.run, editFree] at h
    split at h
    · simp only [Except.ok.injEq, Prod.mk.injEq] at h; rw [← h.1]; exact .refl _
    · simp only [Except.ok.injEq] at h
      have : g' = (freeNode g n.key).1 := by rw [h]
      rw [this]
      exact freeNode_ind (P := Kp g) (fun _ _ _ hg _ _ _ => hg.trans (kp_free1 _ _)) _ _ (.refl g)
  | mortality n m st =>
    simp only [Op.run, Except.ok.injEq] at h
    have hg' : g' = (setMortality g n m st).1 := by rw [h]
    rw [hg']
    unfold setMortality
    split
    · exact .refl _
    · exact kp_modify g n.key fun r => { r with mortal := m }
  | commit rm fs => exact absurd rfl (hl rm fs)

/-- `free_old` up to the dropping of nodes. -/
theorem kp_freeOld {rm fs} {g g' : Graph} (h : freeOld rm fs g = .ok g') :
    ∃ g1, Kp g g1 ∧ g' = dropFlagged fs g1 := by
  obtain ⟨g1, h1, rfl⟩ := freeOld_ok h
  refine ⟨g1, ?_, rfl⟩
  exact evalMany_ind (P := Kp g) (fun _ _ _ hg _ _ _ => hg.trans (kp_free1 _ _))
    (fun _ _ _ _ hg _ _ _ => hg.trans (kp_bypass _ _ _)) _
    (freeMany_ind (P := Kp g) (fun _ _ _ hg _ _ _ => hg.trans (kp_free1 _ _)) _ _ (.refl g)) h1

/-- What holds in every reachable state. -/
structure IInv (s : IS) : Prop where
  wf : WF s.g
  acyc : Acyclic (Feeds s.g)
  nodup : s.order.Nodup
  here : ∀ k ∈ s.order, (s.g.get k).isSome
  unsent : ∀ k ∈ s.order, ∀ p ∈ s.g.pending, p.1 = k → p.2 = s.g.flag
  sent : ∀ f, s.applied f = true → f < s.g.flag
  exact' : s.g.recalc = false → ∀ k, k ∈ s.order ↔ Live s.g k

theorem iinv_init (id a b bs) : IInv (IS.init id a b bs) where
  wf := wf_init id a b
  acyc := (Reach.init (sl := fun _ => 0) id a b).acyclic
  nodup := by simp [IS.init]
  here := by simp [IS.init]
  unsent := by simp [IS.init]
  sent := by simp [IS.init]
  exact' := by simp [IS.init, Live, Graph.init, Graph.get]

theorem iinv_kp {s : IS} {g' : Graph} (h : IInv s) (hw : WF g') (ha : Acyclic (Feeds g')) (hk : Kp s.g g') :
    IInv { s with g := g' } where
  wf := hw
  acyc := ha
  nodup := h.nodup
  here k hm := by
    rw [get_isSome]
    exact hk.keys k ((get_isSome _ _).1 (h.here k hm))
  unsent k hm p hp he := by
    change p.2 = g'.flag
    rw [hk.flag]
    rcases hk.pend p hp with h1 | h1
    · exact h.unsent k hm p h1 he
    · exact h1
  sent f hf := by
    change f < g'.flag
    rw [hk.flag]
    exact h.sent f hf
  exact' hr k := by
    have hr0 : s.g.recalc = false := by
      cases hg : s.g.recalc with
      | false => rfl
      | true => rw [hk.ask hg] at hr; simp at hr
    obtain ⟨h1, h2⟩ := hk.quiet hr
    refine (h.exact' hr0 k).trans ?_
    simp only [Live, get_isSome, isPending_eq, h1, h2]

theorem commitFull_ok {rm fs room bs} {g g' : Graph} {a a' : AState} {sch}
    (h : commitFull rm fs room bs g a = .ok (g', a', sch)) : ∃ g1, freeOld rm fs g = .ok g1 ∧
      ((g1.recalc = false ∧ g' = g1 ∧ sch = none) ∨
        (g1.recalc = true ∧ g' = { g1 with flag := g1.flag + 1, recalc := false } ∧ sch.isSome)) := by
  unfold commitFull at h
  obtain ⟨g1, h1, h⟩ := bind_inv h
  refine ⟨g1, h1, ?_⟩
  split at h
  · next hr =>
    obtain ⟨⟨s2, sch2⟩, h2, h⟩ := bind_inv h
    simp only at h
    split at h
    · simp only [Except.ok.injEq, Prod.mk.injEq] at h
      obtain ⟨rfl, rfl, rfl⟩ := h
      exact .inr ⟨hr, rfl, rfl⟩
    · simp at h
  · next hr =>
    simp only [Except.ok.injEq, Prod.mk.injEq] at h
    obtain ⟨rfl, rfl, rfl⟩ := h
    exact .inl ⟨by simpa using hr, rfl, rfl⟩

theorem iinv_order {s : IS} (h : IInv s) {order disc : List Key} (hc : calcOrder s.g = .ok (order, disc)) :
    IInv { s with order := order, disc := disc } := by
  obtain ⟨h1, h2⟩ := order_nodup_mem h.wf hc
  refine ⟨h.wf, h.acyc, h1, fun k hk => ((h2 k).1 hk).1, ?_, h.sent, fun _ => h2⟩
  intro k hk p hp he
  have := ((h2 k).1 hk).2
  have hp2 : s.g.isPending k = true := by
    rw [isPending_iff, ← he]
    exact List.mem_map_of_mem hp
  rw [hp2] at this
  simp at this

theorem iinv_drop {s : IS} {g1 : Graph} {rm} (h : IInv s) (hf : freeOld rm s.applied s.g = .ok g1) :
    IInv { s with g := g1 } := by
  have hw : WF g1 := wf_freeOld h.wf hf
  have ha : Acyclic (Feeds g1) := by
    have hc : commitEdits rm s.applied s.g =
        .ok (if g1.recalc then { g1 with flag := g1.flag + 1, recalc := false } else g1) := by
      unfold commitEdits
      rw [hf]
      rfl
    have := acyclic_step (sl := fun _ => 0) (op := .commit rm s.applied) h.wf h.acyc
      (g' := if g1.recalc then { g1 with flag := g1.flag + 1, recalc := false } else g1) (r := .ok ())
      (by rw [Op.run, hc]; rfl)
    split at this
    · exact this
    · exact this
  obtain ⟨g0, hk, rfl⟩ := kp_freeOld hf
  refine ⟨hw, ha, h.nodup, ?_, ?_, ?_, ?_⟩
  · intro k hm
    change ((dropFlagged s.applied g0).get k).isSome
    rw [get_dropFlagged, if_neg]
    · rw [get_isSome]
      exact hk.keys k ((get_isSome _ _).1 (h.here k hm))
    · intro hgone
      simp only [goneKeys, List.mem_map, List.mem_filter] at hgone
      obtain ⟨p, ⟨hp, hfl⟩, he⟩ := hgone
      have hp2 : p.2 = s.g.flag := by
        rcases hk.pend p hp with h1 | h1
        · exact h.unsent k hm p h1 he
        · exact h1
      have := h.sent _ hfl
      omega
  · intro k hm p hp he
    simp only [dropFlagged, List.mem_filter] at hp
    change p.2 = g0.flag
    rw [hk.flag]
    rcases hk.pend p hp.1 with h1 | h1
    · exact h.unsent k hm p h1 he
    · exact h1
  · intro f hf2
    change f < g0.flag
    rw [hk.flag]
    exact h.sent f hf2
  · intro hr k
    have hr1 : g0.recalc = false := hr
    have hr0 : s.g.recalc = false := by
      cases hg : s.g.recalc with
      | false => rfl
      | true => rw [hk.ask hg] at hr1; simp at hr1
    obtain ⟨h1, h2⟩ := hk.quiet hr1
    refine (h.exact' hr0 k).trans (Iff.trans ?_ (live_dropFlagged s.applied g0 k).symm)
    simp only [Live, get_isSome, isPending_eq, h1, h2]

/-- The commit after `free_old`: the flag moves on. -/
theorem iinv_sent {s : IS} (h : IInv s) (hx : ∀ k, k ∈ s.order ↔ Live s.g k) (a : AState) :
    IInv { s with g := { s.g with flag := s.g.flag + 1, recalc := false }, a := a } where
  wf := h.wf.congr rfl rfl rfl rfl
  acyc := h.acyc
  nodup := h.nodup
  here := h.here
  unsent k hk p hp he := by
    have := ((hx k).1 hk).2
    have hp2 : s.g.isPending k = true := by
      rw [isPending_iff, ← he]
      exact List.mem_map_of_mem hp
    rw [hp2] at this
    simp at this
  sent f hf := Nat.lt_succ_of_lt (h.sent f hf)
  exact' _ := hx

theorem iinv_step {sl bs} {s s' : IS} {st : Step} (h : IInv s) (hl : st.legal) (hr : st.run sl bs s = .ok s') :
    IInv s' := by
  cases st with
  | edit op =>
    simp only [Step.run] at hr
    obtain ⟨⟨g, r⟩, h1, h2⟩ := bind_inv hr
    simp only [Except.ok.injEq] at h2
    subst h2
    refine iinv_kp h (wf_step h.wf h1) (acyclic_step h.wf h.acyc h1) (kp_step ?_ h1)
    rintro rm fs rfl
    exact hl
  | commit rm room =>
    simp only [Step.run] at hr
    obtain ⟨g1, h1, hr⟩ := bind_inv hr
    obtain ⟨⟨g, a, sch⟩, h2, hr⟩ := bind_inv hr
    obtain ⟨g1', h1', h3⟩ := commitFull_ok h2
    rw [h1] at h1'
    simp only [Except.ok.injEq] at h1'
    subst h1'
    have hd := iinv_drop h h1
    rcases h3 with ⟨h3, rfl, rfl⟩ | ⟨h3, rfl, h4⟩
    · simp only [Except.ok.injEq] at hr
      subst hr
      exact ⟨hd.wf, hd.acyc, hd.nodup, hd.here, hd.unsent, hd.sent, hd.exact'⟩
    · cases sch with
      | none => simp at h4
      | some sch =>
        obtain ⟨⟨order, disc⟩, h5, hr⟩ := bind_inv hr
        simp only [Except.ok.injEq] at hr
        subst hr
        have h6 := iinv_order hd h5
        exact iinv_sent h6 (order_nodup_mem hd.wf h5).2 a
  | reorder =>
    simp only [Step.run] at hr
    obtain ⟨⟨order, disc⟩, h1, hr⟩ := bind_inv hr
    simp only [Except.ok.injEq] at hr
    subst hr
    exact iinv_order h h1
  | audio f =>
    simp only [Step.run, Except.ok.injEq] at hr
    subst hr
    refine ⟨h.wf, h.acyc, h.nodup, h.here, h.unsent, ?_, h.exact'⟩
    intro n hn
    simp only [Bool.or_eq_true, Bool.and_eq_true, beq_iff_eq, decide_eq_true_eq] at hn
    rcases hn with hn | ⟨rfl, hn⟩
    · exact h.sent n hn
    · exact hn

theorem Reaches.inv {sl bs} {s : IS} (h : Reaches sl bs s) : IInv s := by
  induction h with
  | init id a b => exact iinv_init id a b bs
  | step st _ hl hr ih => exact iinv_step ih hl hr

/-! ### The loops -/

theorem inspectNodes_ok {g : Graph} {disc : List Key} : ∀ (ks : List Key), (∀ k ∈ ks, (g.get k).isSome) →
    ∃ ns, inspectNodes g disc ks = .ok ns ∧ ns.map NodeI.key = ks ∧
      ∀ n ∈ ns, ∃ r, g.get n.key = some r ∧ n.inputs = r.inputs ∧ n.outputs = r.outputs ∧
        n.edges = nodeEdges ((g.ins n.key).getD []) ∧ (n.unconnected = true ↔ n.key ∈ disc) := by
  intro ks
  induction ks with
  | nil => intro _; exact ⟨[], rfl, rfl, by simp⟩
  | cons k ks ih =>
    intro h
    obtain ⟨ns, h1, h2, h3⟩ := ih (fun j hj => h j (List.mem_cons_of_mem _ hj))
    obtain ⟨r, hr⟩ := Option.isSome_iff_exists.1 (h k (by simp))
    refine ⟨⟨k, r.inputs, r.outputs, nodeEdges ((g.ins k).getD []), decide (k ∈ disc)⟩ :: ns, ?_, ?_, ?_⟩
    · simp only [inspectNodes, hr, h1, bind_ok]
    · simp [h2]
    · intro n hn
      rcases List.mem_cons.1 hn with rfl | hn
      · exact ⟨r, hr, rfl, rfl, rfl, by simp⟩
      · exact h3 n hn

theorem mem_nodeEdges {es : List (Option Edge)} (hs : es.length ≤ U16) (x : EdgeI) :
    x ∈ nodeEdges es ↔ x.fb = false ∧ ∃ fb, es[x.to']? = some (some ⟨x.source, x.from', fb⟩) := by
  simp only [nodeEdges, List.mem_filterMap, Prod.exists, Option.map_eq_some_iff]
  constructor
  · rintro ⟨o, i, hi, e, rfl, rfl⟩
    have h1 := List.mk_mem_zipIdx_iff_getElem?.1 hi
    have h2 : i < es.length := by
      by_contra hc
      rw [List.getElem?_eq_none (by omega)] at h1
      simp at h1
    have h3 : i % U16 = i := Nat.mod_eq_of_lt (by omega)
    exact ⟨rfl, e.fb, by simp only [h3]; exact h1⟩
  · rintro ⟨h1, fb, h2⟩
    have h3 : x.to' < es.length := by
      by_contra hc
      rw [List.getElem?_eq_none (by omega)] at h2
      simp at h2
    refine ⟨_, x.to', List.mk_mem_zipIdx_iff_getElem?.2 h2, _, rfl, ?_⟩
    rw [Nat.mod_eq_of_lt (by omega)]
    cases x
    simp_all

theorem mem_outEdges {es : List (Option Edge)} (hs : es.length ≤ U16) (x : EdgeI) :
    x ∈ outEdges es ↔ es[x.to']? = some (some ⟨x.source, x.from', x.fb⟩) := by
  simp only [outEdges, List.mem_filterMap, Prod.exists, Option.map_eq_some_iff]
  constructor
  · rintro ⟨o, i, hi, e, rfl, rfl⟩
    have h1 := List.mk_mem_zipIdx_iff_getElem?.1 hi
    have h2 : i < es.length := by
      by_contra hc
      rw [List.getElem?_eq_none (by omega)] at h1
      simp at h1
    have h3 : i % U16 = i := Nat.mod_eq_of_lt (by omega)
    simp only [h3]; exact h1
  · intro h2
    have h3 : x.to' < es.length := by
      by_contra hc
      rw [List.getElem?_eq_none (by omega)] at h2
      simp at h2
    refine ⟨_, x.to', List.mk_mem_zipIdx_iff_getElem?.2 h2, _, rfl, ?_⟩
    rw [Nat.mod_eq_of_lt (by omega)]

end Verif.In
