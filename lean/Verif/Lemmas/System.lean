import Verif.Model.System
import Verif.Lemmas.Tasks
import Verif.Props.Dataflow
import Mathlib.Data.List.Dedup

/-!
# Lemmas about the whole graph

Every step of the whole graph is a sequence of steps of the handover model of `Model/Tasks.lean`.
-/

namespace Verif.Sys

open Verif.G
open Verif.T (NU TD UG)

/-- The units of the nodes after the nodes `n0 … n - 1` were pushed. -/
def newUnits (n0 : Key) (ug : Key → Option NU) (n : Key) : Key → Option NU :=
  fun k => if n0 ≤ k ∧ k < n then some (.loc (.own k 0)) else ug k

/-- A state of the handover model that agrees with a graph. -/
structure Match (g : Graph) (ug : Key → Option NU) (t : T.S) : Prop where
  units : t.ug = ug
  next : t.next = g.nextKey
  live : ∀ k, k ∈ t.live ↔ Live g k
  pending : t.pending = g.pending.map fun p => (p.1, p.2 + 1)
  flag : t.flag = g.flag + 1
  recalc : t.recalc = g.recalc
  has : ∀ k, (ug k).isSome = (g.get k).isSome

/-- The parts of the handover model that edits leave alone. -/
structure Frame (t t0 : T.S) : Prop where
  applied : t.applied = t0.applied
  ring : t.ring = t0.ring
  cap : t.cap = t0.cap
  cur : t.cur = t0.cur
  ran : t.ran = t0.ran

theorem Frame.refl (t : T.S) : Frame t t := ⟨rfl, rfl, rfl, rfl, rfl⟩

/-- What every part of an edit keeps. -/
def Keeps (n0 : Key) (ug0 : Key → Option NU) (t0 : T.S) (g : Graph) : Prop :=
  WF g ∧ n0 ≤ g.nextKey ∧ ∃ t, T.Reach t ∧ Match g (newUnits n0 ug0 g.nextKey) t ∧ Frame t t0

theorem keeps_same {n0 ug0 t0} {g g' : Graph} (h : Keeps n0 ug0 t0 g) (hw : WF g')
    (h1 : ∀ k, (g'.get k).isSome = (g.get k).isSome) (h2 : g'.nextKey = g.nextKey)
    (h3 : g'.pending = g.pending) (h4 : g'.flag = g.flag)
    (h5 : g'.recalc = g.recalc ∨ g'.recalc = true) : Keeps n0 ug0 t0 g' := by
  obtain ⟨-, hn, t, hr, hm, hf⟩ := h
  have hl : ∀ k, Live g' k ↔ Live g k := by
    intro k
    simp only [Live, h1, isPending_eq, h3]
  refine ⟨hw, by rw [h2]; exact hn, ?_⟩
  rw [h2]
  rcases h5 with h5 | h5
  · exact ⟨t, hr, ⟨hm.units, by rw [hm.next, h2], fun k => (hm.live k).trans (hl k).symm,
      by rw [hm.pending, h3], by rw [hm.flag, h4], by rw [hm.recalc, h5],
      fun k => by rw [hm.has, h1]⟩, hf⟩
  · exact ⟨T.touch t, .touch hr, ⟨hm.units, by rw [h2]; exact hm.next,
      fun k => (hm.live k).trans (hl k).symm,
      by rw [h3]; exact hm.pending, by rw [h4]; exact hm.flag, h5.symm,
      fun k => by rw [hm.has, h1]⟩, ⟨hf.applied, hf.ring, hf.cap, hf.cur, hf.ran⟩⟩

theorem keeps_push {n0 ug0 t0} {sl} {g : Graph} {n : NodeRec} (h : Keeps n0 ug0 t0 g)
    (hm' : n.autoMath = true → n.inputs = 2 ∧ n.outputs = 1) : Keeps n0 ug0 t0 (pushNode sl g n) := by
  obtain ⟨hw, hn, t, hr, hm, hf⟩ := h
  have hget := fun j => get_pushNode sl g n j hw.fresh
  refine ⟨wf_push hw hm', Nat.le_succ_of_le hn, T.push t, .push hr, ?_, ⟨hf.applied, hf.ring, hf.cap, hf.cur, hf.ran⟩⟩
  have hnp : g.isPending g.nextKey = false := by
    cases hp : g.isPending g.nextKey with
    | false => rfl
    | true => have := hw.pend _ hp; simp [hw.fresh] at this
  have hug : (T.push t).ug = newUnits n0 ug0 (pushNode sl g n).nextKey := by
    funext k
    simp only [T.push, hm.units, hm.next, newUnits]
    change _ = if n0 ≤ k ∧ k < g.nextKey + 1 then _ else _
    by_cases hk : k = g.nextKey
    · subst hk
      rw [if_pos rfl, if_pos ⟨hn, Nat.lt_succ_self _⟩]
    · have : (n0 ≤ k ∧ k < g.nextKey) ↔ (n0 ≤ k ∧ k < g.nextKey + 1) := by
        exact ⟨fun ⟨a, b⟩ => ⟨a, Nat.lt_succ_of_lt b⟩,
          fun ⟨a, b⟩ => ⟨a, Nat.lt_of_le_of_ne (Nat.lt_succ_iff.1 b) hk⟩⟩
      rw [if_neg hk, if_congr this rfl rfl]
  refine ⟨hug, ?_, ?_, hm.pending, hm.flag, rfl, ?_⟩
  · simp [T.push, hm.next]
  · intro k
    simp only [T.push, List.mem_append, List.mem_singleton, hm.live, hm.next, Live, hget]
    change _ ↔ _ ∧ g.isPending k = false
    by_cases hk : k = g.nextKey
    · subst hk; simp [hnp]
    · simp [hk]
  · intro k
    rw [hget, ← hug]
    simp only [T.push, hm.next]
    by_cases hk : k = g.nextKey
    · simp [hk]
    · simp only [hk, if_false]
      rw [hm.units]
      exact hm.has k

theorem isSome_free1 (g : Graph) (k j : Key) : ((free1 g k).get j).isSome = (g.get j).isSome := by
  rw [get_free1]
  split
  · next h => subst h; cases g.get j <;> rfl
  · cases g.get j <;> rfl

theorem keeps_free1 {n0 ug0 t0} {g : Graph} {k : Key} {n : NodeRec} (h : Keeps n0 ug0 t0 g)
    (hk : g.get k = some n) (hp : g.isPending k = false) : Keeps n0 ug0 t0 (free1 g k) := by
  obtain ⟨hw, hn, t, hr, hm, hf⟩ := h
  have hkl : k ∈ t.live := (hm.live k).2 ⟨by simp [hk], hp⟩
  refine ⟨wf_free1 hw hk hp, hn, T.free t k, .free k hr, ?_, ?_⟩
  · have e : T.free t k = { t with
        live := t.live.filter (· ≠ k), pending := t.pending ++ [(k, t.flag)], recalc := true } := by
      rw [T.free, if_pos hkl]
    rw [e]
    refine ⟨hm.units, hm.next, ?_, ?_, hm.flag, rfl, ?_⟩
    · intro j
      simp only [List.mem_filter, hm.live, Live, isSome_free1, isPending_eq, free1_pending,
        List.any_append, decide_eq_true_eq]
      by_cases hj : k = j
      · subst hj; simp
      · have hj' : (k == j) = false := by simpa using hj
        have hj2 : j ≠ k := fun e => hj e.symm
        simp only [ne_eq, hj2, not_false_eq_true, and_true, List.any_cons, List.any_nil, Bool.or_false, hj']
    · simp [hm.pending, free1_pending, hm.flag]
    · intro j
      rw [isSome_free1]
      exact hm.has j
  · rw [T.free, if_pos hkl]
    exact ⟨hf.applied, hf.ring, hf.cap, hf.cur, hf.ran⟩

theorem isSome_modify (g : Graph) (k j : Key) (f : NodeRec → NodeRec) :
    ((g.modify k f).get j).isSome = (g.get j).isSome := by
  rw [get_modify]
  split
  · next h => subst h; cases g.get j <;> rfl
  · rfl

theorem keeps_bypass {n0 ug0 t0} {g : Graph} {k : Key} {e : Edge} {i} (h : Keeps n0 ug0 t0 g)
    (he : g.edge k i = some e) : Keeps n0 ug0 t0 (bypass g k e) := by
  refine keeps_same h (wf_bypass h.1 he) ?_ rfl rfl rfl (.inl rfl)
  intro j
  rw [get_bypass]
  cases g.get j <;> rfl

theorem keeps_setEdge {n0 ug0 t0} {g g' : Graph} {k i e} (h : Keeps n0 ug0 t0 g)
    (hs : setEdge g k i e = .ok g') (hw : WF g') : Keeps n0 ug0 t0 g' := by
  obtain ⟨es, hes, hi, rfl⟩ := setEdge_ok hs
  exact keeps_same h hw (fun j => isSome_modify g k j _) rfl rfl rfl (.inl rfl)

theorem keeps_setOut {n0 ug0 t0} {g g' : Graph} {i e} (h : Keeps n0 ug0 t0 g)
    (hs : setOut g i e = .ok g') (hw : WF g') : Keeps n0 ug0 t0 g' := by
  obtain ⟨hi, rfl⟩ := setOut_ok hs
  exact keeps_same h hw (fun j => rfl) rfl rfl rfl (.inl rfl)

theorem keeps_recalc {n0 ug0 t0} {g : Graph} (h : Keeps n0 ug0 t0 g) :
    Keeps n0 ug0 t0 { g with recalc := true } :=
  keeps_same h (h.1.congr rfl rfl rfl rfl) (fun _ => rfl) rfl rfl rfl (.inr rfl)

theorem keeps_newAdd {n0 ug0 t0} {sl} {g : Graph} (h : Keeps n0 ug0 t0 g) : Keeps n0 ug0 t0 (newAdd sl g) :=
  keeps_push h fun _ => ⟨rfl, rfl⟩

theorem keeps_newFeedback {n0 ug0 t0} {sl} {g : Graph} (h : Keeps n0 ug0 t0 g) :
    Keeps n0 ug0 t0 (newFeedback sl g) := by
  unfold newFeedback
  exact keeps_push (keeps_push h (by simp)) (by simp)

/-- A summing node between an existing edge and a new one. -/
theorem keeps_insert {n0 ug0 t0} {sl} {g g2 g3 : Graph} {ex : Edge} {source : Src} {so : Nat}
    (h : Keeps n0 ug0 t0 g) (hs : ∀ a, source = .node a → a < g.nextKey)
    (hex : ∀ a, ex.source = .node a → a < g.nextKey)
    (h2 : setEdge (newAdd sl g) g.nextKey 0 (some ex) = .ok g2)
    (h3 : setEdge g2 g.nextKey 1 (some ⟨source, so, false⟩) = .ok g3) :
    Keeps n0 ug0 t0 g3 ∧ g3.nextKey = g.nextKey + 1 := by
  have w2 : WF g2 := wf_setEdge (wf_newAdd h.1) h2 (by
    intro ed a e1 e2
    simp only [Option.some.injEq] at e1; subst e1
    exact Nat.lt_succ_of_lt (hex a e2))
  have n2 : g2.nextKey = g.nextKey + 1 := nextKey_setEdge h2
  have w3 : WF g3 := wf_setEdge w2 h3 (by
    intro ed a e1 e2
    simp only [Option.some.injEq] at e1; subst e1
    rw [n2]
    exact Nat.lt_succ_of_lt (hs a e2))
  exact ⟨keeps_setEdge (keeps_setEdge (keeps_newAdd h) h2 w2) h3 w3, (nextKey_setEdge h3).trans n2⟩

theorem keeps_tail {n0 ug0 t0} {sl} {g g' : Graph} (h : Keeps n0 ug0 t0 g) {source sink so si add fb}
    (hs : ∀ a, source = .node a → a < g.nextKey)
    (he : connectTail sl g source sink so si add fb = .ok g') : Keeps n0 ug0 t0 g' := by
  have hw := wf_tail h.1 hs he
  unfold connectTail at he
  split at he
  · exact keeps_setEdge h he hw
  · cases h1 : getEdge g sink si with
    | error e => simp [h1] at he
    | ok o =>
      simp only [h1, bind_ok] at he
      cases o with
      | none => exact keeps_setEdge h he hw
      | some ex =>
        have hex := getEdge_ok h1
        simp only at he
        cases h2 : setEdge (newAdd sl g) g.nextKey 0 (some ex) with
        | error e => simp [h2] at he
        | ok g2 =>
          simp only [h2, bind_ok] at he
          cases h3 : setEdge g2 g.nextKey 1 (some ⟨source, so, false⟩) with
          | error e => simp [h3] at he
          | ok g3 =>
            simp only [h3, bind_ok] at he
            exact keeps_setEdge (keeps_insert h hs (fun a ha => h.1.srcLt _ _ _ a hex ha) h2 h3).1 he hw

theorem keeps_connectToNode {n0 ug0 t0} {sl} {g g' : Graph} (h : Keeps n0 ug0 t0 g)
    {source sink so si add fb} (hs : ∀ a, source = .node a → a < g.nextKey)
    (he : connectToNode sl g source sink so si add fb = .ok g') : Keeps n0 ug0 t0 g' := by
  unfold connectToNode at he
  have h0 := keeps_recalc h
  dsimp only at he
  split at he
  · cases h1 : setEdge (newFeedback sl { g with recalc := true }) g.nextKey 0
        (some ⟨source, so, true⟩) with
    | error e => simp [h1] at he
    | ok g1 =>
      simp only [h1, bind_ok] at he
      have n1 : g1.nextKey = g.nextKey + 1 + 1 := nextKey_setEdge h1
      have w1 : WF g1 := wf_setEdge (wf_newFeedback h0.1) h1 (by
        intro ed a e1 e2
        simp only [Option.some.injEq] at e1; subst e1
        exact Nat.lt_succ_of_lt (Nat.lt_succ_of_lt (hs a e2)))
      refine keeps_tail (keeps_setEdge (keeps_newFeedback h0) h1 w1) ?_ he
      intro a ha
      simp only [Src.node.injEq] at ha
      rw [n1, ← ha]
      exact Nat.lt_succ_self _
  · exact keeps_tail h0 hs he

theorem keeps_connectToOut {n0 ug0 t0} {sl} {g g' : Graph} (h : Keeps n0 ug0 t0 g) {source so si add}
    (hs : ∀ a, source = .node a → a < g.nextKey)
    (he : connectToOut sl g source so si add = .ok g') : Keeps n0 ug0 t0 g' := by
  have hw := wf_connectToOut h.1 hs he
  unfold connectToOut at he
  have h0 := keeps_recalc h
  dsimp only at he
  split at he
  · exact keeps_setOut h0 he hw
  · cases h1 : getOut { g with recalc := true } si with
    | error e => simp [h1] at he
    | ok o =>
      simp only [h1, bind_ok] at he
      cases o with
      | none => exact keeps_setOut h0 he hw
      | some ex =>
        have hex := getOut_ok h1
        simp only at he
        cases h2 : setEdge (newAdd sl { g with recalc := true }) g.nextKey 0 (some ex) with
        | error e => simp [h2] at he
        | ok g2 =>
          simp only [h2, bind_ok] at he
          cases h3 : setEdge g2 g.nextKey 1 (some ⟨source, so, false⟩) with
          | error e => simp [h3] at he
          | ok g3 =>
            simp only [h3, bind_ok] at he
            exact keeps_setOut (keeps_insert (g := { g with recalc := true }) h0 hs
              (fun a ha => h.1.outLt _ _ a hex ha) h2 h3).1 he hw

theorem keeps_freeNode {n0 ug0 t0} {g : Graph} (h : Keeps n0 ug0 t0 g) (k : Key) :
    Keeps n0 ug0 t0 (freeNode g k).1 :=
  freeNode_ind (fun _ _ _ hg hk _ hp => keeps_free1 hg hk hp) g k h

theorem keeps_freeMany {n0 ug0 t0} {g : Graph} (h : Keeps n0 ug0 t0 g) (ks : List Key) :
    Keeps n0 ug0 t0 (freeMany g ks) :=
  freeMany_ind (fun _ _ _ hg hk _ hp => keeps_free1 hg hk hp) ks g h

theorem keeps_evalMany {n0 ug0 t0} {g g' : Graph} (h : Keeps n0 ug0 t0 g) {ks : List Key}
    (he : evalMany g ks = .ok g') : Keeps n0 ug0 t0 g' :=
  evalMany_ind (fun _ _ _ hg hk _ hp => keeps_free1 hg hk hp)
    (fun _ _ _ _ hg _ _ he => by
      rcases he with ⟨-, h1⟩ | ⟨h1, -⟩ <;> exact keeps_bypass hg h1) ks h he

theorem keeps_takeOut {n0 ug0 t0} {g g' : Graph} {ch e} (h : Keeps n0 ug0 t0 g)
    (he : takeOut g ch e = .ok g') : Keeps n0 ug0 t0 g' :=
  takeOut_ind (fun _ _ _ hg hk _ hp => keeps_free1 hg hk hp)
    (fun _ _ _ _ hg _ _ he => by
      rcases he with ⟨-, h1⟩ | ⟨h1, -⟩ <;> exact keeps_bypass hg h1)
    (fun _ _ _ hg hs => keeps_setOut hg hs (wf_setOut hg.1 hs (by simp))) h he

theorem keeps_takeIn {n0 ug0 t0} {g g' : Graph} {k ch e} (h : Keeps n0 ug0 t0 g)
    (he : takeIn g k ch e = .ok g') : Keeps n0 ug0 t0 g' :=
  takeIn_ind (fun _ _ _ hg hk _ hp => keeps_free1 hg hk hp)
    (fun _ _ _ _ hg _ _ he => by
      rcases he with ⟨-, h1⟩ | ⟨h1, -⟩ <;> exact keeps_bypass hg h1)
    (fun _ _ _ _ hg hs => keeps_setEdge hg hs (wf_setEdge hg.1 hs (by simp))) h he

theorem keeps_dropAll {n0 ug0 t0} {g : Graph} (h : Keeps n0 ug0 t0 g) (s ch) :
    Keeps n0 ug0 t0 (dropAll g s ch) := by
  refine keeps_same h (wf_dropAll h.1 s ch) ?_ rfl rfl rfl (.inr rfl)
  intro j
  rw [dropAll_get]
  cases g.get j <;> rfl

theorem keeps_connectParam {n0 ug0 t0} {sl} {g g' : Graph} {source so p sink add r}
    (hg : Keeps n0 ug0 t0 g) (h : connectParam sl g source so p sink add = .ok (g', r)) :
    Keeps n0 ug0 t0 g' := by
  have hw := wf_connectParam hg.1 h
  rcases connectParam_ok h with ⟨rfl, -⟩ | ⟨-, ns, nk, idx, es, hns, hso, hnk, hidx, hes, h⟩
  · exact hg
  have hp : g.pars sink.key = some es := by simp [pars_eq, hnk, hes]
  have hsrc := hg.1.lt _ _ hns
  have hmem : ∀ pe ∈ es, pe.source < g.nextKey := fun pe hpe => hg.1.parLt _ _ _ hp hpe
  rcases h with ⟨-, rfl⟩ | ⟨-, -, rfl⟩ | ⟨-, pos, ex, g2, g3, hpos, hex, h2, h3, rfl⟩
  · exact keeps_same hg hw (fun j => isSome_modify g _ j _) rfl rfl rfl (.inl rfl)
  · exact keeps_same hg hw (fun j => isSome_modify g _ j _) rfl rfl rfl (.inl rfl)
  · have w1 : WF (g.modify sink.key fun n => { n with pars := some (swapRemove es pos) }) := by
      refine wf_modify hg.1 _ (fun _ => rfl) (fun _ => ⟨rfl, rfl, rfl⟩) ?_ ?_
      · intro n hn; rw [hnk] at hn; simp only [Option.some.injEq] at hn; subst hn; simp [hes]
      · intro n es' pe _ h1 h2
        simp only [Option.some.injEq] at h1
        subst h1
        exact hmem _ (mem_swapRemove h2)
    have k1 := keeps_same hg w1 (fun j => isSome_modify g _ j _) rfl rfl rfl (.inl rfl)
    have k3 := (keeps_insert k1 (source := .node source.key) (ex := ⟨.node ex.source, ex.chan, false⟩) (by
      intro a ha
      simp only [Src.node.injEq] at ha
      subst ha
      exact hsrc) (by
      intro a ha
      simp only [Src.node.injEq] at ha
      subst ha
      exact hmem _ (List.mem_of_getElem? hex)) h2 h3).1
    exact keeps_same k3 hw (fun j => isSome_modify g3 _ j _) rfl rfl rfl (.inl rfl)

/-- The calls other than committing. -/
def isCommit : Op → Bool
  | .commit _ _ => true
  | _ => false

theorem keeps_step {n0 ug0 t0} {sl} {g g' : Graph} {op : Op} {r} (hg : Keeps n0 ug0 t0 g)
    (hop : isCommit op = false) (h : op.run sl g = .ok (g', r)) : Keeps n0 ug0 t0 g' := by
  have hw := wf_step hg.1 h
  cases op with
  | push i o d =>
    simp only [Op.run, Except.ok.injEq, Prod.mk.injEq] at h
    rw [← h.1]
    exact keeps_push hg (by simp [userNode])
  | connect s so si k a f =>
    simp only [Op.run, connect2] at h
    split at h
    · rcases connectInputToNode_ok h with ⟨rfl, -⟩ | ⟨-, nk, -, -, -, h1⟩
      · exact hg
      · exact keeps_connectToNode hg (by simp) h1
    · rcases connectNodes_ok h with ⟨rfl, -⟩ | ⟨-, ns, nk, hns, -, -, -, -, h1⟩
      · exact hg
      · refine keeps_connectToNode hg ?_ h1
        intro b hb
        simp only [Src.node.injEq] at hb
        subst hb
        exact hg.1.lt _ _ hns
    · rcases connectNodeToOutput_ok h with ⟨rfl, -⟩ | ⟨-, ns, hns, -, -, h1⟩
      · exact hg
      · refine keeps_connectToOut hg ?_ h1
        intro b hb
        simp only [Src.node.injEq] at hb
        subst hb
        exact hg.1.lt _ _ hns
    · rcases connectInputToOutput_ok h with ⟨rfl, -⟩ | ⟨-, -, -, h1⟩
      · exact hg
      · exact keeps_connectToOut hg (by simp) h1
  | param s so p k a => exact keeps_connectParam hg h
  | disconnectSource s c =>
    rcases disconnectSource_ok h with ⟨rfl, -⟩ | ⟨-, ⟨n, rec, -, -, -, -, rfl⟩ | ⟨g1, -, -, h1, -, rfl⟩⟩
    · exact hg
    · exact keeps_dropAll hg _ _
    · exact keeps_dropAll (keeps_takeOut hg h1) _ _
  | disconnectSink c k =>
    rcases disconnectSink_ok h with ⟨rfl, -⟩ |
      ⟨-, ⟨n, rec, es, g1, -, -, -, -, -, h1, rfl⟩ | ⟨-, -, h1⟩⟩
    · exact hg
    · exact keeps_recalc (keeps_takeIn hg h1)
    · exact keeps_takeOut hg h1
  | free n =>
    simp only [Op.run, editFree] at h
    split at h
    · simp only [Except.ok.injEq, Prod.mk.injEq] at h; exact h.1 ▸ hg
    · simp only [Except.ok.injEq] at h
      have : g' = (freeNode g n.key).1 := by rw [h]
      rw [this]
      exact keeps_freeNode hg _
  | mortality n m st =>
    simp only [Op.run, Except.ok.injEq] at h
    have hg' : g' = (setMortality g n m st).1 := by rw [h]
    rw [hg'] at hw ⊢
    unfold setMortality at hw ⊢
    split at hw
    · exact hg
    · exact keeps_same hg hw (fun j => isSome_modify g _ j _) rfl rfl rfl (.inl rfl)
  | commit rm fs => simp [isCommit] at hop

/-! ### Edits -/

section
variable {S St : Type}

/-- The handover model is in the same state as the whole graph. -/
structure Sim (y : Y S St) (t : T.S) : Prop where
  reach : T.Reach t
  mt : Match y.g y.ug t
  applied : t.applied = y.applied
  ring : t.ring = y.ring.map Prod.snd
  cap : t.cap = y.cap
  cur : t.cur = y.cur.2

theorem newUnits_self (n : Key) (ug : Key → Option NU) : newUnits n ug n = ug := by
  funext k
  rw [newUnits, if_neg]
  rintro ⟨a, b⟩
  exact absurd (Nat.lt_of_le_of_lt a b) (Nat.lt_irrefl _)

theorem Sim.keeps {y : Y S St} {t : T.S} (h : Sim y t) (hw : WF y.g) : Keeps y.g.nextKey y.ug t y.g := by
  refine ⟨hw, Nat.le_refl _, t, h.reach, ?_, Frame.refl t⟩
  rw [newUnits_self]
  exact h.mt

theorem sim_init [Zero S] (id numIn numOut bs cap : Nat) (heap : Key → St) :
    ∃ t, Sim (Y.init id numIn numOut bs cap heap : Y S St) t := by
  have hi : T.init cap 0 [] = .ok { ug := fun k => if k < 0 then some (.loc (.own k 0)) else Option.none, next := 0, live := [], pending := [], flag := 1, recalc := false
                                    applied := fun _ => false, ring := [], cap := cap, cur := ⟨[], 0⟩, ran := fun _ => 0 } := by
    simp [T.init, T.commit, T.dropOld, T.makeTasks, bind, Except.bind]
  refine ⟨_, ⟨.init (n := 0) (order := []) ⟨List.nodup_nil, by simp⟩ hi, ⟨?_, rfl, ?_, rfl, rfl, rfl, ?_⟩, rfl, rfl, rfl, rfl⟩⟩
  · funext k
    simp [Y.init]
  · intro k
    simp [Live, Y.init, Graph.init, Graph.get]
  · intro k
    simp [Y.init, Graph.init, Graph.get]

theorem sim_edit {sl} {y y' : Y S St} {t : T.S} {op : Op} {r} (h : Sim y t) (hw : WF y.g)
    (hop : isCommit op = false) (he : edit sl y op = .ok (y', r)) :
    (∃ t', Sim y' t') ∧ WF y'.g ∧ op.run sl y.g = .ok (y'.g, r) ∧ y'.ring = y.ring ∧ y'.cur = y.cur ∧
      y'.mem = y.mem ∧ y'.heap = y.heap ∧ y'.a = y.a ∧ y'.applied = y.applied ∧ y'.cap = y.cap := by
  rw [edit] at he
  cases hr : op.run sl y.g with
  | error e => rw [hr] at he; simp [bind_error] at he
  | ok x =>
    obtain ⟨g, r'⟩ := x
    rw [hr] at he
    simp only [bind_ok, Except.ok.injEq, Prod.mk.injEq] at he
    obtain ⟨rfl, rfl⟩ := he
    obtain ⟨hw', -, t', h1, h2, h3⟩ := keeps_step (h.keeps hw) hop hr
    refine ⟨⟨t', h1, h2, ?_, ?_, ?_, ?_⟩, hw', rfl, rfl, rfl, rfl, rfl, rfl, rfl, rfl⟩
    · rw [h3.applied, h.applied]
    · rw [h3.ring, h.ring]
    · rw [h3.cap, h.cap]
    · rw [h3.cur, h.cur]

/-! ### Commits -/

theorem nextKey_freeMany (g : Graph) (ks : List Key) : (freeMany g ks).nextKey = g.nextKey :=
  freeMany_ind (P := fun g' => g'.nextKey = g.nextKey) (fun _ _ _ hg _ _ _ => hg) ks g rfl

theorem nextKey_evalMany {g g' : Graph} {ks : List Key} (h : evalMany g ks = .ok g') :
    g'.nextKey = g.nextKey :=
  evalMany_ind (P := fun g' => g'.nextKey = g.nextKey) (fun _ _ _ hg _ _ _ => hg)
    (fun _ _ _ _ hg _ _ _ => hg) ks rfl h

theorem live_dropFlagged (fs) (g : Graph) (k : Key) : Live (dropFlagged fs g) k ↔ Live g k := by
  have hgone : k ∈ goneKeys fs g → g.isPending k = true := by
    intro hk
    rw [isPending_iff]
    simp only [goneKeys, List.mem_map, List.mem_filter] at hk
    obtain ⟨p, ⟨hp, -⟩, rfl⟩ := hk
    exact List.mem_map_of_mem hp
  have hpend : (dropFlagged fs g).isPending k = true → g.isPending k = true := by
    rw [isPending_iff, isPending_iff]
    intro h
    simp only [dropFlagged, List.mem_map, List.mem_filter] at h
    obtain ⟨p, ⟨hp, -⟩, rfl⟩ := h
    exact List.mem_map_of_mem hp
  have hpend' : g.isPending k = true → k ∉ goneKeys fs g → (dropFlagged fs g).isPending k = true := by
    rw [isPending_iff, isPending_iff]
    intro h hn
    obtain ⟨p, hp, rfl⟩ := List.mem_map.1 h
    simp only [dropFlagged, List.mem_map, List.mem_filter]
    refine ⟨p, ⟨hp, ?_⟩, rfl⟩
    cases hf : fs p.2 with
    | false => rfl
    | true => exact absurd (List.mem_map_of_mem (List.mem_filter.2 ⟨hp, hf⟩)) hn
  simp only [Live, get_dropFlagged]
  by_cases hk : k ∈ goneKeys fs g
  · simp [hk, hgone hk]
  · simp only [hk, if_false]
    refine and_congr_right fun _ => ?_
    cases h1 : g.isPending k with
    | true => simp [hpend' h1 hk]
    | false =>
      cases h2 : (dropFlagged fs g).isPending k with
      | false => simp
      | true => rw [hpend h2] at h1; simp at h1

/-- Dropping storage in both models. -/
theorem match_drop {g : Graph} {ug : Key → Option NU} {t : T.S} (h : Match g ug t)
    (fs : Nat → Bool) (hfs : ∀ f, fs f = t.applied (f + 1)) :
    Match (dropFlagged fs g) (fun k => if ((dropFlagged fs g).get k).isSome then ug k else none)
      (T.dropOld t) := by
  have hany : ∀ k, (t.pending.any fun p => p.1 == k && t.applied p.2) = true ↔ k ∈ goneKeys fs g := by
    intro k
    rw [T.dropped_iff, h.pending]
    simp only [List.mem_map, goneKeys, List.mem_filter]
    constructor
    · rintro ⟨p, ⟨q, hq, rfl⟩, rfl, ha⟩
      exact ⟨q, ⟨hq, by rw [hfs]; exact ha⟩, rfl⟩
    · rintro ⟨q, ⟨hq, ha⟩, rfl⟩
      exact ⟨_, ⟨q, hq, rfl⟩, rfl, by rw [← hfs]; exact ha⟩
  refine ⟨?_, h.next, ?_, ?_, h.flag, h.recalc, ?_⟩
  · funext k
    simp only [T.dropOld, h.units]
    have hs := h.has k
    rw [get_dropFlagged]
    by_cases hk : k ∈ goneKeys fs g
    · rw [if_pos ((hany k).2 hk), if_pos hk]
      rfl
    · rw [if_neg (fun e => hk ((hany k).1 e)), if_neg hk]
      cases hg : g.get k with
      | some n => rfl
      | none =>
        rw [hg] at hs
        simpa using hs
  · intro k
    rw [live_dropFlagged fs g k]
    exact h.live k
  · simp only [T.dropOld, h.pending, dropFlagged, List.filter_map]
    congr 1
    refine List.filter_congr ?_
    intro p _
    simp [hfs]
  · intro k
    have hs := h.has k
    cases hg : ((dropFlagged fs g).get k) with
    | none => rfl
    | some n =>
      rw [get_dropFlagged] at hg
      split at hg
      · simp at hg
      · rw [hg] at hs
        simpa using hs

theorem bind_inv {α β : Type} {x : R α} {f : α → R β} {z : β} (h : (x >>= f) = .ok z) :
    ∃ a, x = .ok a ∧ f a = .ok z := by
  cases x with
  | error e => simp at h
  | ok a => exact ⟨a, rfl, h⟩

theorem mapR_keys {α β : Type} {f : α → R β} {key : β → α} (hf : ∀ x y, f x = .ok y → key y = x) :
    ∀ {l : List α} {ys : List β}, mapR f l = .ok ys → ys.map key = l := by
  intro l
  induction l with
  | nil => intro ys h; simp only [mapR, Except.ok.injEq] at h; subst h; rfl
  | cons x l ih =>
    intro ys h
    rw [mapR] at h
    cases hx : f x with
    | error e => simp [hx] at h
    | ok z =>
      rw [hx] at h
      simp only [bind_ok] at h
      cases hl : mapR f l with
      | error e => simp [hl] at h
      | ok zs =>
        rw [hl] at h
        simp only [bind_ok, Except.ok.injEq] at h
        subst h
        simp [hf x z hx, ih hl]

theorem makeTask_key {g : Graph} {bs : Nat} {s : AState} {k : Key} {t : Task}
    (h : makeTask g bs s k = .ok t) : t.key = k := by
  unfold makeTask at h
  split at h
  · simp at h
  · split at h
    · simp at h
    · rename_i es _
      cases hm : mapR (makeIn g bs s) es with
      | error e => rw [hm] at h; simp [bind_error] at h
      | ok ins =>
        rw [hm] at h
        simp only [bind_ok] at h
        split at h
        · simp only [Except.ok.injEq] at h
          rw [← h]
        · simp at h

/-- The tasks are those of the order. -/
theorem makeSchedule_keys {g : Graph} {bs : Nat} {s s' : AState} {sch : Schedule}
    (h : makeSchedule g bs s = .ok (s', sch)) : ∃ rem, calcOrder g = .ok (sch.tasks.map Task.key, rem) := by
  unfold makeSchedule at h
  cases ho : calcOrder g with
  | error e => simp [ho] at h
  | ok x =>
    obtain ⟨order, rem⟩ := x
    rw [ho] at h
    simp only [bind_ok] at h
    split at h
    · simp at h
    · cases h1 : assignAll g bs { s with alloc := s.alloc.reset bs } order with
      | error e => simp [h1] at h
      | ok s1 =>
        rw [h1] at h
        simp only [bind_ok] at h
        cases h2 : mapR (makeTask g bs (swapAll { s1 with alloc := s1.alloc.finish } order)) order with
        | error e => simp [h2] at h
        | ok ts =>
          rw [h2] at h
          simp only [bind_ok] at h
          have hk := mapR_keys (key := Task.key) (fun x y => makeTask_key) h2
          cases h3 : mapR (makeOut g bs (swapAll { s1 with alloc := s1.alloc.finish } order)) g.outs with
          | error e => simp [h3] at h
          | ok os =>
            rw [h3] at h
            simp only [bind_ok] at h
            obtain ⟨ar, -, hx⟩ := bind_inv h
            simp only [Except.ok.injEq] at hx
            simp only [Prod.mk.injEq] at hx
            refine ⟨rem, ?_⟩
            rw [← hx.2]
            simp only
            rw [hk]

theorem makeTasks_keys : ∀ {order : List Key} {i : Nat} {ug : Key → Option NU} {ts ug'},
    T.makeTasks i order ug = .ok (ts, ug') → ts.map Prod.fst = order := by
  intro order
  induction order with
  | nil =>
    intro i ug ts ug' h
    simp only [T.makeTasks, Except.ok.injEq, Prod.mk.injEq] at h
    rw [← h.1]
    rfl
  | cons k ks ih =>
    intro i ug ts ug' h
    rw [T.makeTasks] at h
    split at h
    · simp at h
    · obtain ⟨⟨ts', ug2⟩, h1, h⟩ := bind_inv h
      simp only [Except.ok.injEq, Prod.mk.injEq] at h
      rw [← h.1, List.map_cons, ih h1]

/-- What a successful commit does. -/
theorem sim_commit {bs : Nat} {y y' : Y S St} {t : T.S} {rm : Key → Bool} (h : Sim y t) (hw : WF y.g)
    (hc : commit bs y rm = .ok y') :
    (∃ t', Sim y' t') ∧ WF y'.g ∧ y'.cur = y.cur ∧ y'.mem = y.mem ∧ y'.heap = y.heap ∧
      y'.applied = y.applied ∧ y'.cap = y.cap ∧
      ∃ g1, freeOld rm (fun f => y.applied (f + 1)) y.g = .ok g1 ∧ WF g1 ∧
        ((g1.recalc = false ∧ y'.g = g1 ∧ y'.ring = y.ring ∧ y'.a = y.a) ∨
         (g1.recalc = true ∧ y'.g = { g1 with flag := g1.flag + 1, recalc := false } ∧
           ∃ sch td, makeSchedule g1 bs y.a = .ok (y'.a, sch) ∧ y'.ring = y.ring ++ [(sch, td)])) := by
  rw [commit] at hc
  obtain ⟨⟨g, a, sch⟩, hcf, hc⟩ := bind_inv hc
  rw [commitFull] at hcf
  obtain ⟨g1, hfo, hcf⟩ := bind_inv hcf
  obtain ⟨gE, hev, rfl⟩ := freeOld_ok hfo
  -- the handover model before the storage is dropped
  obtain ⟨hwE, -, tE, hrE, hmE, hfE⟩ := keeps_evalMany (keeps_freeMany (h.keeps hw) _) hev
  have hnE : gE.nextKey = y.g.nextKey := by rw [nextKey_evalMany hev, nextKey_freeMany]
  rw [hnE, newUnits_self] at hmE
  have hwd := wf_dropFlagged hwE (fun f => y.applied (f + 1))
  have hmd := match_drop hmE (fun f => y.applied (f + 1)) (fun f => by rw [hfE.applied, h.applied])
  generalize hg1 : dropFlagged (fun f => y.applied (f + 1)) gE = g1 at *
  have hring : tE.ring = y.ring.map Prod.snd := by rw [hfE.ring, h.ring]
  have hcap : tE.cap = y.cap := by rw [hfE.cap, h.cap]
  have happ : tE.applied = y.applied := by rw [hfE.applied, h.applied]
  have hcur : tE.cur = y.cur.2 := by rw [hfE.cur, h.cur]
  have hlive : (T.dropOld tE).live = tE.live := rfl
  split at hcf
  · rename_i hrec
    obtain ⟨⟨a', sch'⟩, hms, hcf⟩ := bind_inv hcf
    simp only at hcf
    split at hcf
    · rename_i hroom
      simp only [Except.ok.injEq, Prod.mk.injEq] at hcf
      obtain ⟨rfl, rfl, rfl⟩ := hcf
      simp only at hc
      obtain ⟨⟨ts, ug'⟩, hmt, hc⟩ := bind_inv hc
      simp only [Except.ok.injEq] at hc
      obtain ⟨rem, hco⟩ := makeSchedule_keys hms
      obtain ⟨hnd, hmem⟩ := order_nodup_mem hwd hco
      have hoo : T.OrderOk tE.live (sch'.tasks.map Task.key) :=
        ⟨hnd, fun k => (hmem k).trans (hmd.live k).symm⟩
      have hug1 : (fun k => if (({ g1 with flag := g1.flag + 1, recalc := false } : Graph).get k).isSome = true
          then y.ug k else none) = (T.dropOld tE).ug := by rw [hmd.units]; rfl
      rw [hug1] at hmt
      have hroom' : tE.ring.length < tE.cap := by
        rw [hring, List.length_map, hcap]
        simpa using hroom
      have htc : T.commit tE (sch'.tasks.map Task.key) = .ok ({ T.dropOld tE with
          ug := ug', flag := tE.flag + 1, ring := tE.ring ++ [⟨ts, tE.flag⟩], recalc := false }, none) := by
        rw [T.commit]
        have : (T.dropOld tE).recalc = true := by rw [hmd.recalc, hrec]
        simp only [this, if_true, hmt, bind_ok]
        have e1 : (T.dropOld tE).ring = tE.ring := rfl
        have e2 : (T.dropOld tE).cap = tE.cap := rfl
        have e3 : (T.dropOld tE).flag = tE.flag := rfl
        rw [e1, e2, e3, if_pos hroom']
        rfl
      obtain ⟨ts2, ug2, q1, q2, q3, q4, -⟩ := T.makeTasks_spec (sch'.tasks.map Task.key) 0 (T.dropOld tE).ug hnd (by
        intro k hk
        rw [hmd.units, hmd.has]
        exact ((hmem k).1 hk).1)
      rw [hmt] at q1
      simp only [Except.ok.injEq, Prod.mk.injEq] at q1
      obtain ⟨rfl, rfl⟩ := q1
      have hflag : tE.flag = g1.flag + 1 := hmd.flag
      subst hc
      refine ⟨⟨_, .commit hrE hoo htc, ⟨rfl, hmd.next, ?_, ?_, ?_, rfl, ?_⟩, happ, ?_, hcap, hcur⟩,
        hwd.congr rfl rfl rfl rfl, rfl, rfl, rfl, rfl, rfl, g1, hfo, hwd, ?_⟩
      · intro k
        exact hmd.live k
      · exact hmd.pending
      · rw [hflag]
      · intro k
        change (ug' k).isSome = (g1.get k).isSome
        by_cases hk : k ∈ sch'.tasks.map Task.key
        · obtain ⟨j, hj⟩ := List.getElem?_of_mem hk
          rw [q4 j k hj, ((hmem k).1 hk).1]
          rfl
        · rw [q3 k hk, hmd.units, hmd.has]
      · simp only [List.map_append, List.map_cons, List.map_nil, hring, hflag]
      · exact .inr ⟨hrec, rfl, sch', _, hms, rfl⟩
    · simp at hcf
  · rename_i hrec
    have hrec' : g1.recalc = false := by simpa using hrec
    simp only [Except.ok.injEq, Prod.mk.injEq] at hcf
    obtain ⟨rfl, rfl, rfl⟩ := hcf
    simp only [Except.ok.injEq] at hc
    have htc : T.commit tE tE.live.dedup = .ok (T.dropOld tE, none) := by
      rw [T.commit]
      have : (T.dropOld tE).recalc = false := by rw [hmd.recalc, hrec']
      simp [this]
    subst hc
    exact ⟨⟨_, .commit hrE ⟨List.nodup_dedup _, fun k => List.mem_dedup⟩ htc, hmd, happ, hring, hcap, hcur⟩,
      hwd, rfl, rfl, rfl, rfl, rfl, g1, hfo, hwd, .inl ⟨hrec', rfl, rfl, rfl⟩⟩

/-! ### Blocks -/

/-- Running the tasks with their unit generators is running the tasks. -/
theorem runUnits_eq (proc : Proc S St) (bs : Nat) (inp : Nat → Nat → S) (ar : List ArChange) :
    ∀ (ts : List Task) (us : List (Key × UG)) (m : Mem S) (h : Key → St),
      us.map Prod.fst = ts.map Task.key → (∀ p ∈ us, ∃ n, p.2 = .own p.1 n) →
      runUnits proc bs inp ar m h (ts.zip (us.map Prod.snd)) = .ok (runTasks proc bs inp ar m h ts) := by
  intro ts
  induction ts with
  | nil => intro us m h _ _; rfl
  | cons t ts ih =>
    intro us m h hk hu
    cases us with
    | nil => simp at hk
    | cons u us =>
      obtain ⟨k, u⟩ := u
      simp only [List.map_cons, List.cons.injEq] at hk
      obtain ⟨rfl, hk⟩ := hk
      obtain ⟨n, hn⟩ := hu _ (List.mem_cons_self ..)
      simp only at hn
      subst hn
      simp only [List.map_cons, List.zip_cons_cons, runUnits, runTasks]
      exact ih us _ _ hk (fun p hp => hu p (List.mem_cons_of_mem _ hp))

/-- The schedules have the tasks they say. -/
def SchOk (y : Y S St) : Prop := ∀ x ∈ y.cur :: y.ring, x.2.tasks.map Prod.fst = x.1.tasks.map Task.key

theorem schOk_newest {y : Y S St} (h : SchOk y) :
    y.newest.2.keys = y.newest.1.tasks.map Task.key := by
  have : y.newest ∈ y.cur :: y.ring := by
    rw [Y.newest]
    cases hl : y.ring.getLast? with
    | none => simp
    | some x => exact List.mem_cons_of_mem _ (List.mem_of_getLast? hl)
  exact h _ this

theorem newest_snd {y : Y S St} {t : T.S} (h : Sim y t) : t.ring.getLast?.getD t.cur = y.newest.2 := by
  rw [h.ring, h.cur, Y.newest, List.getLast?_map]
  cases y.ring.getLast? <;> rfl

/-- A block does not panic; it runs the newest schedule. -/
theorem sim_block [Zero S] {bs : Nat} {y : Y S St} {t : T.S} (h : Sim y t) (hs : SchOk y)
    (proc : Proc S St) (inp : Nat → Nat → S) :
    ∃ y' o, block bs y proc inp = .ok (y', o) ∧ (∃ t', Sim y' t') ∧ SchOk y' ∧ y'.g = y.g ∧ y'.a = y.a ∧
      y'.ug = y.ug ∧ y'.ring = [] ∧ y'.cap = y.cap ∧ y'.cur.1 = y.newest.1 ∧
      (let r := runTasks proc bs inp y.newest.1.ar y.mem y.heap y.newest.1.tasks
       y'.mem = r.1 ∧ y'.heap = r.2 ∧ o = readOuts bs inp r.1 y.newest.1.outs) := by
  obtain ⟨t', log, hb, -, hk, hown, hring, hkeys, htasks, -⟩ := T.block_spec h.reach.inv
  have hb0 := hb
  rw [T.block] at hb
  obtain ⟨c, hc, hb⟩ := bind_inv hb
  obtain ⟨ts, hts, hb⟩ := bind_inv hb
  simp only [Except.ok.injEq, Prod.mk.injEq] at hb
  obtain ⟨rfl, rfl⟩ := hb
  rw [newest_snd h, schOk_newest hs] at hk hkeys
  rw [h.cur, h.ring] at hc
  have hrun := runUnits_eq proc bs inp y.newest.1.ar y.newest.1.tasks c.tasks y.mem y.heap hk
    (fun p hp => ⟨_, hown p hp⟩)
  refine ⟨{ y with
      cur := (y.newest.1, { c with tasks := ts })
      ring := []
      applied := fun f => y.applied f || y.ring.any (fun t => t.2.flag == f)
      mem := (runTasks proc bs inp y.newest.1.ar y.mem y.heap y.newest.1.tasks).1
      heap := (runTasks proc bs inp y.newest.1.ar y.mem y.heap y.newest.1.tasks).2 },
    readOuts bs inp (runTasks proc bs inp y.newest.1.ar y.mem y.heap y.newest.1.tasks).1 y.newest.1.outs,
    ?_, ⟨_, .block h.reach hb0, ⟨h.mt.units, h.mt.next, h.mt.live, h.mt.pending, h.mt.flag, h.mt.recalc,
    h.mt.has⟩, ?_, rfl, h.cap, ?_⟩, ?_, ?_⟩
  · rw [block, hc]
    simp only [bind_ok]
    rw [hrun]
    simp only [bind_ok]
    rw [hts]
    rfl
  · funext f
    simp only [h.applied, h.ring, List.any_map]
    rfl
  · rfl
  · intro x hx
    simp only [List.mem_cons, List.not_mem_nil, or_false] at hx
    subst hx
    exact hkeys
  · exact ⟨rfl, rfl, rfl, rfl, rfl, rfl, rfl, rfl, rfl⟩

theorem schOk_init [Zero S] (id numIn numOut bs cap : Nat) (heap : Key → St) :
    SchOk (Y.init id numIn numOut bs cap heap : Y S St) := by
  intro x hx
  simp only [Y.init, List.mem_cons, List.not_mem_nil, or_false] at hx
  subst hx
  rfl

theorem schOk_commit {bs : Nat} {y y' : Y S St} {rm : Key → Bool} (hs : SchOk y)
    (hc : commit bs y rm = .ok y') : SchOk y' := by
  rw [commit] at hc
  obtain ⟨⟨g, a, sch⟩, hcf, hc⟩ := bind_inv hc
  cases sch with
  | none =>
    simp only [Except.ok.injEq] at hc
    subst hc
    exact hs
  | some sch =>
    simp only at hc
    obtain ⟨⟨ts, ug'⟩, hmt, hc⟩ := bind_inv hc
    simp only [Except.ok.injEq] at hc
    subst hc
    intro x hx
    simp only [List.mem_cons, List.mem_append, List.not_mem_nil, or_false] at hx
    rcases hx with hx | hx | rfl
    · exact hs x (by simp [hx])
    · exact hs x (by simp [hx])
    · exact makeTasks_keys hmt

end

end Verif.Sys
