import Verif.Props.System

/-!
# C68: a commit makes the audio thread play the graph as edited

`commit_changes` makes a new schedule only if `recalculation_required` is set (graph.rs 1711), which each
edit has to do itself.
-/

namespace Verif.Sys

open Verif.G
open Verif.T (NU TD UG)

/-! ### Which edits ask for a new schedule -/

/-- The math nodes the graph inserts itself can be freed. -/
def MathMortal (g : Graph) : Prop := ∀ k n, g.get k = some n → n.autoMath = true → n.mortal = true

/-- `MathMortal`, and a request for a new schedule (if there was one: `b`) is still there. -/
def Asks (b : Bool) (g : Graph) : Prop := MathMortal g ∧ (b = true → g.recalc = true)

theorem asks_same {b : Bool} {g g' : Graph} (h : Asks b g)
    (hg : ∀ k n', g'.get k = some n' → ∃ n, g.get k = some n ∧ n'.autoMath = n.autoMath ∧ n'.mortal = n.mortal)
    (hr : g.recalc = true → g'.recalc = true) : Asks b g' := by
  refine ⟨fun k n' hk ha => ?_, fun hb => hr (h.2 hb)⟩
  obtain ⟨n, h1, h2, h3⟩ := hg k n' hk
  rw [h3]
  exact h.1 k n h1 (by rw [← h2]; exact ha)

theorem asks_map {b : Bool} {g g' : Graph} (h : Asks b g) (f : Key → NodeRec → NodeRec)
    (hf : ∀ k n, (f k n).autoMath = n.autoMath ∧ (f k n).mortal = n.mortal)
    (hg : ∀ k, g'.get k = (g.get k).map (f k)) (hr : g.recalc = true → g'.recalc = true) : Asks b g' := by
  refine asks_same h (fun k n' hk => ?_) hr
  rw [hg] at hk
  obtain ⟨n, h1, h2⟩ := Option.map_eq_some_iff.1 hk
  subst h2
  exact ⟨n, h1, hf k n⟩

theorem asks_modify {b : Bool} {g : Graph} (h : Asks b g) (k : Key) (f : NodeRec → NodeRec)
    (hf : ∀ n, (f n).autoMath = n.autoMath ∧ (f n).mortal = n.mortal) : Asks b (g.modify k f) := by
  refine asks_map h (fun j n => if j = k then f n else n) ?_ ?_ (fun h => h)
  · intro j n
    split
    · exact hf n
    · exact ⟨rfl, rfl⟩
  · intro j
    rw [get_modify]
    split
    · next e => subst e; rfl
    · simp

theorem asks_push {b : Bool} {sl} {g : Graph} {n : NodeRec} (hw : WF g) (h : MathMortal g) :
    Asks b (pushNode sl g n) := by
  refine ⟨fun k n' hk ha => ?_, fun _ => rfl⟩
  rw [get_pushNode sl g n k hw.fresh] at hk
  split at hk
  · simp only [Option.some.injEq] at hk
    subst hk
    rfl
  · exact h k n' hk ha

theorem asks_free1 {b : Bool} {g : Graph} (h : Asks b g) (k : Key) : Asks true (free1 g k) := by
  have : Asks b (free1 g k) := by
    refine asks_map h (fun j n => if j = k then { n with ins := none, pars := none } else
      { n with ins := n.ins.map (·.map (dropFrom k)) }) ?_ ?_ (fun _ => rfl)
    · intro j n
      split <;> exact ⟨rfl, rfl⟩
    · intro j
      rw [get_free1]
      split
      · next e => subst e; rfl
      · rfl
  exact ⟨this.1, fun _ => rfl⟩

theorem asks_free1' {b : Bool} {g : Graph} (h : Asks b g) (k : Key) : Asks b (free1 g k) :=
  ⟨(asks_free1 h k).1, fun _ => rfl⟩

theorem asks_bypass {b : Bool} {g : Graph} (h : Asks b g) (k : Key) (e : Edge) : Asks b (bypass g k e) :=
  asks_map h (fun _ n => { n with ins := n.ins.map (·.map (redirect k e)) }) (fun _ _ => ⟨rfl, rfl⟩)
    (fun j => get_bypass g k e j) (fun h => h)

theorem asks_setEdge {b : Bool} {g g' : Graph} {k i e} (h : Asks b g) (hs : setEdge g k i e = .ok g') : Asks b g' := by
  obtain ⟨es, hes, hi, rfl⟩ := setEdge_ok hs
  exact asks_modify h k _ (fun _ => ⟨rfl, rfl⟩)

theorem asks_setOut {b : Bool} {g g' : Graph} {i e} (h : Asks b g) (hs : setOut g i e = .ok g') : Asks b g' := by
  obtain ⟨hi, rfl⟩ := setOut_ok hs
  exact asks_same h (fun k n' hk => ⟨n', hk, rfl, rfl⟩) (fun h => h)

theorem asks_tail {b : Bool} {sl} {g g' : Graph} {source sink so si add fb} (hw : WF g) (h : Asks b g)
    (he : connectTail sl g source sink so si add fb = .ok g') : Asks b g' := by
  unfold connectTail at he
  split at he
  · exact asks_setEdge h he
  · obtain ⟨o, h1, he⟩ := bind_inv he
    cases o with
    | none => exact asks_setEdge h he
    | some ex =>
      obtain ⟨g2, h2, he⟩ := bind_inv he
      obtain ⟨g3, h3, he⟩ := bind_inv he
      exact asks_setEdge (asks_setEdge (asks_setEdge (asks_push hw h.1) h2) h3) he

theorem asks_connectToNode {sl} {g g' : Graph} {source sink so si add fb} (hw : WF g) (h : MathMortal g)
    (hs : ∀ a, source = .node a → a < g.nextKey)
    (he : connectToNode sl g source sink so si add fb = .ok g') : Asks true g' := by
  unfold connectToNode at he
  have h0 : Asks true { g with recalc := true } := ⟨h, fun _ => rfl⟩
  have hw0 : WF { g with recalc := true } := hw.congr rfl rfl rfl rfl
  dsimp only at he
  split at he
  · obtain ⟨g1, h1, he⟩ := bind_inv he
    have w1 : WF g1 := wf_setEdge (wf_newFeedback hw0) h1 (by
      intro ed a e1 e2
      simp only [Option.some.injEq] at e1; subst e1
      exact Nat.lt_succ_of_lt (Nat.lt_succ_of_lt (hs a e2)))
    have hfb : Asks true (newFeedback sl { g with recalc := true }) := by
      unfold newFeedback
      exact asks_push (wf_push hw0 (by simp)) (asks_push (b := true) hw0 h0.1).1
    exact asks_tail w1 (asks_setEdge hfb h1) he
  · exact asks_tail hw0 h0 he

theorem asks_connectToOut {sl} {g g' : Graph} {source so si add} (hw : WF g) (h : MathMortal g)
    (he : connectToOut sl g source so si add = .ok g') : Asks true g' := by
  unfold connectToOut at he
  have h0 : Asks true { g with recalc := true } := ⟨h, fun _ => rfl⟩
  have hw0 : WF { g with recalc := true } := hw.congr rfl rfl rfl rfl
  dsimp only at he
  split at he
  · exact asks_setOut h0 he
  · obtain ⟨o, h1, he⟩ := bind_inv he
    cases o with
    | none => exact asks_setOut h0 he
    | some ex =>
      obtain ⟨g2, h2, he⟩ := bind_inv he
      obtain ⟨g3, h3, he⟩ := bind_inv he
      exact asks_setOut (asks_setEdge (asks_setEdge (asks_push hw0 h0.1) h2) h3) he

theorem SameWiring.refl (g : Graph) : SameWiring g g := ⟨fun _ => .rfl, fun _ => rfl, fun _ => rfl, rfl⟩

theorem SameWiring.trans {g g' g'' : Graph} (h : SameWiring g g') (h' : SameWiring g' g'') : SameWiring g g'' :=
  ⟨fun k => (h.1 k).trans (h'.1 k), fun k => (h.2.1 k).trans (h'.2.1 k), fun k => (h.2.2.1 k).trans (h'.2.2.1 k),
    h.2.2.2.trans h'.2.2.2⟩

/-- The edits that ask for a new schedule when they change something: all but connecting to a parameter,
disconnecting a graph output by its channel, and making a math node of the graph immortal. -/
def Loud (g : Graph) : Op → Prop
  | .param .. => False
  | .disconnectSink _ .graph => False
  | .mortality n m _ => m = true ∨ ∀ r, g.get n.key = some r → r.autoMath = false
  | .commit .. => False
  | _ => True

/-- **C68.**  An edit that changes the wiring asks for a new schedule.  Missing for the full claim: the
edits that are not `Loud`, see `C68_param_violated` and `C68_disconnect_violated`. -/
theorem C68_edit_partial {sl} {g g' : Graph} {op : Op} {r} (hw : WF g) (hm : MathMortal g) (hl : Loud g op)
    (h : op.run sl g = .ok (g', r)) : MathMortal g' ∧ (g'.recalc = true ∨ SameWiring g g') ∧
      (g.recalc = true → g'.recalc = true) := by
  have ok : ∀ {g'}, Asks true g' → MathMortal g' ∧ (g'.recalc = true ∨ SameWiring g g') ∧
      (g.recalc = true → g'.recalc = true) := fun h => ⟨h.1, .inl (h.2 rfl), fun _ => h.2 rfl⟩
  have same : MathMortal g ∧ (g.recalc = true ∨ SameWiring g g) ∧ (g.recalc = true → g.recalc = true) :=
    ⟨hm, .inr (.refl g), fun h => h⟩
  cases op with
  | push i o d =>
    simp only [Op.run, Except.ok.injEq, Prod.mk.injEq] at h
    rw [← h.1]
    exact ok (asks_push hw hm)
  | connect s so si k a f =>
    simp only [Op.run, connect2] at h
    split at h
    · rcases connectInputToNode_ok h with ⟨rfl, -⟩ | ⟨-, nk, -, -, -, h1⟩
      · exact same
      · exact ok (asks_connectToNode hw hm (by simp) h1)
    · rcases connectNodes_ok h with ⟨rfl, -⟩ | ⟨-, ns, nk, hns, -, -, -, -, h1⟩
      · exact same
      · refine ok (asks_connectToNode hw hm ?_ h1)
        intro b hb
        simp only [Src.node.injEq] at hb
        subst hb
        exact hw.lt _ _ hns
    · rcases connectNodeToOutput_ok h with ⟨rfl, -⟩ | ⟨-, ns, hns, -, -, h1⟩
      · exact same
      · exact ok (asks_connectToOut hw hm h1)
    · rcases connectInputToOutput_ok h with ⟨rfl, -⟩ | ⟨-, -, -, h1⟩
      · exact same
      · exact ok (asks_connectToOut hw hm h1)
  | param s so p k a => exact absurd hl id
  | disconnectSource s c =>
    have hdrop : ∀ {g1 : Graph} s c, MathMortal g1 → Asks true (dropAll g1 s c) := by
      intro g1 s c h1
      have := asks_map (b := false) ⟨h1, by simp⟩ (fun _ n => { n with ins := n.ins.map (·.map (dropExact s c)) })
        (fun _ _ => ⟨rfl, rfl⟩) (fun j => dropAll_get g1 s c j) (fun _ => rfl)
      exact ⟨this.1, fun _ => rfl⟩
    rcases disconnectSource_ok h with ⟨rfl, -⟩ | ⟨-, ⟨n, rec, -, -, -, -, rfl⟩ | ⟨g1, -, -, h1, -, rfl⟩⟩
    · exact same
    · exact ok (hdrop _ _ hm)
    · refine ok (hdrop _ _ ?_)
      exact (takeOut_ind (P := Asks false) (fun _ _ _ hg _ _ _ => asks_free1' hg _)
        (fun _ _ _ _ hg _ _ _ => asks_bypass hg _ _) (fun _ _ _ hg hs => asks_setOut hg hs) ⟨hm, by simp⟩ h1).1
  | disconnectSink c k =>
    rcases disconnectSink_ok h with ⟨rfl, -⟩ |
      ⟨-, ⟨n, rec, es, g1, -, -, -, -, -, h1, rfl⟩ | ⟨rfl, -, h1⟩⟩
    · exact same
    · have := takeIn_ind (P := Asks false) (fun _ _ _ hg _ _ _ => asks_free1' hg _)
        (fun _ _ _ _ hg _ _ _ => asks_bypass hg _ _) (fun _ _ _ _ hg hs => asks_setEdge hg hs) ⟨hm, by simp⟩ h1
      exact ok ⟨this.1, fun _ => rfl⟩
    · exact absurd hl id
  | free n =>
    simp only [Op.run, editFree] at h
    split at h
    · simp only [Except.ok.injEq, Prod.mk.injEq] at h; exact h.1 ▸ same
    · simp only [Except.ok.injEq] at h
      have : g' = (freeNode g n.key).1 := by rw [h]
      rw [this]
      rcases freeNode_ind (P := fun g' => g' = g ∨ Asks true g') (fun g1 k n hg _ _ _ => .inr (by
        rcases hg with rfl | hg
        · exact asks_free1 (b := false) ⟨hm, by simp⟩ _
        · exact asks_free1 hg _)) g n.key (.inl rfl) with h1 | h1
      · rw [h1]; exact same
      · exact ok h1
  | mortality n m st =>
    simp only [Op.run, Except.ok.injEq] at h
    have hg' : g' = (setMortality g n m st).1 := by rw [h]
    rw [hg']
    unfold setMortality
    split
    · exact same
    · next rec hrec =>
      have hget := fun j => get_modify g n.key j fun r => { r with mortal := m }
      refine ⟨?_, .inr ⟨?_, ?_, ?_, rfl⟩, fun h => h⟩
      · intro k n' hk ha
        simp only at hk
        rw [hget] at hk
        split at hk
        · rw [hrec] at hk
          simp only [Option.map_some, Option.some.injEq] at hk
          subst hk
          rcases hl with hl | hl
          · exact hl
          · rw [hl rec hrec] at ha; simp at ha
        · exact hm k n' hk ha
      · intro k
        simp only [Live, isSome_modify]
        exact .rfl
      · intro k
        simp only [ins_eq, hget]
        split
        · next e => subst e; cases g.get n.key <;> rfl
        · rfl
      · intro k
        simp only [pars_eq, hget]
        split
        · next e => subst e; cases g.get n.key <;> rfl
        · rfl
  | commit rm fs => exact absurd hl id

/-! ### The clean-up of a commit -/

theorem freeNode_asks {g : Graph} {k : Key} (h : MathMortal g) :
    (freeNode g k).1 = g ∨ Asks true (freeNode g k).1 :=
  freeNode_ind (P := fun g' => g' = g ∨ Asks true g') (fun g1 k n hg _ _ _ => .inr (by
    rcases hg with rfl | hg
    · exact asks_free1 (b := false) ⟨h, by simp⟩ _
    · exact asks_free1 hg _)) g k (.inl rfl)

theorem freeNode_frees {g : Graph} {k : Key} {n : NodeRec} (h : MathMortal g) (hk : g.get k = some n)
    (hm : n.mortal = true) (hp : g.isPending k = false) : Asks true (freeNode g k).1 := by
  have h1 : Asks true (free1 g k) := asks_free1 (b := false) ⟨h, by simp⟩ k
  rw [freeNode, freeLoop_succ, hk]
  simp only [hm, Bool.not_true, Bool.false_eq_true, if_false, hp]
  split
  · exact freeLoop_ind (P := Asks true) (fun _ _ _ hg _ _ _ => asks_free1' hg _) _ _ _ h1
  · exact h1

theorem evalNode_asks {g g' : Graph} {k : Key} (hw : WF g) (hm : MathMortal g) (h : evalNode g k = .ok g') :
    g' = g ∨ Asks true g' := by
  unfold evalNode at h
  obtain ⟨gm, hem, h2⟩ := bind_inv h
  have hfree : ∀ {g1 g2 : Graph}, MathMortal g1 → evalFree g1 k = .ok g2 → g2 = g1 ∨ g2 = (freeNode g1 k).1 := by
    intro g1 g2 _ h
    unfold evalFree at h
    split at h
    · simp at h
    · split at h
      · split at h
        · simp only [Except.ok.injEq] at h; exact .inl h.symm
        · split at h
          · simp only [Except.ok.injEq] at h; exact .inl h.symm
          · simp only [Except.ok.injEq] at h; exact .inr h.symm
      · simp only [Except.ok.injEq] at h; exact .inl h.symm
  have hmath : gm = g ∨ Asks true gm := by
    rcases evalMath_ok hem with rfl | ⟨n, hn, ha, -, -, ⟨-, -, rfl⟩ | ⟨e, he, -, rfl⟩⟩
    · exact .inl rfl
    · exact freeNode_asks hm
    · refine .inr ?_
      have hb : MathMortal (bypass g k e) := (asks_bypass (b := false) ⟨hm, by simp⟩ k e).1
      refine freeNode_frees (n := { n with ins := n.ins.map (·.map (redirect k e)) }) hb ?_ (hm k n hn ha) ?_
      · rw [get_bypass, hn]; rfl
      · change g.isPending k = false
        cases hp : g.isPending k with
        | false => rfl
        | true =>
          have hi := (hw.live k n hn).2 hp
          have hni : g.ins k = none := by rw [ins_eq, hn]; exact hi
          rcases he with ⟨-, he⟩ | ⟨he, -⟩ <;> rw [edge_of_none hni] at he <;> simp at he
  rcases hmath with rfl | hmath
  · rcases hfree hm h2 with rfl | rfl
    · exact .inl rfl
    · exact freeNode_asks hm
  · rcases hfree hmath.1 h2 with rfl | rfl
    · exact .inr hmath
    · exact .inr (freeNode_ind (P := Asks true) (fun _ _ _ hg _ _ _ => asks_free1' hg _) _ _ hmath)

theorem evalMany_asks : ∀ (ks : List Key) {g g' : Graph}, WF g → MathMortal g → evalMany g ks = .ok g' →
    g' = g ∨ Asks true g' := by
  intro ks
  induction ks with
  | nil =>
    intro g g' _ _ h
    simp only [evalMany, Except.ok.injEq] at h
    exact .inl h.symm
  | cons k ks ih =>
    intro g g' hw hm h
    rw [evalMany] at h
    obtain ⟨g1, h1, h2⟩ := bind_inv h
    rcases evalNode_asks hw hm h1 with rfl | ha
    · exact ih hw hm h2
    · exact .inr (evalMany_ind (P := Asks true) (fun _ _ _ hg _ _ _ => asks_free1' hg _)
        (fun _ _ _ _ hg _ _ _ => asks_bypass hg _ _) ks ha h2)

theorem sameWiring_dropFlagged (fs) {g : Graph} (hw : WF g) : SameWiring g (dropFlagged fs g) := by
  have hgone : ∀ k, k ∈ goneKeys fs g → g.isPending k = true := by
    intro k hk
    rw [isPending_iff]
    simp only [goneKeys, List.mem_map, List.mem_filter] at hk
    obtain ⟨p, ⟨hp, -⟩, rfl⟩ := hk
    exact List.mem_map_of_mem hp
  refine ⟨fun k => (live_dropFlagged fs g k).symm, fun k => ?_, fun k => ?_, rfl⟩
  · rw [ins_eq, ins_eq, get_dropFlagged]
    split
    · next hk =>
      cases hg : g.get k with
      | none => rfl
      | some n => exact (hw.live k n hg).2 (hgone k hk)
    · rfl
  · rw [pars_eq, pars_eq, get_dropFlagged]
    split
    · next hk =>
      cases hg : g.get k with
      | none => rfl
      | some n => exact (hw.livep k n hg).2 (hgone k hk)
    · rfl

theorem freeOld_asks {rm fs} {g g1 : Graph} (hw : WF g) (hm : MathMortal g) (h : freeOld rm fs g = .ok g1) :
    MathMortal g1 ∧ (g1.recalc = true ∨ (g1.recalc = g.recalc ∧ SameWiring g g1)) := by
  obtain ⟨gE, hev, rfl⟩ := freeOld_ok h
  have hmd : ∀ {g : Graph}, MathMortal g → MathMortal (dropFlagged fs g) := by
    intro g hg k n hk ha
    rw [get_dropFlagged] at hk
    split at hk
    · simp at hk
    · exact hg k n hk ha
  have hfm : freeMany g ((g.nodes.map Prod.fst).filter rm) = g ∨
      Asks true (freeMany g ((g.nodes.map Prod.fst).filter rm)) :=
    freeMany_ind (P := fun g' => g' = g ∨ Asks true g') (fun g1 k n hg _ _ _ => .inr (by
      rcases hg with rfl | hg
      · exact asks_free1 (b := false) ⟨hm, by simp⟩ _
      · exact asks_free1 hg _)) _ g (.inl rfl)
  rcases hfm with hfm | hfm
  · rw [hfm] at hev
    rcases evalMany_asks _ hw hm hev with rfl | ha
    · exact ⟨hmd hm, .inr ⟨rfl, sameWiring_dropFlagged fs hw⟩⟩
    · exact ⟨hmd ha.1, .inl (ha.2 rfl)⟩
  · have ha := evalMany_ind (P := Asks true) (fun _ _ _ hg _ _ _ => asks_free1' hg _)
      (fun _ _ _ _ hg _ _ _ => asks_bypass hg _ _) _ hfm hev
    exact ⟨hmd ha.1, .inl (ha.2 rfl)⟩

/-! ### All histories -/

section
variable {S St : Type}

theorem wiring_inv [Zero S] {sl} {bs : Nat} (hbs : 0 < bs) {heap : Key → St} {y : Y S St} {gc : Graph}
    {rs : List (Rec S St)} (h : Hist Loud sl bs heap y gc rs) :
    MathMortal y.g ∧ (y.g.recalc = true ∨ SameWiring gc y.g) := by
  induction h with
  | init id numIn numOut cap =>
    refine ⟨?_, .inr (.refl _)⟩
    intro k n hk
    simp [Y.init, Graph.init, Graph.get] at hk
  | edit hy hop hl he ih =>
    have hg := hy.good hbs
    obtain ⟨t, hs⟩ := hg.sim
    obtain ⟨-, -, hrun, -⟩ := sim_edit hs hg.wf hop he
    obtain ⟨h1, h2, h3⟩ := C68_edit_partial hg.wf ih.1 hl hrun
    refine ⟨h1, ?_⟩
    rcases ih.2 with hr | hsw
    · exact .inl (h3 hr)
    · exact h2.imp id (hsw.trans ·)
  | @commit y y' gc rs rm g1 hy hfo hfine hc ih =>
    have hg := hy.good hbs
    obtain ⟨t, hs⟩ := hg.sim
    obtain ⟨-, -, -, -, -, -, -, g1', hfo', hw1, hcase⟩ := sim_commit hs hg.wf hc
    rw [hfo] at hfo'
    simp only [Except.ok.injEq] at hfo'
    subst hfo'
    obtain ⟨hm1, hor⟩ := freeOld_asks hg.wf ih.1 hfo
    rcases hcase with ⟨hr, hyg, -, -⟩ | ⟨hr, hyg, -⟩
    · rw [hyg, hr]
      refine ⟨hm1, .inr ?_⟩
      rw [hr] at hor
      rcases hor with hor | ⟨hrr, hsw⟩
      · simp at hor
      · rcases ih.2 with h1 | h1
        · rw [h1] at hrr; simp at hrr
        · exact h1.trans hsw
    · rw [hyg, hr]
      exact ⟨hm1, .inr ⟨fun _ => .rfl, fun _ => rfl, fun _ => rfl, rfl⟩⟩
  | @block y y' gc rs o proc inp hy hb ih =>
    have hg := hy.good hbs
    obtain ⟨t, hs⟩ := hg.sim
    obtain ⟨y2, o2, hb2, -, -, h3, -⟩ := sim_block (bs := bs) hs hg.sch proc inp
    rw [hb] at hb2
    simp only [Except.ok.injEq, Prod.mk.injEq] at hb2
    obtain ⟨rfl, rfl⟩ := hb2
    rw [h3]
    exact ih

/-- **C68.**  After a commit the audio thread plays the graph as edited: the graph that C67 says is played
from the next block on has the wiring the control thread holds.  Missing for the full claim: histories with
edits that are not `Loud`. -/
theorem C68_partial [Zero S] {sl} {bs : Nat} (hbs : 0 < bs) {heap : Key → St} {y y' : Y S St} {gc gc' : Graph}
    {rs : List (Rec S St)} {rm : Key → Bool} {g1} (h : Hist Loud sl bs heap y gc rs)
    (hfo : freeOld rm (fun f => y.applied (f + 1)) y.g = .ok g1) (hf : g1.recalc = true → Fine g1)
    (hc : commit bs y rm = .ok y') (hgc : gc' = if g1.recalc then g1 else gc) :
    Hist Loud sl bs heap y' gc' rs ∧ SameWiring gc' y'.g := by
  subst hgc
  have h' := Hist.commit h hfo hf hc
  refine ⟨h', ?_⟩
  have hg := h.good hbs
  obtain ⟨t, hs⟩ := hg.sim
  obtain ⟨-, -, -, -, -, -, -, g1', hfo', -, hcase⟩ := sim_commit hs hg.wf hc
  rw [hfo] at hfo'
  simp only [Except.ok.injEq] at hfo'
  subst hfo'
  rcases (wiring_inv hbs h').2 with hr | hsw
  · rcases hcase with ⟨h1, hyg, -, -⟩ | ⟨h1, hyg, -⟩
    · rw [hyg, h1] at hr; simp at hr
    · rw [hyg] at hr; simp at hr
  · exact hsw

end

/-- The history of the example of C67 is one that `C68_partial` speaks of. -/
example : ∃ (y : Y Int Unit) (gc : Graph) (rs : List (Rec Int Unit)), Hist Loud id 2 (fun _ => ()) y gc rs ∧
    rs.length = 5 := by
  obtain ⟨y, gc, rs, os, h1, h2, h3⟩ := demo_hist Loud (fun k => if k = 1 then 1 else 0) id (fun _ => ()) demoSteps
    _ _ _ (.init 0 0 1 4) (by decide +kernel) (by
      intro op hop g
      simp only [demoSteps, List.mem_cons, Step.ed.injEq, List.not_mem_nil, or_false, reduceCtorEq, false_or] at hop
      rcases hop with rfl | rfl | rfl | rfl | rfl | rfl <;> trivial)
  refine ⟨y, gc, rs, h1, ?_⟩
  have : (demoRun (.init 0 0 1 2 4 (fun _ => ())) demoSteps).map (fun p => p.2.length) = .ok 5 := by decide +kernel
  rw [h2] at this
  simp only [Except.map, Except.ok.injEq] at this
  have h4 := congrArg List.length h3
  simpa [this] using h4

/-! ### The negations -/

/-- A unit generator whose output is the sum of its linked parameters plus its key plus one. -/
def parProc : Proc Int Unit := fun k _ _ ps => ((), fun _ i => (ps.map fun p => p.2.getD i 0).sum + k + 1)

/-- Node 1 is connected to the output; node 0 is there but not connected. -/
def parGraph : R (Y Int Unit × List (List (List Int))) :=
  demoRun (.init 0 0 1 2 4 (fun _ => ())) [.ed (.push 0 1 []), .ed (.push 0 1 [0]),
    .ed (.connect (.node (nd 1)) 0 0 .graph false false), .com, .blk]

/-- C68 is violated by connecting to a parameter: the call succeeds, the commit succeeds, and the next
block still runs node 1 without the connection. -/
theorem C68_param_violated : ∃ y os y1 y2 y3 o, parGraph = .ok (y, os) ∧
    edit id y (.param (nd 0) 0 (.index 0) (nd 1) false) = .ok (y1, .ok ()) ∧
    commit 2 y1 (fun _ => false) = .ok y2 ∧ block 2 y2 parProc (fun _ _ => 0) = .ok (y3, o) ∧
    y2.g.pars 1 = some [⟨0, 0, 0⟩] ∧ o = [[2, 2]] ∧
    -- node 0 puts out 1, so node 1 should put out 3
    ∀ st st' out, BlockSpec y2.g 2 parProc (fun _ _ => 0) st st' out →
      y2.g.outs.map (edgeVal 2 (fun _ _ => 0) out) = [[3, 3]] := by
  refine ⟨_, _, _, _, _, _, rfl, rfl, rfl, rfl, by decide +kernel, by decide +kernel, ?_⟩
  intro st st' out h
  have h0 := h.step 0 [] [] ⟨by decide +kernel, by decide +kernel⟩ (by decide +kernel) (by decide +kernel)
  have h1 := h.step 1 [] [⟨0, 0, 0⟩] ⟨by decide +kernel, by decide +kernel⟩ (by decide +kernel) (by decide +kernel)
  simp only [parProc, Prod.mk.injEq, List.map_cons, List.map_nil] at h0 h1
  rw [← h0.2] at h1
  have e : ∀ o : List (Option Edge), o = [some ⟨.node 1, 0, false⟩] →
      o.map (edgeVal 2 (fun _ _ => 0) out) = [[3, 3]] := by
    intro o ho
    subst ho
    simp only [List.map_cons, List.map_nil, edgeVal]
    rw [← h1.2]
    decide
  exact e _ (by decide +kernel)

/-- C68 is violated by disconnecting a graph output: the call and the commit succeed, and the next block
still puts out what was connected. -/
theorem C68_disconnect_violated : ∃ y os y1 y2 y3 o, parGraph = .ok (y, os) ∧
    edit id y (.disconnectSink 0 .graph) = .ok (y1, .ok ()) ∧
    commit 2 y1 (fun _ => false) = .ok y2 ∧ block 2 y2 parProc (fun _ _ => 0) = .ok (y3, o) ∧
    y2.g.outs = [none] ∧ o = [[2, 2]] := by
  refine ⟨_, _, _, _, _, _, rfl, rfl, rfl, rfl, by decide +kernel, by decide +kernel⟩

end Verif.Sys
