import Verif.Props.System

/-!
# C104: what is heard does not depend on the slots the nodes got

Two runs are compared through a map `σ` from the nodes of the first run to the nodes of the second.  The
map takes the connections of the first run to those of the second.  It may rename the nodes, it may send
two nodes that do the same to one shared node, and the second run may have more nodes, as long as the
first run's nodes do not listen to them.
-/

namespace Verif.Rn

open Verif.G Verif.Sys

/-- A connection with its source renamed. -/
def mapEdge (σ : Key → Key) : Edge → Edge
  | ⟨.node a, c, f⟩ => ⟨.node (σ a), c, f⟩
  | ⟨.graph, c, f⟩ => ⟨.graph, c, f⟩

/-- A parameter connection with its source renamed. -/
def mapPar (σ : Key → Key) (pe : PEdge) : PEdge := { pe with source := σ pe.source }

/-- The map `σ` takes the nodes of `g1` to nodes of `g2` with the same connections.  `D` are the nodes that
occur in the first run at any time: they come and go together with the nodes they are sent to. -/
structure Folds (D : Key → Prop) (σ : Key → Key) (g1 g2 : Graph) : Prop where
  dom : ∀ k, Live g1 k → D k
  live : ∀ k, D k → (Live g1 k ↔ Live g2 (σ k))
  ins : ∀ k, Live g1 k → g2.ins (σ k) = (g1.ins k).map (List.map (Option.map (mapEdge σ)))
  pars : ∀ k, Live g1 k → g2.pars (σ k) = (g1.pars k).map (List.map (mapPar σ))
  outs : g2.outs = g1.outs.map (Option.map (mapEdge σ))

section
variable {S St : Type}

theorem edgeVal_map [Zero S] (σ : Key → Key) (bs : Nat) (inp : Nat → Nat → S) (out : Key → Nat → Nat → S)
    (o : Option Edge) : edgeVal bs inp out (o.map (mapEdge σ)) = edgeVal bs inp (fun k => out (σ k)) o := by
  match o with
  | none => rfl
  | some ⟨.node a, c, f⟩ => rfl
  | some ⟨.graph, c, f⟩ => rfl

/-- The meaning of the second graph, seen from the first. -/
theorem pull [Zero S] {D : Key → Prop} {σ : Key → Key} {g1 g2 : Graph} (hf : Folds D σ g1 g2) {bs : Nat}
    {p1 p2 : Proc S St} (hp : ∀ k, Live g1 k → p1 k = p2 (σ k)) {inp : Nat → Nat → S} {s1 s2 s2' : Key → St}
    (hs : ∀ k, D k → s1 k = s2 (σ k)) {out : Key → Nat → Nat → S} (hb : BlockSpec g2 bs p2 inp s2 s2' out)
    {s1' : Key → St} (hlive : ∀ k, Live g1 k → s1' k = s2' (σ k)) (hdead : ∀ k, ¬ Live g1 k → s1' k = s1 k) :
    BlockSpec g1 bs p1 inp s1 s1' (fun k => out (σ k)) := by
  refine ⟨?_, hdead⟩
  intro k es ps hk he hpa
  have hD := hf.dom k hk
  have h1 := hf.ins k hk
  have h2 := hf.pars k hk
  rw [he] at h1
  rw [hpa] at h2
  have := hb.step (σ k) _ _ ((hf.live k hD).1 hk) h1 h2
  rw [hp k hk, hs k hD, hlive k hk, ← this, List.map_map, List.map_map]
  congr 1
  apply List.map_congr_left
  intro o _
  exact (edgeVal_map σ bs inp out o).symm

/-- One block: the same outputs, and the states stay the same. -/
theorem step_eq [Zero S] {D : Key → Prop} {σ : Key → Key} {g1 g2 : Graph} (hf : Folds D σ g1 g2) {bs : Nat}
    (hd : Determined S St bs g1)
    {p1 p2 : Proc S St} (hp : ∀ k, Live g1 k → p1 k = p2 (σ k)) {inp : Nat → Nat → S} {s1 s1' s2 s2' : Key → St}
    (hs : ∀ k, D k → s1 k = s2 (σ k)) {out1 out2 : Key → Nat → Nat → S}
    (h1 : BlockSpec g1 bs p1 inp s1 s1' out1) (h2 : BlockSpec g2 bs p2 inp s2 s2' out2) :
    (∀ k, D k → s1' k = s2' (σ k)) ∧
      g1.outs.map (edgeVal bs inp out1) = g2.outs.map (edgeVal bs inp out2) := by
  classical
  obtain ⟨h3, h4⟩ := hd _ _ _ _ _ _ _ h1 (pull hf hp hs h2
    (s1' := fun k => if Live g1 k then s2' (σ k) else s1 k)
    (fun k hk => by simp [hk]) (fun k hk => by simp [hk]))
  refine ⟨?_, ?_⟩
  · intro k hD
    rw [h3]
    by_cases hk : Live g1 k
    · simp [hk]
    · simp only [hk, if_false]
      rw [h2.idle _ (fun h => hk ((hf.live k hD).2 h)), hs k hD]
  · rw [h4, hf.outs, List.map_map]
    apply List.map_congr_left
    intro o _
    exact (edgeVal_map σ bs inp out2 o).symm

/-- **C104.**  Two runs, however they were edited and committed, that start with the same unit generators
and play graphs that only differ by `σ`, block by block, put out the same samples, and the unit generators
end in the same states. -/
theorem C104_partial [Zero S] {E1 E2 sl1 sl2} {bs : Nat} (hbs : 0 < bs) {heap1 heap2 : Key → St} {y1 y2 : Y S St}
    {gc1 gc2 : Graph} {rs1 rs2 : List (Rec S St)} (h1 : Hist E1 sl1 bs heap1 y1 gc1 rs1)
    (h2 : Hist E2 sl2 bs heap2 y2 gc2 rs2) (D : Key → Prop) (σ : Key → Key)
    (hheap : ∀ k, D k → heap1 k = heap2 (σ k))
    (he : List.Forall₂ (fun r1 r2 => Folds D σ r1.g r2.g ∧ (∀ k, Live r1.g k → r1.proc k = r2.proc (σ k)) ∧
      r1.inp = r2.inp) rs1 rs2) :
    rs1.map Rec.o = rs2.map Rec.o ∧ ∀ k, D k → y1.heap k = y2.heap (σ k) := by
  have key : ∀ {rs1 : List (Rec S St)} {st1}, Means bs heap1 rs1 st1 → ∀ {rs2 st2}, Means bs heap2 rs2 st2 →
      (∀ r ∈ rs1, Determined S St bs r.g) →
      List.Forall₂ (fun r1 r2 => Folds D σ r1.g r2.g ∧ (∀ k, Live r1.g k → r1.proc k = r2.proc (σ k)) ∧
        r1.inp = r2.inp) rs1 rs2 →
      rs1.map Rec.o = rs2.map Rec.o ∧ ∀ k, D k → st1 k = st2 (σ k) := by
    intro rs1 st1 m1
    induction m1 with
    | nil =>
      intro rs2 st2 m2 _ hf
      cases hf
      rw [means_nil m2]
      exact ⟨rfl, hheap⟩
    | @snoc rs r s1 s2 out hm hb ho ih =>
      intro rs2 st2 m2 hd hf
      rcases List.eq_nil_or_concat rs2 with rfl | ⟨rs2', r2, rfl⟩
      · have := hf.length_eq
        simp at this
      · rw [List.concat_eq_append] at *
        obtain ⟨hf1, hfo, hpr, hin⟩ := forall₂_snoc hf
        obtain ⟨s1', out', hm', hb', ho'⟩ := means_snoc m2
        obtain ⟨ho1, hs⟩ := ih hm' (fun x hx => hd x (by simp [hx])) hf1
        rw [hin] at hb ho
        obtain ⟨h3, h4⟩ := step_eq hfo (hd r (by simp)) hpr hs hb hb'
        refine ⟨?_, h3⟩
        rw [List.map_append, List.map_append, ho1]
        simp only [List.map_cons, List.map_nil]
        rw [ho, ho', h4]
  exact key (h1.good hbs).means (h2.good hbs).means (h1.determined hbs).2 he

/-- **C104.**  Nodes that nobody listens to can be left out: if every node of the first run has the same
connections in the second, and is there in the second whenever it is in the first and the other way round,
the outputs are the same, whatever else there is in the second run. -/
theorem C104_unheard_partial [Zero S] {E1 E2 sl1 sl2} {bs : Nat} (hbs : 0 < bs) {heap : Key → St} {y1 y2 : Y S St}
    {gc1 gc2 : Graph} {rs1 rs2 : List (Rec S St)} (h1 : Hist E1 sl1 bs heap y1 gc1 rs1)
    (h2 : Hist E2 sl2 bs heap y2 gc2 rs2)
    (he : List.Forall₂ (fun r1 r2 =>
      (∀ k, (∃ r ∈ rs1, Live r.g k) → (Live r1.g k ↔ Live r2.g k)) ∧
      (∀ k, Live r1.g k → r2.g.ins k = r1.g.ins k ∧ r2.g.pars k = r1.g.pars k ∧ r1.proc k = r2.proc k) ∧
      r2.g.outs = r1.g.outs ∧ r1.inp = r2.inp) rs1 rs2) :
    rs1.map Rec.o = rs2.map Rec.o := by
  have hid : mapEdge (fun k => k) = id := by
    funext e
    match e with
    | ⟨.node a, c, f⟩ => rfl
    | ⟨.graph, c, f⟩ => rfl
  have hip : mapPar (fun k => k) = id := by funext e; rfl
  refine (C104_partial hbs h1 h2 (fun k => ∃ r ∈ rs1, Live r.g k) (fun k => k) (fun _ _ => rfl) ?_).1
  have : ∀ (l1 l2 : List (Rec S St)), (∀ r ∈ l1, r ∈ rs1) → List.Forall₂ (fun r1 r2 =>
      (∀ k, (∃ r ∈ rs1, Live r.g k) → (Live r1.g k ↔ Live r2.g k)) ∧
      (∀ k, Live r1.g k → r2.g.ins k = r1.g.ins k ∧ r2.g.pars k = r1.g.pars k ∧ r1.proc k = r2.proc k) ∧
      r2.g.outs = r1.g.outs ∧ r1.inp = r2.inp) l1 l2 →
      List.Forall₂ (fun r1 r2 => Folds (fun k => ∃ r ∈ rs1, Live r.g k) (fun k => k) r1.g r2.g ∧
        (∀ k, Live r1.g k → r1.proc k = r2.proc k) ∧ r1.inp = r2.inp) l1 l2 := by
    intro l1 l2 hm hf
    induction hf with
    | nil => exact .nil
    | @cons a b l1 l2 h _ ih =>
      obtain ⟨q1, q2, q3, q4⟩ := h
      refine .cons ⟨⟨fun k hk => ⟨a, hm a (by simp), hk⟩, q1, ?_, ?_, ?_⟩, fun k hk => (q2 k hk).2.2, q4⟩
        (ih fun r hr => hm r (by simp [hr]))
      · intro k hk
        rw [(q2 k hk).1, hid]
        simp
      · intro k hk
        rw [(q2 k hk).2.1, hip]
        simp
      · rw [q3, hid]
        simp
  exact this rs1 rs2 (fun _ h => h) he

end

/-! ### What is missing: graphs that are not fine

When a node is connected to a graph output and feeds other nodes, the order of the slots is heard. -/

/-- The first block of a graph, played with some unit generators. -/
def firstBlock (g : Graph) (proc : Proc Int Unit) : R (List (List Int)) := do
  let (_, sch) ← makeSchedule g 1 (.init 1)
  .ok (readOuts 1 (fun _ _ => 0) (runTasks proc 1 (fun _ _ => 0) sch.ar (fun _ _ => 0)
    (fun _ => ()) sch.tasks).1 sch.outs)

/-- Three nodes.  Node 0 is the source, and is connected to output 0.  Nodes 1 and 2 can listen to it, and
node `e` is connected to output 1. -/
def three (e : Key) (l1 l2 : Bool) : Graph :=
  let i (b : Bool) : List (Option Edge) := [if b then some ⟨.node 0, 0, false⟩ else none]
  { id := 0, numIn := 0, nextKey := 3, recalc := true,
    outs := [some ⟨.node 0, 0, false⟩, some ⟨.node e, 0, false⟩],
    nodes := [(0, { inputs := 0, outputs := 1, ins := some [], pars := some [] }),
      (1, { inputs := 1, outputs := 1, ins := some (i l1), pars := some [] }),
      (2, { inputs := 1, outputs := 1, ins := some (i l2), pars := some [] })] }

/-- The edits that make it. -/
def listen (k : Nat) : Op := .connect (.node (nd 0)) 0 0 (.node (nd k)) true false
def hear (e : Nat) : List Op := [.connect (.node (nd 0)) 0 0 .graph true false,
  .connect (.node (nd e)) 0 1 .graph true false]
def adds : List Op := [.push 0 1 [], .push 1 1 [], .push 1 1 []]

theorem reach_three_12 : Reach id (three 2 true true) :=
  reach_runOps (adds ++ [listen 1, listen 2] ++ hear 2) (Reach.init 0 0 2)
    (rs := [.ok (), .ok (), .ok (), .ok (), .ok (), .ok (), .ok ()]) rfl

theorem reach_three_21 : Reach id (three 1 true true) :=
  reach_runOps (adds ++ [listen 2, listen 1] ++ hear 1) (Reach.init 0 0 2)
    (rs := [.ok (), .ok (), .ok (), .ok (), .ok (), .ok (), .ok ()]) rfl

theorem reach_three_2 : Reach id (three 2 false true) :=
  reach_runOps (adds ++ [listen 2] ++ hear 2) (Reach.init 0 0 2)
    (rs := [.ok (), .ok (), .ok (), .ok (), .ok (), .ok ()]) rfl

/-- The source puts out 1, the others add one to their input. -/
def addOne : Proc Int Unit := fun _ _ ins _ => ((), fun _ i => (ins.map fun c => c.getD i 0).sum + 1)

def swap12 (k : Key) : Key := if k = 1 then 2 else if k = 2 then 1 else k

/-- Compare two graphs in which nodes 0, 1 and 2 are all there are. -/
def look (σ : Key → Key) (g1 g2 : Graph) : Bool :=
  decide (g1.nodes.map Prod.fst = [0, 1, 2]) &&
  [0, 1, 2].all (fun k => ((g1.get k).isSome && !g1.isPending k) == ((g2.get (σ k)).isSome && !g2.isPending (σ k)) &&
    decide (g2.ins (σ k) = (g1.ins k).map (List.map (Option.map (mapEdge σ)))) &&
    decide (g2.pars (σ k) = (g1.pars k).map (List.map (mapPar σ)))) &&
  decide (g2.outs = g1.outs.map (Option.map (mapEdge σ)))

theorem folds_of_look {σ : Key → Key} {g1 g2 : Graph} (h : look σ g1 g2 = true) :
    Folds (· ∈ [0, 1, 2]) σ g1 g2 := by
  simp only [look, Bool.and_eq_true, decide_eq_true_eq, List.all_eq_true, beq_iff_eq] at h
  obtain ⟨⟨hn, h⟩, ho⟩ := h
  have hdom : ∀ k, Live g1 k → k ∈ [0, 1, 2] := by
    intro k hk
    obtain ⟨n, hg⟩ := Option.isSome_iff_exists.1 hk.1
    rw [← hn]
    exact List.mem_map_of_mem (mem_of_get hg)
  have hl : ∀ (g : Graph) k, Live g k ↔ ((g.get k).isSome && !g.isPending k) = true := by
    intro g k
    simp [Live]
  refine ⟨hdom, fun k hk => ?_, fun k hk => (h k (hdom k hk)).1.2, fun k hk => (h k (hdom k hk)).2, ho⟩
  rw [hl, hl, (h k hk).1.1]

/-- Two graphs made by the same edits, except that the two listeners were added in a different order, do
not sound the same: in the first, node 2 is heard and runs before the source. -/
theorem C104_violated : ∃ g1 g2 : Graph, Reach id g1 ∧ Reach id g2 ∧ Folds (· ∈ [0, 1, 2]) swap12 g1 g2 ∧
    firstBlock g1 addOne = .ok [[1], [1]] ∧ firstBlock g2 addOne = .ok [[1], [2]] :=
  ⟨_, _, reach_three_12, reach_three_21, folds_of_look (by decide +kernel), by decide +kernel, by decide +kernel⟩

/-- Connecting a node that nobody hears changes what is heard: the two graphs differ by the connection from
node 0 to node 1, and node 1 is not connected to anything. -/
theorem C104_listener_violated : ∃ g1 g2 : Graph, Reach id g1 ∧
    (listen 1).run id g1 = .ok (g2, .ok ()) ∧ (∀ k, ¬ Needs g2 1 k) ∧ ¬ OutNode g2 1 ∧
    firstBlock g1 addOne = .ok [[1], [2]] ∧ firstBlock g2 addOne = .ok [[1], [1]] := by
  refine ⟨_, three 2 true true, reach_three_2, rfl, ?_, ?_, by decide +kernel, by decide +kernel⟩
  · rintro k (⟨i, e, he, hs⟩ | ⟨es, pe, hp, hm, hs⟩)
    · have := mem_allEdges he
      rw [show allEdges (three 2 true true) = [(1, ⟨.node 0, 0, false⟩), (2, ⟨.node 0, 0, false⟩)] from rfl] at this
      simp only [List.mem_cons, Prod.mk.injEq, List.not_mem_nil, or_false] at this
      rcases this with ⟨-, rfl⟩ | ⟨-, rfl⟩ <;> simp at hs
    · have := mem_allPars hp hm
      rw [show allPars (three 2 true true) = [] from rfl] at this
      simp at this
  · rw [← isOutNode_iff]
    decide

/-! ### A pair of histories -/

/-- Run the steps, keep the records, and check what `Hist` asks for. -/
def play (proc : Proc Int Unit) (rank : Key → Nat) (up : Key → Key) (y : Y Int Unit) (gc : Graph)
    (rs : List (Rec Int Unit)) : List Step → Option (Y Int Unit × Graph × List (Rec Int Unit))
  | [] => some (y, gc, rs)
  | .ed op :: ss => if isCommit op then none else match edit id y op with
    | .ok (y, _) => play proc rank up y gc rs ss
    | .error _ => none
  | .com :: ss => match freeOld (fun _ => false) (fun f => y.applied (f + 1)) y.g, commit 2 y (fun _ => false) with
    | .ok g1, .ok y => if !g1.recalc || fineB g1 rank up then play proc rank up y (if g1.recalc then g1 else gc) rs ss
      else none
    | _, _ => none
  | .blk :: ss => match block 2 y proc (fun _ _ => 0) with
    | .ok (y, o) => play proc rank up y gc (rs ++ [⟨gc, proc, fun _ _ => 0, o⟩]) ss
    | .error _ => none

theorem play_hist {proc : Proc Int Unit} {rank : Key → Nat} {up : Key → Key} {heap : Key → Unit} :
    ∀ {ss : List Step} {y y' : Y Int Unit} {gc gc' : Graph} {rs rs' : List (Rec Int Unit)},
      Hist (fun _ _ => True) id 2 heap y gc rs → play proc rank up y gc rs ss = some (y', gc', rs') →
      Hist (fun _ _ => True) id 2 heap y' gc' rs' := by
  intro ss
  induction ss with
  | nil =>
    intro y y' gc gc' rs rs' h hp
    simp only [play, Option.some.injEq, Prod.mk.injEq] at hp
    obtain ⟨rfl, rfl, rfl⟩ := hp
    exact h
  | cons s ss ih =>
    intro y y' gc gc' rs rs' h hp
    cases s with
    | ed op =>
      simp only [play] at hp
      split at hp
      · simp at hp
      · next hc =>
        split at hp
        · next he => exact ih (.edit h (by simpa using hc) trivial he) hp
        · simp at hp
    | com =>
      simp only [play] at hp
      split at hp
      · next hf hc =>
        split at hp
        · next hr => exact ih (.commit h hf (fun hr' => fine_of_check rank up (by simpa [hr'] using hr)) hc) hp
        · simp at hp
      · simp at hp
    | blk =>
      simp only [play] at hp
      split at hp
      · next hb => exact ih (.block _ _ h hb) hp
      · simp at hp

theorem play_recs {proc : Proc Int Unit} {rank : Key → Nat} {up : Key → Key} :
    ∀ {ss : List Step} {y y' : Y Int Unit} {gc gc' : Graph} {rs rs' : List (Rec Int Unit)},
      play proc rank up y gc rs ss = some (y', gc', rs') → (∀ r ∈ rs, r.proc = proc ∧ r.inp = fun _ _ => 0) →
      ∀ r ∈ rs', r.proc = proc ∧ r.inp = fun _ _ => 0 := by
  intro ss
  induction ss with
  | nil =>
    intro y y' gc gc' rs rs' hp h
    simp only [play, Option.some.injEq, Prod.mk.injEq] at hp
    obtain ⟨rfl, rfl, rfl⟩ := hp
    exact h
  | cons s ss ih =>
    intro y y' gc gc' rs rs' hp h
    cases s with
    | ed op =>
      simp only [play] at hp
      split at hp
      · simp at hp
      · split at hp
        · exact ih hp h
        · simp at hp
    | com =>
      simp only [play] at hp
      split at hp
      · split at hp
        · exact ih hp h
        · simp at hp
      · simp at hp
    | blk =>
      simp only [play] at hp
      split at hp
      · refine ih hp ?_
        intro r hr
        simp only [List.mem_append, List.mem_singleton] at hr
        rcases hr with hr | rfl
        · exact h r hr
        · exact ⟨rfl, rfl⟩
      · simp at hp

/-- Two sources that put out 5, and node 2 adds them up. -/
def addTwo : Proc Int Unit := fun k _ ins _ => ((), fun _ i => if k = 2 then (ins.map fun c => c.getD i 0).sum else 5)
/-- Node 0 adds up, the others put out 5. -/
def addShared : Proc Int Unit := fun k _ ins _ => ((), fun _ i => if k = 0 then (ins.map fun c => c.getD i 0).sum else 5)

def stepsTwo : List Step := [.ed (.push 0 1 []), .ed (.push 0 1 []), .ed (.push 2 1 []),
  .ed (.connect (.node (nd 0)) 0 0 (.node (nd 2)) false false), .ed (.connect (.node (nd 1)) 0 1 (.node (nd 2)) false false),
  .ed (.connect (.node (nd 2)) 0 0 .graph false false), .com, .blk, .blk]
def stepsShared : List Step := [.ed (.push 2 1 []), .ed (.connect (.node (nd 0)) 0 0 .graph false false),
  .ed (.push 0 1 []), .ed (.connect (.node (nd 1)) 0 1 (.node (nd 0)) false false), .ed (.push 0 1 []),
  .ed (.connect (.node (nd 1)) 0 0 (.node (nd 0)) false false), .com, .blk, .blk]

def share (k : Key) : Key := if k = 2 then 0 else 1

def playTwo := play addTwo id (fun _ => 2) (.init 0 0 1 2 4 (fun _ => ())) (.init 0 0 1) [] stepsTwo
def playShared := play addShared (fun k => if k = 0 then 1 else 0) (fun _ => 0) (.init 0 0 1 2 4 (fun _ => ()))
  (.init 0 0 1) [] stepsShared

/-- Two histories that `C104_partial` speaks of: in the second, one source takes the place of two, the mixer
has another slot, and there is one more node that is not connected. -/
example : ∃ (y1 y2 : Y Int Unit) (gc1 gc2 : Graph) (rs1 rs2 : List (Rec Int Unit)),
    Hist (fun _ _ => True) id 2 (fun _ => ()) y1 gc1 rs1 ∧ Hist (fun _ _ => True) id 2 (fun _ => ()) y2 gc2 rs2 ∧
    List.Forall₂ (fun r1 r2 => Folds (· ∈ [0, 1, 2]) share r1.g r2.g ∧
      (∀ k, Live r1.g k → r1.proc k = r2.proc (share k)) ∧ r1.inp = r2.inp) rs1 rs2 ∧
    rs1.map Rec.o = [[[10, 10]], [[10, 10]]] := by
  have hk : (playTwo.bind fun x => playShared.map fun z => x.2.2.length == z.2.2.length &&
      (x.2.2.zip z.2.2).all (fun p => look share p.1.g p.2.g) &&
      x.2.2.map Rec.o == [[[10, 10]], [[10, 10]]]) = some true := by decide +kernel
  simp only [Option.bind_eq_some_iff, Option.map_eq_some_iff, Bool.and_eq_true, beq_iff_eq, List.all_eq_true] at hk
  obtain ⟨⟨y1, gc1, rs1⟩, h1, ⟨y2, gc2, rs2⟩, h2, ⟨h3, h4⟩, h5⟩ := hk
  refine ⟨y1, y2, gc1, gc2, rs1, rs2, play_hist (.init 0 0 1 4) h1, play_hist (.init 0 0 1 4) h2,
    List.forall₂_iff_zip.2 ⟨h3, fun {a b} hm => ?_⟩, h5⟩
  obtain ⟨q1, q2⟩ := play_recs h1 (by simp) a (List.of_mem_zip hm).1
  obtain ⟨q3, q4⟩ := play_recs h2 (by simp) b (List.of_mem_zip hm).2
  refine ⟨folds_of_look (h4 _ hm), fun k _ => ?_, by rw [q2, q4]⟩
  rw [q1, q3]
  by_cases h : k = 2
  · subst h
    rfl
  · have : share k = 1 := if_neg h
    rw [this]
    funext _ ins _
    simp [addTwo, addShared, h]

end Verif.Rn
