import Verif.Model.Alloc

/-!
# Inspection of a graph (`knaster_graph/src/graph.rs` 1803–1875, `inspection.rs`)

`Graph::inspection` goes through the `node_order` of the last ordering, so the state here is the graph of
`Model/Graph.lean` together with `node_order` and `disconnected_nodes`.

Simplifications: names, parameter descriptions and hints, the sender and the clock are left out; `is_graph`
is always `None` in the code and left out as well.  The dot string is modelled by the list of edges it
draws.  As in the other models a refused commit ends the history.
-/

namespace Verif.In

open Verif.G

/-- Number of values of a `u16`. -/
def U16 : Nat := 65536

/-- `EdgeInspection` (inspection.rs 241–248). -/
structure EdgeI where
  source : Src
  from' : Nat
  to' : Nat
  fb : Bool
  deriving DecidableEq, Repr

/-- `NodeInspection` (inspection.rs 217–239). -/
structure NodeI where
  key : Key
  inputs : Nat
  outputs : Nat
  edges : List EdgeI
  unconnected : Bool
  deriving DecidableEq, Repr

/-- `GraphInspection` (inspection.rs 14–36). -/
structure Insp where
  nodes : List NodeI
  outs : List EdgeI
  numIn : Nat
  numOut : Nat
  id : Nat
  deriving DecidableEq, Repr

/-- The input edges of a node (graph.rs 1810–1828); `is_feedback` is the constant `false`. -/
def nodeEdges (es : List (Option Edge)) : List EdgeI :=
  es.zipIdx.filterMap fun p => p.1.map fun e => ⟨e.source, e.chan, p.2 % U16, false⟩

/-- The edges of the graph outputs (graph.rs 1843–1856). -/
def outEdges (es : List (Option Edge)) : List EdgeI :=
  es.zipIdx.filterMap fun p => p.1.map fun e => ⟨e.source, e.chan, p.2 % U16, e.fb⟩

/-- The loop over `node_order` (graph.rs 1808–1842).  Indexing the slot map with a key that is not there
panics. -/
def inspectNodes (g : Graph) (disc : List Key) : List Key → R (List NodeI)
  | [] => .ok []
  | k :: ks => match g.get k with
    | none => .error .index
    | some n => do
      let rest ← inspectNodes g disc ks
      .ok (⟨k, n.inputs, n.outputs, nodeEdges ((g.ins k).getD []), decide (k ∈ disc)⟩ :: rest)

/-- `inspection` (graph.rs 1803–1870). -/
def inspect (g : Graph) (order disc : List Key) : R Insp := do
  let nodes ← inspectNodes g disc order
  .ok ⟨nodes, outEdges g.outs, g.numIn, g.outs.length, g.id⟩

/-- The two ends of an arrow in the dot string: a node by its position in `nodes`, or the graph. -/
abbrev DotEnd := Option Nat

/-- The name of the source of an edge (inspection.rs 148–158 and 174–184): `none` if there is no such node. -/
def dotSource (v : Insp) : Src → Option DotEnd
  | .node k => (position (fun n : NodeI => n.key == k) v.nodes).map some
  | .graph => some none

/-- The arrows drawn by `to_dot_string` (inspection.rs 138–190); an edge whose source is not among the nodes
is skipped with an error in the log. -/
def dotEdges (v : Insp) : List (DotEnd × Nat × DotEnd × Nat) :=
  (v.nodes.zipIdx.flatMap fun p => p.1.edges.filterMap fun e =>
    (dotSource v e.source).map fun s => (s, e.from', some p.2, e.to')) ++
  v.outs.filterMap fun e => (dotSource v e.source).map fun s => (s, e.from', none, e.to')

/-- A graph with its `node_order` and `disconnected_nodes` (graph.rs 180–181) and the change flags set by
the audio thread. -/
structure IS where
  g : Graph
  a : AState
  order : List Key := []
  disc : List Key := []
  applied : Nat → Bool := fun _ => false

/-- `Graph::new` (graph.rs 203–333). -/
def IS.init (id numIn numOut bs : Nat) : IS := { g := .init id numIn numOut, a := .init bs }

/-- What can happen: an edit, a commit (`commit_changes`, graph.rs 1707–1727), a call of the public
`calculate_node_order` (graph.rs 2022–2073), and the audio thread taking over a schedule that was sent. -/
inductive Step where
  | edit (op : Op)
  | commit (removeMe : Key → Bool) (room : Bool)
  | reorder
  | audio (f : Nat)

/-- One step; the audio thread can only set flags of schedules that were sent.  The commit is the one of
the allocator model, with the order it computed written to the graph. -/
def Step.run (sl : Key → Nat) (bs : Nat) (s : IS) : Step → R IS
  | .edit op => do
    let (g, _) ← op.run sl s.g
    .ok { s with g := g }
  | .commit rm room => do
    let g1 ← freeOld rm s.applied s.g
    let (g, a, sch) ← commitFull rm s.applied room bs s.g s.a
    match sch with
    | none => .ok { s with g := g, a := a }
    | some _ => do
      let (order, disc) ← calcOrder g1
      .ok { s with g := g, a := a, order := order, disc := disc }
  | .reorder => do
    let (order, disc) ← calcOrder s.g
    .ok { s with order := order, disc := disc }
  | .audio f => .ok { s with applied := fun n => s.applied n || (n == f && decide (f < s.g.flag)) }

/-- The edits: every call but the commit, which has a step of its own. -/
def Step.legal : Step → Prop
  | .edit (.commit ..) => False
  | _ => True

/-- States reachable from a new graph by steps that did not panic. -/
inductive Reaches (sl : Key → Nat) (bs : Nat) : IS → Prop
  | init (id numIn numOut : Nat) : Reaches sl bs (IS.init id numIn numOut bs)
  | step {s s' : IS} (st : Step) : Reaches sl bs s → st.legal → st.run sl bs s = .ok s' → Reaches sl bs s'

end Verif.In
