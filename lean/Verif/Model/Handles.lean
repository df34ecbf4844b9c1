import Verif.Model.Arith

/-!
# Handles: stacking, selecting and connecting channels (knaster_graph/src/graph_edit.rs 264–680, 1209–1260,
1361–1374, 1419–1696)

A channel is a node (or the graph) with a channel number.  A static handle (`SH`) knows its numbers of channels by
type, a dynamic one (`DH`) at run time.

Simplifications: the arrays of `ChannelIterBuilder` are lists with the size of the array beside them; an iterator is
the list of what it yields; logged errors are returned as a list instead of being written to the log; the locks
around the graph are left out (see the model of the locks).
-/

namespace Verif.H

open Verif.G Verif.Ar

/-- `ChannelIterBuilder` (graph_edit.rs 1580–1593): the size of the array and what has been written to it. -/
structure Builder where
  cap : Nat
  chans : List Chan := []
  deriving DecidableEq, Repr

/-- `ChannelIterBuilder::push` (graph_edit.rs 1594–1599): ignored when the array is full. -/
def Builder.push (b : Builder) (c : Chan) : Builder :=
  if b.chans.length < b.cap then { b with chans := b.chans ++ [c] } else b

/-- `into_channel_iter().expect(..)` (graph_edit.rs 1600–1618). -/
def Builder.finish (b : Builder) : R (List Chan) :=
  if b.chans.length = b.cap then .ok b.chans else .error .unwrap

/-- A builder for `cap` channels filled with a loop over `l`. -/
def build (cap : Nat) (l : List Chan) : R (List Chan) := (l.foldl Builder.push ⟨cap, []⟩).finish

/-- The static handles: `Handle3` (719–722; the channel numbers come from the type of the unit generator),
`ChannelsHandle` (1483–1485), `Stack` (1423–1426). -/
inductive SHandle where
  | node (n : NodeId) (inputs outputs : Nat)
  | chans (out : List Chan)
  | stack (a b : SHandle)
  deriving DecidableEq, Repr

/-- `Static::Outputs` (graph_edit.rs 901, 1435, 1501). -/
def SHandle.outT : SHandle → Nat
  | .node _ _ o => o
  | .chans l => l.length
  | .stack a b => a.outT + b.outT

/-- `Static::Inputs` (graph_edit.rs 903, 1436, 1502). -/
def SHandle.inT : SHandle → Nat
  | .node _ i _ => i
  | .chans _ => 0
  | .stack a b => a.inT + b.inT

/-- `Static::iter_outputs` (graph_edit.rs 907–915, 1447–1455, 1504–1509). -/
def SHandle.iterOut : SHandle → R (List Chan)
  | .node n _ o => build o ((List.range o).map fun i : Nat => (NG.node n, i))
  | .chans l => .ok l
  | .stack a b => do
    let x ← a.iterOut
    let y ← b.iterOut
    build (a.outT + b.outT) (x ++ y)

/-- `Static::iter_inputs` (graph_edit.rs 917–925, 1438–1446, 1510–1512). -/
def SHandle.iterIn : SHandle → R (List Chan)
  | .node n i _ => build i ((List.range i).map fun j : Nat => (NG.node n, j))
  | .chans _ => .ok []
  | .stack a b => do
    let x ← a.iterIn
    let y ← b.iterIn
    build (a.inT + b.inT) (x ++ y)

/-- The dynamic handles: `DynamicHandle3` (683–686, the channel numbers are those stored in the node),
`DynamicChannelsHandle` (1532–1535). -/
inductive DHandle where
  | node (n : NodeId) (inputs outputs : Nat)
  | chans (inp out : List Chan)
  deriving DecidableEq, Repr

/-- `Dynamic::iter_outputs` (graph_edit.rs 688–697, 1537–1542). -/
def DHandle.iterOut : DHandle → List Chan
  | .node n _ o => (List.range o).map fun i : Nat => (NG.node n, i)
  | .chans _ out => out

/-- `Dynamic::iter_inputs` (graph_edit.rs 702–711, 1551–1556). -/
def DHandle.iterIn : DHandle → List Chan
  | .node n i _ => (List.range i).map fun j : Nat => (NG.node n, j)
  | .chans inp _ => inp

/-- `Dynamic::outputs` (graph_edit.rs 699–701, 1544–1546): the length converted to `u16`. -/
def DHandle.outputs : DHandle → Nat
  | .node _ _ o => o
  | .chans _ out => out.length % 65536

/-- `Dynamic::inputs` (graph_edit.rs 713–715, 1547–1549). -/
def DHandle.inputs : DHandle → Nat
  | .node _ i _ => i
  | .chans inp _ => inp.length % 65536

/-- `Graph::node_data` (graph.rs 344–350): the numbers of inputs and outputs. -/
def nodeData (g : Graph) (n : NodeId) : Option (Nat × Nat) :=
  if n.graph ≠ g.id then none else (g.get n.key).map fun r => (r.inputs, r.outputs)

/-- `Static::dynamic` (graph_edit.rs 443–448, 927–933, 1459–1478, 1516–1525). -/
def SHandle.dynamic (g : Graph) : SHandle → R DHandle
  | .node n _ _ =>
    match nodeData g n with
    | none => .error .unwrap
    | some d => .ok (.node n d.1 d.2)
  | .chans l => .ok (.chans [] l)
  | .stack a b => do
    let i0 ← a.iterIn
    let i1 ← b.iterIn
    let o0 ← a.iterOut
    let o1 ← b.iterOut
    return .chans (i0 ++ i1) (o0 ++ o1)

/-- `DH::stack` and `|` (graph_edit.rs 641–665, 1368–1374): the capacities are added in `u16`. -/
def DHandle.stack (a b : DHandle) : R DHandle := do
  let _ ← addC 65536 a.inputs b.inputs
  let _ ← addC 65536 a.outputs b.outputs
  return .chans (a.iterIn ++ b.iterIn) (a.iterOut ++ b.iterOut)

/-- The loops of `out`: `iter_outputs().nth(c).unwrap()` for every requested channel. -/
def pick (l : List Chan) : List Nat → R (List Chan)
  | [] => .ok []
  | c :: cs =>
    match l[c]? with
    | none => .error .unwrap
    | some x => do
      let r ← pick l cs
      return x :: r

/-- `SH::out` (graph_edit.rs 266–278). -/
def SHandle.out (h : SHandle) (cs : List Nat) : R SHandle := do
  let l ← h.iterOut
  let r ← pick l cs
  return .chans r

/-- `DH::out` (graph_edit.rs 467–482). -/
def DHandle.out (h : DHandle) (cs : List Nat) : R DHandle := do
  let r ← pick h.iterOut cs
  return .chans [] r

/-- `GraphEdit::from_inputs` (graph_edit.rs 190–207). -/
def fromInputs (g : Graph) (cs : List Nat) : Except GErr SHandle :=
  if cs.any (fun c => decide (g.numIn ≤ c)) then .error .graphInputOOB
  else .ok (.chans (cs.map fun c : Nat => (NG.graph, c)))

/-- The result of every connection of a loop. -/
abbrev Results := List (Except GErr Unit)

/-- A loop over source and sink channels that logs errors and goes on (graph_edit.rs 286–294, 304–312, 490–496,
506–512, 522–528, 538–545, 566–570, 577–582, 590–596, 604–612). -/
def logged (sl : Key → Nat) (add fb : Bool) : Graph → List (Chan × Chan) → R (Graph × Results)
  | g, [] => .ok (g, [])
  | g, p :: ps => do
    let r ← connect2 sl g p.1.1 p.1.2 p.2.2 p.2.1 add fb
    let q ← logged sl add fb r.1 ps
    return (q.1, r.2 :: q.2)

/-- The same loop with `expect` on every connection (graph_edit.rs 337–342, 353–358, 365–368, 374–377, 386–391,
399–404). -/
def expecting (sl : Key → Nat) (add fb : Bool) : Graph → List (Chan × Chan) → R Graph
  | g, [] => .ok g
  | g, p :: ps => do
    let r ← connect2 sl g p.1.1 p.1.2 p.2.2 p.2.1 add fb
    match r.2 with
    | .error _ => throw .unwrap
    | .ok _ => expecting sl add fb r.1 ps

/-- The same loop with `?` (graph_edit.rs 554–558). -/
def trying (sl : Key → Nat) : Graph → List (Chan × Chan) → Res
  | g, [] => .ok (g, .ok ())
  | g, p :: ps => do
    let r ← connect2 sl g p.1.1 p.1.2 p.2.2 p.2.1 true false
    match r.2 with
    | .error e => return (r.1, .error e)
    | .ok _ => trying sl r.1 ps

/-- Graph output channels in order, `i as u16` (graph_edit.rs 365–366). -/
def graphOuts (n : Nat) : List Chan := (List.range n).map fun i : Nat => (NG.graph, i % 65536)

/-- `SH::to`, `SH::to_feedback` (graph_edit.rs 281–313).  The result of the call is the handle `b`. -/
def SHandle.to (sl : Key → Nat) (g : Graph) (a b : SHandle) (fb : Bool) : R (Graph × Results) := do
  let x ← a.iterOut
  let y ← b.iterIn
  logged sl true fb g (x.zip y)

/-- `SH::to_replace`, `SH::to_feedback_replace` (graph_edit.rs 330–359). -/
def SHandle.toReplace (sl : Key → Nat) (g : Graph) (a b : SHandle) (fb : Bool) : R Graph := do
  let x ← a.iterOut
  let y ← b.iterIn
  expecting sl false fb g (x.zip y)

/-- `SH::to_graph_out`, `SH::to_graph_out_replace` (graph_edit.rs 363–378). -/
def SHandle.toGraphOut (sl : Key → Nat) (g : Graph) (a : SHandle) (add : Bool) : R Graph := do
  let x ← a.iterOut
  expecting sl add false g (x.zip (graphOuts x.length))

/-- `SH::to_graph_out_channels`, `.._replace` (graph_edit.rs 381–405). -/
def SHandle.toGraphOutChannels (sl : Key → Nat) (g : Graph) (a : SHandle) (cs : List Nat) (add : Bool) : R Graph := do
  let x ← a.iterOut
  expecting sl add false g (x.zip (cs.map fun c : Nat => (NG.graph, c)))

/-- `DH::to`, `to_feedback`, `to_replace`, `to_feedback_replace` (graph_edit.rs 488–547). -/
def DHandle.to (sl : Key → Nat) (g : Graph) (a b : DHandle) (add fb : Bool) : R (Graph × Results) :=
  logged sl add fb g (a.iterOut.zip b.iterIn)

/-- `DH::try_to` (graph_edit.rs 552–560). -/
def DHandle.tryTo (sl : Key → Nat) (g : Graph) (a b : DHandle) : Res :=
  trying sl g (a.iterOut.zip b.iterIn)

/-- `DH::to_graph_out`, `to_graph_out_replace` (graph_edit.rs 564–583). -/
def DHandle.toGraphOut (sl : Key → Nat) (g : Graph) (a : DHandle) (add : Bool) : R (Graph × Results) :=
  logged sl add false g (a.iterOut.zip (graphOuts a.iterOut.length))

/-- `DH::to_graph_out_channels`, `.._replace` (graph_edit.rs 588–613). -/
def DHandle.toGraphOutChannels (sl : Key → Nat) (g : Graph) (a : DHandle) (cs : List Nat) (add : Bool) :
    R (Graph × Results) :=
  logged sl add false g (a.iterOut.zip (cs.map fun c : Nat => (NG.graph, c)))

/-- `disconnect_output` (graph_edit.rs 407–416, 615–624). -/
def disconnectOutput (g : Graph) (outs : List Chan) (c : Nat) : R Graph :=
  match outs[c]? with
  | none => .error .unwrap
  | some x => do
    let r ← disconnectSource g x.1 x.2
    match r.2 with
    | .error _ => throw .unwrap
    | .ok _ => return r.1

/-- `disconnect_input` (graph_edit.rs 418–427, 626–635). -/
def disconnectInput (g : Graph) (ins : List Chan) (c : Nat) : R Graph :=
  match ins[c]? with
  | none => .error .unwrap
  | some x => do
    let r ← disconnectSink g x.2 x.1
    match r.2 with
    | .error _ => throw .unwrap
    | .ok _ => return r.1

/-- Expressions over static handles with `>>` and `|` and `out`. -/
inductive Patch where
  | handle (h : SHandle)
  | to (a b : Patch)
  | stack (a b : Patch)
  | out (a : Patch) (cs : List Nat)
  deriving DecidableEq, Repr

/-- Evaluation of a Rust expression over static handles (graph_edit.rs 1209–1225): operands from left to right, then
the operator. `a >> b` is `b`. -/
def Patch.eval (sl : Key → Nat) : Patch → Graph → R (Graph × SHandle × Results)
  | .handle h, g => .ok (g, h, [])
  | .to a b, g => do
    let x ← a.eval sl g
    let y ← b.eval sl x.1
    let r ← x.2.1.to sl y.1 y.2.1 false
    return (r.1, y.2.1, x.2.2 ++ y.2.2 ++ r.2)
  | .stack a b, g => do
    let x ← a.eval sl g
    let y ← b.eval sl x.1
    return (y.1, .stack x.2.1 y.2.1, x.2.2 ++ y.2.2)
  | .out a cs, g => do
    let x ← a.eval sl g
    let h ← x.2.1.out cs
    return (x.1, h, x.2.2)

end Verif.H
