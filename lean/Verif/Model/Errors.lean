import Verif.Model.Graph

/-!
# What refused edits say (knaster_graph/src/graph.rs 496–765, 997–1096, 1732–1740, 2082–2095, 2223–2287; graph_edit.rs 160–171)

`Model/Graph` keeps only the kind of an error.  Here are the checks of every call alone, with what the error carries.
-/

namespace Verif.Er

open Verif.G

/-- `GraphError` and `FreeError` with what they carry (graph.rs 2223–2287). -/
inductive Err where
  | circular
  | nodeNotFound
  | wrongSource (expected found : Nat)
  | wrongSink (expected found : Nat)
  | inputOOB (ch : Nat)
  | outputOOB (ch : Nat)
  | graphInputOOB (ch : Nat)
  | graphOutputOOB (ch : Nat)
  | paramDesc (d : Nat)
  | freeNotFound
  | immortal
  deriving DecidableEq, Repr

/-- The kind alone, as in `Model/Graph`. -/
def Err.kind : Err → GErr
  | .circular => .circular
  | .nodeNotFound => .nodeNotFound
  | .wrongSource _ _ => .wrongSourceGraph
  | .wrongSink _ _ => .wrongSinkGraph
  | .inputOOB _ => .inputOOB
  | .outputOOB _ => .outputOOB
  | .graphInputOOB _ => .graphInputOOB
  | .graphOutputOOB _ => .graphOutputOOB
  | .paramDesc _ => .paramDescNotFound
  | .freeNotFound => .freeNotFound
  | .immortal => .immortal

/-- The checks of `connect_nodes_internal` (graph.rs 507–536). -/
def nodesFault (g : Graph) (s k : NodeId) (so si : Nat) (feedback : Bool) : Option Err :=
  if foreign s.graph g.id then some (.wrongSource g.id s.graph)
  else if foreign k.graph g.id then some (.wrongSink g.id k.graph)
  else match g.get s.key with
  | none => some .nodeNotFound
  | some ns =>
    if so ≥ ns.outputs then some (.outputOOB so)
    else match g.get k.key with
    | none => some .nodeNotFound
    | some nk =>
      if si ≥ nk.inputs then some (.inputOOB si)
      else if !feedback && hasPath g k.key s.key then some .circular else none

/-- The checks of `connect_input_to_output` (graph.rs 553–558). -/
def throughFault (g : Graph) (so si : Nat) : Option Err :=
  if so ≥ g.numIn then some (.graphInputOOB so) else if si ≥ g.outs.length then some (.graphOutputOOB si) else none

/-- The checks of `connect_node_to_output` (graph.rs 574–589). -/
def outFault (g : Graph) (s : NodeId) (so si : Nat) : Option Err :=
  if foreign s.graph g.id then some (.wrongSource g.id s.graph)
  else if si ≥ g.outs.length then some (.graphOutputOOB si)
  else match g.get s.key with
  | none => some .nodeNotFound
  | some ns => if so ≥ ns.outputs then some (.outputOOB so) else none

/-- The checks of `connect_input_to_node` (graph.rs 735–750): the channel of the sink is reported as an output. -/
def inFault (g : Graph) (k : NodeId) (so si : Nat) : Option Err :=
  if foreign k.graph g.id then some (.wrongSink g.id k.graph)
  else if so ≥ g.numIn then some (.graphInputOOB so)
  else match g.get k.key with
  | none => some .nodeNotFound
  | some nk => if si ≥ nk.inputs then some (.outputOOB si) else none

/-- The checks of `connect_node_to_parameter` (graph.rs 637–680); a sink that is not there is a panic, not an error. -/
def paramFault (g : Graph) (s : NodeId) (so : Nat) (p : Param) (k : NodeId) : Option Err :=
  if foreign s.graph g.id then some (.wrongSource g.id s.graph)
  else if foreign k.graph g.id then some (.wrongSink g.id k.graph)
  else match g.get k.key with
  | none => none
  | some nk =>
    match p, g.get s.key with
    | .desc d, r =>
      if d ∉ nk.descs then some (.paramDesc d)
      else match r with
      | none => some .nodeNotFound
      | some ns => if so ≥ ns.outputs then some (.outputOOB so) else none
    | .index _, none => some .nodeNotFound
    | .index _, some ns => if so ≥ ns.outputs then some (.outputOOB so) else none

/-- The checks of `disconnect_output_from_source` (graph.rs 1003–1024): the error for a node of another graph names a sink, and carries
the two graphs in the wrong order. -/
def sourceFault (g : Graph) (source : NG) (ch : Nat) : Option Err :=
  match source with
  | .node n =>
    if n.graph ≠ g.id then some (.wrongSink n.graph g.id)
    else match g.get n.key with
    | none => some .nodeNotFound
    | some r => if ch ≥ r.outputs then some (.outputOOB ch) else none
  | .graph => if ch ≥ g.numIn then some (.graphInputOOB ch) else none

/-- The checks of `disconnect_input_to_sink` (graph.rs 1060–1087): the two graphs are in the wrong order here too. -/
def sinkFault (g : Graph) (ch : Nat) (sink : NG) : Option Err :=
  match sink with
  | .node n =>
    if n.graph ≠ g.id then some (.wrongSink n.graph g.id)
    else match g.get n.key with
    | none => some .nodeNotFound
    | some r => match r.ins with
      | none => none
      | some es => if ch ≥ es.length then some (.inputOOB ch) else none
  | .graph => if ch ≥ g.outs.length then some (.graphOutputOOB ch) else none

/-- The checks of `GraphEdit::free_node` and `free_node_from_key` (graph_edit.rs 162–168, graph.rs 1733–1739). -/
def freeFault (g : Graph) (n : NodeId) : Option Err :=
  if foreign n.graph g.id then some (.wrongSink g.id n.graph)
  else match g.get n.key with
  | none => some .freeNotFound
  | some r => if !r.mortal then some .immortal else none

/-- The error that a call returns. -/
def fault (g : Graph) : Op → Option Err
  | .push _ _ _ => none
  | .connect (.node s) so si (.node k) _ f => nodesFault g s k so si f
  | .connect .graph so si .graph _ _ => throughFault g so si
  | .connect (.node s) so si .graph _ _ => outFault g s so si
  | .connect .graph so si (.node k) _ _ => inFault g k so si
  | .param s so p k _ => paramFault g s so p k
  | .disconnectSource s c => sourceFault g s c
  | .disconnectSink c k => sinkFault g c k
  | .free n => freeFault g n
  | .mortality n _ stale => if (g.get n.key).isNone && !stale then some .nodeNotFound else none
  | .commit _ _ => none

/-- The check of `from_inputs` (graph_edit.rs 195–198): the first channel that is not there. -/
def fromInputs (numIn : Nat) : List Nat → Except Err (List (NG × Nat))
  | [] => .ok []
  | c :: cs =>
    if c ≥ numIn then .error (.graphInputOOB c)
    else match fromInputs numIn cs with
      | .ok l => .ok ((.graph, c) :: l)
      | .error e => .error e

end Verif.Er
