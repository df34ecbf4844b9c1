import Verif.Model.Inspect

/-!
# The ports and arrows of the dot string (`knaster_graph/src/inspection.rs` 70–196)

`to_dot_string` first draws boxes with named ports for the graph and its nodes and then arrows between ports.
Text, colours and names are left out (names are in `Model/Names.lean`): a port is given by the box it is part
of, its letter and its number.
-/

namespace Verif.In

/-- A port as the text names it: `graph_in:o{i}`, `graph_out:i{i}`, and `"{j}_{name}":i{i}` or
`"{j}_{name}":o{i}` for the `j`th node. -/
inductive Port where
  | graphIn (i : Nat)
  | graphOut (i : Nat)
  | nodeIn (j i : Nat)
  | nodeOut (j i : Nat)
  deriving DecidableEq, Repr

/-- The box of the graph outputs (inspection.rs 73–89), drawn only if there are some. -/
def outBox (v : Insp) : List Port :=
  if 0 < v.numOut then (List.range v.numOut).map .graphOut else []

/-- The box of the graph inputs (inspection.rs 90–104), drawn only if there are some. -/
def inBox (v : Insp) : List Port :=
  if 0 < v.numIn then (List.range v.numIn).map .graphIn else []

/-- The box of a node (inspection.rs 107–144): the row of inputs and the row of outputs, each only if there
are some. -/
def nodeBox (p : NodeI × Nat) : List Port :=
  (if 0 < p.1.inputs then (List.range p.1.inputs).map (.nodeIn p.2) else []) ++
  (if 0 < p.1.outputs then (List.range p.1.outputs).map (.nodeOut p.2) else [])

/-- All ports in the order of the text (inspection.rs 70–144). -/
def dotPorts (v : Insp) : List Port :=
  outBox v ++ (inBox v ++ v.nodes.zipIdx.flatMap nodeBox)

/-- The start of an arrow (inspection.rs 170 and 194): `{source_name}:o{from_index}`. -/
def startPort : DotEnd → Nat → Port
  | none, ch => .graphIn ch
  | some j, ch => .nodeOut j ch

/-- The end of an arrow (inspection.rs 170 and 194): `"{j}_{node_name}":i{to_index}` or
`graph_out:i{to_index}`. -/
def endPort : DotEnd → Nat → Port
  | none, i => .graphOut i
  | some j, i => .nodeIn j i

/-- The arrows between ports (inspection.rs 146–196). -/
def dotArrows (v : Insp) : List (Port × Port) :=
  (dotEdges v).map fun a => (startPort a.1 a.2.1, endPort a.2.2.1 a.2.2.2)

end Verif.In
