import Verif.Model.Inspect

/-!
# The handles of an inspection (`knaster_graph/src/inspection.rs` 49–68)

Simplification: of a handle only the node it names and the numbers of channels are kept; parameters, hints, sender and
clock are copied from the inspection and left out there as well.
-/

namespace Verif.In

open Verif.G

/-- `AnyHandle` (handle.rs 91–97). -/
structure AnyH where
  node : NodeId
  inputs : Nat
  outputs : Nat
  deriving DecidableEq, Repr

/-- `GraphInspection::node_handles` (inspection.rs 49–68). -/
def nodeHandles (v : Insp) : List AnyH := v.nodes.map fun n => ⟨⟨n.key, v.id⟩, n.inputs, n.outputs⟩

end Verif.In
