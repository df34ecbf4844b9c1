import Verif.Model.Handles

/-!
# Linking a parameter through a handle (knaster_graph/src/graph_edit.rs 735–756, 829–850)

Simplifications: as for the other handle calls, the locks are left out and what is logged is returned as a value.
The caller of `link` gets the handle back in every case and sees nothing of what is logged.
-/

namespace Verif.H

open Verif.G Verif.Ar

/-- What `link` writes to the log. -/
inductive Said where
  | nothing
  | failed (e : GErr)
  | graphInput
  deriving DecidableEq, Repr

/-- `SH::link` (graph_edit.rs 735–756) and `DH::link` (graph_edit.rs 829–850), which have the same text; `sink` is the node
of the handle.  The type of the source says that it has one output; only the first is looked at.  The connection is made
with `connect_replace_to_parameter` (graph.rs 620–628). -/
def link (sl : Key → Nat) (g : Graph) (sink : NodeId) (p : Param) (source : SHandle) : R (Graph × Said) := do
  let outs ← source.iterOut
  match outs.head? with
  | none => .error .unwrap
  | some (.graph, _) => .ok (g, .graphInput)
  | some (.node n, c) =>
    let r ← connectParam sl g n c p sink false
    match r.2 with
    | .ok _ => .ok (r.1, .nothing)
    | .error e => .ok (r.1, .failed e)

/-- A chain of links on one handle, `h.link(..).link(..)`. -/
def links (sl : Key → Nat) (sink : NodeId) : Graph → List (Param × SHandle) → R (Graph × List Said)
  | g, [] => .ok (g, [])
  | g, l :: ls => do
    let r ← link sl g sink l.1 l.2
    let q ← links sl sink r.1 ls
    return (q.1, r.2 :: q.2)

end Verif.H
