import Verif.Model.Graph

/-!
# The life of a `GraphEdit` (`knaster_graph/src/graph_edit.rs` 45–262, `graph.rs` 1410–1460)

`Graph::edit` calls the closure of the user with a `GraphEdit`, which wraps the graph in a read-write lock.
Every call takes the lock, and dropping the `GraphEdit` commits the changes.

* The closure is a tree (`Prog`): calls, after which it may do anything that depends on the result, its end,
  a panic of its own, and the creation of a subgraph with a callback.  Calls that only read are left out.
* Panics unwind.  A panic while the guard of the lock is held poisons the lock; taking a poisoned lock
  panics (`unwrap`, graph_edit.rs 55 and 65); a panic in a destructor that runs because of another panic
  aborts the process.
* Taking a lock that the same thread holds blocks for ever or panics (documentation of
  `std::sync::RwLock::write`); which of the two is the argument `blocks`.
* In the callback of `subgraph` only the calls on the outer `GraphEdit` are modelled; edits of the new graph
  itself do not touch the outer one.
-/

namespace Verif.Ed

open Verif.G

/-- The closure given to `Graph::edit`, or the callback given to `GraphEdit::subgraph`. -/
inductive Prog where
  | done
  | call (op : Op) (next : Except GErr Unit → Prog)
  | panic
  | subgraph (inputs outputs : Nat) (inner : Prog) (next : Prog)

/-- Why a closure did not come to its end: a panic with the lock free, a panic with the lock held, or the
wait for a lock that the thread holds itself. -/
inductive Stop where
  | free (g : Graph)
  | held
  | stuck
  deriving DecidableEq

/-- Running a callback while the guard is held (graph_edit.rs 215–218): every call on the outer edit meets
the held lock. -/
def runHeld (blocks : Bool) : Prog → Option Stop
  | .done => none
  | .call _ _ => some (if blocks then .stuck else .held)
  | .panic => some .held
  | .subgraph _ _ _ _ => some (if blocks then .stuck else .held)

/-- Running the closure.  A call takes the lock, works on the graph and gives the lock back
(graph_edit.rs 86–100, 160–171, 290–330, …); `subgraph` holds it while the callback runs and then pushes the
node of the new graph (graph.rs 1436–1460). -/
def run (sl : Key → Nat) (blocks : Bool) : Prog → Graph → Except Stop Graph
  | .done, g => .ok g
  | .call op next, g => match op.run sl g with
    | .error _ => .error .held
    | .ok (g, r) => run sl blocks (next r) g
  | .panic, g => .error (.free g)
  | .subgraph i o inner next, g => match runHeld blocks inner with
    | some s => .error s
    | none => run sl blocks next (pushNode sl g (userNode i o []))

/-- How a call of `Graph::edit` ends. -/
inductive Out where
  | finished (g : Graph)
  | panicked (g : Option Graph)
  | aborted
  | stuck
  deriving DecidableEq

/-- `Graph::edit` (graph.rs 1410–1412) with the commit in `Drop for GraphEdit` (graph_edit.rs 258–262), which
also runs when the closure panics.  `commit` is `commit_changes().unwrap()`.  `panicked none`: the commit itself
panicked. -/
def edit (sl : Key → Nat) (blocks : Bool) (commit : Graph → R Graph) (p : Prog) (g : Graph) : Out :=
  match run sl blocks p g with
  | .ok g => match commit g with
    | .ok g => .finished g
    | .error _ => .panicked none
  | .error (.free g) => match commit g with
    | .ok g => .panicked (some g)
    | .error _ => .aborted
  | .error .held => .aborted
  | .error .stuck => .stuck

end Verif.Ed
