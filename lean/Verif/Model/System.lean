import Verif.Model.Alloc
import Verif.Model.Tasks

/-!
# The whole graph: editing, committing and processing

The parts modelled in `Model/Graph.lean`, `Model/Order.lean`, `Model/Alloc.lean` and `Model/Tasks.lean`
put together: a `Graph` on the control thread, the ring buffer of new task data and a `GraphGen` on the
audio thread (`knaster_graph/src/graph.rs`, `graph_gen.rs`, `task.rs`, `node.rs`).

Conventions and simplifications

* The two threads are interleaved as in `Model/Tasks.lean`.
* A unit generator is a heap object (`Box<dyn DynUGen>`), named by the node it was pushed for; moving the
  box between tasks does not change the object.  `heap k` is its state.
* What the unit generators do may be different in every block (parameter changes arrive in between), so
  the behaviour is an argument of `block`.
* The change flag that the graph model calls `f` has the number `f + 1` here; number 0 is the flag of
  the task data the audio thread starts with.
* The graph starts without nodes; the callback of `Graph::new` counts as the first edit.  `Y.renew` is what
  `Graph::new` does after the callback.
* A refused commit (full ring buffer) is a panic, after which nothing happens.
-/

namespace Verif.Sys

open Verif.G (Key Graph AState Schedule Mem Proc Op GErr Task ArChange)
open Verif.T (NU TD UG)

/-- Both threads: `g`, `a` are the `Graph` and its allocator, `ug` the `ugen` fields of its nodes
(node.rs 38–44), `ring` the new task data waiting for the audio thread, `cur` the task data in use, `mem`
the buffers and `heap` the unit generators. -/
structure Y (S St : Type) where
  g : Graph
  a : AState
  ug : Key → Option NU
  applied : Nat → Bool
  ring : List (Schedule × TD)
  cap : Nat
  cur : Schedule × TD
  mem : Mem S
  heap : Key → St

section
variable {S St : Type}

/-- `Graph::new` (graph.rs 203–333) without nodes: the buffers are zero, the first task data has no tasks
and connects no output.  `heap k` is the state in which the unit generator of node `k` will be pushed. -/
def Y.init [Zero S] (id numIn numOut bs cap : Nat) (heap : Key → St) : Y S St :=
  { g := .init id numIn numOut, a := .init bs, ug := fun _ => none, applied := fun _ => false, ring := []
    cap := cap, cur := (⟨[], [], List.replicate numOut none⟩, ⟨[], 0⟩), mem := fun _ _ => 0, heap := heap }

/-- An edit.  The new nodes own their unit generators (`push_node`, graph.rs 455–475). -/
def edit (sl : Key → Nat) (y : Y S St) (op : Op) : R (Y S St × Except GErr Unit) := do
  let (g, r) ← op.run sl y.g
  .ok ({ y with
    g := g
    ug := fun k => if y.g.nextKey ≤ k ∧ k < g.nextKey then some (.loc (.own k 0)) else y.ug k }, r)

/-- `commit_changes` and the `unwrap` of its result (graph.rs 1707–1727, graph_edit.rs 258–262).  The unit
generator of a dropped node goes with the node. -/
def commit (bs : Nat) (y : Y S St) (removeMe : Key → Bool) : R (Y S St) := do
  let (g, a, sch) ← Verif.G.commitFull removeMe (fun f => y.applied (f + 1))
    (decide (y.ring.length < y.cap)) bs y.g y.a
  let ug : Key → Option NU := fun k => if (g.get k).isSome then y.ug k else none
  match sch with
  | none => .ok { y with g := g, a := a, ug := ug }
  | some sch => do
    let (ts, ug) ← T.makeTasks 0 (sch.tasks.map Task.key) ug
    .ok { y with g := g, a := a, ug := ug, ring := y.ring ++ [(sch, ⟨ts, g.flag⟩)] }

/-- The last part of `Graph::new` (graph.rs 263–265 and 310–330): after the callback and its commit, task data
is generated a second time and given to the audio thread as the one to start with.  `sch` are the buffers of
that task data (its list of graph inputs is empty). -/
def Y.renew (y : Y S St) (order : List Key) (sch : Schedule) : R (Y S St) := do
  let (ts, ug) ← T.makeTasks 0 order y.ug
  .ok { y with ug := ug, cur := (sch, ⟨ts, 0⟩) }

/-- `Task::run` for every task with the unit generator it holds (task.rs 25–33, graph_gen.rs 190–194,
dynugen.rs 196–210). -/
def runUnits (proc : Proc S St) (bs : Nat) (inp : Nat → Nat → S) (ar : List ArChange) :
    Mem S → (Key → St) → List (Task × UG) → R (Mem S × (Key → St))
  | m, h, [] => .ok (m, h)
  | m, h, (t, .own k _) :: ts =>
    let r := proc k (h k) (t.ins.map (Verif.G.readIn bs inp m)) (Verif.G.readAr bs inp m ar t.key)
    runUnits proc bs inp ar (Verif.G.writeOut bs m t.out t.outputs r.2)
      (fun j => if j = k then r.1 else h j) ts
  | _, _, (_, .take _) :: _ => .error .unreachable
  | _, _, (_, .none) :: _ => .error .unreachable

/-- The newest schedule. -/
def Y.newest (y : Y S St) : Schedule × TD := y.ring.getLast?.getD y.cur

/-- `GraphGen::process_block` (graph_gen.rs 90–219): switch to the newest task data, run the tasks, copy
the outputs. -/
def block [Zero S] (bs : Nat) (y : Y S St) (proc : Proc S St) (inp : Nat → Nat → S) :
    R (Y S St × List (List S)) := do
  let td ← T.applyAll y.cur.2 (y.ring.map Prod.snd)
  let sch := y.newest.1
  let (m, h) ← runUnits proc bs inp sch.ar y.mem y.heap (sch.tasks.zip (td.tasks.map Prod.snd))
  let ts ← T.runAll td.tasks
  .ok ({ y with
    cur := (sch, { td with tasks := ts })
    ring := []
    applied := fun f => y.applied f || y.ring.any (fun t => t.2.flag == f)
    mem := m
    heap := h }, Verif.G.readOuts bs inp m sch.outs)

end

end Verif.Sys
