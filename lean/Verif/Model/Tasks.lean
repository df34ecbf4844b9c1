import Verif.Basic
import Verif.Model.Graph

/-!
# Handing schedules over to the audio thread

`commit_changes` (graph.rs 1707–1727), `free_old` (1879–1935), `make_task` (node.rs 132–150),
`apply_self_on_audio_thread` (task.rs 101–131), the task loop of `GraphGen::process_block`
(graph_gen.rs 90–110 and 190–194) and `Graph::new` (graph.rs 203–333).

Conventions and simplifications

* The audio thread and the control thread are interleaved: reading the ring buffer at the start of a
  block (`slots`, `read_chunk`), pushing to it and setting or reading a flag are single steps.
* A unit generator is named by the node it was pushed for and the number of blocks it has processed.
* Flags (`Arc<AtomicBool>`) are numbered in the order in which they are created.
* The order comes from the graph model; `C11_once` says that it contains exactly the live nodes, once.
* The ring buffer returning old task data to the control thread is not modelled: old task data is
  dropped on one thread or the other, and nothing refers to it any more.
-/

namespace Verif.T

open Verif.G (Key)

/-- `UGenEnum` (dynugen.rs 118–133): a unit generator, a reference to a task of the previous schedule,
or nothing. -/
inductive UG where
  | own (k : Key) (n : Nat)
  | take (j : Nat)
  | none
  deriving DecidableEq, Repr

/-- `NodeUGen` (node.rs 38–44): on the control thread, or on the audio thread at an index of the last
committed schedule. -/
inductive NU where
  | loc (u : UG)
  | live (j : Nat)
  deriving DecidableEq, Repr

/-- `TaskData` (task.rs 71–97): the tasks with the node they belong to (`node_task_order`) and the
number of the `applied` flag. -/
structure TD where
  tasks : List (Key × UG)
  flag : Nat
  deriving DecidableEq, Repr

/-- The nodes of a schedule. -/
def TD.keys (t : TD) : List Key := t.tasks.map Prod.fst

/-- The state of both threads.  `ran` is not in the code: it counts the blocks in which a node ran. -/
structure S where
  ug : Key → Option NU
  next : Key
  live : List Key
  pending : List (Key × Nat)
  flag : Nat
  recalc : Bool
  applied : Nat → Bool
  ring : List TD
  cap : Nat
  cur : TD
  ran : Key → Nat

/-- `generate_tasks` with `make_task` (graph.rs 1486–1495, node.rs 132–150). -/
def makeTasks : Nat → List Key → (Key → Option NU) → R (List (Key × UG) × (Key → Option NU))
  | _, [], ug => .ok ([], ug)
  | i, k :: ks, ug =>
    match ug k with
    | Option.none => .error .index
    | some nu => do
      let u := match nu with
        | .loc u => u
        | .live j => UG.take j
      let (ts, ug') ← makeTasks (i + 1) ks (fun k' => if k' = k then some (.live i) else ug k')
      .ok ((k, u) :: ts, ug')

/-- `push_node` (graph.rs 455–475). -/
def push (s : S) : S :=
  { s with ug := fun k => if k = s.next then some (.loc (.own k 0)) else s.ug k
           live := s.live ++ [s.next], next := s.next + 1, recalc := true }

/-- `free_node_from_key` (graph.rs 1732–1790) as far as ownership is concerned. -/
def free (s : S) (k : Key) : S :=
  if k ∈ s.live then
    { s with live := s.live.filter (· ≠ k), pending := s.pending ++ [(k, s.flag)], recalc := true }
  else s

/-- Any other edit. -/
def touch (s : S) : S := { s with recalc := true }

/-- The last part of `free_old` (graph.rs 1908–1920): storage of freed nodes whose flag is set is
dropped. -/
def dropOld (s : S) : S :=
  { s with
    ug := fun k => if (s.pending.any fun p => p.1 == k && s.applied p.2) then Option.none else s.ug k
    pending := s.pending.filter fun p => !s.applied p.2 }

/-- `commit_changes` followed by the `unwrap` in `GraphEdit::drop` (graph.rs 1707–1727,
graph_edit.rs 258–262), with the new processing order.  The second component is the panic, if any:
when the ring buffer is full the new task data is dropped. -/
def commit (s : S) (order : List Key) : R (S × Option Panic) :=
  let s := dropOld s
  if s.recalc then do
    let (ts, ug) ← makeTasks 0 order s.ug
    let s := { s with ug := ug, flag := s.flag + 1 }
    if s.ring.length < s.cap then
      .ok ({ s with ring := s.ring ++ [⟨ts, s.flag - 1⟩], recalc := false }, Option.none)
    else .ok (s, some .unwrap)
  else .ok (s, Option.none)

/-- Taking over the unit generators of the previous schedule (task.rs 108–112). -/
def applyTasks : List (Key × UG) → List (Key × UG) → R (List (Key × UG))
  | [], _ => .ok []
  | (k, u) :: ts, old =>
    match u with
    | .take j => match old[j]? with
      | Option.none => .error .index
      | some (k', u') => do
        let ts' ← applyTasks ts (old.set j (k', UG.none))
        .ok ((k, u') :: ts')
    | u => do
      let ts' ← applyTasks ts old
      .ok ((k, u) :: ts')

/-- Switching to the new schedules one after the other (graph_gen.rs 94–110). -/
def applyAll : TD → List TD → R TD
  | cur, [] => .ok cur
  | cur, t :: r => do
    let ts ← applyTasks t.tasks cur.tasks
    applyAll { t with tasks := ts } r

/-- Running the tasks; only real unit generators can run (graph_gen.rs 190–194, dynugen.rs 196–210). -/
def runAll : List (Key × UG) → R (List (Key × UG))
  | [] => .ok []
  | (k, .own k' n) :: ts => do
    let ts' ← runAll ts
    .ok ((k, .own k' (n + 1)) :: ts')
  | _ :: _ => .error .unreachable

/-- One block: the new state and what was run. -/
def block (s : S) : R (S × List (Key × UG)) := do
  let cur ← applyAll s.cur s.ring
  let ts ← runAll cur.tasks
  .ok ({ s with
    cur := { cur with tasks := ts }
    ring := []
    applied := fun f => s.applied f || s.ring.any (fun t => t.flag == f)
    ran := fun k => s.ran k + if k ∈ cur.keys then 1 else 0 }, cur.tasks)

/-- A new graph (graph.rs 203–333): the nodes `0 … n - 1` were pushed by the callback, whose edit
committed the order `order` (`[]` if there was nothing to commit); the schedule the audio thread starts
with is generated again afterwards and only refers to that one. -/
def init (cap n : Nat) (order : List Key) : R S := do
  let s : S := {
    ug := fun k => if k < n then some (.loc (.own k 0)) else Option.none
    next := n, live := List.range n, pending := [], flag := 1, recalc := 0 < n
    applied := fun _ => false, ring := [], cap := cap, cur := ⟨[], 0⟩, ran := fun _ => 0 }
  match ← commit s order with
  | (_, some e) => .error e
  | (s, Option.none) => do
    let (ts, ug) ← makeTasks 0 (if 0 < n then order else []) s.ug
    .ok { s with ug := ug, cur := ⟨ts, 0⟩ }

/-- The order contains exactly the live nodes, once. -/
def OrderOk (live order : List Key) : Prop := order.Nodup ∧ ∀ k, k ∈ order ↔ k ∈ live

/-- All interleavings of edits, commits and blocks in which no commit panics. -/
inductive Reach : S → Prop
  | init {cap n order s} : OrderOk (List.range n) order → init cap n order = .ok s → Reach s
  | push {s} : Reach s → Reach (push s)
  | free {s} (k : Key) : Reach s → Reach (free s k)
  | touch {s} : Reach s → Reach (touch s)
  | commit {s s'} {order} : Reach s → OrderOk s.live order → commit s order = .ok (s', Option.none) →
      Reach s'
  | block {s s' log} : Reach s → block s = .ok (s', log) → Reach s'

end Verif.T
