import Verif.Model.Lifetime
import Verif.Model.Tasks

/-!
# Memory that both threads use, and what orders their accesses

`knaster_graph/src/graph.rs` (`Graph::new` 203–333, `commit_changes` 1707–1727, `free_old` 1879–1935,
`free_old_task_data` 2198–2211, `send_updated_tasks` 2213–2219), `graph_gen.rs` (36–66, 90–108, 170–219),
`task.rs` 18–134, `node.rs` 38–44 and 132–150, `buffer_allocator.rs` 146–158.

The steps of the two threads are those of `Model/Lifetime.lean`.  Added are the unit generators inside the
task data (as in `Model/Tasks.lean`), the running of a block, and for every step the list of what it does to
memory (`Act`):

* `access`, `free`: ordinary reads and writes of an object (a unit generator, a task data, an allocation), and
  its end.  Reads are not told apart from writes, so that every two accesses by different threads must be
  ordered.
* `rel l`, `acq l`: the release and acquire operations of the libraries.  Pushing to an `rtrb` ring releases the
  slot, popping acquires it.  Every decrement of the count of an `Arc` releases the count, and the last one is
  followed by an acquire fence (`alloc::sync::Arc::drop`).
* Nothing else orders anything: the flags (`applied`, `remove_me`; `SeqCst`, `Relaxed` in done.rs 43), the clock,
  the increments of the counts and `Arc::strong_count` have no effect here.  This makes the claims stronger.

Simplifications

* Slots of the rings are numbered without end; that a producer reuses a slot only after the consumer is done
  with it is `rtrb`'s business, and so is the memory of the rings.
* Events (parameter changes) go through a ring of their own; they are applied by `RStep.call`.
* A step of the control thread and a step of the audio thread do not overlap: the events of a step are
  consecutive in the trace.  The order of accesses does not come from the trace, though, but only from
  `HB`.
* The `GraphGen` is not dropped.  When the `Graph` is dropped its nodes stay, because the `GraphGen` holds
  a clone of their `Arc` (graph_gen.rs 56).
-/

namespace Verif.Ra

open Verif.G (Key)
open Verif.T (UG NU)
open Verif.Li (LS)

/-- Objects in ordinary memory. -/
inductive Obj where
  /-- the unit generator pushed for a node (`UGenEnum`, dynugen.rs 118–133) -/
  | unit (k : Key)
  /-- the `n`-th `TaskData` (task.rs 71–97) -/
  | td (n : Nat)
  /-- an allocation (`OwnedRawBuffer`, graph.rs 117–155) -/
  | buf (b : Nat)
  deriving DecidableEq, Repr

/-- Atomic memory: slots of the two rings, counts of `Arc`s, and the handing over of the `GraphGen`. -/
inductive Loc where
  | new (n : Nat)
  | old (n : Nat)
  | count (b : Nat)
  | start
  deriving DecidableEq, Repr

/-- What is done to memory. -/
inductive Act where
  | access (o : Obj)
  | free (o : Obj)
  | rel (l : Loc)
  | acq (l : Loc)
  deriving DecidableEq, Repr

/-- The threads. -/
inductive Th where
  | control
  | audio
  deriving DecidableEq, Repr

/-- An event of a trace. -/
abbrev Ev := Th × Act

/-- The unit generators that are in a list of tasks. -/
def owned (ts : List (Key × UG)) : List Key :=
  ts.filterMap fun t => match t.2 with
    | .own k _ => some k
    | _ => none

/-- The tasks of a `TaskData` with their unit generators, and the number of the `TaskData`. -/
structure UT where
  num : Nat
  tasks : List (Key × UG)
  deriving DecidableEq, Repr

/-- The state: `l` is the state of `Model/Lifetime.lean`, `ring`, `old` and `cur` are the tasks of the task
data in `l.ring`, `l.old` and `l.cur`, `ug` the `ugen` fields of the nodes (node.rs 38–44) and `sent` the
number of the next task data. -/
structure RS where
  l : LS
  ug : Key → Option NU := fun _ => none
  ring : List UT := []
  old : List UT := []
  cur : UT := ⟨0, []⟩
  sent : Nat := 1

/-- `Graph::new` (graph.rs 203–333), without nodes. -/
def RS.init (id numIn numOut bs cap : Nat) : RS := { l := .init id numIn numOut bs cap }

/-- What `Graph::new` does before the two halves go to their threads. -/
def initTrace : List Ev :=
  [(.control, .access (.buf 0)), (.control, .access (.td 0)), (.control, .rel .start), (.audio, .acq .start)]

/-- The unit generator a node still has (node.rs 38–44). -/
def localUnit : Option NU → Option Key
  | some (.loc (.own u _)) => some u
  | _ => none

/-- Dropping a clone of the `Arc` of an allocation while `rest` are the other clones (`Arc::drop`). -/
def dropArc (rest : List Nat) (b : Nat) : List Act :=
  if b ∈ rest then [.rel (.count b)] else [.rel (.count b), .acq (.count b), .free (.buf b)]

/-- Dropping several clones. -/
def dropArcs (rest : List Nat) : List Nat → List Act
  | [] => []
  | b :: bs => dropArc (bs ++ rest) b ++ dropArcs rest bs

/-- Dropping a task data: its unit generators, its clone of the allocation and itself. -/
def dropTD (rest : List Nat) (u : UT) (td : Li.TD) : List Act :=
  (owned u.tasks).map (fun k => .free (.unit k)) ++ dropArcs rest td.arc.toList ++ [.free (.td u.num)]

/-- `free_old_task_data` (graph.rs 2198–2211): popping and dropping one task data after the other. -/
def dropTDs (rest : List Nat) : List (UT × Li.TD) → List Act
  | [] => []
  | (u, td) :: ts =>
    .acq (.old u.num) :: dropTD (ts.filterMap (fun t => t.2.arc) ++ rest) u td ++ dropTDs rest ts

/-- Taking over the unit generators of the previous schedule (task.rs 108–112); the result is the new and the
old tasks afterwards. -/
def takeOver : List (Key × UG) → List (Key × UG) → R (List (Key × UG) × List (Key × UG))
  | [], old => .ok ([], old)
  | (k, u) :: ts, old =>
    match u with
    | .take j => match old[j]? with
      | none => .error .index
      | some (k', u') => do
        let (ts', old') ← takeOver ts (old.set j (k', .none))
        .ok ((k, u') :: ts', old')
    | u => do
      let (ts', old') ← takeOver ts old
      .ok ((k, u) :: ts', old')

/-- The steps of the two threads. -/
inductive RStep where
  /-- a step of `Model/Lifetime.lean` -/
  | graph (st : Li.Step)
  /-- applying an event to a unit generator (graph_gen.rs 275–295) -/
  | call (k : Key)
  /-- running the tasks and copying the outputs (graph_gen.rs 188–219); `bufs` are the allocations touched -/
  | block (bufs : List Nat)

/-- Which thread takes the step. -/
def RStep.th : RStep → Th
  | .graph st => if st.audio then .audio else .control
  | _ => .audio

/-- The part of a step that has to do with unit generators, and what the step does to memory; `l'` is the
state afterwards. -/
def RStep.units (r : RS) (l' : LS) : Li.Step → R (RS × List Act)
  /- `push_node` (graph.rs 455–475): the unit generator is made and initialised. -/
  | .edit _ =>
    .ok ({ r with l := l', ug := fun k => if r.l.g.nextKey ≤ k ∧ k < l'.g.nextKey then some (.loc (.own k 0)) else r.ug k },
      (List.range' r.l.g.nextKey (l'.g.nextKey - r.l.g.nextKey)).map fun k => .access (.unit k))
  /- `free_old` (graph.rs 1908–1920): a removed node takes its unit generator with it if it still has it. -/
  | .freeNodes _ _ =>
    .ok ({ r with l := l', ug := fun k => if (l'.g.get k).isSome then r.ug k else none },
      (((r.l.g.nodes.map Prod.fst).filter fun k => (l'.g.get k).isNone).filterMap fun k => localUnit (r.ug k)).map
        fun u => .free (.unit u))
  /- `free_old` (graph.rs 1925–1927) -/
  | .freeBuf i => .ok ({ r with l := l' }, match r.l.toFree[i]? with
      | some b => if r.l.holders.count b = 1 then dropArc l'.holders b else []
      | none => [])
  | .drain => .ok ({ r with l := l', old := [] }, dropTDs l'.holders (r.old.zip r.l.old))
  /- `allocate_node_buffers`, `generate_task_data` and `send_updated_tasks` (graph.rs 1486–1495, 1664–1669,
  1712–1725 and 2213–2219, node.rs 132–150) -/
  | .send => match l'.ring.getLast? with
    | some td => if r.l.g.recalc then do
        let (ts, ug) ← T.makeTasks 0 (td.sch.tasks.map G.Task.key) r.ug
        .ok ({ r with l := l', ug := ug, ring := r.ring ++ [⟨r.sent, ts⟩], sent := r.sent + 1 },
          (if l'.a.alloc.buf = r.l.a.alloc.buf then [] else [.access (.buf l'.a.alloc.buf)]) ++
          (owned ts).map (fun k => .access (.unit k)) ++ [.access (.td r.sent), .rel (.new r.sent)])
      else .ok ({ r with l := l' }, [])
    | none => .ok ({ r with l := l' }, [])
  | .drop => .ok ({ r with l := l' }, dropArcs l'.holders (r.l.a.alloc.buf :: r.l.toFree))
  /- graph_gen.rs 92–108, task.rs 101–131: the new task data is popped and takes over the unit generators, the
  audio rate parameters are set, and the old task data is pushed to the other ring, or dropped if that is
  full. -/
  | .recv => match r.ring with
    | [] => .error .unreachable
    | u :: ring => do
      let (ts, rest) ← takeOver u.tasks r.cur.tasks
      let acts := [.acq (.new u.num), .access (.td u.num), .access (.td r.cur.num)] ++
        (owned ts).map fun k => .access (.unit k)
      if r.l.old.length < r.l.cap then
        .ok ({ r with l := l', ring := ring, cur := ⟨u.num, ts⟩, old := r.old ++ [⟨r.cur.num, rest⟩] },
          acts ++ [.rel (.old r.cur.num)])
      else .ok ({ r with l := l', ring := ring, cur := ⟨u.num, ts⟩ },
          acts ++ dropTD l'.holders ⟨r.cur.num, rest⟩ r.l.cur)
  /- graph_gen.rs 183–186: the clone of the old allocation is dropped by the assignment. -/
  | .take => .ok ({ r with l := l' }, .access (.td r.cur.num) :: match r.l.cur.arc with
      | some _ => dropArc l'.holders r.l.arc
      | none => [])

/-- One step with what it does to memory; `none`: the step is not possible here. -/
def RStep.run (sl : Key → Nat) (bs : Nat) (r : RS) : RStep → R (Option (RS × List Act))
  | .graph st => do
    match ← st.run sl bs r.l with
    | none => .ok none
    | some l' => do
      let x ← RStep.units r l' st
      .ok (some x)
  | .call k => .ok (some (r, .access (.td r.cur.num) ::
      (owned (r.cur.tasks.filter fun t => t.1 = k)).map fun u => .access (.unit u)))
  | .block bufs => if r.l.cur.arc.isSome then .ok none
    else if (owned r.cur.tasks).length ≠ r.cur.tasks.length then .error .unreachable
    else .ok (some (r, .access (.td r.cur.num) :: (owned r.cur.tasks).map (fun u => .access (.unit u)) ++
      bufs.map fun b => .access (.buf b)))

/-- A block touches what the tasks, their unit generators and the outputs have pointers into. -/
def RStep.legal (r : RS) : RStep → Prop
  | .graph st => st.legal
  | .call _ => True
  | .block bufs => ∀ b ∈ bufs, r.l.blockTouches b

/-- The condition on the steps of the graph. -/
def RStep.cond (E : LS → Li.Step → Prop) (r : RS) : RStep → Prop
  | .graph st => E r.l st
  | _ => True

/-- All histories whose steps satisfy `E`, with their traces. -/
inductive Run (sl : Key → Nat) (bs : Nat) (E : LS → Li.Step → Prop) : RS → List Ev → Prop
  | init (id numIn numOut cap : Nat) : Run sl bs E (.init id numIn numOut bs cap) initTrace
  | step {r r' tr acts} (st : RStep) : Run sl bs E r tr → st.legal r → st.cond E r →
      st.run sl bs r = .ok (some (r', acts)) → Run sl bs E r' (tr ++ acts.map fun a => (st.th, a))

end Verif.Ra
