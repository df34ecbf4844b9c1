import Verif.Model.Alloc

/-!
# How long buffers live

`knaster_graph/src/graph.rs` (`buffers_to_free_when_safe`, 1664–1669 and 1921–1933, `generate_task_data`
1565–1582, `free_old_task_data` 2198–2211), `buffer_allocator.rs` 146–158, `graph_gen.rs` (36–66, 90–108,
170–186), `task.rs` 71–134, `wrappers_core/audio_rate.rs` (raw pointers kept by `WrArParams`) and
`processor.rs` 122–147.

* An allocation is alive as long as somebody holds a clone of its `Arc`.  The holders are the allocator, the
  list of replaced allocations, every task data that has not been dropped and whose `Option` has not been
  taken, and the `GraphGen`.  Reference counts are counted, not stored.
* The two threads take small steps in any order that the program text of each thread allows; the reference
  counts of `free_old` are read one at a time while the audio thread goes on.
* `free_old` may see any of the flags set (`rm`, `fs` are arguments), which is more than can happen.
* Unit generators that keep a pointer per parameter (`WrArParams`) are what makes pointers outlive a task
  data; every unit generator is treated as one.  A node keeps its unit generator (C15), so the pointers are
  kept under the key of the node.
* The history ends with a panic, a refused commit among them.  The callback of `Graph::new` counts as the
  first edit (C67).
-/

namespace Verif.Li

open Verif.G

/-- `TaskData` (task.rs 71–97): the schedule and `current_buffer_allocation`. -/
structure TD where
  sch : Schedule
  arc : Option Nat

/-- Where the control thread is: `idle`, in `free_old` (the nodes are done), or after
`free_old_task_data` (graph.rs 1707–1712). -/
inductive Pc where
  | idle
  | freeing
  | sending
  deriving DecidableEq

/-- `Graph` and `GraphGen` with everything that holds an allocation. -/
structure LS where
  g : Graph
  a : AState
  /-- `Graph::buffers_to_free_when_safe` (graph.rs 167). -/
  toFree : List Nat := []
  pc : Pc := .idle
  /-- The `Graph` has been dropped. -/
  gone : Bool := false
  /-- `new_task_data` ring. -/
  ring : List TD := []
  /-- `task_data_to_be_dropped` ring. -/
  old : List TD := []
  /-- `GraphGen::current_task_data` (graph_gen.rs 52). -/
  cur : TD
  /-- `GraphGen::_arc_buffer_allocation_ptr` (graph_gen.rs 59). -/
  arc : Nat
  /-- The pointers kept by the unit generators, by node and parameter. -/
  ar : Key → Nat → Option In := fun _ _ => none
  /-- Size of the ring buffers. -/
  cap : Nat

/-- `Graph::new` (graph.rs 203–333). -/
def LS.init (id numIn numOut bs cap : Nat) : LS :=
  { g := .init id numIn numOut, a := .init bs, cur := ⟨⟨[], [], List.replicate numOut none⟩, some 0⟩, arc := 0, cap := cap }

/-- The clones of `Arc`s that exist, one entry per clone. -/
def LS.holders (s : LS) : List Nat :=
  (if s.gone then [] else s.a.alloc.buf :: s.toFree) ++
    (s.ring ++ s.old ++ [s.cur]).filterMap TD.arc ++ [s.arc]

/-- The allocation has not been freed. -/
def LS.alive (s : LS) (b : Nat) : Prop := b ∈ s.holders

instance (s : LS) (b : Nat) : Decidable (s.alive b) := inferInstanceAs (Decidable (_ ∈ _))

/-- Setting the pointers of all parameter changes (task.rs 112–120). -/
def setAr (ar : Key → Nat → Option In) : List ArChange → Key → Nat → Option In
  | [] => ar
  | c :: cs => setAr (fun k p => if k = c.node ∧ p = c.param then some c.buffer else ar k p) cs

/-- Small steps of the two threads. -/
inductive Step where
  /-- a call on the graph -/
  | edit (op : Op)
  /-- `free_old`, the part about nodes (graph.rs 1879–1920) -/
  | freeNodes (rm : Key → Bool) (fs : Nat → Bool)
  /-- `free_old`, one look at a replaced allocation (graph.rs 1925–1927) -/
  | freeBuf (i : Nat)
  /-- `free_old_task_data` (graph.rs 2198–2211) -/
  | drain
  /-- the rest of `commit_changes` (graph.rs 1712–1725) -/
  | send
  /-- the `Graph` is dropped -/
  | drop
  /-- one task data is received (graph_gen.rs 95–106, task.rs 101–134) -/
  | recv
  /-- the allocation is taken from the task data (graph_gen.rs 183–186) -/
  | take

/-- One step; `none`: the step is not possible here. -/
def Step.run (sl : Key → Nat) (bs : Nat) (s : LS) : Step → R (Option LS)
  | .edit op => if s.pc ≠ .idle ∨ s.gone then .ok none else do
    let (g, _) ← op.run sl s.g
    .ok (some { s with g := g })
  | .freeNodes rm fs => if s.pc ≠ .idle ∨ s.gone then .ok none else do
    let g ← freeOld rm fs s.g
    .ok (some { s with g := g, pc := .freeing })
  | .freeBuf i => if s.pc ≠ .freeing then .ok none else
    match s.toFree[i]? with
    | none => .ok none
    | some b => .ok (some (if s.holders.count b = 1 then { s with toFree := s.toFree.eraseIdx i } else s))
  | .drain => if s.pc ≠ .freeing then .ok none else .ok (some { s with old := [], pc := .sending })
  | .send => if s.pc ≠ .sending then .ok none else
    if s.g.recalc then do
      let (a, sch) ← makeSchedule s.g bs s.a
      if s.ring.length < s.cap then
        .ok (some { s with
          g := { s.g with flag := s.g.flag + 1, recalc := false }
          a := a
          toFree := if a.alloc.buf = s.a.alloc.buf then s.toFree else s.toFree ++ [s.a.alloc.buf]
          ring := s.ring ++ [⟨sch, some a.alloc.buf⟩]
          pc := .idle })
      else .error .unwrap
    else .ok (some { s with pc := .idle })
  | .drop => if s.pc ≠ .idle ∨ s.gone then .ok none else .ok (some { s with gone := true, toFree := [] })
  | .recv => match s.ring with
    | [] => .ok none
    | td :: ring => .ok (some { s with
        ring := ring
        cur := td
        ar := setAr s.ar td.sch.ar
        old := if s.old.length < s.cap then s.old ++ [s.cur] else s.old })
  | .take => match s.cur.arc with
    | none => .ok (some s)
    | some b => .ok (some { s with arc := b, cur := { s.cur with arc := none } })

/-- The steps of the audio thread. -/
def Step.audio : Step → Bool
  | .recv | .take => true
  | _ => false

/-- Edits other than `commit_changes`, which is split into steps here. -/
def Step.legal : Step → Prop
  | .edit (.commit _ _) => False
  | _ => True

/-- All histories whose steps satisfy `E`. -/
inductive Reaches (sl : Key → Nat) (bs : Nat) (E : LS → Step → Prop) : LS → Prop
  | init (id numIn numOut cap : Nat) : Reaches sl bs E (.init id numIn numOut bs cap)
  | step {s s'} (st : Step) : Reaches sl bs E s → st.legal → E s st → st.run sl bs s = .ok (some s') →
      Reaches sl bs E s'

/-- Several steps. -/
def runAll (sl : Key → Nat) (bs : Nat) : LS → List Step → R (Option LS)
  | s, [] => .ok (some s)
  | s, st :: sts => do
    match ← st.run sl bs s with
    | none => .ok none
    | some s' => runAll sl bs s' sts

/-- The allocation an input pointer points into. -/
def bufOf : In → Option Nat
  | .mem b _ => some b
  | .graph _ => none

/-- The allocations touched by running a task: its inputs, its output and the pointers its unit generator
keeps (task.rs 26–32, audio_rate.rs 50–57). -/
def LS.touches (s : LS) (t : Task) (b : Nat) : Prop :=
  some b ∈ t.ins.map bufOf ∨ b = t.out.1 ∨ ∃ p i, s.ar t.key p = some i ∧ bufOf i = some b

/-- The allocations touched by a block (graph_gen.rs 188–219). -/
def LS.blockTouches (s : LS) (b : Nat) : Prop :=
  (∃ t ∈ s.cur.sch.tasks, s.touches t b) ∨ ∃ i, some i ∈ s.cur.sch.outs ∧ bufOf i = some b

/-! ### The inputs of the processor -/

/-- What happens when graph inputs are read. -/
inductive Read where
  | fine
  | panic
  | undefined
  deriving DecidableEq

/-- Reading the graph inputs `chans` in `AudioProcessor::run` (processor.rs 122–147): the number of slices is
checked; a channel is read as `block_size` samples from the address of its slice (graph_gen.rs 190–196 and
213–216, block.rs), which is undefined behaviour if the slice is shorter. -/
def readInputs (numIn bs : Nat) (lens : List Nat) (chans : List Nat) : Read :=
  if lens.length ≠ numIn then .panic
  else if chans.any fun c => lens.length ≤ c then .panic
  else if chans.all fun c => bs ≤ lens.getD c 0 then .fine else .undefined

end Verif.Li
