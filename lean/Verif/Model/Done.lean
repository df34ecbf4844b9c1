import Verif.Basic

/-!
# Done actions and the removal of graphs

`UGenFlags` (`knaster_core/src/ugen.rs` 113–222), `WrDone` (`knaster_graph/src/wrappers_graph/done.rs`) and the end of
`GraphGen::process_block` (`knaster_graph/src/graph_gen.rs` 84–235).

A unit generator only touches the flags through the calls of `Call`; what it computes besides is not part of this
model.  `Option.none` stands for the frame number `u32::MAX` of flags that are not set, which is never read.
-/

namespace Verif.Dn

/-- `UGenFlags` (ugen.rs 121–140). -/
structure Flags where
  supported : Bool
  done : Option Nat
  removeSelf : Bool
  removeParent : Option Nat
  deriving DecidableEq

/-- `UGenFlags::new` (ugen.rs 143–152). -/
def Flags.new : Flags := ⟨false, none, false, none⟩

/-- The calls a unit generator can make. -/
inductive Call where
  | done (frame : Nat)
  | removeSelf
  | removeParent (frame : Nat)
  deriving DecidableEq

/-- `mark_done`, `mark_remove_self` and `mark_remove_parent` (ugen.rs 182–206). -/
def Flags.call (f : Flags) : Call → Flags
  | .done n => { f with done := some n }
  | .removeSelf => if f.supported then { f with removeSelf := true } else f
  | .removeParent n => { f with removeParent := some n }

/-- `clear_node_flags` (ugen.rs 217–222). -/
def Flags.clearNode (f : Flags) : Flags := ⟨false, none, false, f.removeParent⟩

/-- `Done` (knaster_core/src/lib.rs 63–). -/
inductive Action where
  | none
  | freeSelf
  | freeParent
  deriving DecidableEq

/-- `WrDone::process_block` (done.rs 76–91) with `process_flags` (done.rs 33–46) around a unit generator that makes the
given calls: the flags afterwards and whether `free_self_flag` is set. -/
def wrDone (a : Action) (calls : List Call) (f : Flags) : Flags × Bool :=
  let f := { f.clearNode with supported := true }
  let f := calls.foldl Flags.call f
  let f := match f.done with
    | some n => match a with
      | .none => f
      | .freeSelf => f.call .removeSelf
      | .freeParent => f.call (.removeParent n)
    | none => f
  (f, f.removeSelf)

/-- A task of the graph: a unit generator with or without the wrapper, and the calls it makes in a block. -/
inductive Task where
  | plain (calls : List Call)
  | wrapped (a : Action) (calls : List Call)
  deriving DecidableEq

/-- `Task::run` (task.rs 25–31), as far as flags are concerned. -/
def Task.run : Task → Flags → Flags × Bool
  | .plain calls, f => (calls.foldl Flags.call f, false)
  | .wrapped a calls, f => wrDone a calls f

/-- Running the tasks with one set of flags (graph_gen.rs 195–199). -/
def runTasks : List Task → Flags → Flags × List Bool
  | [], f => (f, [])
  | t :: ts, f => ((runTasks ts (t.run f).1).1, (t.run f).2 :: (runTasks ts (t.run f).1).2)

/-- Setting a channel to zero from a frame on (graph_gen.rs 227–233). -/
def zeroFrom {S : Type} (zero : S) (f : Nat) (xs : List S) : List S := xs.take f ++ List.replicate (xs.length - f) zero

/-- The state of a `GraphGen` that matters here. -/
structure Gen where
  freed : Bool
  removeMe : Bool
  deriving DecidableEq

/-- The new state. -/
def Gen.new : Gen := ⟨false, false⟩

/-- `GraphGen::process_block` (graph_gen.rs 84–235) for one output channel of `xs.length` frames, where `xs` is what the
output task puts out and `ts` are the tasks. -/
def Gen.block {S : Type} (zero : S) (g : Gen) (xs : List S) (ts : List Task) : Gen × List S :=
  if g.freed then (g, List.replicate xs.length zero)
  else
    match (runTasks ts .new).1.removeParent with
    | some f => (⟨true, true⟩, if f < xs.length then zeroFrom zero f xs else xs)
    | none => (g, xs)

/-- The state before block `n`. -/
def Gen.run {S : Type} (zero : S) (xs : Nat → List S) (ts : Nat → List Task) : Nat → Gen
  | 0 => .new
  | n + 1 => ((Gen.run zero xs ts n).block zero (xs n) (ts n)).1

/-- The output of block `n`. -/
def Gen.out {S : Type} (zero : S) (xs : Nat → List S) (ts : Nat → List Task) (n : Nat) : List S :=
  ((Gen.run zero xs ts n).block zero (xs n) (ts n)).2

end Verif.Dn
