import Verif.Model.System
import Verif.Model.Events

/-!
# The whole graph with parameter changes

The graph of `Model/System.lean` together with the parameter changes of `Model/Events.lean`: the ring buffer
of events, the queue of waiting changes and the calls on the unit generators that a block makes before it
runs the tasks (`knaster_graph/src/graph_gen.rs`, `handle.rs`, `dynugen.rs`).

Conventions and simplifications

* `GraphGen::process_block` is one step here.  In the code the control thread may also work between the
  moment the new task data is read and the moment the events are read.  A commit in that window only adds to
  a ring buffer that this block does not look at again and so happens as if after the block; an event sent in that
  window happens as if before the block, and sending does not depend on commits.
* `node_task_order` and `tasks` have the same length, so stopping at the shorter one is left out.
* What a call does to a unit generator is the argument `app`; the tasks cannot call anything but the unit
  generator they hold.
-/

namespace Verif.Eng

open Verif.G (Key Graph Proc Op GErr)
open Verif.T (UG)
open Verif.Sys (Y)

section
variable {S St V Sm : Type}

/-- A call on a unit generator: `set_delay_within_block_for_param`, and `param_apply` with a smoothing
setting or with a value (graph_gen.rs 290–299). -/
inductive UCall (V Sm : Type) where
  | delay (param frames : Nat)
  | smoothing (param : Nat) (s : Sm)
  | value (param : Nat) (v : V)
  deriving DecidableEq, Repr

/-- What the unit generator sees of a call on a task. -/
def toUnit : Call V Sm → UCall V Sm
  | .setDelay _ p n => .delay p n
  | .smoothing _ p s => .smoothing p s
  | .value _ p v => .value p v

/-- The two threads and the parameter changes: `clock` is the frame clock (processor.rs 128–139), `evs` the
events sent and not yet read (at most `evCap`, graph.rs 229–232), `queue` the waiting changes. -/
structure E (S St V Sm : Type) where
  y : Y S St
  clock : Nat
  evs : List (Event V Sm)
  evCap : Nat
  queue : Queue V Sm

/-- `Graph::new` (graph.rs 203–333). -/
def E.init [Zero S] (id numIn numOut bs cap : Nat) (heap : Key → St) : E S St V Sm :=
  ⟨.init id numIn numOut bs cap heap, 0, [], cap, []⟩

/-- `SchedulingChannelSender::send` (handle.rs 47–73): refused when the ring buffer is full. -/
def send (e : E S St V Sm) (ev : Event V Sm) : E S St V Sm × Bool :=
  if e.evs.length < e.evCap then ({ e with evs := e.evs ++ [ev] }, true) else (e, false)

/-- The calls for the applied changes, one after the other (graph_gen.rs 286–302, dynugen.rs 300–335): a
task that holds no unit generator ignores them. -/
def callUnits (app : Key → UCall V Sm → St → St) (us : List UG) :
    (Key → St) → List (Applied V Sm) → Key → St
  | h, [] => h
  | h, a :: as => match us[a.task]? with
    | some (.own k _) =>
      callUnits app us (fun j => if j = k then (a.calls.map toUnit).foldl (fun s c => app k c s) (h k) else h j) as
    | _ => callUnits app us h as

/-- `GraphGen::process_block` (graph_gen.rs 84–219) and the clock of `AudioProcessor` (processor.rs 128–139):
switch to the newest task data, apply the parameter changes that are due, run the tasks.  Also returned: the changes
applied. -/
def block [Zero S] (c : GenCfg) (app : Key → UCall V Sm → St → St) (active : Nat → Bool)
    (e : E S St V Sm) (proc : Proc S St) (inp : Nat → Nat → S) :
    R (E S St V Sm × List (List S) × List (Applied V Sm)) := do
  let td ← T.applyAll e.y.cur.2 (e.y.ring.map Prod.snd)
  let (q, out) ← eventPhase c ⟨e.clock, td.keys, active⟩ e.evs e.queue
  let h := callUnits app (td.tasks.map Prod.snd) e.y.heap out
  let (y, o) ← Sys.block c.bs { e.y with heap := h } proc inp
  let clock ← addC U64 e.clock c.bs
  .ok ({ e with y := y, clock := clock, evs := [], queue := q }, o, out)

end

end Verif.Eng
