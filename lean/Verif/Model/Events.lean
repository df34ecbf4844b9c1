import Verif.Model.Time

/-!
# Model of scheduled parameter changes

`knaster_graph/src/scheduling.rs` (`Time`, `SchedulingEvent`), the event part of
`knaster_graph/src/graph_gen.rs` (`apply_parameter_change`, the queue handling in
`GraphGen::process_block`) and the clock of `knaster_graph/src/processor.rs`.

Simplifications: a parameter value and a smoothing setting are elements of arbitrary types `V`, `S`;
a node key is a `Nat`; whether a token is activated is a function that is constant during the event
phase of one block (tokens are meant to be activated on the audio thread, scheduling.rs:188-195);
log messages are left out; the calls on a UGen are recorded instead of being run.
-/

namespace Verif

/-- `struct Time`, scheduling.rs:73-77 -/
structure STime where
  seconds : Seconds
  absolute : Bool
  deriving DecidableEq, Repr

/-- `Time::to_samples_until_due`, scheduling.rs:97-125: the returned sample count and the new
value of the (mutable) receiver. -/
def STime.untilDue (t : STime) (bs sr clock : Nat) : R (Nat × STime) :=
  if t.absolute then do
    let n ← t.seconds.toSamples sr
    return (n - clock, t)                       -- `saturating_sub`
  else if t.seconds = Seconds.zero then
    return (0, t)
  else do
    let samples ← t.seconds.toSamples sr
    let b ← Seconds.fromSamples bs sr
    let s ← t.seconds.saturatingSub b
    return (samples, { t with seconds := s })

/-- What a `SchedulingEvent` (scheduling.rs:27-35) does, without its time. -/
structure Change (V S : Type) where
  key : Nat
  param : Nat
  value : Option V
  smoothing : Option S
  token : Option Nat
  deriving DecidableEq, Repr

/-- `struct SchedulingEvent`, scheduling.rs:27-35 -/
structure Event (V S : Type) where
  change : Change V S
  time : Option STime
  deriving DecidableEq, Repr

/-- A call on the UGen of a task, graph_gen.rs:276-284 -/
inductive Call (V S : Type) where
  | setDelay (task param frames : Nat)
  | smoothing (task param : Nat) (s : S)
  | value (task param : Nat) (v : V)
  deriving DecidableEq, Repr

/-- Record of an applied change: the task it was applied to and the computed delay in the block
(before the `as u16` cast). -/
structure Applied (V S : Type) where
  change : Change V S
  task : Nat
  delay : Nat
  deriving DecidableEq, Repr

/-- The calls made for an applied change, in order, graph_gen.rs:276-284. -/
def Applied.calls {V S} (a : Applied V S) : List (Call V S) :=
  (if a.delay > 0 then [.setDelay a.task a.change.param (a.delay % 65536)] else []) ++
  (match a.change.smoothing with | some s => [.smoothing a.task a.change.param s] | none => []) ++
  (match a.change.value with | some v => [.value a.task a.change.param v] | none => [])

/-- Fixed parameters of a `GraphGen` (graph.rs:313-327): block size, sample rate, capacity of
`waiting_parameter_changes`, `blocks_to_keep_scheduled_changes`. -/
structure GenCfg where
  bs : Nat
  sr : Nat
  cap : Nat
  keep : Nat
  deriving DecidableEq, Repr

/-- graph.rs:321-326. `VecDeque::with_capacity(n)` allocates room for at least `n` elements; the
model uses exactly `n`. -/
def GenCfg.ofOptions (bs sr ring : Nat) : R GenCfg := do
  let keep ← divC sr (bs % U32)
  return ⟨bs, sr, ring, keep⟩

/-- What the event phase of one block sees: the clock, the keys of the running tasks
(`node_task_order`), and which tokens are activated. -/
structure BlockEnv where
  clock : Nat
  keys : List Nat
  active : Nat → Bool

/-- `apply_parameter_change`, graph_gen.rs:252-290. `.inl` is `Some(event)` (not applied). -/
def applyChange {V S} (c : GenCfg) (env : BlockEnv) (e : Event V S) :
    R (Event V S ⊕ Applied V S) := do
  let tokenOk := match e.change.token with | none => true | some t => env.active t
  let (ready, delay, e) ← (match e.time with
    | none => pure (tokenOk, 0, e)
    | some t => do
      let (d, t') ← t.untilDue c.bs c.sr env.clock
      pure (tokenOk && decide (d < c.bs), d, { e with time := some t' }) :
    R (Bool × Nat × Event V S))
  if ready then
    match env.keys.findIdx? (· == e.change.key) with
    | some i => return .inr ⟨e.change, i, delay⟩
    | none => return .inl e
  else return .inl e

/-- `waiting_parameter_changes` -/
abbrev Queue (V S : Type) := List (Event V S × Nat)

/-- The loop over `waiting_parameter_changes`, graph_gen.rs:115-140 (`n` iterations left). -/
def loopWaiting {V S} (c : GenCfg) (env : BlockEnv) :
    Nat → Queue V S → List (Applied V S) → R (Queue V S × List (Applied V S))
  | 0, q, out => .ok (q, out)
  | _ + 1, [], _ => .error .unwrap
  | n + 1, (e, w) :: q, out =>
    if w > c.keep then loopWaiting c env n q out
    else do
      match ← applyChange c env e with
      | .inl e' => do
        let w' ← addC U32 w 1
        loopWaiting c env n (q ++ [(e', w')]) out
      | .inr a => loopWaiting c env n q (out ++ [a])

/-- The loop over the newly received events, graph_gen.rs:151-167. -/
def loopNew {V S} (c : GenCfg) (env : BlockEnv) :
    List (Event V S) → Queue V S → List (Applied V S) → R (Queue V S × List (Applied V S))
  | [], q, out => .ok (q, out)
  | e :: es, q, out => do
    match ← applyChange c env e with
    | .inl e' => loopNew c env es (if q.length < c.cap then q ++ [(e', 0)] else q) out
    | .inr a => loopNew c env es q (out ++ [a])

/-- The event phase of `GraphGen::process_block`, graph_gen.rs:110-168. It runs after new task
data has been switched in and before any task is run. -/
def eventPhase {V S} (c : GenCfg) (env : BlockEnv) (new : List (Event V S)) (q : Queue V S) :
    R (Queue V S × List (Applied V S)) := do
  let (q, out) ← loopWaiting c env q.length q []
  loopNew c env new q out

/-- What arrives at / is visible in one block. -/
structure BlockIn (V S : Type) where
  /-- events read from the ring buffer in this block -/
  new : List (Event V S)
  /-- keys of the tasks run in this block -/
  keys : List Nat
  /-- activated tokens -/
  active : Nat → Bool

/-- Block `b` starts at frame `b * block_size` (processor.rs:128,139: the clock starts at 0 and is
advanced by the block size after every block). -/
def BlockIn.env {V S} (c : GenCfg) (b : Nat) (i : BlockIn V S) : BlockEnv :=
  ⟨b * c.bs, i.keys, i.active⟩

/-- The queue before block `b`, for an arbitrary stream of block inputs. -/
def queueAt {V S} (c : GenCfg) (ins : Nat → BlockIn V S) : Nat → R (Queue V S)
  | 0 => .ok []
  | b + 1 => do
    let q ← queueAt c ins b
    let (q', _) ← eventPhase c ((ins b).env c b) (ins b).new q
    return q'

/-- The changes applied in block `b`, in order. -/
def outAt {V S} (c : GenCfg) (ins : Nat → BlockIn V S) (b : Nat) : R (List (Applied V S)) := do
  let q ← queueAt c ins b
  let (_, out) ← eventPhase c ((ins b).env c b) (ins b).new q
  return out

/-! ## Clock -/

/-- The clock part of `AudioProcessor`, processor.rs:44-61 -/
structure ProcClock where
  frameClock : Nat
  /-- contents of the shared `AtomicU64` -/
  shared : Nat
  deriving DecidableEq, Repr

/-- `transmute::<Seconds, u64>`, scheduling.rs:57. (The field order in memory is unspecified in Rust;
any fixed order gives the same results because the inverse transmute is used for reading.) -/
def packSeconds (s : Seconds) : Nat := s.seconds + U32 * s.sub
/-- `transmute::<u64, Seconds>`, scheduling.rs:63 -/
def unpackSeconds (n : Nat) : Seconds := ⟨n % U32, n / U32⟩

/-- `AudioProcessor::new`, `SharedFrameClock::new`: processor.rs:110-112, scheduling.rs:51-53 -/
def ProcClock.init : ProcClock := ⟨0, 0⟩

/-- The clock update of `AudioProcessor::run`/`run_raw_ptr_inputs`, processor.rs:134-139. -/
def ProcClock.run (bs sr : Nat) (p : ProcClock) : R ProcClock := do
  let fc ← addC U64 p.frameClock bs
  let s ← Seconds.fromSamples fc sr
  return ⟨fc, packSeconds s⟩

/-- `n` blocks. -/
def ProcClock.runN (bs sr : Nat) : Nat → R ProcClock
  | 0 => .ok .init
  | n + 1 => do
    let p ← ProcClock.runN bs sr n
    p.run bs sr

/-- `SharedFrameClock::get`, scheduling.rs:61-64 -/
def ProcClock.get (p : ProcClock) : Seconds := unpackSeconds p.shared

end Verif
