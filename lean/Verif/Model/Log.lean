import Verif.Basic

/-!
# Logging from the audio thread (knaster_core/src/log.rs)

A receiver with one ring buffer per sender.  The ring is its queued messages, its capacity and the position of the
oldest one, which decides where the two slices of `as_slices` are split.

Simplifications: the payload of a message is a number; sending and receiving are atomic steps (rtrb publishes whole
elements, `slots` is read once per call); the `ArLogSender::Log` variant and values are in `Model/LogSys`.
-/

namespace Verif.Lg

/-- `ArLogMessage` (log.rs 18–32). -/
inductive Msg where
  | data (n : Nat)
  | fin
  deriving DecidableEq, Repr

/-- `rtrb::RingBuffer<ArLogMessage>`. -/
structure Ring where
  cap : Nat
  head : Nat := 0
  q : List Msg := []
  deriving DecidableEq, Repr

/-- `ArLogSender::send` (log.rs 259–266): when the ring is full the message is dropped. -/
def Ring.send (r : Ring) (m : Msg) : Ring :=
  if r.q.length < r.cap then { r with q := r.q ++ [m] } else r

/-- `rt_log!` (log.rs 271–281): the values, then `End`. -/
def Ring.log (r : Ring) (body : List Nat) : Ring :=
  (body.foldl (fun r n => r.send (.data n)) r).send .fin

/-- `&s[a..b]`. -/
def slice (s : List Msg) (a b : Nat) : R (List Msg) :=
  if a ≤ b ∧ b ≤ s.length then .ok ((s.take b).drop a) else .error .index

/-- `position(|m| matches!(m, End))`. -/
def position : List Msg → Option Nat
  | [] => none
  | .fin :: _ => some 0
  | .data _ :: l => (position l).map (· + 1)

/-- The first slice handed to the handler (log.rs 173–177). -/
def slice0 (s0 : List Msg) (lastEnd pos : Nat) : R (List Msg) :=
  if lastEnd ≥ s0.length then .ok []
  else slice s0 lastEnd (min (lastEnd + pos + 1) s0.length)

/-- The second slice handed to the handler (log.rs 178–184). -/
def slice1 (s0 s1 : List Msg) (lastEnd pos : Nat) : R (List Msg) :=
  if lastEnd + pos < s0.length then .ok []
  else if lastEnd ≥ s0.length then slice s1 (lastEnd - s0.length) (lastEnd + pos - s0.length + 1)
  else slice s1 0 (lastEnd + pos - s0.length + 1)

/-- The loop of `recv` (log.rs 167–191): the calls of the handler and the final `last_end`.  Every turn moves
`last_end` on, so the number of messages bounds the number of turns. -/
def recvLoop (s0 s1 : List Msg) : Nat → Nat → R (List (List Msg) × Nat)
  | 0, lastEnd => .ok ([], lastEnd)
  | fuel + 1, lastEnd =>
    match position ((s0 ++ s1).drop lastEnd) with
    | none => .ok ([], lastEnd)
    | some pos => do
      let a ← slice0 s0 lastEnd pos
      let b ← slice1 s0 s1 lastEnd pos
      let r ← recvLoop s0 s1 fuel (lastEnd + pos + 1)
      return (a :: b :: r.1, r.2)

/-- `recv` for one ring (log.rs 163–193): the new ring and the calls of the handler. -/
def Ring.recv (r : Ring) : R (Ring × List (List Msg)) := do
  let split := min r.q.length (r.cap - r.head)
  let x ← recvLoop (r.q.take split) (r.q.drop split) (r.q.length + 1) 0
  return ({ r with q := r.q.drop x.2, head := (r.head + x.2) % r.cap }, x.1)

/-- `recv` (log.rs 161–195): all rings, one after the other. -/
def recvAll : List Ring → R (List Ring × List (List Msg))
  | [] => .ok ([], [])
  | r :: rs => do
    let x ← r.recv
    let y ← recvAll rs
    return (x.1 :: y.1, x.2 ++ y.2)

/-- What the two threads do with one ring. -/
inductive Op where
  | log (body : List Nat)
  | recv
  deriving DecidableEq, Repr

/-- A history: the final ring and everything the handler got, in order. -/
def run : Ring → List Op → R (Ring × List (List Msg))
  | r, [] => .ok (r, [])
  | r, .log body :: ops => run (r.log body) ops
  | r, .recv :: ops => do
    let x ← r.recv
    let y ← run x.1 ops
    return (y.1, x.2 ++ y.2)

end Verif.Lg
