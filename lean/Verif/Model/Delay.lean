import Verif.Basic
import Mathlib.Algebra.Order.Field.Rat
import Mathlib.Data.Rat.Floor

/-!
# Delay lines

`knaster_core_dsp/src/ugens/delay.rs`: `SampleDelay` (14–49), `AllpassInterpolator` (53–84), `AllpassDelay` (93–206),
`AllpassFeedbackDelay` (210–270) and `StaticSampleDelay` (308–416).

Samples, times and coefficients are rationals; rounding is not modelled, nor are values that are not finite.
The maximum delay times (`Seconds`) are rationals too.
-/

namespace Verif.Dl

/-- Casting a float to `usize` with `as`: truncates, negative values give 0. -/
def asUsize (x : Rat) : Nat := ⌊x⌋.toNat

/-- Writing one element of a buffer (`buffer[i] = x`). -/
def write (buf : List Rat) (i : Nat) (x : Rat) : R (List Rat) :=
  if i < buf.length then .ok (buf.set i x) else .error .index

/-- Reading one element of a buffer (`buffer[i]`). -/
def read (buf : List Rat) (i : Nat) : R Rat :=
  match buf[i]? with
  | some v => .ok v
  | none => .error .index

/-! ### `SampleDelay` -/

/-- `SampleDelay` (delay.rs 14–19). -/
structure Sample where
  buf : List Rat
  wp : Nat
  delay : Nat
  deriving DecidableEq

/-- `new` (delay.rs 24–31) followed by `init` (delay.rs 44–48). -/
def Sample.init (maxDelay : Rat) (sr : Nat) : Sample := ⟨List.replicate (asUsize (maxDelay * sr)) 0, 0, 0⟩

/-- `delay_time` (delay.rs 34–36). -/
def Sample.delayTime (s : Sample) (sr : Nat) (seconds : Rat) : Sample := { s with delay := asUsize (seconds * sr) }

/-- `process` (delay.rs 37–43). -/
def Sample.process (s : Sample) (x : Rat) : R (Sample × Rat) := do
  let buf ← write s.buf s.wp x
  let i ← subC (s.wp + buf.length) s.delay
  let i ← modC i buf.length
  let out ← read buf i
  let wp ← modC (s.wp + 1) buf.length
  return ({ s with buf := buf, wp := wp }, out)

/-- What can happen to a delay unit generator. -/
inductive Op where
  /-- the parameter `delay_time` is set -/
  | time (seconds : Rat)
  /-- one frame is processed -/
  | frame (x : Rat)
  deriving DecidableEq

/-- Several operations: the final state and the output of every frame. -/
def Sample.run (sr : Nat) : Sample → List Op → R (Sample × List Rat)
  | s, [] => .ok (s, [])
  | s, .time t :: ops => Sample.run sr (s.delayTime sr t) ops
  | s, .frame x :: ops => do
    let r ← s.process x
    let r' ← Sample.run sr r.1 ops
    return (r'.1, r.2 :: r'.2)

/-! ### `AllpassDelay` -/

/-- `AllpassInterpolator` (delay.rs 53–57). -/
structure Interp where
  coeff : Rat
  prevIn : Rat
  prevOut : Rat
  deriving DecidableEq

/-- `AllpassInterpolator::new` (delay.rs 61–67). -/
def Interp.new : Interp := ⟨1, 1, 1⟩

/-- `clear` (delay.rs 69–72). -/
def Interp.clear (a : Interp) : Interp := { a with prevIn := 1, prevOut := 1 }

/-- `set_delta` (delay.rs 74–76); `delta` is never negative. -/
def Interp.setDelta (a : Interp) (delta : Rat) : Interp := { a with coeff := (1 - delta) / (1 + delta) }

/-- `process_sample` (delay.rs 78–83). -/
def Interp.process (a : Interp) (x : Rat) : Interp × Rat :=
  let out := a.coeff * (x - a.prevOut) + a.prevIn
  (⟨a.coeff, x, out⟩, out)

/-- `AllpassDelay` (delay.rs 93–101). -/
structure Allpass where
  buf : List Rat
  wf : Nat
  rf : Nat
  num : Nat
  clearLeft : Nat
  ap : Interp
  deriving DecidableEq

/-- `new` (delay.rs 107–118) followed by `init` (delay.rs 120–123). -/
def Allpass.init (maxDelay : Rat) (sr : Nat) : Allpass := ⟨List.replicate (asUsize (maxDelay * sr)) 0, 0, 0, 1, 0, .new⟩

/-- The number of whole frames and the fraction that `set_delay_in_frames` (delay.rs 161–167) splits a delay into. -/
def splitFrames (n : Rat) : R (Nat × Rat) :=
  if ⌊n⌋ < 0 then .error .unwrap
  else
    let delta := n - ⌊n⌋
    if 1 / 2 < n ∧ delta < 1 / 2 then do
      let k ← subC ⌊n⌋.toNat 1
      return (k, delta + 1)
    else .ok (⌊n⌋.toNat, delta)

/-- The new read position (delay.rs 168–172). -/
def Allpass.readPos (s : Allpass) (num : Nat) : R Nat :=
  if num ≤ s.wf then .ok (s.wf - num)
  else do
    let k ← subC s.buf.length num
    return k + s.wf

/-- `set_delay_in_frames` (delay.rs 160–174). -/
def Allpass.setFrames (s : Allpass) (n : Rat) : R Allpass := do
  let p ← splitFrames n
  let rf ← s.readPos p.1
  return { s with num := p.1, rf := rf, ap := s.ap.setDelta p.2 }

/-- `delay_time` (delay.rs 137–142). -/
def Allpass.delayTime (s : Allpass) (sr : Nat) (seconds : Rat) : R Allpass :=
  if asUsize (seconds * sr) < s.buf.length then s.setFrames (seconds * sr) else .ok s

/-- `read` (delay.rs 145–157). -/
def Allpass.read (s : Allpass) : R (Allpass × Rat) :=
  if 0 < s.clearLeft then do
    let rf ← modC (s.rf + 1) s.buf.length
    return ({ s with clearLeft := s.clearLeft - 1, rf := rf }, 0)
  else do
    let x ← Dl.read s.buf s.rf
    let rf ← modC (s.rf + 1) s.buf.length
    return ({ s with ap := (s.ap.process x).1, rf := rf }, (s.ap.process x).2)

/-- `write_and_advance` (delay.rs 202–205). -/
def Allpass.write (s : Allpass) (x : Rat) : R Allpass := do
  let buf ← Dl.write s.buf s.wf x
  let wf ← modC (s.wf + 1) buf.length
  return { s with buf := buf, wf := wf }

/-- `process` (delay.rs 125–134). -/
def Allpass.process (s : Allpass) (x : Rat) : R (Allpass × Rat) := do
  let r ← s.read
  let s' ← r.1.write x
  return (s', r.2)

/-- `clear` (delay.rs 177–187). -/
def Allpass.clear (s : Allpass) : Allpass := { s with clearLeft := s.num, ap := s.ap.clear }

/-- Several operations: the final state and the output of every frame. -/
def Allpass.run (sr : Nat) : Allpass → List Op → R (Allpass × List Rat)
  | s, [] => .ok (s, [])
  | s, .time t :: ops => do
    let s' ← s.delayTime sr t
    Allpass.run sr s' ops
  | s, .frame x :: ops => do
    let r ← s.process x
    let r' ← Allpass.run sr r.1 ops
    return (r'.1, r.2 :: r'.2)

/-! ### `AllpassFeedbackDelay` -/

/-- `AllpassFeedbackDelay` (delay.rs 210–215); `previous_delay_time` is written but never read. -/
structure Feedback where
  fb : Rat
  dl : Allpass
  deriving DecidableEq

/-- `new` (delay.rs 221–229) followed by `init` (delay.rs 241–243). -/
def Feedback.init (maxDelay : Rat) (sr : Nat) : Feedback := ⟨0, .init maxDelay sr⟩

/-- `delay_time` (delay.rs 232–235) with `set_delay_in_frames` (delay.rs 249–251): no check of the length. -/
def Feedback.delayTime (s : Feedback) (sr : Nat) (seconds : Rat) : R Feedback := do
  let dl ← s.dl.setFrames (seconds * sr)
  return { s with dl := dl }

/-- `feedback` (delay.rs 238–240). -/
def Feedback.feedback (s : Feedback) (fb : Rat) : Feedback := { s with fb := fb }

/-- `process_sample` (delay.rs 263–269). -/
def Feedback.process (s : Feedback) (x : Rat) : R (Feedback × Rat) := do
  let r ← s.dl.read
  let w := r.2 * s.fb + x
  let dl ← r.1.write w
  return ({ s with dl := dl }, r.2 - s.fb * w)

/-- Several frames. -/
def Feedback.run : Feedback → List Rat → R (Feedback × List Rat)
  | s, [] => .ok (s, [])
  | s, x :: xs => do
    let r ← s.process x
    let r' ← Feedback.run r.1 xs
    return (r'.1, r.2 :: r'.2)

/-! ### `StaticSampleDelay` -/

/-- `StaticSampleDelay` (delay.rs 308–313). -/
structure Static where
  buf : List Rat
  pos : Nat
  len : Nat
  deriving DecidableEq

/-- `new` (delay.rs 320–327). -/
def Static.new (n : Nat) : R Static := if n = 0 then .error .assert else .ok ⟨List.replicate n 0, 0, n⟩

/-- `set_delay_length` (delay.rs 331–333). -/
def Static.setLength (s : Static) (n : Nat) : Static := { s with len := min n s.buf.length }

/-- `set_delay_length_fraction` (delay.rs 335–340): `to_usize` of a number that is at most -1 gives `None`. -/
def Static.setFraction (s : Static) (f : Rat) : R Static :=
  if s.buf.length * f ≤ -1 then .error .unwrap else .ok { s with len := asUsize (s.buf.length * f) }

/-- `read_block` (delay.rs 344–356) into an output of `n` frames. -/
def Static.readBlock (s : Static) (n : Nat) : R (List Rat) :=
  if s.buf.length < n then .error .assert
  else if s.pos + n ≤ s.buf.length then .ok ((s.buf.drop s.pos).take n)
  else do
    let e ← modC (s.pos + n) s.len
    let k ← subC n e
    if s.buf.length < s.pos then .error .index
    else if k ≠ s.buf.length - s.pos then .error .assert
    else if s.buf.length < e then .error .index
    else return s.buf.drop s.pos ++ s.buf.take e

/-- The buffer after copying a block into it (delay.rs 362–370). -/
def Static.copyBlock (s : Static) (xs : List Rat) : R (List Rat) :=
  if s.pos + xs.length ≤ s.buf.length then .ok (s.buf.take s.pos ++ xs ++ s.buf.drop (s.pos + xs.length))
  else do
    let e ← modC (s.pos + xs.length) s.len
    let k ← subC xs.length e
    if s.buf.length < s.pos then .error .index
    else if k ≠ s.buf.length - s.pos then .error .assert
    else if s.buf.length < e then .error .index
    else return xs.drop k ++ (s.buf.take s.pos ++ xs.take k).drop e

/-- `write_block_and_advance` (delay.rs 359–372). -/
def Static.writeBlock (s : Static) (xs : List Rat) : R Static :=
  if s.buf.length < xs.length then .error .assert
  else do
    let buf ← s.copyBlock xs
    let pos ← modC (s.pos + xs.length) s.buf.length
    return { s with buf := buf, pos := pos }

/-- `read` (delay.rs 375–377). -/
def Static.read (s : Static) : R Rat := Dl.read s.buf s.pos

/-- `write_and_advance` (delay.rs 399–402). -/
def Static.write (s : Static) (x : Rat) : R Static := do
  let buf ← Dl.write s.buf s.pos x
  let pos ← modC (s.pos + 1) s.len
  return { s with buf := buf, pos := pos }

/-- The loop of `process` over single frames (delay.rs 410–413). -/
def Static.frames : Static → List Rat → R (Static × List Rat)
  | s, [] => .ok (s, [])
  | s, x :: xs => do
    let o ← s.read
    let s' ← s.write x
    let r ← Static.frames s' xs
    return (r.1, o :: r.2)

/-- `process` (delay.rs 405–415) where input and output have `block_size` frames. -/
def Static.process (s : Static) (xs : List Rat) : R (Static × List Rat) :=
  if xs.length < s.buf.length then do
    let o ← s.readBlock xs.length
    let s' ← s.writeBlock xs
    return (s', o)
  else s.frames xs

/-- `read_at_lin` (delay.rs 383–396). The loop subtracts the length until `low` is inside the buffer, that is, it takes the
remainder, and subtracts the same from `high`; a buffer without elements would loop forever and is excluded by `new`. -/
def Static.readAtLin (s : Static) (i : Rat) : R Rat :=
  if ⌊i⌋ < 0 then .error .unwrap
  else do
    let low := ⌊i⌋.toNat % s.buf.length
    let high := ⌈i⌉.toNat - (⌊i⌋.toNat - low)
    let high := if s.buf.length ≤ high then high - s.buf.length else high
    let a ← Dl.read s.buf low
    let b ← Dl.read s.buf high
    return a + (b - a) * (i - ⌊i⌋)

/-- What the owner of a static delay line does. -/
inductive StaticOp where
  /-- `read` and then `write_and_advance` -/
  | frame (x : Rat)
  /-- `process` -/
  | block (xs : List Rat)
  deriving DecidableEq

/-- One operation and its output. -/
def Static.op (s : Static) : StaticOp → R (Static × List Rat)
  | .frame x => do
    let o ← s.read
    let s' ← s.write x
    return (s', [o])
  | .block xs => s.process xs

/-- Several operations and all their output. -/
def Static.run : Static → List StaticOp → R (Static × List Rat)
  | s, [] => .ok (s, [])
  | s, op :: ops => do
    let r ← s.op op
    let r' ← Static.run r.1 ops
    return (r'.1, r.2 ++ r'.2)

end Verif.Dl
