import Verif.Model.Delay
import Verif.Model.Ieee

/-!
# The allpass delays with rounding (knaster_core_dsp/src/ugens/delay.rs)

The same functions as in `Model/Delay`, with every result rounded to the sample type by `fl`, and the products of delay times
and sample rates to `f64` by `fl64`.  Numbers have no upper limit here.  The length of the buffer is an argument (`Seconds::to_samples`
is in `Model/Time`).
-/

namespace Verif.Fl

open Verif.Dl (Interp Allpass Feedback asUsize)

/-- `set_delta` (delay.rs 74–76). -/
def setDeltaF (fl : ℚ → ℚ) (a : Interp) (delta : ℚ) : Interp := { a with coeff := fl (fl (1 - delta) / fl (1 + delta)) }

/-- `process_sample` of the interpolator (delay.rs 78–83). -/
def interpF (fl : ℚ → ℚ) (a : Interp) (x : ℚ) : Interp × ℚ :=
  let out := fl (fl (a.coeff * fl (x - a.prevOut)) + a.prevIn)
  (⟨a.coeff, x, out⟩, out)

/-- `init` (delay.rs 120–123) of a new delay, for a buffer of `len` frames. -/
def allpassInitF (len : Nat) : Allpass := ⟨List.replicate len 0, 0, 0, 1, 0, .new⟩

/-- The number of whole frames and the fraction that `set_delay_in_frames` (delay.rs 161–167) splits a delay into. -/
def splitF (fl : ℚ → ℚ) (n : ℚ) : R (Nat × ℚ) :=
  if ⌊n⌋ < 0 then .error .unwrap
  else
    let delta := fl (n - ⌊n⌋)
    if 1 / 2 < n ∧ delta < 1 / 2 then do
      let k ← subC ⌊n⌋.toNat 1
      return (k, fl (delta + 1))
    else .ok (⌊n⌋.toNat, delta)

/-- `set_delay_in_frames` (delay.rs 160–174). -/
def setFramesF (fl : ℚ → ℚ) (s : Allpass) (n : ℚ) : R Allpass := do
  let p ← splitF fl n
  let rf ← s.readPos p.1
  return { s with num := p.1, rf := rf, ap := setDeltaF fl s.ap p.2 }

/-- `delay_time` (delay.rs 137–142): the check is made in `f64`, before the conversion to a sample. -/
def delayTimeF (fl fl64 : ℚ → ℚ) (s : Allpass) (sr : Nat) (seconds : ℚ) : R Allpass :=
  let frames := fl64 (seconds * sr)
  if asUsize frames < s.buf.length then setFramesF fl s (fl frames) else .ok s

/-- `read` (delay.rs 145–157). -/
def readF (fl : ℚ → ℚ) (s : Allpass) : R (Allpass × ℚ) :=
  if 0 < s.clearLeft then do
    let rf ← modC (s.rf + 1) s.buf.length
    return ({ s with clearLeft := s.clearLeft - 1, rf := rf }, 0)
  else do
    let x ← Dl.read s.buf s.rf
    let rf ← modC (s.rf + 1) s.buf.length
    return ({ s with ap := (interpF fl s.ap x).1, rf := rf }, (interpF fl s.ap x).2)

/-- `process` (delay.rs 125–134). -/
def allpassF (fl : ℚ → ℚ) (s : Allpass) (x : ℚ) : R (Allpass × ℚ) := do
  let r ← readF fl s
  let s' ← r.1.write x
  return (s', r.2)

/-- Several operations on an allpass delay: the final state and the output of every frame. -/
def allpassRunF (fl fl64 : ℚ → ℚ) (sr : Nat) : Allpass → List Dl.Op → R (Allpass × List ℚ)
  | s, [] => .ok (s, [])
  | s, .time t :: ops => do
    let s' ← delayTimeF fl fl64 s sr t
    allpassRunF fl fl64 sr s' ops
  | s, .frame x :: ops => do
    let r ← allpassF fl s x
    let r' ← allpassRunF fl fl64 sr r.1 ops
    return (r'.1, r.2 :: r'.2)

/-- `delay_time` with feedback (delay.rs 232–235, 249–251): no check of the length. -/
def feedbackTimeF (fl fl64 : ℚ → ℚ) (s : Feedback) (sr : Nat) (seconds : ℚ) : R Feedback := do
  let dl ← setFramesF fl s.dl (fl (fl64 (seconds * sr)))
  return { s with dl := dl }

/-- `process_sample` with feedback (delay.rs 263–269). -/
def feedbackF (fl : ℚ → ℚ) (s : Feedback) (x : ℚ) : R (Feedback × ℚ) := do
  let r ← readF fl s.dl
  let w := fl (fl (r.2 * s.fb) + x)
  let dl ← r.1.write w
  return ({ s with dl := dl }, fl (r.2 - fl (s.fb * w)))

/-- Several frames. -/
def feedbackRunF (fl : ℚ → ℚ) : Feedback → List ℚ → R (Feedback × List ℚ)
  | s, [] => .ok (s, [])
  | s, x :: xs => do
    let r ← feedbackF fl s x
    let r' ← feedbackRunF fl r.1 xs
    return (r'.1, r.2 :: r'.2)

/-- What can happen to a delay with feedback: its two parameters (delay.rs 231–240) and a frame (delay.rs 245–247). -/
inductive FbOp where
  /-- the parameter `delay_time` is set -/
  | time (seconds : ℚ)
  /-- the parameter `feedback` is set -/
  | feedback (g : ℚ)
  /-- one frame is processed -/
  | frame (x : ℚ)
  deriving DecidableEq

/-- Several operations on a delay with feedback: the final state and the output of every frame. -/
def fbOpsF (fl fl64 : ℚ → ℚ) (sr : Nat) : Feedback → List FbOp → R (Feedback × List ℚ)
  | s, [] => .ok (s, [])
  | s, .time t :: ops => do
    let s' ← feedbackTimeF fl fl64 s sr t
    fbOpsF fl fl64 sr s' ops
  | s, .feedback g :: ops => fbOpsF fl fl64 sr { s with fb := fl g } ops
  | s, .frame x :: ops => do
    let r ← feedbackF fl s x
    let r' ← fbOpsF fl fl64 sr r.1 ops
    return (r'.1, r.2 :: r'.2)

end Verif.Fl
