import Verif.Model.Ieee
import Verif.Model.PolyBlep

/-!
# The band-limited waveforms with rounding (knaster_core_dsp/src/ugens/polyblep.rs)

The same functions as in `Model/PolyBlep`, with every result rounded to the sample type: `fl` is `rnd32` for `f32` and
`rnd64` for `f64`.  Saw, ramp, square, rectangle, triangle and modified square are computed; the samples of the other
waveforms and the functions of the maths library are arguments.  Numbers have no upper limit here; nothing in the range
of the theorems comes near it.  Divisions are only made by numbers above zero (a step `dt` of zero takes no branch that
divides by it).
-/

namespace Verif.Fl

open Verif.Pb (Waveform PolyBlep Op trunc)

/-- `blep` (polyblep.rs 47–55). -/
def blepF (fl : ℚ → ℚ) (t dt : ℚ) : ℚ :=
  if t < dt then
    let x := fl (fl (t / dt) - 1); -fl (x * x)
  else if fl (1 - dt) < t then
    let x := fl (fl (fl (t - 1) / dt) + 1)
    fl (x * x)
  else 0

/-- `blamp` (polyblep.rs 58–68). -/
def blampF (fl : ℚ → ℚ) (t dt : ℚ) : ℚ :=
  if t < dt then
    let x := fl (fl (t / dt) - 1)
    fl (fl (fl (-1 / 3) * fl (x * x)) * x)
  else if fl (1 - dt) < t then
    let x := fl (fl (fl (t - 1) / dt) + 1)
    fl (fl (fl (1 / 3) * fl (x * x)) * x)
  else 0

/-- `t -= bitwise_or_zero(t)` (polyblep.rs 70–72). -/
def wrapF (fl : ℚ → ℚ) (x : ℚ) : ℚ := fl (x - trunc x)

/-- `saw` (polyblep.rs 490–498). -/
def sawF (fl : ℚ → ℚ) (t dt : ℚ) : ℚ :=
  let t1 := wrapF fl (fl (t + 1 / 2))
  let y := fl (fl (2 * t1) - 1)
  fl (y - blepF fl t1 dt)

/-- `ramp` (polyblep.rs 500–508). -/
def rampBF (fl : ℚ → ℚ) (t dt : ℚ) : ℚ :=
  let t1 := wrapF fl t
  let y := fl (1 - fl (2 * t1))
  fl (y + blepF fl t1 dt)

/-- The level of a square wave (polyblep.rs 438–442, 457, 468). -/
def levelF (t : ℚ) : ℚ := if t < 1 / 2 then 1 else -1

/-- `sqr` (polyblep.rs 434–447). -/
def sqrF (fl : ℚ → ℚ) (t dt : ℚ) : ℚ :=
  let t2 := wrapF fl (fl (t + 1 / 2))
  fl (levelF t + fl (blepF fl t dt - blepF fl t2 dt))

/-- `rect` (polyblep.rs 475–488). -/
def rectF (fl : ℚ → ℚ) (pw t dt : ℚ) : ℚ :=
  let t2 := wrapF fl (fl (fl (t + 1) - pw))
  let y := fl (-2 * pw)
  let y := if t < pw then fl (y + 2) else y
  fl (y + fl (blepF fl t dt - blepF fl t2 dt))

/-- `sqr2` (polyblep.rs 449–473). -/
def sqr2F (fl : ℚ → ℚ) (pw t dt : ℚ) : ℚ :=
  let c := fl (1 / 4 * fl (pw - 1 / 2))
  let t1 := wrapF fl (fl (fl (t + 7 / 8) + c))
  let t2 := wrapF fl (fl (fl (t + 3 / 8) + c))
  let y := fl (levelF t1 + fl (blepF fl t1 dt - blepF fl t2 dt))
  let d := fl (1 / 2 * fl (1 - pw))
  let t1 := wrapF fl (fl (t1 + d))
  let t2 := wrapF fl (fl (t2 + d))
  let y := fl (y + levelF t1)
  fl (1 / 2 * fl (y + fl (blepF fl t1 dt - blepF fl t2 dt)))

/-- The branches that fold `4 t` into a triangle (polyblep.rs 285–291). -/
def foldF (fl : ℚ → ℚ) (y : ℚ) : ℚ := if 3 ≤ y then fl (y - 4) else if 1 < y then fl (2 - y) else y

/-- `tri` (polyblep.rs 278–299). -/
def triF (fl : ℚ → ℚ) (t dt : ℚ) : ℚ :=
  let t1 := wrapF fl (fl (t + 1 / 4))
  let t2 := wrapF fl (fl (t + 3 / 4))
  let y := foldF fl (fl (t * 4))
  fl (y + fl (fl (4 * dt) * fl (blampF fl t1 dt - blampF fl t2 dt)))

/-- What is not computed here: the sine, and the samples of the other waveforms from pulse width, phase and step. -/
structure Others where
  sin : ℚ → ℚ
  tau : ℚ
  wave : Waveform → ℚ → ℚ → ℚ → ℚ

/-- The `match` of `next_sample` (polyblep.rs 213–228). -/
def waveF (fl : ℚ → ℚ) (o : Others) (w : Waveform) (pw t dt : ℚ) : ℚ :=
  match w with
  | .saw => sawF fl t dt
  | .ramp => rampBF fl t dt
  | .sqr => sqrF fl t dt
  | .rect => rectF fl pw t dt
  | .sqr2 => sqr2F fl pw t dt
  | .tri => triF fl t dt
  | .sine => o.sin (fl (t * o.tau))
  | w => o.wave w pw t dt

/-- `set_freq` (polyblep.rs 180–183). -/
def blepSetFreq (fl : ℚ → ℚ) (b : PolyBlep ℚ) (f : ℚ) : PolyBlep ℚ := { b with freq := f, dt := fl (f / b.sr) }

/-- `init` (polyblep.rs 150–155): the sample rate becomes a sample. -/
def blepInit (fl : ℚ → ℚ) (b : PolyBlep ℚ) (sr : Nat) : PolyBlep ℚ :=
  if b.dt = 0 ∧ b.freq ≠ 0 then blepSetFreq fl { b with sr := fl sr } b.freq else { b with sr := fl sr }

/-- `get_freq_in_hz` (polyblep.rs 194–196). -/
def blepHz (fl : ℚ → ℚ) (b : PolyBlep ℚ) : ℚ := fl (b.dt * b.sr)

/-- `sync` (polyblep.rs 199–206). -/
def blepSync (fl : ℚ → ℚ) (b : PolyBlep ℚ) (phase : ℚ) : PolyBlep ℚ :=
  { b with t := if 0 ≤ phase then fl (phase - trunc phase) else fl (phase + fl (1 - trunc phase)) }

/-- `next_sample` (polyblep.rs 209–230). -/
def blepNext (fl : ℚ → ℚ) (o : Others) (b : PolyBlep ℚ) : ℚ :=
  if fl (b.sr / 4) ≤ blepHz fl b then o.sin (fl (b.t * o.tau)) else waveF fl o b.waveform b.pw b.t b.dt

/-- `inc` (polyblep.rs 232–235). -/
def blepInc (fl : ℚ → ℚ) (b : PolyBlep ℚ) : PolyBlep ℚ := { b with t := wrapF fl (fl (b.t + b.dt)) }

/-- One operation that is not a sample (polyblep.rs 163–206); parameters are `f64` and become samples. -/
def blepOp (fl : ℚ → ℚ) (b : PolyBlep ℚ) : Op ℚ → PolyBlep ℚ
  | .freq f => blepSetFreq fl b (fl f)
  | .pulseWidth pw => { b with pw := fl pw }
  | .waveform w => { b with waveform := w }
  | .setSampleRate sr => blepSetFreq fl { b with sr } (blepHz fl b)
  | .sync p => blepSync fl b p
  | .sample => b

/-- A history: the samples (`get_and_inc`, polyblep.rs 237–241). -/
def blepRun (fl : ℚ → ℚ) (o : Others) : PolyBlep ℚ → List (Op ℚ) → PolyBlep ℚ × List ℚ
  | b, [] => (b, [])
  | b, .sample :: ops =>
    let r := blepRun fl o (blepInc fl b) ops
    (r.1, blepNext fl o b :: r.2)
  | b, op :: ops => blepRun fl o (blepOp fl b op) ops

end Verif.Fl
