import Verif.Basic
import Mathlib.Algebra.Order.Floor.Ring

/-!
# The band-limited waveforms (knaster_core_dsp/src/ugens/polyblep.rs)

Samples are elements of any ordered field with a floor function, so rounding is not modelled (the constants 0.9999 and 0.0001
are the decimal numbers); the functions of the maths library are an argument.  A division by zero, which makes a value that is
not finite, gives `none`.  Not modelled: the conversion of parameter values to waveforms (`Model/Params`).
-/

namespace Verif.Pb

variable {K : Type} [Field K] [LinearOrder K] [FloorRing K]

/-- The functions of `Float` that the waveforms use. -/
structure Fns (K : Type) where
  sin : K → K
  cos : K → K
  pi : K

/-- A division. -/
def divO (a b : K) : Option K := if b = 0 then none else some (a / b)

/-- `square_number` (polyblep.rs 39–41). -/
def square (x : K) : K := x * x

/-- `blep` (polyblep.rs 47–55). -/
def blep (t dt : K) : Option K :=
  if t < dt then (divO t dt).map fun x => -square (x - 1)
  else if 1 - dt < t then (divO (t - 1) dt).map fun x => square (x + 1)
  else some 0

/-- `blamp` (polyblep.rs 58–68). -/
def blamp (t dt : K) : Option K :=
  if t < dt then (divO t dt).map fun x => -1 / 3 * square (x - 1) * (x - 1)
  else if 1 - dt < t then (divO (t - 1) dt).map fun x => 1 / 3 * square (x + 1) * (x + 1)
  else some 0

/-- `bitwise_or_zero` (polyblep.rs 70–72): `trunc`, rounds towards zero. -/
def trunc (x : K) : K := if 0 ≤ x then (⌊x⌋ : Int) else (⌈x⌉ : Int)

/-- The two lines `let mut t = …; t -= bitwise_or_zero(t);`. -/
def wrapped (x : K) : K := x - trunc x

/-- `Waveform` (polyblep.rs 90–119). -/
inductive Waveform where
  | saw | sine | cosine | tri | sqr | rect | ramp | tri2 | sqr2 | half | full | trip | trap | trap2
  deriving DecidableEq, Repr

/-- `half` (polyblep.rs 251–266). -/
def half (fn : Fns K) (t dt : K) : Option K := do
  let t2 := wrapped (t + 1 / 2)
  let y := if t < 1 / 2 then 2 * fn.sin (t * (2 * fn.pi)) - 2 / fn.pi else -2 / fn.pi
  let b1 ← blamp t dt
  let b2 ← blamp t2 dt
  return y + 2 * fn.pi * dt * (b1 + b2)

/-- `full` (polyblep.rs 268–276). -/
def full (fn : Fns K) (t dt : K) : Option K := do
  let t' := wrapped (t + 1 / 4)
  let y := 2 * fn.sin (t' * fn.pi) - 4 / fn.pi
  let b ← blamp t' dt
  return y + 2 * fn.pi * dt * b

/-- The branches that fold `4 t` into a triangle (polyblep.rs 285–291, 358–363, 397–402). -/
def fold (y : K) : K := if 3 ≤ y then y - 4 else if 1 < y then 2 - y else y

/-- `tri` (polyblep.rs 278–299). -/
def tri (t dt : K) : Option K := do
  let t1 := wrapped (t + 1 / 4)
  let t2 := wrapped (t + 3 / 4)
  let b1 ← blamp t1 dt
  let b2 ← blamp t2 dt
  return fold (t * 4) + 4 * dt * (b1 - b2)

/-- The branches of `tri2` (polyblep.rs 310–318). -/
def tri2Level (pw t : K) : Option K :=
  let y := t * 2
  if 2 - pw ≤ y then divO (y - 2) pw
  else if pw ≤ y then (divO (y - pw) (1 - pw)).map fun x => 1 - x
  else divO y pw

/-- `tri2` (polyblep.rs 301–325). -/
def tri2 (pw t dt : K) : Option K := do
  let pw := max (min pw (9999 / 10000)) (1 / 10000)
  let t1 := wrapped (t + 1 / 2 * pw)
  let t2 := wrapped (t + 1 - 1 / 2 * pw)
  let y ← tri2Level pw t
  let c ← divO dt (pw - pw * pw)
  let b1 ← blamp t1 dt
  let b2 ← blamp t2 dt
  return y + c * (b1 - b2)

/-- The branches of `trip` (polyblep.rs 331–341). -/
def tripLevel (pw t1 : K) : Option K :=
  if pw ≤ t1 then some (-pw)
  else if 2 * pw ≤ 4 * t1 then (divO (4 * t1) pw).map fun x => 4 - x - pw
  else (divO (4 * t1) pw).map fun x => x - pw

/-- `trip` (polyblep.rs 327–355). -/
def trip (pw t dt : K) : Option K := do
  let t1 := wrapped (t + 3 / 4 + 1 / 2 * pw)
  let y ← tripLevel pw t1
  if 0 < pw then
    let t2 := wrapped (t1 + 1 - 1 / 2 * pw)
    let t3 := wrapped (t1 + 1 - pw)
    let c ← divO (2 * dt) pw
    let b1 ← blamp t1 dt
    let b2 ← blamp t2 dt
    let b3 ← blamp t3 dt
    return y + c * (b1 - 2 * b2 + b3)
  else return y

/-- `clamp(-1, 1)`. -/
def clamp1 (x : K) : K := if x < -1 then -1 else if 1 < x then 1 else x

/-- `trap` (polyblep.rs 357–391). -/
def trap (t dt : K) : Option K := do
  let y := clamp1 (2 * fold (4 * t))
  let t1 := wrapped (t + 1 / 8)
  let t2 := wrapped (t1 + 1 / 2)
  let b1 ← blamp t1 dt
  let b2 ← blamp t2 dt
  let y := y + 4 * dt * (b1 - b2)
  let t1 := wrapped (t + 3 / 8)
  let t2 := wrapped (t1 + 1 / 2)
  let b1 ← blamp t1 dt
  let b2 ← blamp t2 dt
  return y + 4 * dt * (b1 - b2)

/-- `trap2` (polyblep.rs 393–432). -/
def trap2 (pw t dt : K) : Option K := do
  let pw := min pw (9999 / 10000)
  let scale ← divO 1 (1 - pw)
  let y := clamp1 (scale * fold (4 * t))
  let t1 := wrapped (t + 1 / 4 - 1 / 4 * pw)
  let t2 := wrapped (t1 + 1 / 2)
  let b1 ← blamp t1 dt
  let b2 ← blamp t2 dt
  let y := y + scale * 2 * dt * (b1 - b2)
  let t1 := wrapped (t + 1 / 4 + 1 / 4 * pw)
  let t2 := wrapped (t1 + 1 / 2)
  let b1 ← blamp t1 dt
  let b2 ← blamp t2 dt
  return y + scale * 2 * dt * (b1 - b2)

/-- The level of a square wave (polyblep.rs 438–442, 457, 468). -/
def level (t : K) : K := if t < 1 / 2 then 1 else -1

/-- `sqr` (polyblep.rs 434–447). -/
def sqr (t dt : K) : Option K := do
  let t2 := wrapped (t + 1 / 2)
  let b1 ← blep t dt
  let b2 ← blep t2 dt
  return level t + (b1 - b2)

/-- `sqr2` (polyblep.rs 449–473). -/
def sqr2 (pw t dt : K) : Option K := do
  let t1 := wrapped (t + 7 / 8 + 1 / 4 * (pw - 1 / 2))
  let t2 := wrapped (t + 3 / 8 + 1 / 4 * (pw - 1 / 2))
  let b1 ← blep t1 dt
  let b2 ← blep t2 dt
  let y := level t1 + (b1 - b2)
  let t1 := wrapped (t1 + 1 / 2 * (1 - pw))
  let t2 := wrapped (t2 + 1 / 2 * (1 - pw))
  let b1 ← blep t1 dt
  let b2 ← blep t2 dt
  return 1 / 2 * (y + level t1 + (b1 - b2))

/-- `rect` (polyblep.rs 475–488). -/
def rect (pw t dt : K) : Option K := do
  let t2 := wrapped (t + 1 - pw)
  let y := if t < pw then -2 * pw + 2 else -2 * pw
  let b1 ← blep t dt
  let b2 ← blep t2 dt
  return y + (b1 - b2)

/-- `saw` (polyblep.rs 490–498). -/
def saw (t dt : K) : Option K := do
  let t' := wrapped (t + 1 / 2)
  let b ← blep t' dt
  return 2 * t' - 1 - b

/-- `ramp` (polyblep.rs 500–508). -/
def ramp (t dt : K) : Option K := do
  let t' := wrapped t
  let b ← blep t' dt
  return 1 - 2 * t' + b

/-- The `match` of `next_sample` (polyblep.rs 213–228). -/
def wave (fn : Fns K) (w : Waveform) (pw t dt : K) : Option K :=
  match w with
  | .sine => some (fn.sin (t * (2 * fn.pi)))
  | .cosine => some (fn.cos (t * (2 * fn.pi)))
  | .tri => tri t dt
  | .sqr => sqr t dt
  | .rect => rect pw t dt
  | .saw => saw t dt
  | .ramp => ramp t dt
  | .tri2 => tri2 pw t dt
  | .sqr2 => sqr2 pw t dt
  | .half => half fn t dt
  | .full => full fn t dt
  | .trip => trip pw t dt
  | .trap => trap t dt
  | .trap2 => trap2 pw t dt

/-- `PolyBlep` (polyblep.rs 128–135). -/
structure PolyBlep (K : Type) where
  waveform : Waveform
  sr : K
  freq : K
  dt : K
  pw : K
  t : K

/-- `new` (polyblep.rs 139–148). -/
def PolyBlep.new (waveform : Waveform) (freq : K) : PolyBlep K :=
  { waveform, sr := 0, freq, dt := 0, pw := 1 / 2, t := 0 }

/-- `set_freq` (polyblep.rs 177–184). -/
def PolyBlep.setFreq (b : PolyBlep K) (f : K) : Option (PolyBlep K) := do
  let dt ← divO f b.sr
  return { b with freq := f, dt }

/-- `init` (polyblep.rs 150–155). -/
def PolyBlep.init (b : PolyBlep K) (sr : K) : Option (PolyBlep K) :=
  if b.dt = 0 ∧ b.freq ≠ 0 then { b with sr }.setFreq b.freq else some { b with sr }

/-- `get_freq_in_hz` (polyblep.rs 194–196). -/
def PolyBlep.hz (b : PolyBlep K) : K := b.dt * b.sr

/-- `set_sample_rate` (polyblep.rs 187–191). -/
def PolyBlep.setSampleRate (b : PolyBlep K) (sr : K) : Option (PolyBlep K) := { b with sr }.setFreq b.hz

/-- `sync` (polyblep.rs 199–206). -/
def PolyBlep.sync (b : PolyBlep K) (phase : K) : PolyBlep K :=
  { b with t := if 0 ≤ phase then phase - trunc phase else phase + (1 - trunc phase) }

/-- `next_sample` (polyblep.rs 209–230). -/
def PolyBlep.next (fn : Fns K) (b : PolyBlep K) : Option K :=
  if b.sr / 4 ≤ b.hz then some (fn.sin (b.t * (2 * fn.pi))) else wave fn b.waveform b.pw b.t b.dt

/-- `inc` (polyblep.rs 232–235). -/
def PolyBlep.inc (b : PolyBlep K) : PolyBlep K := { b with t := wrapped (b.t + b.dt) }

/-- What happens to an oscillator after `init`. -/
inductive Op (K : Type) where
  | freq (f : K)
  | pulseWidth (p : K)
  | waveform (w : Waveform)
  | setSampleRate (sr : K)
  | sync (phase : K)
  | sample

/-- One operation that is not a sample (polyblep.rs 163–206). -/
def PolyBlep.op (b : PolyBlep K) : Op K → Option (PolyBlep K)
  | .freq f => b.setFreq f
  | .pulseWidth pw => some { b with pw }
  | .waveform w => some { b with waveform := w }
  | .setSampleRate sr => b.setSampleRate sr
  | .sync p => some (b.sync p)
  | .sample => some b

/-- A history: the samples (`get_and_inc`, polyblep.rs 237–241). -/
def run (fn : Fns K) : PolyBlep K → List (Op K) → Option (PolyBlep K × List K)
  | b, [] => some (b, [])
  | b, .sample :: ops => do
    let y ← b.next fn
    let r ← run fn b.inc ops
    return (r.1, y :: r.2)
  | b, op :: ops => do
    let b ← b.op op
    run fn b ops

end Verif.Pb
