import Verif.Model.Time
import Verif.Model.Delay
import Mathlib.Data.Rat.Floor

/-!
# Floating point numbers and the conversions of `knaster_primitives/src/time.rs` through them

A finite `f64` or `f32` is the rational number it stands for.  The arithmetic operations of IEEE 754 are the
exact operations followed by `rnd`: rounding to the nearest number with `p` significant bits and exponent at
least `emin`, ties to even.  This is the semantics of Rust's `+`, `*` and `/` on finite numbers as long as the
result does not overflow; where a result may overflow to infinity this is said.

`floor` and `fract` are exact on floats.  `as u32` truncates and saturates.
-/

namespace Verif.Fl

/-- A power of two. -/
def pow2 : Int → ℚ
  | .ofNat n => ((2 ^ n : Nat) : ℚ)
  | .negSucc n => 1 / ((2 ^ (n + 1) : Nat) : ℚ)

/-- The exponent of the leading bit of a number other than zero. -/
def elog (x : ℚ) : Int :=
  let e : Int := (Nat.log2 x.num.natAbs : Int) - (Nat.log2 x.den : Int)
  if |x| < pow2 e then e - 1 else e

/-- Rounding to the nearest whole number, ties to even. -/
def rne (x : ℚ) : Int :=
  let f := ⌊x⌋
  if x - f < 1 / 2 then f else if 1 / 2 < x - f then f + 1 else if f % 2 = 0 then f else f + 1

/-- Rounding to `p` significant bits, and to multiples of `2 ^ emin`. -/
def rnd (p : Nat) (emin : Int) (x : ℚ) : ℚ :=
  if x = 0 then 0 else
    let e := max (elog x - (p - 1)) emin
    rne (x / pow2 e) * pow2 e

/-- Rounding to `f64`. -/
def rnd64 (x : ℚ) : ℚ := rnd 53 (-1074) x

/-- Rounding to `f32`. -/
def rnd32 (x : ℚ) : ℚ := rnd 24 (-149) x

/-- The finite numbers of a format with `p` significant bits (without a largest number). -/
def Rep (p : Nat) (emin : Int) (x : ℚ) : Prop := ∃ m e : Int, x = m * pow2 e ∧ |m| < 2 ^ p ∧ emin ≤ e

/-- `as u32` of a finite float: truncation, saturating at both ends. -/
def asU32 (x : ℚ) : Nat := min (U32 - 1) ⌊x⌋.toNat

/-- The part after the point (`f64::fract`, exact): `x - x.trunc()`. -/
def fract (x : ℚ) : ℚ := if 0 ≤ x then x - ⌊x⌋ else x + ⌊-x⌋

/-! ### `Seconds` (time.rs 58–97, 135–143, 191–238) -/

/-- `Seconds::from_secs_f64` (time.rs 58–64) of a finite number. -/
def fromSecs (x : ℚ) : Seconds := ⟨asU32 ⌊x⌋, asU32 (rnd64 (fract x * tesPerSec))⟩

/-- `Seconds::from_secs_f64` (time.rs 58–64) of positive infinity: the whole part saturates, the fraction is
not a number, which becomes 0. -/
def fromSecsInf : Seconds := ⟨U32 - 1, 0⟩

/-- `Seconds::to_secs_f64` (time.rs 71–74); a `u32` is exact as `f64`. -/
def toSecs (s : Seconds) : ℚ := rnd64 (s.seconds + rnd64 (s.sub / tesPerSec))

/-- `Seconds::to_samples_f64` (time.rs 93–97). -/
def toSamplesF (s : Seconds) (sr : ℚ) : ℚ :=
  rnd64 (rnd64 (s.seconds * sr) + rnd64 (rnd64 (s.sub * sr) / tesPerSec))

/-- `Mul<f64> for Seconds` (time.rs 191–198) by a number that is not negative. -/
def mulF (s : Seconds) (x : ℚ) : Seconds :=
  let v := rnd64 (toSecs s * x)
  if v < pow2 1024 then fromSecs v else fromSecsInf

/-- `From<Duration> for Seconds` (time.rs 135–143) of `secs` seconds and `nanos` nanoseconds. -/
def fromDuration (secs nanos : Nat) : Seconds :=
  ⟨secs % U32, asU32 (rnd64 (nanos * rnd64 (tesPerSec / 1000000000)))⟩

/-- `SampleDelay::new` and `init` (delay.rs 24–31, 44–48): the number of frames is a rounded product. -/
def sampleInit (maxDelay : Seconds) (sr : Nat) : Dl.Sample :=
  ⟨List.replicate (Dl.asUsize (rnd64 (toSecs maxDelay * sr))) 0, 0, 0⟩

/-- `SampleDelay::delay_time` (delay.rs 34–36) of a finite number. -/
def sampleTime (d : Dl.Sample) (sr : Nat) (x : ℚ) : Dl.Sample :=
  { d with delay := Dl.asUsize (rnd64 (x * sr)) }

/-! ### `Beats` (time.rs 277–300, 366–433) -/

/-- `Beats::from_beats_f64` (time.rs 286–292); `beats as u32` truncates. -/
def fromBeats (x : ℚ) : Beats := ⟨asU32 x, asU32 (rnd64 (fract x * tesPerBeat))⟩

/-- `Beats::from_beats_f32` (time.rs 278–284). -/
def fromBeats32 (x : ℚ) : Beats := ⟨asU32 x, asU32 (rnd32 (fract x * tesPerBeat))⟩

/-- `Beats::as_beats_f64` (time.rs 298–300). -/
def toBeats (b : Beats) : ℚ := rnd64 (b.beats + rnd64 (b.sub / tesPerBeat))

/-- `Beats::as_beats_f32` (time.rs 294–296): the `u32`s are rounded too. -/
def toBeats32 (b : Beats) : ℚ := rnd32 (rnd32 b.beats + rnd32 (rnd32 b.sub / tesPerBeat))

/-- `Mul<u32> for Beats` (time.rs 413–418; `u16` and `u8` are the same). -/
def mulU32 (b : Beats) (k : Nat) : Beats := fromBeats (rnd64 (toBeats b * k))

/-- `Mul<Beats> for Beats` (time.rs 370–375). -/
def mulBeats (a b : Beats) : Beats := fromBeats (rnd64 (toBeats a * toBeats b))

/-- `Mul<f32> for Beats` (time.rs 391–396) by a number that is not negative, without overflow. -/
def mulBeats32 (b : Beats) (x : ℚ) : Beats := fromBeats32 (rnd32 (toBeats32 b * x))

end Verif.Fl
