import Verif.Model.Ieee
import Verif.Model.Filter

/-!
# One pole filters with rounding (knaster_core_dsp/src/ugens/onepole.rs)

The functions of `Model/Filter` over rationals, every result rounded with `fl` to the sample type.  The exponential function of the maths
library and the number pi are arguments; the result of the function is rounded too, so it may be any number of the format.  Without the
feature `no_denormals`, which is off by default.
-/

namespace Verif.Fl

open Verif.Fi (OnePole OpOp divO)

/-- `T::exp` and `T::PI`. -/
structure Exp where
  exp : ℚ → ℚ
  pi : ℚ

/-- `set_freq_lowpass` (onepole.rs 35–46); `set_freq_highpass` (50–61) is the same. -/
def opSetFreq (fl : ℚ → ℚ) (ex : Exp) (p : OnePole ℚ) (freq sr : ℚ) : Option (OnePole ℚ) := do
  let f ← divO freq sr
  let b := fl (ex.exp (fl (fl (-2 * ex.pi) * fl f)))
  return { p with b1 := b, a0 := fl (1 - b) }

/-- `process_lp` (onepole.rs 64–77). -/
def opLp (fl : ℚ → ℚ) (p : OnePole ℚ) (x : ℚ) : OnePole ℚ × ℚ :=
  let y := fl (fl (x * p.a0) + fl (p.last * p.b1))
  ({ p with last := y }, y)

/-- `process_hp` (onepole.rs 80–92). -/
def opHp (fl : ℚ → ℚ) (p : OnePole ℚ) (x : ℚ) : OnePole ℚ × ℚ :=
  let y := fl (fl (x * p.a0) + fl (p.last * p.b1))
  ({ p with last := y }, fl (x - y))

/-- A history of the low-pass filter: the outputs. -/
def opLpRun (fl : ℚ → ℚ) (ex : Exp) (sr : ℚ) : OnePole ℚ → List (OpOp ℚ) → Option (OnePole ℚ × List ℚ)
  | p, [] => some (p, [])
  | p, .cutoff f :: ops => do
    let p ← opSetFreq fl ex p f sr
    opLpRun fl ex sr p ops
  | p, .sample x :: ops => do
    let r ← opLpRun fl ex sr (opLp fl p x).1 ops
    return (r.1, (opLp fl p x).2 :: r.2)

/-- A history of the high-pass filter. -/
def opHpRun (fl : ℚ → ℚ) (ex : Exp) (sr : ℚ) : OnePole ℚ → List (OpOp ℚ) → Option (OnePole ℚ × List ℚ)
  | p, [] => some (p, [])
  | p, .cutoff f :: ops => do
    let p ← opSetFreq fl ex p f sr
    opHpRun fl ex sr p ops
  | p, .sample x :: ops => do
    let r ← opHpRun fl ex sr (opHp fl p x).1 ops
    return (r.1, (opHp fl p x).2 :: r.2)

end Verif.Fl
