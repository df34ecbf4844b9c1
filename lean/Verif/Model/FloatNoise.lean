import Verif.Model.Ieee
import Verif.Model.Noise

/-!
# Random numbers and noise with rounding

The same functions as in `Model/Noise`, every result rounded to the sample type.  `fl` is the rounding of the sample type: `rnd32`
for `f32`, `rnd64` for `f64`.  `rng.f32()` and the arithmetic on it that comes before `F::new` is `f32` for both.
-/

namespace Verif.Fl

open Verif.Ns (Pink Rl RlOp octaves)

/-- `gen_f32` (xorrng.rs 42–45). -/
def genF32 (x : Nat) : ℚ := rnd32 (rnd32 (Ns.genU32 x) / rnd32 (U32 - 1 : Nat))

/-- `gen_f64` (xorrng.rs 47–50). -/
def genF64 (x : Nat) : ℚ := rnd64 (rnd64 (Ns.genU32 x) / rnd64 (U32 - 1 : Nat))

/-- `F::new(rng.f32() * 2.0 - 1.0)`, e.g. `WhiteNoise::process` (noise.rs 40–42). -/
def whiteF (fl : ℚ → ℚ) (r : ℚ) : ℚ := fl (rnd32 (rnd32 (r * 2) - 1))

/-- `process` (noise.rs 96–111); `r` and `s` are the two random numbers. -/
def pinkProcess (fl : ℚ → ℚ) (p : Pink) (r s : ℚ) : R (Pink × ℚ) := do
  let i ← p.noiseIndex
  if i < octaves then
    match p.whites[i]? with
    | none => .error .index
    | some w => do
      let q := fl (p.pink - w)
      let q := fl (q + whiteF fl r)
      let q := fl (q - p.always)
      let q := fl (q + whiteF fl s)
      let p' ← Pink.increment { p with whites := p.whites.set i (whiteF fl r), always := whiteF fl s, pink := q }
      return (p', fl (p'.pink / fl (fl octaves + 1)))
  else .error .assert

/-- Several frames. -/
def pinkRun (fl : ℚ → ℚ) : Pink → List (ℚ × ℚ) → R (Pink × List ℚ)
  | p, [] => .ok (p, [])
  | p, (r, s) :: rs => do
    let x ← pinkProcess fl p r s
    let y ← pinkRun fl x.1 rs
    return (y.1, x.2 :: y.2)

/-- `BrownNoise::process` (noise.rs 142–149); the literal `0.1` is an `f64` that is then rounded to the sample type. -/
def brownF (fl : ℚ → ℚ) (last r : ℚ) : ℚ := max (-1) (min 1 (fl (last + fl (whiteF fl r * fl (rnd64 (1 / 10))))))

/-- Several frames of brown noise. -/
def brownRunF (fl : ℚ → ℚ) : ℚ → List ℚ → List ℚ
  | _, [] => []
  | l, r :: rs => brownF fl l r :: brownRunF fl (brownF fl l r) rs

/-- `RandomLin::new` (noise.rs 172–182). -/
def rlNew (fl : ℚ → ℚ) (f r : ℚ) : Rl := ⟨fl r, 0, 0, f, 0⟩

/-- `new_value` (noise.rs 185–191). -/
def rlNewValue (fl : ℚ → ℚ) (s : Rl) (r : ℚ) : Rl :=
  { s with value := fl (s.value + s.width), width := fl (fl r - fl (s.value + s.width)), phase := 0 }

/-- `init` (noise.rs 192–197). -/
def rlInit (fl : ℚ → ℚ) (s : Rl) (sr : Nat) (r : ℚ) : Rl :=
  rlNewValue fl { s with mult := fl (1 / fl sr), step := fl (s.step * fl (1 / fl sr)) } r

/-- `process` (noise.rs 198–206); `r` is the random number that is used if a new value is due. -/
def rlProcess (fl : ℚ → ℚ) (s : Rl) (r : ℚ) : Rl × ℚ :=
  if 1 ≤ fl (s.phase + s.step) then
    (rlNewValue fl { s with phase := fl (s.phase + s.step) } r, fl (s.value + fl (s.phase * s.width)))
  else ({ s with phase := fl (s.phase + s.step) }, fl (s.value + fl (s.phase * s.width)))

/-- `freq` (noise.rs 209–216); the parameter is an `f64`. -/
def rlFreq (fl : ℚ → ℚ) (s : Rl) (f : ℚ) : Rl :=
  if s.mult = 0 then { s with step := fl f } else { s with step := fl (fl f * s.mult) }

/-- Several operations and the output of every frame. -/
def rlRun (fl : ℚ → ℚ) : Rl → List RlOp → Rl × List ℚ
  | s, [] => (s, [])
  | s, .frame r :: ops => ((rlRun fl (rlProcess fl s r).1 ops).1, (rlProcess fl s r).2 :: (rlRun fl (rlProcess fl s r).1 ops).2)
  | s, .freq f :: ops => rlRun fl (rlFreq fl s f) ops

end Verif.Fl
