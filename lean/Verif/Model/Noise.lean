import Verif.Basic
import Mathlib.Algebra.Order.Field.Rat

/-!
# Random numbers and noise

`knaster_core_dsp/src/dsp/xorrng.rs` and `knaster_core_dsp/src/ugens/noise.rs`.

The generator of `xorrng.rs` is modelled exactly, on 32-bit words.  The noise units take their numbers from the crate `fastrand`,
which is not modelled: the values of `rng.f32()`, documented to be in `[0, 1)`, are an argument here, so that the theorems are
about every sequence of such values.  Floats are rationals, so rounding (and its accumulation in pink noise) is not modelled.
-/

namespace Verif.Ns

/-! ### `XOrShift32Rng` -/

/-- `XOrShift32Rng::new` (xorrng.rs 23–29). -/
def new (seed : Nat) : Nat := if seed = 0 then 17 else seed

/-- `self.fpd ^= self.fpd << k` on a `u32` (xorrng.rs 34, 36). -/
def xorLeft (k x : Nat) : Nat := x ^^^ ((x <<< k) % U32)

/-- `self.fpd ^= self.fpd >> k` (xorrng.rs 35). -/
def xorRight (k x : Nat) : Nat := x ^^^ (x >>> k)

/-- `gen_u32` (xorrng.rs 33–38): the new state, which is also the result. -/
def genU32 (x : Nat) : Nat := xorLeft 5 (xorRight 17 (xorLeft 13 x))

/-- `gen_f32` and `gen_f64` (xorrng.rs 42–50). -/
def genFloat (x : Nat) : Rat := (genU32 x : Rat) / (U32 - 1 : Nat)

/-! ### Noise -/

/-- `rng.f32() * 2.0 - 1.0`, also `WhiteNoise::process` (noise.rs 40–42). -/
def white (r : Rat) : Rat := r * 2 - 1

/-- `PINK_NOISE_OCTAVES` (noise.rs 50). -/
def octaves : Nat := 9

/-- `u32::trailing_zeros`. -/
def trailingZeros (n : Nat) : Nat → Nat
  | 0 => 0
  | fuel + 1 => if n % 2 = 1 then 0 else trailingZeros (n / 2) fuel + 1

/-- `PinkNoise` (noise.rs 57–64). -/
structure Pink where
  whites : List Rat
  always : Rat
  counter : Nat
  mask : Nat
  pink : Rat
  deriving DecidableEq

/-- `PinkNoise::new` (noise.rs 68–78). -/
def Pink.new : Pink := ⟨List.replicate octaves 0, 0, 1, 2 ^ (octaves - 1), 0⟩

/-- `noise_index` (noise.rs 79–84). -/
def Pink.noiseIndex (p : Pink) : R Nat :=
  if p.counter > 0 ∧ p.counter ≤ p.mask then .ok (trailingZeros p.counter 32) else .error .assert

/-- `increment_counter` (noise.rs 86–92). -/
def Pink.increment (p : Pink) : R Pink :=
  if p.counter > 0 ∧ p.counter ≤ p.mask then .ok { p with counter := (p.counter &&& (p.mask - 1)) + 1 } else .error .assert

/-- `process` (noise.rs 96–111); `r` and `s` are the two random numbers. -/
def Pink.process (p : Pink) (r s : Rat) : R (Pink × Rat) := do
  let i ← p.noiseIndex
  if i < octaves then
    match p.whites[i]? with
    | none => .error .index
    | some w => do
      let q := p.pink - w + white r
      let q := q - p.always + white s
      let p' ← Pink.increment { p with whites := p.whites.set i (white r), always := white s, pink := q }
      return (p', p'.pink / (octaves + 1))
  else .error .assert

/-- Several frames. -/
def Pink.run : Pink → List (Rat × Rat) → R (Pink × List Rat)
  | p, [] => .ok (p, [])
  | p, (r, s) :: rs => do
    let x ← p.process r s
    let y ← Pink.run x.1 rs
    return (y.1, x.2 :: y.2)

/-- `BrownNoise::process` (noise.rs 142–149): the new `last_output`, which is also the output. -/
def brown (last r : Rat) : Rat := max (-1) (min 1 (last + white r * (1 / 10)))

/-- Several frames of brown noise (`new`, noise.rs 133–139, starts with 0). -/
def brownRun : Rat → List Rat → List Rat
  | _, [] => []
  | l, r :: rs => brown l r :: brownRun (brown l r) rs

/-! ### `RandomLin` -/

/-- `RandomLin` (noise.rs 159–167). -/
structure Rl where
  value : Rat
  width : Rat
  phase : Rat
  step : Rat
  mult : Rat
  deriving DecidableEq

/-- `new` (noise.rs 172–182). -/
def Rl.new (f r : Rat) : Rl := ⟨r, 0, 0, f, 0⟩

/-- `new_value` (noise.rs 185–191). -/
def Rl.newValue (s : Rl) (r : Rat) : Rl :=
  { s with value := s.value + s.width, width := r - (s.value + s.width), phase := 0 }

/-- `init` (noise.rs 192–197). -/
def Rl.init (s : Rl) (sr : Nat) (r : Rat) : Rl :=
  Rl.newValue { s with mult := 1 / sr, step := s.step * (1 / sr) } r

/-- `process` (noise.rs 198–206); `r` is the random number that is used if a new value is due. -/
def Rl.process (s : Rl) (r : Rat) : Rl × Rat :=
  if 1 ≤ s.phase + s.step then (Rl.newValue { s with phase := s.phase + s.step } r, s.value + s.phase * s.width)
  else ({ s with phase := s.phase + s.step }, s.value + s.phase * s.width)

/-- `freq` (noise.rs 209–216). -/
def Rl.freq (s : Rl) (f : Rat) : Rl := if s.mult = 0 then { s with step := f } else { s with step := f * s.mult }

/-- What can happen to it. -/
inductive RlOp where
  | frame (r : Rat)
  | freq (f : Rat)
  deriving DecidableEq

/-- Several operations and the output of every frame. -/
def Rl.run : Rl → List RlOp → Rl × List Rat
  | s, [] => (s, [])
  | s, .frame r :: ops => ((Rl.run (s.process r).1 ops).1, (s.process r).2 :: (Rl.run (s.process r).1 ops).2)
  | s, .freq f :: ops => Rl.run (s.freq f) ops

end Verif.Ns
