import Verif.Model.Osc
import Verif.Model.Noise

/-!
# Building wavetables

`knaster_core_dsp/src/dsp/wavetable.rs` 128–303, 379–390, 500–595: the functions that fill the tables of a `Wavetable`
with sines, saws, harmonics, windows and noise.

Floats are elements of an ordered field, `sin`, `powf` and π are arguments.  Only the samples of a table are in the model;
every function also recalculates the differences, which is in the model of the oscillators (`Verif.Os.diffs`).  The
assertions in that recalculation hold for numbers; they fail for values that are not numbers, which only `normalize` can
produce from finite samples, so it panics there.
-/

namespace Verif.Wv

open Verif.Os

/-- The functions of the float type. -/
structure Fns (K : Type) where
  sin : K → K
  powf : K → K → K
  pi : K

section
variable {K : Type} [Field K] [LinearOrder K] [FloorRing K] (F : Fns K)

/-- `fill` (wavetable.rs 214–219). -/
def fill (v : K) (buf : List K) : List K := buf.map fun _ => v

/-- The loop of `add_sine` (wavetable.rs 226–229). -/
def sineLoop (amp step : K) : K → List K → List K
  | _, [] => []
  | phase, x :: xs => (x + F.sin phase * amp) :: sineLoop amp step (phase + step) xs

/-- `add_sine` (wavetable.rs 224–231). -/
def addSine (freq amp phase : K) (buf : List K) : List K :=
  sineLoop F amp (freq * F.pi * 2 / (tableSize : Nat)) phase buf

/-- One harmonic of `fill_sine` (wavetable.rs 234–247). -/
def fillHarmonic (num : Nat) (freq : K) (n : Nat) (buf : List K) : R (List K) :=
  if buf.length < tableSize then .error .index
  else
    let amp : K := if n = 0 then 1 else ((num - n : Nat) : K) / (num : K) * (1 / 2)
    .ok (buf.mapIdx fun i x => if i < tableSize then
      x + F.sin ((i : K) / (tableSize : Nat) * F.pi * 2 * (freq * ((n : K) + 1)) + 0) * amp else x)

/-- `fill_sine` (wavetable.rs 233–250). -/
def fillSine (num : Nat) (freq : K) (buf : List K) : R (List K) :=
  (List.range num).foldlM (fun b n => fillHarmonic F num freq n b) buf

/-- One harmonic of `add_saw` (wavetable.rs 254–263). -/
def sawHarmonic (amp : K) (buf : List K) (i : Nat) : List K :=
  buf.mapIdx fun k x =>
    x + F.sin ((k : K) / (buf.length : K) * F.pi * 2 * ((i : K) + 1) + 0) * (1 / (((i : K) + 1) * F.pi)) * amp

/-- `add_saw` (wavetable.rs 252–266): both ends included. -/
def addSaw (start stop : Nat) (amp : K) (buf : List K) : List K :=
  (List.range' start (stop + 1 - start)).foldl (sawHarmonic F amp) buf

/-- One harmonic of `add_odd_harmonics` (wavetable.rs 271–286). -/
def oddHarmonic (falloff : K) (buf : List K) (i : Nat) : List K :=
  let phase : K := if i = 0 then 0 else (-1) ^ (i + 2)
  let amp : K := 1 / F.powf ((2 * i + 1 : Nat) : K) falloff
  buf.mapIdx fun k x =>
    x + F.sin ((k : K) / (buf.length : K) * F.pi * 2 * ((i * 2 : Nat) + 1) + phase) * amp

/-- `add_odd_harmonics` (wavetable.rs 270–288). -/
def addOdd (num : Nat) (falloff : K) (buf : List K) : List K := (List.range num).foldl (oddHarmonic F falloff) buf

/-- Folding a sample back (wavetable.rs 296–301). -/
def foldBack (x : K) : K :=
  let y := if 1 < x then x - 1 else x
  if y < -1 then y + 1 else y

/-- The loop of `add_noise` (wavetable.rs 294–303); `rng` is the state of the generator. -/
def noiseLoop (probability : K) : Nat → List K → List K
  | _, [] => []
  | rng, x :: xs =>
    if probability < ((Ns.genFloat rng : Rat) : K) then
      foldBack (x + (((Ns.genFloat (Ns.genU32 rng) : Rat) : K) - 1 / 2)) ::
        noiseLoop probability (Ns.genU32 (Ns.genU32 rng)) xs
    else x :: noiseLoop probability (Ns.genU32 rng) xs

/-- `add_noise` (wavetable.rs 292–305). -/
def addNoise (probability : K) (seed : Nat) (buf : List K) : List K := noiseLoop probability (Ns.new seed) buf

/-- `multiply` (wavetable.rs 307–312). -/
def multiply (m : K) (buf : List K) : List K := buf.map fun x => x * m

/-- The buffer of `NonAaWavetable::new` (wavetable.rs 82–96). -/
def zeros : List K := List.replicate tableSize 0

/-- `NonAaWavetable::sine` (wavetable.rs 130–139). -/
def sine : List K := (List.range tableSize).map fun i => F.sin ((i : K) / (tableSize : Nat) * F.pi * 2)

/-- `NonAaWavetable::aliasing_saw` (wavetable.rs 153–163). -/
def aliasingSaw : List K := (List.range tableSize).map fun i => -1 + 2 / (tableSize : Nat) * (i : K)

/-- `hann_window` (wavetable.rs 181–188). -/
def hann : List K := addSine F 1 (1 / 2) (-(1 / 2) * F.pi) (fill (1 / 2) zeros)

/-- `hamming_window` (wavetable.rs 191–198). -/
def hamming : List K := addSine F 1 (46164 / 100000) (-(1 / 2) * F.pi) (fill (53836 / 100000) zeros)

/-- `sine_window` (wavetable.rs 201–207). -/
def sineWindow : List K := addSine F (1 / 2) 1 0 zeros

/-! ### All the tables of a `Wavetable` -/

/-- `table_index_to_max_freq_produced` (wavetable.rs 379–381). -/
def maxFreq (i : Nat) : Rat := 32 * (3 / 2) ^ i

/-- `table_index_to_max_harmonic` (wavetable.rs 382–387). -/
def maxHarmonic (i : Nat) : Nat := ⌊20000 / maxFreq i⌋.toNat

/-- `Wavetable::new` (wavetable.rs 400–417). -/
def tablesNew : List (List K) := List.replicate numTables zeros

/-- Something done to every table, given its number. -/
def each (f : Nat → List K → R (List K)) : Nat → List (List K) → R (List (List K))
  | _, [] => .ok []
  | i, t :: ts => do
    let t' ← f i t
    let r ← each f (i + 1) ts
    return t' :: r

/-- The functions of `Wavetable` (wavetable.rs 500–595). -/
inductive Op (K : Type) where
  | fill (v : K)
  | addSine (freq amp phase : K)
  | fillSine (num : Nat) (freq : K)
  | addAliasingSaw (num : Nat) (amp : K)
  | addSaw (start stop : Nat) (amp : K)
  | addOdd (num : Nat) (falloff : K)
  | addNoise (probability : K) (seed : Nat)
  | multiply (m : K)
  | normalize

/-- What an operation other than `normalize` does to table `i` (wavetable.rs 512–573). -/
def Op.table (i : Nat) : Op K → List K → R (List K)
  | .fill v, b => .ok (Wv.fill v b)
  | .addSine freq amp phase, b =>
    if ⌈freq⌉.toNat ≤ maxHarmonic i then .ok (Wv.addSine F freq amp phase b) else .ok b
  | .fillSine num freq, b => Wv.fillSine F (min num ⌊(maxHarmonic i : K) * freq⌋.toNat) freq b
  | .addAliasingSaw num amp, b => .ok (Wv.addSaw F 0 (min num (maxHarmonic i)) amp b)
  | .addSaw start stop amp, b =>
    if min stop (maxHarmonic i) > start then .ok (Wv.addSaw F start (min stop (maxHarmonic i)) amp b) else .ok b
  | .addOdd num falloff, b => .ok (Wv.addOdd F (min num (maxHarmonic i)) falloff b)
  | .addNoise p seed, b => .ok (Wv.addNoise p seed b)
  | .multiply m, b => .ok (Wv.multiply m b)
  | .normalize, b => .ok b

/-- The loudest sample (wavetable.rs 578–583). -/
def loudest (buf : List K) : K := buf.foldl (fun m x => if m < |x| then |x| else m) 0

/-- `normalize` (wavetable.rs 576–589).  For silent tables the scale is infinite, the products are not numbers and the
assertion in `update_diff_buffer` (wavetable.rs 112) fails. -/
def normalize (ts : List (List K)) : R (List (List K)) :=
  match ts with
  | [] => .error .index
  | t :: _ => if loudest t = 0 then .error .assert else .ok (ts.map (multiply (1 / loudest t)))

/-- One call. -/
def Op.run (op : Op K) (ts : List (List K)) : R (List (List K)) :=
  match op with
  | .normalize => Wv.normalize ts
  | _ => each (Op.table F · op) 0 ts

/-- A sequence of calls. -/
def build (ops : List (Op K)) (ts : List (List K)) : R (List (List K)) :=
  ops.foldlM (fun t op => op.run F t) ts

end

end Verif.Wv
