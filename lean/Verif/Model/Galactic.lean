import Verif.Basic
import Mathlib.Algebra.Order.Floor.Ring
import Mathlib.Algebra.Order.Field.Basic
import Mathlib.Data.Fin.VecNotation

/-!
# The Galactic reverb (knaster_airwindows/src/galactic.rs)

Samples are elements of any ordered field, so rounding is not modelled; `f32` and `f64` are the same.  The functions of the maths
library are an argument.  `lowpass_pre` and `lowpass_post` (galactic.rs 20–21) are set and never used; they are left out.
The twelve delay lines of a channel are three groups of four: `delays_left[4 * k + i]` is `left k i`.
A reverb that was never initialised divides by the square root of zero (galactic.rs 178–179); the model starts with `init`.
-/

namespace Verif.Gal

variable {K : Type} [Field K] [LinearOrder K] [FloorRing K]

/-- The functions of the maths library that the reverb uses. -/
structure Fns (K : Type) where
  sin : K → K
  sqrt : K → K
  pi : K
  /-- `log2().floor()` of a positive number -/
  log2 : K → Int

/-! ## Delay lines -/

/-- `StaticSampleDelay` (delay.rs 308–313). -/
structure Line (K : Type) where
  buf : List K
  pos : Nat
  len : Nat

/-- Reading one element of a buffer (`buffer[i]`). -/
def get (buf : List K) (i : Nat) : R K :=
  match buf[i]? with
  | some v => .ok v
  | none => .error .index

/-- `new` (delay.rs 320–327). -/
def Line.new (n : Nat) : R (Line K) := if n = 0 then .error .assert else .ok ⟨List.replicate n 0, 0, n⟩

/-- `set_delay_length_fraction` (delay.rs 335–340): `to_usize` of a number that is at most -1 gives `None`. -/
def Line.setFraction (s : Line K) (f : K) : R (Line K) :=
  if (s.buf.length : K) * f ≤ -1 then .error .unwrap else .ok { s with len := ⌊(s.buf.length : K) * f⌋.toNat }

/-- `read` (delay.rs 375–377). -/
def Line.read (s : Line K) : R K := get s.buf s.pos

/-- `write_and_advance` (delay.rs 399–402). -/
def Line.write (s : Line K) (x : K) : R (Line K) :=
  if s.pos < s.buf.length then do
    let pos ← modC (s.pos + 1) s.len
    return { s with buf := s.buf.set s.pos x, pos := pos }
  else .error .index

/-- `read_at_lin` (delay.rs 383–396): the loop subtracts the length from both until `low` is inside of the buffer. -/
def Line.readLin (s : Line K) (i : K) : R K :=
  if ⌊i⌋ < 0 then .error .unwrap
  else do
    let low := ⌊i⌋.toNat % s.buf.length
    let high := ⌈i⌉.toNat - (⌊i⌋.toNat - low)
    let high := if s.buf.length ≤ high then high - s.buf.length else high
    let a ← get s.buf low
    let b ← get s.buf high
    return a + (b - a) * (i - ⌊i⌋)

/-! ## The reverb -/

/-- `Galactic` (galactic.rs 14–37); `fbL` and `fbR` are `feedback[0]` and `feedback[1]`. -/
structure Galactic (K : Type) where
  left : Fin 3 → Fin 4 → Line K
  right : Fin 3 → Fin 4 → Line K
  fbL : Fin 4 → K
  fbR : Fin 4 → K
  detL : Line K
  detR : Line K
  fpdL : UInt32
  fpdR : UInt32
  oldfpd : K
  vib : K
  iirAL : K
  iirAR : K
  iirBL : K
  iirBR : K
  scale : K
  brightness : K
  wet : K
  bigness : K
  replace : K
  detune : K

/-- For each of four, in order. -/
def each {α : Type} (f : Fin 4 → R α) : R (Fin 4 → α) := do
  let a ← f 0
  let b ← f 1
  let c ← f 2
  let d ← f 3
  return ![a, b, c, d]

/-- For each of three groups, in order. -/
def each3 {α : Type} (f : Fin 3 → R α) : R (Fin 3 → α) := do
  let a ← f 0
  let b ← f 1
  let c ← f 2
  return ![a, b, c]

/-- `GALACTIC_DELAY_TIMES` (galactic.rs 39–41). -/
def times : Fin 3 → Fin 4 → Nat
  | 0 => ![6480, 3660, 1720, 680]
  | 1 => ![9700, 6000, 2320, 940]
  | 2 => ![15220, 8460, 4540, 3200]

/-- The length of a delay line at a sample rate (galactic.rs 54, 58). -/
def lineLen (K : Type) [Field K] [LinearOrder K] [FloorRing K] (sr : Nat) (k : Fin 3) (i : Fin 4) : Nat :=
  ⌊((times k i : K) / 44100) * (sr : K)⌋.toNat

/-- `new` (galactic.rs 144–170), with the two numbers from the generator.  The delay lines of one sample that it makes are those
of `init` at a sample rate that rounds all of them to one; they are replaced by `init` before use. -/
def new (fpdL fpdR : UInt32) (replace detune brightness bigness wet : K) : Galactic K :=
  { left := fun _ _ => ⟨[0], 0, 1⟩, right := fun _ _ => ⟨[0], 0, 1⟩, fbL := fun _ => 0, fbR := fun _ => 0
    detL := ⟨[0], 0, 1⟩, detR := ⟨[0], 0, 1⟩, fpdL, fpdR, oldfpd := 4294967295 / 10000, vib := 3
    iirAL := 0, iirAR := 0, iirBL := 0, iirBR := 0, scale := 0, brightness, wet, bigness, replace, detune }

/-- `init` (galactic.rs 52–75). -/
def init (g : Galactic K) (sr : Nat) : R (Galactic K) := do
  let left ← each3 fun k => each fun i => Line.new (lineLen K sr k i)
  let right ← each3 fun k => each fun i => Line.new (lineLen K sr k i)
  let detL ← Line.new 256
  let detR ← Line.new 256
  return { g with left, right, detL, detR, scale := 1 / 44100 * (sr : K) }

/-- `param_apply` (galactic.rs 122–136); `none` is a value that is not a number. -/
def param (g : Galactic K) (i : Nat) (v : Option K) : R (Galactic K) :=
  if 5 ≤ i then .ok g
  else match v with
    | none => .error .unwrap
    | some v => .ok <| match i with
      | 0 => { g with replace := v }
      | 1 => { g with detune := v }
      | 2 => { g with brightness := v }
      | 3 => { g with bigness := v }
      | _ => { g with wet := v }

/-- The numbers that `process` computes once (galactic.rs 176–182). -/
structure Coef (K : Type) where
  regen : K
  attenuate : K
  lowpass : K
  drift : K
  size : K
  wet : K

/-- See `Coef`. -/
def coef (fn : Fns K) (g : Galactic K) : Coef K :=
  let regen := 1 / 16 + (1 - g.replace) * (1 / 16)
  { regen
    attenuate := (1 - regen / (1 / 8)) * (1333 / 1000)
    lowpass := (100001 / 100000 - (1 - g.brightness)) ^ 2 / fn.sqrt g.scale
    drift := g.detune ^ 3 * (1 / 1000)
    size := g.bigness * (9 / 10) + 1 / 10
    wet := 1 - (1 - g.wet) ^ 3 }

/-- The delay lines get their length (galactic.rs 184–191). -/
def resize (g : Galactic K) (size : K) : R (Galactic K) := do
  let left ← each3 fun k => each fun i => (g.left k i).setFraction size
  let right ← each3 fun k => each fun i => (g.right k i).setFraction size
  return { g with left, right }

/-- A number that stands for silence (galactic.rs 210–219). -/
def wake (fpd : UInt32) (x : K) : K := if |x| < 118 / 10 ^ 25 then (fpd.toNat : K) * (118 / 10 ^ 19) else x

/-- The vibrato (galactic.rs 225–229). -/
def vibrato (fn : Fns K) (c : Coef K) (g : Galactic K) : Galactic K :=
  let vib := g.vib + g.oldfpd * c.drift
  if 2 * fn.pi < vib then
    { g with vib := 0, oldfpd := 4294967295 / 10 ^ 10 + (g.fpdL.toNat : K) * (618 / 10 ^ 13) }
  else { g with vib }

/-- `I - (J + K + L)` (e.g. galactic.rs 277–282). -/
def mix (x : Fin 4 → K) : Fin 4 → K := fun i => x i - (x (1 + i) + x (2 + i) + x (3 + i))

/-- The loop of delays (galactic.rs 255–338): the outputs of the last group. -/
def tank (regen : K) (g : Galactic K) (xl xr : K) : R (Galactic K × (Fin 4 → K) × (Fin 4 → K)) := do
  let l0 ← each fun i => (g.left 0 i).write (g.fbR i * regen + xl)
  let r0 ← each fun i => (g.right 0 i).write (g.fbL i * regen + xr)
  let bl0 ← each fun i => (l0 i).read
  let br0 ← each fun i => (r0 i).read
  let l1 ← each fun i => (g.left 1 i).write (mix bl0 i)
  let r1 ← each fun i => (g.right 1 i).write (mix br0 i)
  let bl1 ← each fun i => (l1 i).read
  let br1 ← each fun i => (r1 i).read
  let l2 ← each fun i => (g.left 2 i).write (mix bl1 i)
  let r2 ← each fun i => (g.right 2 i).write (mix br1 i)
  let bl2 ← each fun i => (l2 i).read
  let br2 ← each fun i => (r2 i).read
  return ({ g with left := ![l0, l1, l2], right := ![r0, r1, r2], fbL := mix bl2, fbR := mix br2 }, bl2, br2)

/-- The exponent that `frexp` gives (galactic.rs 391–400); `as u32` makes negative numbers zero. -/
def expo (fn : Fns K) (s : K) : Nat := if s = 0 then 0 else min (fn.log2 |s| + 1).toNat (U32 - 1)

/-- The next random number (galactic.rs 363–365). -/
def xorshift (f : UInt32) : UInt32 :=
  let f := f ^^^ (f <<< 13)
  let f := f ^^^ (f >>> 17)
  f ^^^ (f <<< 5)

/-- Noise as large as the last bit of a sample (galactic.rs 361–371). -/
def dither (fn : Fns K) (f : UInt32) (s : K) : R K := do
  let e ← addC U32 (expo fn s) 62
  if 64 ≤ e then .error .overflow
  else return s + (((xorshift f).toNat : K) - 2147483647) * (55 / 10 ^ 37) * 2 ^ e

/-- One step of a low pass filter (e.g. galactic.rs 245). -/
def smooth (c old x : K) : K := old * (1 - c) + x * c

/-- The dry and the wet signal (galactic.rs 356–359). -/
def blend (c : Coef K) (dry x : K) : K := if c.wet < 1 then x * c.wet + dry * (1 - c.wet) else x

/-- One frame (galactic.rs 200–387). -/
def frame (fn : Fns K) (c : Coef K) (g : Galactic K) (x : K × K) : R (Galactic K × (K × K)) := do
  let dryL := wake g.fpdL x.1
  let dryR := wake g.fpdR x.2
  let g := vibrato fn c g
  let detL ← g.detL.write (dryL * c.attenuate)
  let detR ← g.detR.write (dryR * c.attenuate)
  let l ← detL.readLin ((detL.pos : K) + (fn.sin g.vib + 1) * 127)
  let r ← detR.readLin ((detR.pos : K) + (fn.sin (g.vib + fn.pi / 2) + 1) * 127)
  let iirAL := smooth c.lowpass g.iirAL l
  let iirAR := smooth c.lowpass g.iirAR r
  let t ← tank c.regen g iirAL iirAR
  let g := t.1
  let bl := t.2.1
  let br := t.2.2
  let iirBL := smooth c.lowpass g.iirBL ((bl 0 + bl 1 + bl 2 + bl 3) * (1 / 8))
  let iirBR := smooth c.lowpass g.iirBR ((br 0 + br 1 + br 2 + br 3) * (1 / 8))
  let outL ← dither fn g.fpdL (blend c dryL iirBL)
  let outR ← dither fn g.fpdR (blend c dryR iirBR)
  return ({ g with detL, detR, iirAL, iirAR, iirBL, iirBR, fpdL := xorshift g.fpdL, fpdR := xorshift g.fpdR }, (outL, outR))

/-- The loop over the frames of a block (galactic.rs 200–387). -/
def frames (fn : Fns K) (c : Coef K) : Galactic K → List (K × K) → R (Galactic K × List (K × K))
  | g, [] => .ok (g, [])
  | g, x :: xs => do
    let r ← frame fn c g x
    let r' ← frames fn c r.1 xs
    return (r'.1, r.2 :: r'.2)

/-- `process` (galactic.rs 172–388), which `UGen::process` (77–90) calls with one frame and `UGen::process_block` (91–107) with a
block. -/
def process (fn : Fns K) (g : Galactic K) (xs : List (K × K)) : R (Galactic K × List (K × K)) := do
  let c := coef fn g
  let g ← resize g c.size
  frames fn c g xs

/-- What can happen to a reverb after `init`. -/
inductive Op (K : Type) where
  /-- a parameter change -/
  | param (i : Nat) (v : K)
  /-- a block of frames -/
  | block (xs : List (K × K))

/-- One operation and its output. -/
def op (fn : Fns K) (g : Galactic K) : Op K → R (Galactic K × List (K × K))
  | .param i v => do
    let g ← param g i (some v)
    return (g, [])
  | .block xs => process fn g xs

/-- Several operations and all their output. -/
def run (fn : Fns K) : Galactic K → List (Op K) → R (Galactic K × List (K × K))
  | g, [] => .ok (g, [])
  | g, o :: os => do
    let r ← op fn g o
    let r' ← run fn r.1 os
    return (r'.1, r.2 ++ r'.2)

end Verif.Gal
