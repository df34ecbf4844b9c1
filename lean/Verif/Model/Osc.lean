import Verif.Basic
import Mathlib.Algebra.Order.Field.Rat
import Mathlib.Data.Rat.Floor

/-!
# Oscillators

`knaster_core_dsp/src/dsp/wavetable.rs` (phases, lookup), `knaster_core_dsp/src/ugens/osc.rs` (`OscWt`, `SinWt`, `Phasor`) and the
phase of `knaster_core_dsp/src/ugens/polyblep.rs`.

Floats are rationals, rounding is not modelled and neither are values that are not finite.  The contents of the tables are
arbitrary; their length is part of the model, because the lookup is unchecked.  A read outside a table, undefined behaviour in
the code, is `Panic.index` here.
-/

namespace Verif.Os

/-- `TABLE_SIZE` (wavetable.rs 8–10). -/
def tableSize : Nat := 16384

/-- `FRACTIONAL_PART` (wavetable.rs 15). -/
def fractionalPart : Nat := 65536

/-- `WavetablePhase::integer_component` (wavetable.rs 27–32). -/
def intPart (p : Nat) : Nat := (p >>> 16) &&& (tableSize - 1)

/-- `fractional_component` (wavetable.rs 36–39). -/
def fracPart (p : Nat) : Nat := p &&& 65535

/-- `fractional_component_f32` (wavetable.rs 43–46). -/
def fracRat (p : Nat) : Rat := (p &&& 65535 : Nat) / 65535

/-- `increase` and the addition of phases (wavetable.rs 50–52, 57–59). -/
def addPhase (p q : Nat) : Nat := (p + q) % U32

/-- Casting a float to `u32` with `as`. -/
def asU32 (x : Rat) : Nat := min ⌊x⌋.toNat (U32 - 1)

/-- `NonAaWavetable` (wavetable.rs 77–80). -/
structure Table where
  buf : List Rat
  diff : List Rat
  deriving DecidableEq

/-- The differences between neighbouring samples (wavetable.rs 108–111). -/
def diffs (buf : List Rat) : List Rat :=
  (List.range buf.length).map (fun i => buf.getD ((i + 1) % buf.length) 0 - buf.getD i 0)

/-- `NonAaWavetable::update_diff_buffer` (wavetable.rs 101–118): the first assertion indexes element 1, the assertions themselves
hold. -/
def Table.updateDiff (t : Table) : R Table :=
  if t.buf.length = 0 then .error .index
  else if t.buf.length = 1 then .error .index
  else .ok { t with diff := diffs t.buf }

/-- `NonAaWavetable::new` (wavetable.rs 82–96). -/
def Table.new : Table := ⟨List.replicate tableSize 0, List.replicate tableSize 0⟩

/-- `set_from_buffer` (wavetable.rs 123–127): the length is not checked. -/
def Table.setFromBuffer (t : Table) (buf : List Rat) : R Table := Table.updateDiff { t with buf := buf }

/-- `get` (wavetable.rs 322–324). -/
def Table.get (t : Table) (p : Nat) : R Rat :=
  match t.buf[intPart p]? with
  | some v => .ok v
  | none => .error .index

/-- `get_linear_interp` (wavetable.rs 313–317). -/
def Table.getLin (t : Table) (p : Nat) : R Rat :=
  match t.buf[intPart p]?, t.diff[intPart p]? with
  | some v, some d => .ok (v + d * fracRat p)
  | _, _ => .error .index

/-- `freq_to_table_index` (wavetable.rs 329–377).  The constants are the values of the `f32` literals, which for
`1845.2813` and later are not the decimals in the source but `32 * 1.5 ^ k`. -/
def tableIndex (f : Rat) : Nat :=
  if f ≤ 32 then 0 else if f ≤ 48 then 1 else if f ≤ 72 then 2 else if f ≤ 108 then 3 else if f ≤ 162 then 4
  else if f ≤ 243 then 5 else if f ≤ 729 / 2 then 6 else if f ≤ 2187 / 4 then 7 else if f ≤ 6561 / 8 then 8
  else if f ≤ 19683 / 16 then 9 else if f ≤ 59049 / 32 then 10 else if f ≤ 177147 / 64 then 11
  else if f ≤ 531441 / 128 then 12 else if f ≤ 1594323 / 256 then 13 else if f ≤ 4782969 / 512 then 14
  else if f ≤ 14348907 / 1024 then 15 else 16

/-- `Wavetable::default` (wavetable.rs 400–407): the number of tables. -/
def numTables : Nat := tableIndex 20000 + 1

/-- `Wavetable::get` (wavetable.rs 606–609). -/
def wavetableGet (ts : List Table) (p : Nat) (f : Rat) : R Rat :=
  match ts[min (tableIndex f) ts.length]? with
  | some t => t.get p
  | none => .error .index

/-- `Wavetable::from_buffer` (wavetable.rs 428–442): `none` is the returned error. -/
def wavetableFromBuffer (buf : List Rat) : R (Option (List Table)) :=
  if buf.length ≠ tableSize then .ok none
  else match Table.setFromBuffer .new buf with
    | .ok t => .ok (some (List.replicate numTables t))
    | .error p => .error p

/-! ### `SinWt` and `OscWt` -/

/-- The state of `SinWt` (osc.rs 97–105) and, with several tables, of `OscWt` (osc.rs 30–37). -/
structure Wt where
  phase : Nat
  offset : Nat
  step : Nat
  deriving DecidableEq

/-- `SinWt::new` (osc.rs 110–123). -/
def Wt.new : Wt := ⟨0, 0, 0⟩

/-- `freq` (osc.rs 44–47, 127–130). -/
def Wt.freq (w : Wt) (sr : Nat) (f : Rat) : Wt := { w with step := asU32 (f * (tableSize * fractionalPart * (1 / sr))) }

/-- `phase_offset` (osc.rs 50–52, 133–135). -/
def Wt.phaseOffset (w : Wt) (o : Rat) : Wt := { w with offset := asU32 (o * fractionalPart) }

/-- `reset_phase` (osc.rs 55–57, 138–140). -/
def Wt.reset (w : Wt) : Wt := { w with phase := 0 }

/-- `next_sample` of `SinWt` (osc.rs 151–156). -/
def Wt.next (t : Table) (w : Wt) : R (Wt × Rat) := do
  let v ← t.get (addPhase w.phase w.offset)
  return ({ w with phase := addPhase w.phase w.step }, v)

/-- `next_sample` of `OscWt` (osc.rs 62–70); `f` is the field `freq`. -/
def Wt.nextAa (ts : List Table) (f : Rat) (w : Wt) : R (Wt × Rat) := do
  let v ← wavetableGet ts (addPhase w.phase w.offset) f
  return ({ w with phase := addPhase w.phase w.step }, v)

/-- Several frames (osc.rs 162–167). -/
def Wt.run (t : Table) : Wt → Nat → R (Wt × List Rat)
  | w, 0 => .ok (w, [])
  | w, n + 1 => do
    let r ← w.next t
    let r' ← Wt.run t r.1 n
    return (r'.1, r.2 :: r'.2)

/-! ### `Phasor` -/

/-- The loop `while phase >= 1 { phase -= 1 }` (osc.rs 207–209). -/
def wrap (p : Rat) : Rat := if 1 ≤ p then wrap (p - 1) else p
termination_by ⌊p⌋.toNat
decreasing_by
  rename_i h
  have h1 : ⌊p - 1⌋ = ⌊p⌋ - 1 := by exact_mod_cast Int.floor_sub_one p
  have h2 : (1 : Int) ≤ ⌊p⌋ := Int.le_floor.mpr (by exact_mod_cast h)
  omega

/-- `Phasor` (osc.rs 172–177). -/
structure Phasor where
  phase : Rat
  step : Rat
  mult : Rat

/-- `Phasor::new` (osc.rs 182–189). -/
def Phasor.new (f : Rat) : Phasor := ⟨0, f, 0⟩

/-- `freq` (osc.rs 192–198). -/
def Phasor.freq (p : Phasor) (f : Rat) : Phasor := { p with step := if p.mult = 0 then f else f * p.mult }

/-- `init` (osc.rs 200–203). -/
def Phasor.init (p : Phasor) (sr : Nat) : Phasor := Phasor.freq { p with mult := 1 / sr } p.step

/-- `process` (osc.rs 205–211). -/
def Phasor.process (p : Phasor) : Phasor × Rat := ({ p with phase := wrap (p.phase + p.step) }, p.phase)

/-- What can happen to a phasor or a band-limited oscillator. -/
inductive PhOp where
  | freq (f : Rat)
  | frame
  /-- `PolyBlep::sync` -/
  | sync (p : Rat)
  deriving DecidableEq

/-- Several operations and the output of every frame; a phasor has no `sync`. -/
def Phasor.run : Phasor → List PhOp → Phasor × List Rat
  | p, [] => (p, [])
  | p, .freq f :: ops => Phasor.run (p.freq f) ops
  | p, .frame :: ops => ((Phasor.run p.process.1 ops).1, p.process.2 :: (Phasor.run p.process.1 ops).2)
  | p, .sync _ :: ops => Phasor.run p ops

/-! ### The phase of `PolyBlep` -/

/-- Rust's `trunc`: rounds towards zero. -/
def trunc (x : Rat) : Int := if 0 ≤ x then ⌊x⌋ else ⌈x⌉

/-- `PolyBlep` (polyblep.rs 128–135), as far as the phase is concerned. -/
structure Blep where
  t : Rat
  dt : Rat
  deriving DecidableEq

/-- `new` (polyblep.rs 139–148) and `init` (polyblep.rs 150–155). -/
def Blep.init (sr : Nat) (f : Rat) : Blep := ⟨0, f / sr⟩

/-- `freq` (polyblep.rs 163–165, 181–184). -/
def Blep.freq (b : Blep) (sr : Nat) (f : Rat) : Blep := { b with dt := f / sr }

/-- `sync` (polyblep.rs 199–206). -/
def Blep.sync (b : Blep) (p : Rat) : Blep := { b with t := if 0 ≤ p then p - trunc p else p + (1 - trunc p) }

/-- `inc` (polyblep.rs 232–235). -/
def Blep.inc (b : Blep) : Blep := { b with t := (b.t + b.dt) - trunc (b.t + b.dt) }

/-- One operation. -/
def Blep.op (sr : Nat) (b : Blep) : PhOp → Blep
  | .freq f => b.freq sr f
  | .frame => b.inc
  | .sync p => b.sync p

/-- Several operations. -/
def Blep.run (sr : Nat) (b : Blep) (ops : List PhOp) : Blep := ops.foldl (Blep.op sr) b

end Verif.Os
