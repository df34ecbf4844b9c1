import Verif.Model.Ieee
import Verif.Model.Osc

/-!
# Wavetable oscillators with rounding

`SinWt` and `OscWt` (`knaster_core_dsp/src/ugens/osc.rs` 28–168).  Unlike `Verif.Model.Osc` every product is rounded, the frequency is
stored in the sample type, and `init` is modelled.  `fl` is the rounding of the sample type: `rnd32` for `f32`, `rnd64` for `f64`.
The table is `f32` for both.  A sample rate of zero, for which the code divides by zero, gives a factor of zero here; the theorems ask for
a sample rate above zero.
-/

namespace Verif.Fl

open Verif.Os (Table addPhase)

/-- `SinWt` (osc.rs 97–105) without its table; also the scalar fields of `OscWt` (osc.rs 30–37). -/
structure SinWt where
  phase : Nat
  offset : Nat
  inc : Nat
  mult : ℚ
  freq : ℚ
  deriving DecidableEq

/-- `SinWt::new` (osc.rs 110–123). -/
def SinWt.new (f : ℚ) : SinWt := ⟨0, 0, 0, 0, f⟩

/-- The increment of `freq` (osc.rs 46, 129): `(freq.to_f64() * freq_to_phase_inc) as u32`. -/
def phaseInc (f mult : ℚ) : Nat := asU32 (rnd64 (f * mult))

/-- `freq` (osc.rs 44–47, 127–130). -/
def SinWt.setFreq (fl : ℚ → ℚ) (s : SinWt) (x : ℚ) : SinWt := { s with freq := fl x, inc := phaseInc (fl x) s.mult }

/-- `freq_to_phase_inc` (osc.rs 85–86, 144–145); the sizes of the table and of the fraction and the sample rate are exact as `f64`. -/
def phaseMult (sr : Nat) : ℚ := rnd64 (rnd64 ((Os.tableSize : ℚ) * Os.fractionalPart) * rnd64 (1 / sr))

/-- `phase_offset` (osc.rs 50–52, 133–135). -/
def SinWt.setOffset (s : SinWt) (x : ℚ) : SinWt := { s with offset := asU32 (rnd64 (x * Os.fractionalPart)) }

/-- `reset_phase` (osc.rs 55–57, 138–140). -/
def SinWt.reset (s : SinWt) : SinWt := { s with phase := 0 }

/-- `SinWt::init` (osc.rs 142–147). -/
def SinWt.init (fl : ℚ → ℚ) (s : SinWt) (sr : Nat) : SinWt := SinWt.setFreq fl { s.reset with mult := phaseMult sr } s.freq

/-- `OscWt::init` (osc.rs 83–87). -/
def SinWt.initOsc (s : SinWt) (sr : Nat) : SinWt := { s.reset with mult := phaseMult sr }

/-- `next_sample` of `SinWt` (osc.rs 151–156). -/
def SinWt.next (fl : ℚ → ℚ) (t : Table) (s : SinWt) : R (SinWt × ℚ) := do
  let v ← t.get (addPhase s.phase s.offset)
  return ({ s with phase := addPhase s.phase s.inc }, fl v)

/-- What is done with an oscillator: the calls of its interface. -/
inductive WtOp where
  | init (sr : Nat)
  | freq (x : ℚ)
  | reset
  | frame

/-- One call.  The output of a frame is `SinWt.next`; here only the state is kept. -/
def SinWt.op (fl : ℚ → ℚ) (t : Table) (s : SinWt) : WtOp → R SinWt
  | .init sr => .ok (s.init fl sr)
  | .freq x => .ok (s.setFreq fl x)
  | .reset => .ok s.reset
  | .frame => do
    let r ← s.next fl t
    return r.1

/-- Several calls. -/
def SinWt.ops (fl : ℚ → ℚ) (t : Table) : SinWt → List WtOp → R SinWt
  | s, [] => .ok s
  | s, o :: os => do
    let s' ← s.op fl t o
    SinWt.ops fl t s' os

end Verif.Fl
