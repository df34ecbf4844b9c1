import Verif.Basic
import Mathlib.Algebra.Order.Field.Rat
import Mathlib.Data.Rat.Floor

/-!
# Numbers that are not finite

The units that keep numbers from one frame to the next, with samples and parameters that can be infinite or not a number: the one pole
filters (`knaster_core_dsp/src/ugens/onepole.rs`), the state variable filter (`svf.rs` 244–280), the delays (`delay.rs`), the phasor and
the numeric sine (`osc.rs` 165–265) and parameter smoothing (`wrappers_core/smooth_params.rs`).

The sign of zero is not modelled, so nothing here divides by a number that can be zero.
-/

namespace Verif.Nf

/-- A float: finite, infinite or not a number. -/
inductive Xf where
  | fin (q : ℚ)
  | inf (neg : Bool)
  | nan
  deriving DecidableEq

/-- A float format: how a number is rounded, the first number that is too large, and the functions of the maths library. -/
structure Format where
  fl : ℚ → ℚ
  big : ℚ
  exp : Xf → Xf
  sin : Xf → Xf
  /-- the constant `-2.0 * PI` (onepole.rs 43) -/
  minusTau : ℚ
  /-- the constant `TAU` (osc.rs 257) -/
  tau : ℚ

variable (F : Format)

/-- A number after rounding; too large a number becomes infinite. -/
def rnd (q : ℚ) : Xf := if |F.fl q| < F.big then .fin (F.fl q) else .inf (decide (q < 0))

/-- `-x`. -/
def neg : Xf → Xf
  | .fin q => .fin (-q)
  | .inf s => .inf (!s)
  | .nan => .nan

/-- `x + y`. -/
def add : Xf → Xf → Xf
  | .nan, _ => .nan
  | _, .nan => .nan
  | .inf s, .inf t => if s = t then .inf s else .nan
  | .inf s, .fin _ => .inf s
  | .fin _, .inf t => .inf t
  | .fin a, .fin b => rnd F (a + b)

/-- `x - y`. -/
def sub (x y : Xf) : Xf := add F x (neg y)

/-- `x * y`. -/
def mul : Xf → Xf → Xf
  | .nan, _ => .nan
  | _, .nan => .nan
  | .inf s, .inf t => .inf (s ^^ t)
  | .inf s, .fin b => if b = 0 then .nan else .inf (s ^^ decide (b < 0))
  | .fin a, .inf t => if a = 0 then .nan else .inf (t ^^ decide (a < 0))
  | .fin a, .fin b => rnd F (a * b)

/-- `x / d` for a finite `d > 0`. -/
def divPos : Xf → ℚ → Xf
  | .fin a, d => rnd F (a / d)
  | x, _ => x

/-- `x >= 1.0`. -/
def geOne : Xf → Bool
  | .fin q => decide (1 ≤ q)
  | .inf s => !s
  | .nan => false

/-- `x > 1.0`. -/
def gtOne : Xf → Bool
  | .fin q => decide (1 < q)
  | .inf s => !s
  | .nan => false

/-! ### One pole filters -/

/-- `OnePole` (onepole.rs 13–17). -/
structure OnePole where
  last : Xf
  a0 : Xf
  b1 : Xf
  deriving DecidableEq

/-- `OnePole::new` (onepole.rs 21–27). -/
def OnePole.new : OnePole := ⟨.fin 0, .fin 1, .fin 0⟩

/-- `OnePoleLpf::new` (onepole.rs 117–121). -/
def lpfNew (cutoff : Xf) : OnePole := { OnePole.new with b1 := cutoff }

/-- `reset` (onepole.rs 30–32); nothing in the two unit generators calls it. -/
def OnePole.reset (p : OnePole) : OnePole := { p with last := .fin 0 }

/-- `set_freq_lowpass` (onepole.rs 35–46), which `set_freq_highpass` (50–60) calls. -/
def OnePole.setFreq (p : OnePole) (freq : Xf) (sr : ℚ) : OnePole :=
  let b := F.exp (mul F (.fin F.minusTau) (divPos F freq sr))
  { p with b1 := b, a0 := sub F (.fin 1) b }

/-- `init` (onepole.rs 122–128, 161–167). -/
def OnePole.init (p : OnePole) (sr : ℚ) : OnePole := if p.a0 = .fin 1 then p.setFreq F p.b1 sr else p

/-- `process_lp` (onepole.rs 64–78). -/
def OnePole.lp (p : OnePole) (x : Xf) : OnePole × Xf :=
  let y := add F (mul F x p.a0) (mul F p.last p.b1)
  ({ p with last := y }, y)

/-- `process_hp` (onepole.rs 81–94). -/
def OnePole.hp (p : OnePole) (x : Xf) : OnePole × Xf :=
  let y := add F (mul F x p.a0) (mul F p.last p.b1)
  ({ p with last := y }, sub F x y)

/-- What can happen to a filter in a graph. -/
inductive FOp (C : Type) where
  /-- parameters or `init` -/
  | set (c : C)
  /-- one frame -/
  | frame (x : Xf)

/-- Several operations on a unit: the final state and the outputs. -/
def run {σ C : Type} (set : σ → C → σ) (frame : σ → Xf → σ × Xf) : σ → List (FOp C) → σ × List Xf
  | s, [] => (s, [])
  | s, .set c :: ops => run set frame (set s c) ops
  | s, .frame x :: ops => ((run set frame (frame s x).1 ops).1, (frame s x).2 :: (run set frame (frame s x).1 ops).2)

/-- What can be set in a one pole filter: `cutoff_freq` (onepole.rs 135–138, 174–177), or `init` at a sample rate. -/
inductive OpSet where
  | cutoff (freq : Xf)
  | init (sr : ℚ)

/-- See `OpSet`. -/
def OnePole.set (sr : ℚ) (p : OnePole) : OpSet → OnePole
  | .cutoff f => p.setFreq F f sr
  | .init r => p.init F r

/-! ### The state variable filter -/

/-- The coefficients of `SvfFilter` (svf.rs 53–58). -/
structure SvCoef where
  a1 : Xf
  a2 : Xf
  a3 : Xf
  m0 : Xf
  m1 : Xf
  m2 : Xf

/-- `SvfFilter` (svf.rs 44–59): the two numbers that it keeps and its coefficients. -/
structure Svf where
  ic1 : Xf
  ic2 : Xf
  c : SvCoef

/-- `SvfFilter::new` (svf.rs 64–79). -/
def Svf.new : Svf := ⟨.fin 0, .fin 0, ⟨.fin 0, .fin 0, .fin 0, .fin 0, .fin 0, .fin 0⟩⟩

/-- `set_coeffs` (svf.rs 146–241), which all the parameters and `init` call, writes the coefficients and nothing else; here they can be
any numbers. -/
def Svf.set (s : Svf) (c : SvCoef) : Svf := { s with c := c }

/-- `process_sample` (svf.rs 244–280). -/
def Svf.frame (s : Svf) (v0 : Xf) : Svf × Xf :=
  let v3 := sub F v0 s.ic2
  let v1 := add F (mul F s.c.a1 s.ic1) (mul F s.c.a2 v3)
  let v2 := add F (add F s.ic2 (mul F s.c.a2 s.ic1)) (mul F s.c.a3 v3)
  ({ s with ic1 := sub F (mul F (.fin 2) v1) s.ic1, ic2 := sub F (mul F (.fin 2) v2) s.ic2 },
    add F (add F (mul F s.c.m0 v0) (mul F s.c.m1 v1)) (mul F s.c.m2 v2))

/-! ### The low pass filters of the reverb -/

/-- One of the four low pass filters of `Galactic`: its last output and `lowpass`, which `process` computes from the parameters
(galactic.rs 178–179); here it can be any number. -/
structure Low where
  old : Xf
  c : Xf

/-- One step (e.g. galactic.rs 245). -/
def Low.frame (s : Low) (x : Xf) : Low × Xf :=
  let y := add F (mul F s.old (sub F (.fin 1) s.c)) (mul F x s.c)
  ({ s with old := y }, y)

/-- Another coefficient. -/
def Low.set (s : Low) (c : Xf) : Low := { s with c := c }

/-! ### Delays -/

/-- `SampleDelay` (delay.rs 14–19) for any type of samples. -/
structure SDelay (V : Type) where
  buf : List V
  wp : Nat
  delay : Nat

/-- `process` (delay.rs 37–43). -/
def SDelay.frame {V : Type} (s : SDelay V) (x : V) : R (SDelay V × V) :=
  if s.wp < s.buf.length then do
    let i ← subC (s.wp + s.buf.length) s.delay
    let i ← modC i s.buf.length
    match (s.buf.set s.wp x)[i]? with
    | none => .error .index
    | some out => do
      let wp ← modC (s.wp + 1) s.buf.length
      return ({ s with buf := s.buf.set s.wp x, wp := wp }, out)
  else .error .index

/-- Several frames. -/
def SDelay.frames {V : Type} : SDelay V → List V → R (SDelay V × List V)
  | s, [] => .ok (s, [])
  | s, x :: xs => do
    let r ← s.frame x
    let r' ← SDelay.frames r.1 xs
    return (r'.1, r.2 :: r'.2)

/-- `AllpassDelay` (delay.rs 93–101) with its `AllpassInterpolator` (53–57). -/
structure ADelay where
  buf : List Xf
  wf : Nat
  rf : Nat
  clearLeft : Nat
  coeff : Xf
  prevIn : Xf
  prevOut : Xf

/-- `new` (delay.rs 107–118, 61–67) followed by `init` (delay.rs 120–123) with room for `n` samples. -/
def ADelay.new (n : Nat) : ADelay := ⟨List.replicate n (.fin 0), 0, 0, 0, .fin 1, .fin 1, .fin 1⟩

/-- The output of `AllpassInterpolator::process_sample` (delay.rs 79). -/
def ADelay.interp (s : ADelay) (x : Xf) : Xf := add F (mul F s.coeff (sub F x s.prevOut)) s.prevIn

/-- `read` (delay.rs 145–157). -/
def ADelay.read (s : ADelay) : R (ADelay × Xf) :=
  if 0 < s.clearLeft then do
    let rf ← modC (s.rf + 1) s.buf.length
    return ({ s with clearLeft := s.clearLeft - 1, rf := rf }, .fin 0)
  else
    match s.buf[s.rf]? with
    | none => .error .index
    | some x => do
      let rf ← modC (s.rf + 1) s.buf.length
      return ({ s with rf := rf, prevIn := x, prevOut := s.interp F x }, s.interp F x)

/-- `write_and_advance` (delay.rs 202–205). -/
def ADelay.write (s : ADelay) (x : Xf) : R ADelay :=
  if s.wf < s.buf.length then do
    let wf ← modC (s.wf + 1) s.buf.length
    return { s with buf := s.buf.set s.wf x, wf := wf }
  else .error .index

/-- `set_delay_in_frames` (delay.rs 160–174) writes the read position and the coefficient; here they can be any. -/
def ADelay.set (s : ADelay) (c : Nat × Xf) : ADelay := { s with rf := c.1, coeff := c.2 }

/-- `clear` (delay.rs 177–188, 69–72) with `num` frames of delay; nothing in the unit generators calls it. -/
def ADelay.clear (s : ADelay) (num : Nat) : ADelay := { s with clearLeft := num, prevIn := .fin 1, prevOut := .fin 1 }

/-- `AllpassDelay::process` (delay.rs 125–134). -/
def ADelay.frame (s : ADelay) (x : Xf) : R (ADelay × Xf) := do
  let r ← s.read F
  let s ← r.1.write x
  return (s, r.2)

/-- `AllpassFeedbackDelay::process_sample` (delay.rs 263–269); its parameter `feedback` is `fb`. -/
def ADelay.fbFrame (fb : Xf) (s : ADelay) (x : Xf) : R (ADelay × Xf) := do
  let r ← s.read F
  let w := add F (mul F r.2 fb) x
  let s ← r.1.write w
  return (s, sub F r.2 (mul F fb w))

/-- Several operations on an allpass delay. -/
def runA (frame : ADelay → Xf → R (ADelay × Xf)) : ADelay → List (FOp (Nat × Xf)) → R (ADelay × List Xf)
  | s, [] => .ok (s, [])
  | s, .set c :: ops => runA frame (s.set c) ops
  | s, .frame x :: ops => do
    let r ← frame s x
    let r' ← runA frame r.1 ops
    return (r'.1, r.2 :: r'.2)

/-! ### Oscillators -/

/-- `Phasor` (osc.rs 166–171) after `init`. -/
structure Phasor where
  phase : Xf
  step : Xf
  deriving DecidableEq

/-- `freq` (osc.rs 186–192) after `init`; `mult` is `freq_to_phase_step_mult`. -/
def Phasor.freq (mult : ℚ) (p : Phasor) (f : Xf) : Phasor := { p with step := mul F f (.fin mult) }

/-- The loop of `process` (osc.rs 202–204) for at most `fuel` rounds; `none` is a loop that goes on. -/
def wrap : Nat → Xf → Option Xf
  | 0, _ => none
  | fuel + 1, x => if geOne x then wrap fuel (sub F x (.fin 1)) else some x

/-- `process` (osc.rs 199–206): the phase before, and after with at most `fuel` rounds of the loop. -/
def Phasor.frame (fuel : Nat) (p : Phasor) : Option (Phasor × Xf) :=
  (wrap F fuel (add F p.phase p.step)).map fun x => ({ p with phase := x }, p.phase)

/-- `SinNumeric` (osc.rs 217–221). -/
structure Sine where
  phase : Xf
  offset : Xf
  inc : Xf
  deriving DecidableEq

/-- What can be set in a `SinNumeric` (osc.rs 233–246). -/
inductive SineSet where
  | freq (f : Xf)
  | offset (x : Xf)
  | reset

/-- See `SineSet`. -/
def Sine.set (sr : ℚ) (s : Sine) : SineSet → Sine
  | .freq f => { s with inc := divPos F f sr }
  | .offset x => { s with offset := x }
  | .reset => { s with phase := .fin 0 }

/-- `process` (osc.rs 257–264). -/
def Sine.frame (s : Sine) : Sine × Xf :=
  let p := add F s.phase s.inc
  ({ s with phase := if gtOne p then sub F p (.fin 1) else p }, F.sin (mul F (add F s.phase s.offset) (.fin F.tau)))

/-! ### Parameter smoothing -/

/-- The state of linear smoothing of a parameter (smooth_params.rs 248–262). -/
structure Ramp where
  start : Xf
  stop : Xf
  dur : Nat
  elapsed : Nat
  audioRate : Bool
  done : Bool
  deriving DecidableEq

/-- `frames_elapsed as PFloat / duration_frames as PFloat` (e.g. smooth_params.rs 281). -/
def mixX (dur el : Nat) : Xf := if dur = 0 then (if el = 0 then .nan else .inf false) else rnd F (F.fl el / F.fl dur)

/-- The current value (e.g. smooth_params.rs 282). -/
def Ramp.value (r : Ramp) : Xf := add F (mul F (sub F r.stop r.start) (mixX F r.dur r.elapsed)) r.start

/-- `next_value` (smooth_params.rs 264–300) at the start of a block of `bs` frames. -/
def Ramp.next (bs : Nat) (r : Ramp) : Ramp × Option Xf :=
  if r.done then (r, none)
  else if r.elapsed = r.dur then ({ r with done := true }, some (r.value F))
  else if r.audioRate then ({ r with elapsed := r.elapsed + 1 }, some (r.value F))
  else ({ r with elapsed := min (r.elapsed + bs) r.dur }, some (r.value F))

/-- `param_apply` with a float (smooth_params.rs 218–236). -/
def Ramp.set (v : Xf) (r : Ramp) : Ramp :=
  { r with start := if r.done then r.stop else r.value F, stop := v, done := false, elapsed := 0 }

/-- What can happen to a parameter that is smoothed. -/
inductive ROp where
  | set (v : Xf)
  | block (bs : Nat)

/-- Several operations: the values that the unit receives. -/
def Ramp.run : Ramp → List ROp → Ramp × List (Option Xf)
  | r, [] => (r, [])
  | r, .set v :: ops => Ramp.run (r.set F v) ops
  | r, .block bs :: ops => ((Ramp.run (r.next F bs).1 ops).1, (r.next F bs).2 :: (Ramp.run (r.next F bs).1 ops).2)

end Verif.Nf
