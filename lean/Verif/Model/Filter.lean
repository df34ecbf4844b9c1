import Verif.Basic
import Mathlib.Algebra.Field.Defs

/-!
# Filters (knaster_core_dsp/src/ugens/onepole.rs, svf.rs)

Samples and coefficients are elements of any field, so rounding is not modelled; the functions of the maths library are an
argument.  A division by zero, which makes a value that is not finite, gives `none`.
-/

namespace Verif.Fi

variable {K : Type} [Field K] [DecidableEq K]

/-- The functions of `Float` that the filters use. -/
structure Fns (K : Type) where
  exp : K → K
  tan : K → K
  sqrt : K → K
  /-- `10.powf(x)` -/
  pow10 : K → K
  pi : K

/-- A division. -/
def divO (a b : K) : Option K := if b = 0 then none else some (a / b)

/-! ## One pole -/

/-- `OnePole` (onepole.rs 12–17). -/
structure OnePole (K : Type) where
  last : K
  a0 : K
  b1 : K

/-- `OnePole::new` (onepole.rs 21–27). -/
def OnePole.new : OnePole K := { last := 0, a0 := 1, b1 := 0 }

/-- `set_freq_lowpass` (onepole.rs 35–46); `set_freq_highpass` (50–61) is the same. -/
def OnePole.setFreq (fn : Fns K) (p : OnePole K) (freq sr : K) : Option (OnePole K) := do
  let f ← divO freq sr
  let b := fn.exp (-2 * fn.pi * f)
  return { p with b1 := b, a0 := 1 - b }

/-- `process_lp` (onepole.rs 64–77). -/
def OnePole.lp (p : OnePole K) (x : K) : OnePole K × K :=
  let y := x * p.a0 + p.last * p.b1
  ({ p with last := y }, y)

/-- `process_hp` (onepole.rs 80–92). -/
def OnePole.hp (p : OnePole K) (x : K) : OnePole K × K :=
  let y := x * p.a0 + p.last * p.b1
  ({ p with last := y }, x - y)

/-- `OnePoleLpf::new` (onepole.rs 118–122): the frequency waits in `b1` for `init`. -/
def lpfNew (cutoff : K) : OnePole K := { OnePole.new with b1 := cutoff }

/-- `OnePoleHpf::new` (onepole.rs 157–159). -/
def hpfNew : OnePole K := OnePole.new

/-- `init` of both (onepole.rs 123–129, 161–167). -/
def opInit (fn : Fns K) (p : OnePole K) (sr : K) : Option (OnePole K) :=
  if p.a0 = 1 then p.setFreq fn p.b1 sr else some p

/-- What happens to a one pole filter after `init`. -/
inductive OpOp (K : Type) where
  /-- the parameter `cutoff_freq` (onepole.rs 136–139, 173–176) -/
  | cutoff (freq : K)
  | sample (x : K)

/-- A history of the low-pass filter: the outputs. -/
def lpRun (fn : Fns K) (sr : K) : OnePole K → List (OpOp K) → Option (OnePole K × List K)
  | p, [] => some (p, [])
  | p, .cutoff f :: ops => do
    let p ← p.setFreq fn f sr
    lpRun fn sr p ops
  | p, .sample x :: ops => do
    let r ← lpRun fn sr (p.lp x).1 ops
    return (r.1, (p.lp x).2 :: r.2)

/-- A history of the high-pass filter. -/
def hpRun (fn : Fns K) (sr : K) : OnePole K → List (OpOp K) → Option (OnePole K × List K)
  | p, [] => some (p, [])
  | p, .cutoff f :: ops => do
    let p ← p.setFreq fn f sr
    hpRun fn sr p ops
  | p, .sample x :: ops => do
    let r ← hpRun fn sr (p.hp x).1 ops
    return (r.1, (p.hp x).2 :: r.2)

/-! ## State variable filter -/

/-- `SvfFilterType` (svf.rs 18–38). -/
inductive Ty where
  | low | high | band | notch | peak | all | bell | lowShelf | highShelf
  deriving DecidableEq, Repr

/-- The coefficients (svf.rs 52–57). -/
structure Coef (K : Type) where
  a1 : K
  a2 : K
  a3 : K
  m0 : K
  m1 : K
  m2 : K

/-- The beginning of every branch: `a1`, `a2`, `a3` from `g` and `k`, with the mix. -/
def coef (g k m0 m1 m2 : K) : Option (Coef K) := do
  let a1 ← divO 1 (1 + g * (g + k))
  return { a1, a2 := g * a1, a3 := g * (g * a1), m0, m1, m2 }

/-- `set_coeffs` (svf.rs 146–242). -/
def setCoeffs (fn : Fns K) (ty : Ty) (cutoff q gain sr : K) : Option (Coef K) := do
  let w ← divO (fn.pi * cutoff) sr
  let t := fn.tan w
  let amp := fn.pow10 (gain / 40)
  match ty with
  | .low => let k ← divO 1 q; coef t k 0 0 1
  | .band => let k ← divO 1 q; coef t k 0 1 0
  | .high => let k ← divO 1 q; coef t k 1 (-k) (-1)
  | .notch => let k ← divO 1 q; coef t k 1 (-k) 0
  | .peak => let k ← divO 1 q; coef t k 1 (-k) (-2)
  | .all => let k ← divO 1 q; coef t k 1 (-2 * k) 0
  | .bell =>
    let g ← divO t (fn.sqrt amp)
    let k ← divO 1 (q * amp)
    coef g k 1 (k * (amp * amp - 1)) 0
  | .lowShelf =>
    let g ← divO t (fn.sqrt amp)
    let k ← divO 1 q
    coef g k 1 (k * (amp - 1)) (amp * amp - 1)
  | .highShelf =>
    let g := t * fn.sqrt amp
    let k ← divO 1 q
    coef g k (amp * amp) (k * (1 - amp) * amp) (1 - amp * amp)

/-- The state `ic1eq`, `ic2eq` (svf.rs 49–50). -/
structure Ic (K : Type) where
  s1 : K
  s2 : K

/-- `process_sample` (svf.rs 245–280): new state and output. -/
def step (c : Coef K) (s : Ic K) (v0 : K) : Ic K × K :=
  let v3 := v0 - s.s2
  let v1 := c.a1 * s.s1 + c.a2 * v3
  let v2 := s.s2 + c.a2 * s.s1 + c.a3 * v3
  ({ s1 := 2 * v1 - s.s1, s2 := 2 * v2 - s.s2 }, c.m0 * v0 + c.m1 * v1 + c.m2 * v2)

/-- `SvfFilter` (svf.rs 43–58). -/
structure Svf (K : Type) where
  ty : Ty
  cutoff : K
  q : K
  gain : K
  s : Ic K
  c : Coef K

/-- `SvfFilter::new` (svf.rs 64–79). -/
def Svf.new (ty : Ty) (cutoff q gain : K) : Svf K :=
  { ty, cutoff, q, gain, s := ⟨0, 0⟩, c := ⟨0, 0, 0, 0, 0, 0⟩ }

/-- The call of `set_coeffs` at the end of `init` and of every parameter (svf.rs 82–141). -/
def Svf.calc (fn : Fns K) (sr : K) (f : Svf K) : Option (Svf K) := do
  let c ← setCoeffs fn f.ty f.cutoff f.q f.gain sr
  return { f with c }

/-- What happens to a filter after `init`. -/
inductive SvOp (K : Type) where
  | cutoff (x : K)
  | q (x : K)
  | gain (x : K)
  | filter (ty : Ty)
  | calculate
  | sample (x : K)

/-- The parameters (svf.rs 82–132). -/
def Svf.set (fn : Fns K) (sr : K) (f : Svf K) : SvOp K → Option (Svf K)
  | .cutoff x => Svf.calc fn sr { f with cutoff := x }
  | .q x => Svf.calc fn sr { f with q := x }
  | .gain x => Svf.calc fn sr { f with gain := x }
  | .filter ty => Svf.calc fn sr { f with ty }
  | .calculate => f.calc fn sr
  | .sample _ => some f

/-- A history: the outputs. -/
def svRun (fn : Fns K) (sr : K) : Svf K → List (SvOp K) → Option (Svf K × List K)
  | f, [] => some (f, [])
  | f, .sample x :: ops => do
    let r ← svRun fn sr { f with s := (step f.c f.s x).1 } ops
    return (r.1, (step f.c f.s x).2 :: r.2)
  | f, op :: ops => do
    let f ← f.set fn sr op
    svRun fn sr f ops

end Verif.Fi
