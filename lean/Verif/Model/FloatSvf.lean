import Verif.Model.Ieee
import Verif.Model.Filter

/-!
# The state variable filter with rounding (knaster_core_dsp/src/ugens/svf.rs)

The functions of `Model/Filter` over rationals, every result rounded with `fl` to the sample type.  The functions of the maths library and
the number pi are arguments; their results are rounded too, so they may be any numbers of the format.  Without the feature
`no_denormals`, which is off by default.  A division by zero is `none`.
-/

namespace Verif.Fl

open Verif.Fi (Fns divO Ty Coef Ic Svf SvOp)

/-- The values that every branch of `set_coeffs` computes from the settings. -/
structure Tune where
  g : ℚ
  k : ℚ
  m0 : ℚ
  m1 : ℚ
  m2 : ℚ
  deriving DecidableEq, Repr

/-- `a1`, `a2`, `a3` from `g` and `k` (svf.rs 151–153, and the same lines of every branch). -/
def svCoef (fl : ℚ → ℚ) (t : Tune) : Option (Coef ℚ) := do
  let r ← divO 1 (fl (1 + fl (t.g * fl (t.g + t.k))))
  let a1 := fl r
  let a2 := fl (t.g * a1)
  return { a1, a2, a3 := fl (t.g * a2), m0 := t.m0, m1 := t.m1, m2 := t.m2 }

/-- `g`, `k` and the mix (svf.rs 147–241). -/
def svTune (fl : ℚ → ℚ) (fn : Fns ℚ) (ty : Ty) (cutoff q gain sr : ℚ) : Option Tune := do
  let w ← divO (fl (fn.pi * cutoff)) sr
  let t := fl (fn.tan (fl w))
  let amp := fl (fn.pow10 (fl (gain / 40)))
  let root := fl (fn.sqrt amp)
  match ty with
  | .low => let k ← divO 1 q; return ⟨t, fl k, 0, 0, 1⟩
  | .band => let k ← divO 1 q; return ⟨t, fl k, 0, 1, 0⟩
  | .high => let k ← divO 1 q; return ⟨t, fl k, 1, -fl k, -1⟩
  | .notch => let k ← divO 1 q; return ⟨t, fl k, 1, -fl k, 0⟩
  | .peak => let k ← divO 1 q; return ⟨t, fl k, 1, -fl k, -2⟩
  | .all => let k ← divO 1 q; return ⟨t, fl k, 1, fl (-2 * fl k), 0⟩
  | .bell =>
    let g ← divO t root
    let k ← divO 1 (fl (q * amp))
    return ⟨fl g, fl k, 1, fl (fl k * fl (fl (amp * amp) - 1)), 0⟩
  | .lowShelf =>
    let g ← divO t root
    let k ← divO 1 q
    return ⟨fl g, fl k, 1, fl (fl k * fl (amp - 1)), fl (fl (amp * amp) - 1)⟩
  | .highShelf =>
    let k ← divO 1 q
    return ⟨fl (t * root), fl k, fl (amp * amp), fl (fl (fl k * fl (1 - amp)) * amp), fl (1 - fl (amp * amp))⟩

/-- `process_sample` (svf.rs 271–279): new state and output. -/
def svStep (fl : ℚ → ℚ) (c : Coef ℚ) (s : Ic ℚ) (v0 : ℚ) : Ic ℚ × ℚ :=
  let v3 := fl (v0 - s.s2)
  let v1 := fl (fl (c.a1 * s.s1) + fl (c.a2 * v3))
  let v2 := fl (fl (s.s2 + fl (c.a2 * s.s1)) + fl (c.a3 * v3))
  ({ s1 := fl (fl (2 * v1) - s.s1), s2 := fl (fl (2 * v2) - s.s2) }, fl (fl (fl (c.m0 * v0) + fl (c.m1 * v1)) + fl (c.m2 * v2)))

/-- The call of `set_coeffs` at the end of `init` and of every parameter (svf.rs 82–141). -/
def svCalc (fl : ℚ → ℚ) (fn : Fns ℚ) (sr : ℚ) (f : Svf ℚ) : Option (Svf ℚ) := do
  let t ← svTune fl fn f.ty f.cutoff f.q f.gain sr
  let c ← svCoef fl t
  return { f with c }

/-- The new settings of a parameter (svf.rs 82–141), before the coefficients are computed. -/
def svSet (f : Svf ℚ) : SvOp ℚ → Svf ℚ
  | .cutoff x => { f with cutoff := x }
  | .q x => { f with q := x }
  | .gain x => { f with gain := x }
  | .filter ty => { f with ty }
  | .calculate => f
  | .sample _ => f

/-- A history: the outputs. -/
def svRunF (fl : ℚ → ℚ) (fn : Fns ℚ) (sr : ℚ) : Svf ℚ → List (SvOp ℚ) → Option (Svf ℚ × List ℚ)
  | f, [] => some (f, [])
  | f, .sample x :: ops => do
    let r ← svRunF fl fn sr { f with s := (svStep fl f.c f.s x).1 } ops
    return (r.1, (svStep fl f.c f.s x).2 :: r.2)
  | f, op :: ops => do
    let f ← svCalc fl fn sr (svSet f op)
    svRunF fl fn sr f ops

end Verif.Fl
