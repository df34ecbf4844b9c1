import Verif.Props.Svf
import Mathlib.Data.Complex.Basic
import Mathlib.Analysis.Complex.Trigonometric
import Mathlib.Analysis.SpecialFunctions.Trigonometric.Complex
import Mathlib.Tactic.LinearCombination

/-!
# C61: the state variable filter has the response it is named after

The specification is the analogue prototype of each filter type: a rational function of the complex frequency `s`, where
`s = i` is the cutoff frequency.
-/

namespace Verif.Fi

open Complex

/-- The analogue prototypes (`A` is the amplitude for half of the gain in dB, `k` the damping). -/
noncomputable def proto (ty : Ty) (k A : ℝ) (s : ℂ) : ℂ :=
  let d := s ^ 2 + k * s + 1
  match ty with
  | .low => 1 / d
  | .high => s ^ 2 / d
  | .band => s / d
  | .notch => (s ^ 2 + 1) / d
  | .peak => (s ^ 2 - 1) / d
  | .all => (s ^ 2 - k * s + 1) / d
  | .bell => (s ^ 2 + k * A ^ 2 * s + 1) / d
  | .lowShelf => (s ^ 2 + k * A * s + A ^ 2) / d
  | .highShelf => (A ^ 2 * s ^ 2 + k * A * s + 1) / d

/-! ## Complex signals -/

/-- The coefficients as complex numbers. -/
def Coef.toC (c : Coef ℝ) : Coef ℂ := ⟨c.a1, c.a2, c.a3, c.m0, c.m1, c.m2⟩

/-- The real part of a state. -/
def Ic.re (s : Ic ℂ) : Ic ℝ := ⟨s.s1.re, s.s2.re⟩

theorem step_re (c : Coef ℝ) (s : Ic ℂ) (z : ℂ) :
    step c s.re z.re = ((step c.toC s z).1.re, (step c.toC s z).2.re) := by
  simp [step, Ic.re, Coef.toC]

theorem den_ne (k r : ℝ) (hk : 0 < k) : (I * r) ^ 2 + k * (I * r) + 1 ≠ (0 : ℂ) := by
  intro h
  have h1 := congrArg Complex.re h
  have h2 := congrArg Complex.im h
  simp [pow_two] at h1 h2
  rcases h2 with h2 | h2
  · exact absurd h2 (ne_of_gt hk)
  · rw [h2] at h1; simp at h1

/-- The state of the filter in a steady oscillation with the value `z`. -/
noncomputable def steady (g k r : ℝ) (z : ℂ) : Ic ℂ :=
  let s := I * r
  let d := s ^ 2 + k * s + 1
  ⟨s * (1 - g * s) / d * z, (1 - g * s) / d * z⟩

/-- A steady oscillation goes on: with every sample it turns by `(1 + igr)/(1 - igr)`. -/
theorem steady_step (c : Coef ℝ) (g k r : ℝ) (hk : 0 < k) (h : c.From g k) (z w : ℂ)
    (hw : w * (1 - g * (I * r)) = 1 + g * (I * r)) :
    step c.toC (steady g k r z) z = (steady g k r (w * z),
      (c.m0 + c.m1 * (I * r) / ((I * r) ^ 2 + k * (I * r) + 1) + c.m2 / ((I * r) ^ 2 + k * (I * r) + 1)) * z) := by
  obtain ⟨h0, h1, h2, h3⟩ := h
  have hd := den_ne k r hk
  have h0' : (1 + g * (g + k) : ℂ) ≠ 0 := by exact_mod_cast h0
  have ha : (c.a1 : ℂ) = 1 / (1 + g * (g + k)) := by rw [h1]; push_cast; rfl
  have ha2 : (c.a2 : ℂ) = g * (1 / (1 + g * (g + k))) := by rw [h2]; push_cast; rw [ha]
  have ha3 : (c.a3 : ℂ) = g * (g * (1 / (1 + g * (g + k)))) := by rw [h3]; push_cast; rw [ha]
  simp only [step, steady, Coef.toC]
  generalize hs : I * (r : ℂ) = s at *
  generalize hdd : s ^ 2 + k * s + 1 = d at *
  have e1 : (c.a1 : ℂ) * (s * (1 - g * s) / d * z) + c.a2 * (z - (1 - g * s) / d * z) = s / d * z := by
    rw [ha, ha2]
    generalize hD : (1 + g * (g + k) : ℂ) = D at *
    field_simp
    rw [← hdd, ← hD]; ring
  have e2 : (1 - g * s) / d * z + (c.a2 : ℂ) * (s * (1 - g * s) / d * z)
      + c.a3 * (z - (1 - g * s) / d * z) = 1 / d * z := by
    rw [ha2, ha3]
    generalize hD : (1 + g * (g + k) : ℂ) = D at *
    field_simp
    rw [← hdd, ← hD]; ring
  simp only [e1, e2, Prod.mk.injEq, Ic.mk.injEq]
  refine ⟨⟨?_, ?_⟩, by ring⟩
  · field_simp
    linear_combination (-s * z) * hw
  · field_simp
    linear_combination (-z) * hw

/-- The prototype is what the mix of the code makes of the two integrators. -/
theorem proto_eq (ty : Ty) (cutoff q gain sr : ℝ) (hv : Valid cutoff q sr) (c : Coef ℝ)
    (hm : c.m0 = (mixOf ty q gain).1 ∧ c.m1 = (mixOf ty q gain).2.1 ∧ c.m2 = (mixOf ty q gain).2.2) (r : ℝ) :
    (c.m0 + c.m1 * (I * r) / ((I * r) ^ 2 + (kOf ty q gain : ℝ) * (I * r) + 1)
      + c.m2 / ((I * r) ^ 2 + (kOf ty q gain : ℝ) * (I * r) + 1) : ℂ) = proto ty (kOf ty q gain) (amp gain) (I * r) := by
  have hk := kOf_pos ty cutoff q gain sr hv
  have hd := den_ne (kOf ty q gain) r hk
  rw [hm.1, hm.2.1, hm.2.2]
  generalize I * (r : ℂ) = s at *
  generalize hdd : s ^ 2 + (kOf ty q gain : ℝ) * s + 1 = d at *
  cases ty <;> simp only [mixOf, proto, hdd] <;> generalize kOf _ q gain = k at * <;> push_cast <;> field_simp <;>
    (try rw [← hdd]) <;> ring

/-- The outputs in a steady oscillation. -/
theorem steady_outs (c : Coef ℝ) (g k r : ℝ) (hk : 0 < k) (h : c.From g k) (w : ℂ) (hw : w * (1 - g * (I * r)) = 1 + g * (I * r))
    (N : Nat) (z : ℂ) :
    outs c (steady g k r z).re ((List.range N).map fun n : Nat => (z * w ^ n).re) = (List.range N).map fun n : Nat =>
      ((c.m0 + c.m1 * (I * r) / ((I * r) ^ 2 + k * (I * r) + 1) + c.m2 / ((I * r) ^ 2 + k * (I * r) + 1)) * (z * w ^ n)).re := by
  induction N generalizing z with
  | zero => simp [outs]
  | succ N ih =>
    rw [List.range_succ_eq_map, List.map_cons, List.map_map, outs, pow_zero, mul_one, step_re, steady_step c g k r hk h z w hw]
    rw [List.map_cons, List.map_map, pow_zero, mul_one]
    congr 1
    have e : ∀ n : Nat, z * w ^ n.succ = w * z * w ^ n := fun n => by rw [pow_succ]; ring
    have h1 := ih (w * z)
    simp only [Function.comp_def, e]
    exact h1

/-- `e^(iθ)` from the tangent of the half angle. -/
theorem turn (θ : ℝ) (h : Real.cos (θ / 2) ≠ 0) :
    exp (I * θ) * (1 - I * Real.tan (θ / 2)) = 1 + I * Real.tan (θ / 2) := by
  have hc : ((Real.cos (θ / 2) : ℝ) : ℂ) ≠ 0 := by exact_mod_cast h
  have h1 : exp (I * θ) = (Real.cos (θ / 2) + Real.sin (θ / 2) * I) ^ 2 := by
    have : I * (θ : ℂ) = ((θ / 2 : ℝ) : ℂ) * I + ((θ / 2 : ℝ) : ℂ) * I := by push_cast; ring
    rw [this, Complex.exp_add, Complex.exp_mul_I, Complex.ofReal_cos, Complex.ofReal_sin]
    ring
  have h2 : ((Real.cos (θ / 2) : ℝ) : ℂ) ^ 2 + ((Real.sin (θ / 2) : ℝ) : ℂ) ^ 2 = 1 := by
    exact_mod_cast Real.cos_sq_add_sin_sq (θ / 2)
  rw [h1, Real.tan_eq_sin_div_cos, Complex.ofReal_div]
  generalize ((Real.cos (θ / 2) : ℝ) : ℂ) = a at *
  generalize ((Real.sin (θ / 2) : ℝ) : ℂ) = b at *
  field_simp
  linear_combination (a + b * I) * h2 - (a + b * I) * b ^ 2 * Complex.I_sq

/-- **C61**: for every type of filter and all valid settings, a sinusoid of any frequency below half of the sample rate (any
amplitude and phase, `z`) comes out multiplied by the value of the prototype, whatever state the filter starts from: the
difference vanishes at the fixed rate of C60.  `θ` is the angle per sample. -/
theorem C61_response (ty : Ty) (cutoff q gain sr : ℝ) (hv : Valid cutoff q sr) (θ : ℝ) (hθ : -Real.pi < θ ∧ θ < Real.pi) (z : ℂ)
    (s : Ic ℝ) :
    ∃ c ρ M : ℝ, ∃ co, setCoeffs real ty cutoff q gain sr = some co ∧ c = Real.tan (θ / 2) / gOf ty cutoff gain sr ∧
      0 ≤ ρ ∧ ρ < 1 ∧ ∀ N n : Nat, n < N →
        ∃ y, (outs co s ((List.range N).map fun n : Nat => (z * exp (I * θ) ^ n).re))[n]? = some y ∧
          (y - (proto ty (kOf ty q gain) (amp gain) (I * c) * (z * exp (I * θ) ^ n)).re) ^ 2 ≤ M * ρ ^ n := by
  obtain ⟨co, h1, h2, h3⟩ := setCoeffs_spec ty cutoff q gain sr hv
  have hg := gOf_pos ty cutoff q gain sr hv
  have hk := kOf_pos ty cutoff q gain sr hv
  obtain ⟨hr0, hr1⟩ := rho_range _ _ hg hk
  have hcos : Real.cos (θ / 2) ≠ 0 := ne_of_gt (Real.cos_pos_of_mem_Ioo ⟨by linarith, by linarith⟩)
  have hw : exp (I * θ) * (1 - (gOf ty cutoff gain sr : ℝ) * (I * ((Real.tan (θ / 2) / gOf ty cutoff gain sr : ℝ) : ℂ)))
      = 1 + (gOf ty cutoff gain sr : ℝ) * (I * ((Real.tan (θ / 2) / gOf ty cutoff gain sr : ℝ) : ℂ)) := by
    have e : ((gOf ty cutoff gain sr : ℝ) : ℂ) * (I * ((Real.tan (θ / 2) / gOf ty cutoff gain sr : ℝ) : ℂ))
        = I * (Real.tan (θ / 2) : ℝ) := by
      have : ((gOf ty cutoff gain sr : ℝ) : ℂ) ≠ 0 := by exact_mod_cast ne_of_gt hg
      rw [Complex.ofReal_div]
      field_simp
    rw [e]
    exact turn θ hcos
  refine ⟨_, rho (gOf ty cutoff gain sr) (kOf ty q gain), outGain co (gOf ty cutoff gain sr) (kOf ty q gain) *
    lyap (kOf ty q gain) (s.sub (steady (gOf ty cutoff gain sr) (kOf ty q gain)
      (Real.tan (θ / 2) / gOf ty cutoff gain sr) z).re), co, h1, rfl, hr0, hr1, ?_⟩
  intro N n hn
  obtain ⟨y, y', h4, h5, h6⟩ := C60_forgets co _ _ hg hk h2
    ((List.range N).map fun n : Nat => (z * exp (I * θ) ^ n).re) s
    (steady (gOf ty cutoff gain sr) (kOf ty q gain) (Real.tan (θ / 2) / gOf ty cutoff gain sr) z).re n (by simpa using hn)
  rw [steady_outs co _ _ _ hk h2 _ hw, proto_eq ty cutoff q gain sr hv co h3, List.getElem?_map,
    List.getElem?_eq_getElem (by simpa using hn), List.getElem_range, Option.map_some, Option.some.injEq] at h5
  exact ⟨y, h4, by rw [h5]; exact h6⟩

example : Valid 1000 (1/2) 48000 ∧ -Real.pi < 1 ∧ 1 < Real.pi :=
  ⟨⟨by norm_num, by norm_num, by norm_num, by norm_num⟩, by linarith [Real.two_le_pi], by linarith [Real.two_le_pi]⟩

/-! ## The gains of the prototypes at the cutoff frequency -/

/-- The amplitude that belongs to a gain in dB. -/
noncomputable def fromDb (gain : ℝ) : ℝ := (10 : ℝ) ^ (gain / 20)

theorem amp_sq (gain : ℝ) : amp gain ^ 2 = fromDb gain := by
  rw [amp, fromDb, ← Real.rpow_natCast, ← Real.rpow_mul (by norm_num)]
  congr 1
  push_cast
  ring

/-- Specification: the squared gain that is asked for at the cutoff frequency. -/
noncomputable def wanted (ty : Ty) (q gain : ℝ) : ℝ :=
  match ty with
  | .low | .high | .band => q ^ 2
  | .notch => 0
  | .peak => 4 * q ^ 2
  | .all => 1
  | .bell => fromDb gain ^ 2
  | .lowShelf | .highShelf => fromDb gain

/-- The angle per sample at the cutoff frequency gives this frequency of the prototype. -/
noncomputable def atCutoff (ty : Ty) (gain : ℝ) : ℝ :=
  match ty with
  | .bell | .lowShelf => Real.sqrt (amp gain)
  | .highShelf => 1 / Real.sqrt (amp gain)
  | _ => 1

theorem atCutoff_spec (ty : Ty) (cutoff q gain sr : ℝ) (hv : Valid cutoff q sr) :
    Real.tan ((2 * Real.pi * cutoff / sr) / 2) / gOf ty cutoff gain sr = atCutoff ty gain := by
  have e : (2 * Real.pi * cutoff / sr) / 2 = Real.pi * cutoff / sr := by ring
  have h1 := ne_of_gt (tan_pos cutoff q sr hv)
  have h2 := ne_of_gt (Real.sqrt_pos.2 (amp_pos gain))
  rw [e]
  cases ty <;> simp only [gOf, atCutoff] <;> field_simp

/-- The square of the absolute value of a quotient. -/
theorem normSq_frac (a b c d : ℝ) : normSq ((a + b * I) / (c + d * I)) = (a ^ 2 + b ^ 2) / (c ^ 2 + d ^ 2) := by
  rw [map_div₀, Complex.normSq_add_mul_I, Complex.normSq_add_mul_I]

/-- **C61, gain at the cutoff frequency**: all types but the bell have the gain that is asked for. -/
theorem C61_cutoff_partial (ty : Ty) (cutoff q gain sr : ℝ) (hv : Valid cutoff q sr) (hty : ty ≠ .bell) :
    normSq (proto ty (kOf ty q gain) (amp gain) (I * (atCutoff ty gain : ℝ))) = wanted ty q gain := by
  have hq := hv.hq
  have hA := amp_pos gain
  have hr := Real.sqrt_pos.2 hA
  have hrr : Real.sqrt (amp gain) ^ 2 = amp gain := Real.sq_sqrt hA.le
  have hs := amp_sq gain
  cases ty with
  | bell => exact absurd rfl hty
  | low =>
    have : proto .low (kOf .low q gain) (amp gain) (I * (atCutoff .low gain : ℝ))
        = ((1 : ℝ) + (0 : ℝ) * I) / ((0 : ℝ) + (1 / q : ℝ) * I) := by
      simp only [proto, kOf, atCutoff]; push_cast; congr 1
      · ring
      · linear_combination Complex.I_sq
    rw [this, normSq_frac]; simp only [wanted]; field_simp; ring
  | high =>
    have : proto .high (kOf .high q gain) (amp gain) (I * (atCutoff .high gain : ℝ))
        = ((-1 : ℝ) + (0 : ℝ) * I) / ((0 : ℝ) + (1 / q : ℝ) * I) := by
      simp only [proto, kOf, atCutoff]; push_cast; congr 1
      · linear_combination Complex.I_sq
      · linear_combination Complex.I_sq
    rw [this, normSq_frac]; simp only [wanted]; field_simp; ring
  | band =>
    have : proto .band (kOf .band q gain) (amp gain) (I * (atCutoff .band gain : ℝ))
        = ((0 : ℝ) + (1 : ℝ) * I) / ((0 : ℝ) + (1 / q : ℝ) * I) := by
      simp only [proto, kOf, atCutoff]; push_cast; congr 1
      · ring
      · linear_combination Complex.I_sq
    rw [this, normSq_frac]; simp only [wanted]; field_simp; ring
  | notch =>
    have : proto .notch (kOf .notch q gain) (amp gain) (I * (atCutoff .notch gain : ℝ))
        = ((0 : ℝ) + (0 : ℝ) * I) / ((0 : ℝ) + (1 / q : ℝ) * I) := by
      simp only [proto, kOf, atCutoff]; push_cast; congr 1
      · linear_combination Complex.I_sq
      · linear_combination Complex.I_sq
    rw [this, normSq_frac]; simp [wanted]
  | peak =>
    have : proto .peak (kOf .peak q gain) (amp gain) (I * (atCutoff .peak gain : ℝ))
        = ((-2 : ℝ) + (0 : ℝ) * I) / ((0 : ℝ) + (1 / q : ℝ) * I) := by
      simp only [proto, kOf, atCutoff]; push_cast; congr 1
      · linear_combination Complex.I_sq
      · linear_combination Complex.I_sq
    rw [this, normSq_frac]; simp only [wanted]; field_simp; ring
  | all =>
    have : proto .all (kOf .all q gain) (amp gain) (I * (atCutoff .all gain : ℝ))
        = ((0 : ℝ) + (-(1 / q) : ℝ) * I) / ((0 : ℝ) + (1 / q : ℝ) * I) := by
      simp only [proto, kOf, atCutoff]; push_cast; congr 1
      · linear_combination Complex.I_sq
      · linear_combination Complex.I_sq
    rw [this, normSq_frac]; simp only [wanted]; field_simp
  | lowShelf =>
    have : proto .lowShelf (kOf .lowShelf q gain) (amp gain) (I * (atCutoff .lowShelf gain : ℝ))
        = ((amp gain ^ 2 - Real.sqrt (amp gain) ^ 2 : ℝ) + (1 / q * amp gain * Real.sqrt (amp gain) : ℝ) * I)
          / ((1 - Real.sqrt (amp gain) ^ 2 : ℝ) + (1 / q * Real.sqrt (amp gain) : ℝ) * I) := by
      simp only [proto, kOf, atCutoff]; push_cast; congr 1
      · linear_combination (Real.sqrt (amp gain) : ℂ) ^ 2 * Complex.I_sq
      · linear_combination (Real.sqrt (amp gain) : ℂ) ^ 2 * Complex.I_sq
    rw [this, normSq_frac]; simp only [wanted]
    rw [← hs]
    have hd : (1 - Real.sqrt (amp gain) ^ 2) ^ 2 + (1 / q * Real.sqrt (amp gain)) ^ 2 ≠ 0 := by positivity
    rw [div_eq_iff hd]
    generalize Real.sqrt (amp gain) = r at *
    rw [← hrr]
    ring
  | highShelf =>
    have : proto .highShelf (kOf .highShelf q gain) (amp gain) (I * (atCutoff .highShelf gain : ℝ))
        = ((1 - amp gain ^ 2 * (1 / Real.sqrt (amp gain)) ^ 2 : ℝ) + (1 / q * amp gain * (1 / Real.sqrt (amp gain)) : ℝ) * I)
          / ((1 - (1 / Real.sqrt (amp gain)) ^ 2 : ℝ) + (1 / q * (1 / Real.sqrt (amp gain)) : ℝ) * I) := by
      simp only [proto, kOf, atCutoff]; push_cast; congr 1
      · linear_combination (amp gain : ℂ) ^ 2 * (1 / (Real.sqrt (amp gain) : ℂ)) ^ 2 * Complex.I_sq
      · linear_combination (1 / (Real.sqrt (amp gain) : ℂ)) ^ 2 * Complex.I_sq
    rw [this, normSq_frac]; simp only [wanted]
    rw [← hs]
    have hd : (1 - (1 / Real.sqrt (amp gain)) ^ 2) ^ 2 + (1 / q * (1 / Real.sqrt (amp gain))) ^ 2 ≠ 0 := by positivity
    rw [div_eq_iff hd]
    generalize Real.sqrt (amp gain) = r at *
    rw [← hrr]
    field_simp
    ring

/-- **C61, violated**: the bell does not have the gain that is asked for at its frequency: for every positive gain it is
smaller.  (The code divides the frequency variable of the bell by the square root of the amplitude, svf.rs 210, as is right
for the low shelf.) -/
theorem C61_bell_violated (cutoff q gain sr : ℝ) (hv : Valid cutoff q sr) (hg : 0 < gain) :
    normSq (proto .bell (kOf .bell q gain) (amp gain) (I * (atCutoff .bell gain : ℝ))) < wanted .bell q gain := by
  have hq := hv.hq
  have hA := amp_pos gain
  have hA1 : 1 < amp gain := by
    rw [amp]
    exact Real.one_lt_rpow (by norm_num) (by linarith)
  have hr := Real.sqrt_pos.2 hA
  have hrr : Real.sqrt (amp gain) ^ 2 = amp gain := Real.sq_sqrt hA.le
  have hs := amp_sq gain
  have hk : 0 < 1 / (q * amp gain) := by positivity
  have : proto .bell (kOf .bell q gain) (amp gain) (I * (atCutoff .bell gain : ℝ))
      = ((1 - Real.sqrt (amp gain) ^ 2 : ℝ) + (1 / (q * amp gain) * amp gain ^ 2 * Real.sqrt (amp gain) : ℝ) * I)
        / ((1 - Real.sqrt (amp gain) ^ 2 : ℝ) + (1 / (q * amp gain) * Real.sqrt (amp gain) : ℝ) * I) := by
    simp only [proto, kOf, atCutoff]; push_cast; congr 1
    · linear_combination (Real.sqrt (amp gain) : ℂ) ^ 2 * Complex.I_sq
    · linear_combination (Real.sqrt (amp gain) : ℂ) ^ 2 * Complex.I_sq
  rw [this, normSq_frac]; simp only [wanted]
  rw [← hs]
  generalize 1 / (q * amp gain) = k at *
  generalize Real.sqrt (amp gain) = r at *
  generalize amp gain = A at *
  rw [hrr]
  have hd : 0 < (1 - A) ^ 2 + (k * r) ^ 2 := by positivity
  rw [div_lt_iff₀ hd]
  have h1 : 0 < (1 - A) ^ 2 := by
    have : (1 - A) ≠ 0 := by linarith
    positivity
  have h2 : 1 < A ^ 4 := one_lt_pow₀ hA1 (by norm_num)
  have h3 : (1 - A) ^ 2 < A ^ 4 * (1 - A) ^ 2 := by
    have := mul_lt_mul_of_pos_right h2 h1
    linarith
  calc (1 - A) ^ 2 + (k * A ^ 2 * r) ^ 2 < A ^ 4 * (1 - A) ^ 2 + (k * A ^ 2 * r) ^ 2 := by linarith
    _ = (A ^ 2) ^ 2 * ((1 - A) ^ 2 + (k * r) ^ 2) := by ring

example : Valid 1000 (1/2) 48000 ∧ (0 : ℝ) < 6 := ⟨⟨by norm_num, by norm_num, by norm_num, by norm_num⟩, by norm_num⟩

/-- The bell does reach its gain, at another frequency: where the tangent is smaller by the square root of the amplitude. -/
theorem C61_bell_elsewhere (q gain : ℝ) (hq : 0 < q) :
    normSq (proto .bell (kOf .bell q gain) (amp gain) (I * (1 : ℝ))) = wanted .bell q gain := by
  have hA := amp_pos gain
  have hs := amp_sq gain
  have : proto .bell (kOf .bell q gain) (amp gain) (I * (1 : ℝ))
      = ((0 : ℝ) + (1 / (q * amp gain) * amp gain ^ 2 : ℝ) * I) / ((0 : ℝ) + (1 / (q * amp gain) : ℝ) * I) := by
    simp only [proto, kOf]; push_cast; congr 1
    · linear_combination Complex.I_sq
    · linear_combination Complex.I_sq
  rw [this, normSq_frac]; simp only [wanted]
  rw [← hs]
  field_simp
  ring

/-! ## The textbook filters

The prototypes in the form in which they are usually given (Bristow-Johnson's cookbook), in terms of the parameters of the
filter alone: `Q` and `A² = ` the amplitude of the gain, with `s = i` at the cutoff frequency. -/

/-- Specification: the textbook prototypes. -/
noncomputable def textbook (ty : Ty) (q A : ℝ) (s : ℂ) : ℂ :=
  let r : ℂ := (Real.sqrt A : ℝ)
  let d := s ^ 2 + s / q + 1
  match ty with
  | .low => 1 / d
  | .high => s ^ 2 / d
  | .band => s / d
  | .notch => (s ^ 2 + 1) / d
  | .peak => (s ^ 2 - 1) / d
  | .all => (s ^ 2 - s / q + 1) / d
  | .bell => (s ^ 2 + s * (A / q) + 1) / (s ^ 2 + s / (A * q) + 1)
  | .lowShelf => A * ((s ^ 2 + r / q * s + A) / (A * s ^ 2 + r / q * s + 1))
  | .highShelf => A * ((A * s ^ 2 + r / q * s + 1) / (s ^ 2 + r / q * s + A))

/-- Specification: the frequency of the analogue filter that belongs to the angle `θ` per sample by the bilinear transform
that leaves the cutoff frequency in place. -/
noncomputable def warped (cutoff sr θ : ℝ) : ℝ := Real.tan (θ / 2) / Real.tan (Real.pi * cutoff / sr)

theorem proto_textbook (ty : Ty) (cutoff q gain sr : ℝ) (hv : Valid cutoff q sr) (hty : ty ≠ .bell) (θ : ℝ) :
    proto ty (kOf ty q gain) (amp gain) (I * (Real.tan (θ / 2) / gOf ty cutoff gain sr : ℝ))
      = textbook ty q (amp gain) (I * (warped cutoff sr θ : ℝ)) := by
  have hA := amp_pos gain
  have hr := Real.sqrt_pos.2 hA
  have hrr : ((Real.sqrt (amp gain) : ℝ) : ℂ) ^ 2 = (amp gain : ℝ) := by exact_mod_cast Real.sq_sqrt hA.le
  have hrn : ((Real.sqrt (amp gain) : ℝ) : ℂ) ≠ 0 := by exact_mod_cast ne_of_gt hr
  have hAn : ((amp gain : ℝ) : ℂ) ≠ 0 := by exact_mod_cast ne_of_gt hA
  have ht := tan_pos cutoff q sr hv
  have e1 : Real.tan (θ / 2) / (Real.tan (Real.pi * cutoff / sr) / Real.sqrt (amp gain))
      = Real.sqrt (amp gain) * warped cutoff sr θ := by
    rw [warped]; field_simp
  have e2 : Real.tan (θ / 2) / (Real.tan (Real.pi * cutoff / sr) * Real.sqrt (amp gain))
      = warped cutoff sr θ / Real.sqrt (amp gain) := by
    rw [warped]; field_simp
  cases ty with
  | bell => exact absurd rfl hty
  | lowShelf =>
    simp only [proto, textbook, kOf, gOf]
    rw [e1]
    push_cast
    generalize (warped cutoff sr θ : ℂ) = w
    generalize (Real.sqrt (amp gain) : ℂ) = r at *
    rw [← hrr, ← mul_div_assoc]
    congr 1 <;> ring
  | highShelf =>
    simp only [proto, textbook, kOf, gOf]
    rw [e2]
    push_cast
    generalize (warped cutoff sr θ : ℂ) = w
    generalize (Real.sqrt (amp gain) : ℂ) = r at *
    rw [← hrr, ← mul_div_assoc, ← mul_div_mul_left _ _ (pow_ne_zero 2 hrn)]
    field_simp
  | _ =>
    simp only [proto, textbook, kOf, gOf, warped]
    push_cast
    congr 1
    all_goals ring

/-- **C61, the named filters**: for all valid settings, every type but the bell turns a sinusoid of any frequency below half
of the sample rate into the sinusoid that the textbook filter of that name makes of it, whatever the state it starts from. -/
theorem C61_textbook_partial (ty : Ty) (cutoff q gain sr : ℝ) (hv : Valid cutoff q sr) (hty : ty ≠ .bell) (θ : ℝ)
    (hθ : -Real.pi < θ ∧ θ < Real.pi) (z : ℂ) (s : Ic ℝ) :
    ∃ ρ M : ℝ, ∃ co, setCoeffs real ty cutoff q gain sr = some co ∧ 0 ≤ ρ ∧ ρ < 1 ∧ ∀ N n : Nat, n < N →
      ∃ y, (outs co s ((List.range N).map fun n : Nat => (z * exp (I * θ) ^ n).re))[n]? = some y ∧
        (y - (textbook ty q (amp gain) (I * (warped cutoff sr θ : ℝ)) * (z * exp (I * θ) ^ n)).re) ^ 2 ≤ M * ρ ^ n := by
  obtain ⟨c, ρ, M, co, h1, rfl, h3, h4, h5⟩ := C61_response ty cutoff q gain sr hv θ hθ z s
  refine ⟨ρ, M, co, h1, h3, h4, ?_⟩
  rw [← proto_textbook ty cutoff q gain sr hv hty θ]
  exact h5

example : Valid 1000 (1/2) 48000 ∧ Ty.lowShelf ≠ .bell ∧ -Real.pi < 1 ∧ 1 < Real.pi :=
  ⟨⟨by norm_num, by norm_num, by norm_num, by norm_num⟩, by decide, by linarith [Real.two_le_pi],
    by linarith [Real.two_le_pi]⟩

/-! ## Constant and alternating inputs -/

/-- Specification: the gain for a constant input. -/
noncomputable def dcGain (ty : Ty) (gain : ℝ) : ℝ :=
  match ty with
  | .low | .notch | .all | .bell | .highShelf => 1
  | .high | .band => 0
  | .peak => -1
  | .lowShelf => fromDb gain

/-- Specification: the gain for an input that alternates, half of the sample rate. -/
noncomputable def nyquistGain (ty : Ty) (gain : ℝ) : ℝ :=
  match ty with
  | .high | .notch | .peak | .all | .bell | .lowShelf => 1
  | .low | .band => 0
  | .highShelf => fromDb gain

theorem C61_constant (ty : Ty) (k gain : ℝ) :
    proto ty k (amp gain) 0 = (dcGain ty gain : ℝ) := by
  have hs := amp_sq gain
  cases ty <;> simp [proto, dcGain]
  rw [← hs]
  push_cast
  rfl

/-- **C61, alternating input**: whatever state the filter starts from, its output approaches the gain at half of the sample
rate times the input. -/
theorem C61_alternating (ty : Ty) (cutoff q gain sr : ℝ) (hv : Valid cutoff q sr) (x : ℝ) (s : Ic ℝ) :
    ∃ ρ M : ℝ, ∃ co, setCoeffs real ty cutoff q gain sr = some co ∧ 0 ≤ ρ ∧ ρ < 1 ∧ ∀ N n : Nat, n < N →
        ∃ y, (outs co s ((List.range N).map fun n : Nat => x * (-1) ^ n))[n]? = some y ∧
          (y - nyquistGain ty gain * (x * (-1) ^ n)) ^ 2 ≤ M * ρ ^ n := by
  obtain ⟨co, h1, h2, h3⟩ := setCoeffs_spec ty cutoff q gain sr hv
  have hg := gOf_pos ty cutoff q gain sr hv
  have hk := kOf_pos ty cutoff q gain sr hv
  obtain ⟨hr0, hr1⟩ := rho_range _ _ hg hk
  have hm : co.m0 = nyquistGain ty gain := by
    have hs := amp_sq gain
    rw [h3.1]
    cases ty <;> simp only [mixOf, nyquistGain]
    rw [← hs]; ring
  generalize hgg : gOf ty cutoff gain sr = g at *
  generalize hkk : kOf ty q gain = k at *
  have stp : ∀ x : ℝ, step co ⟨-g * x, 0⟩ x = (⟨-g * -x, 0⟩, co.m0 * x) := by
    intro x
    have hv1 : v1 g k ⟨-g * x, 0⟩ x = 0 := by
      simp only [v1]
      have : -g * x + g * (x - 0) = 0 := by ring
      rw [this, zero_div]
    have hv2 : v2 g k ⟨-g * x, 0⟩ x = 0 := by
      simp only [v2, hv1]; ring
    rw [step_eq co g k h2, hv1, hv2]
    simp
  have st : ∀ (N : Nat) (x : ℝ), outs co ⟨-g * x, 0⟩ ((List.range N).map fun n : Nat => x * (-1) ^ n)
      = (List.range N).map fun n : Nat => co.m0 * (x * (-1) ^ n) := by
    intro N
    induction N with
    | zero => intro x; rfl
    | succ N ih =>
      intro x
      have e : ∀ n : Nat, x * (-1) ^ n.succ = -x * (-1) ^ n := fun n => by rw [pow_succ]; ring
      rw [List.range_succ_eq_map, List.map_cons, List.map_map, outs, pow_zero, mul_one, stp]
      rw [List.map_cons, List.map_map, pow_zero, mul_one]
      congr 1
      have h1 := ih (-x)
      simp only [Function.comp_def, e]
      exact h1
  refine ⟨rho g k, outGain co g k * lyap k (s.sub ⟨-g * x, 0⟩), co, h1, hr0, hr1, ?_⟩
  intro N n hn
  obtain ⟨y, y', h4, h5, h6⟩ := C60_forgets co g k hg hk h2
    ((List.range N).map fun n : Nat => x * (-1) ^ n) s ⟨-g * x, 0⟩ n (by simpa using hn)
  rw [st, List.getElem?_map, List.getElem?_eq_getElem (by simpa using hn), List.getElem_range, Option.map_some,
    Option.some.injEq] at h5
  exact ⟨y, h4, by rw [← hm, h5]; exact h6⟩

end Verif.Fi
