import Verif.Model.PolyBlep
import Mathlib.MeasureTheory.Integral.IntervalIntegral.FundThmCalculus
import Mathlib.Analysis.SpecialFunctions.Integrals.Basic
import Mathlib.Algebra.Order.Floor.Ring
import Mathlib.Tactic.FieldSimp
import Mathlib.Tactic.LinearCombination

/-!
# Smoothing a waveform

`Smoothed f d t v`: the mean of the waveform `f` around the phase `t`, with weights that fall linearly to zero at the distance
`d` (the phase that passes in a sample), exists and is `v`.
-/

namespace Verif.Pb

open MeasureTheory Set

/-- The mean of `f` around `t`, weighted with a triangle of half width `d`. -/
def Smoothed (f : ℝ → ℝ) (d t v : ℝ) : Prop :=
  IntervalIntegrable (fun u => (1 - |u|) * f (t + d * u)) volume (-1) 1 ∧
    ∫ u in (-1 : ℝ)..1, (1 - |u|) * f (t + d * u) = v

/-- The integral of a function that is a derivative on an interval. -/
theorem piece {a b : ℝ} (hab : a ≤ b) {f F p : ℝ → ℝ} (h : ∀ u ∈ Ioo a b, f u = p u) (hF : ∀ u, HasDerivAt F (p u) u)
    (hp : Continuous p) : IntervalIntegrable f volume a b ∧ ∫ u in a..b, f u = F b - F a := by
  have hi := hp.intervalIntegrable (μ := volume) a b
  constructor
  · refine hi.congr_ae ?_
    rw [uIoc_of_le hab, ← Measure.restrict_congr_set Ioo_ae_eq_Ioc]
    exact (ae_restrict_iff' measurableSet_Ioo).2 (Filter.Eventually.of_forall fun u hu => (h u hu).symm)
  · rw [intervalIntegral.integral_congr_Ioo_of_le hab h]
    exact intervalIntegral.integral_eq_sub_of_hasDerivAt (fun x _ => hF x) hi

theorem glue {a b c v w : ℝ} {f : ℝ → ℝ} (h1 : IntervalIntegrable f volume a b ∧ ∫ u in a..b, f u = v)
    (h2 : IntervalIntegrable f volume b c ∧ ∫ u in b..c, f u = w) :
    IntervalIntegrable f volume a c ∧ ∫ u in a..c, f u = v + w :=
  ⟨h1.1.trans h2.1, by rw [← intervalIntegral.integral_add_adjacent_intervals h1.1 h2.1, h1.2, h2.2]⟩

theorem Smoothed.add {f g : ℝ → ℝ} {d t v w : ℝ} (h1 : Smoothed f d t v) (h2 : Smoothed g d t w) :
    Smoothed (fun x => f x + g x) d t (v + w) := by
  have e : (fun u => (1 - |u|) * (f (t + d * u) + g (t + d * u)))
      = fun u => (1 - |u|) * f (t + d * u) + (1 - |u|) * g (t + d * u) := by
    funext u; ring
  refine ⟨?_, ?_⟩
  · rw [e]; exact h1.1.add h2.1
  · rw [e, intervalIntegral.integral_add h1.1 h2.1, h1.2, h2.2]

theorem Smoothed.mul {f : ℝ → ℝ} {d t v : ℝ} (c : ℝ) (h1 : Smoothed f d t v) : Smoothed (fun x => c * f x) d t (c * v) := by
  have e : (fun u => (1 - |u|) * (c * f (t + d * u))) = fun u => c * ((1 - |u|) * f (t + d * u)) := by
    funext u; ring
  refine ⟨?_, ?_⟩
  · rw [e]; exact h1.1.const_mul c
  · rw [e, intervalIntegral.integral_const_mul, h1.2]

theorem Smoothed.sub {f g : ℝ → ℝ} {d t v w : ℝ} (h1 : Smoothed f d t v) (h2 : Smoothed g d t w) :
    Smoothed (fun x => f x - g x) d t (v - w) := by
  have := h1.add (h2.mul (-1))
  convert this using 1
  · funext x; ring
  · ring

theorem Smoothed.shift {f : ℝ → ℝ} {d t v : ℝ} (c : ℝ) (h1 : Smoothed f d (t + c) v) : Smoothed (fun x => f (x + c)) d t v := by
  have e : (fun u => (1 - |u|) * f (t + d * u + c)) = fun u => (1 - |u|) * f (t + c + d * u) := by
    funext u; congr 2; ring
  exact ⟨by rw [e]; exact h1.1, by rw [e]; exact h1.2⟩

theorem Smoothed.unique {f : ℝ → ℝ} {d t v w : ℝ} (h1 : Smoothed f d t v) (h2 : Smoothed f d t w) : v = w :=
  h1.2.symm.trans h2.2

/-- The weights. -/
theorem weight_cont : Continuous fun u : ℝ => 1 - |u| := continuous_const.sub continuous_abs

theorem weights : IntervalIntegrable (fun u : ℝ => 1 - |u|) volume (-1) 1 ∧ ∫ u in (-1 : ℝ)..1, (1 - |u|) = 1 := by
  have h1 := piece (a := -1) (b := 0) (by norm_num) (f := fun u : ℝ => 1 - |u|) (F := fun u => u + u ^ 2 / 2) (p := fun u => 1 + u)
    (fun u hu => by rw [abs_of_neg hu.2]; ring)
    (fun u => ((hasDerivAt_id' u).add ((hasDerivAt_pow 2 u).div_const 2)).congr_deriv (by push_cast; ring))
    (by fun_prop)
  have h2 := piece (a := 0) (b := 1) (by norm_num) (f := fun u : ℝ => 1 - |u|) (F := fun u => u - u ^ 2 / 2) (p := fun u => 1 - u)
    (fun u hu => by rw [abs_of_pos hu.1])
    (fun u => ((hasDerivAt_id' u).sub ((hasDerivAt_pow 2 u).div_const 2)).congr_deriv (by push_cast; ring))
    (by fun_prop)
  have := glue h1 h2
  refine ⟨this.1, this.2.trans (by norm_num)⟩

/-- Without any width, the mean is the value. -/
theorem Smoothed.zero (f : ℝ → ℝ) (t : ℝ) : Smoothed f 0 t (f t) := by
  have e : (fun u : ℝ => (1 - |u|) * f (t + 0 * u)) = fun u => (1 - |u|) * f t := by
    funext u; rw [zero_mul, add_zero]
  refine ⟨?_, ?_⟩
  · rw [e]; exact weights.1.mul_const _
  · rw [e, intervalIntegral.integral_mul_const, weights.2, one_mul]

theorem Smoothed.const (c d t : ℝ) : Smoothed (fun _ => c) d t c := by
  have := Smoothed.zero (fun _ => c) t
  simpa [Smoothed] using this

/-- A mean stays within the range of the waveform. -/
theorem Smoothed.range {f : ℝ → ℝ} {d t v lo hi : ℝ} (h : Smoothed f d t v) (hf : ∀ x, lo ≤ f x ∧ f x ≤ hi) : lo ≤ v ∧ v ≤ hi := by
  have hc : ∀ c : ℝ, IntervalIntegrable (fun u : ℝ => (1 - |u|) * c) volume (-1) 1 ∧ ∫ u in (-1 : ℝ)..1, (1 - |u|) * c = c :=
    fun c => ⟨weights.1.mul_const _, by rw [intervalIntegral.integral_mul_const, weights.2, one_mul]⟩
  have hw : ∀ u ∈ Icc (-1 : ℝ) 1, 0 ≤ 1 - |u| := fun u hu => by
    have := abs_le.2 ⟨hu.1, hu.2⟩
    linarith
  constructor
  · rw [← h.2, ← (hc lo).2]
    exact intervalIntegral.integral_mono_on (by norm_num) (hc lo).1 h.1
      fun u hu => mul_le_mul_of_nonneg_left (hf _).1 (hw u hu)
  · rw [← h.2]
    conv_rhs => rw [← (hc hi).2]
    exact intervalIntegral.integral_mono_on (by norm_num) h.1 (hc hi).1
      fun u hu => mul_le_mul_of_nonneg_left (hf _).2 (hw u hu)

/-! ## Waveforms that are a polynomial of the phase -/

theorem up {f : ℝ → ℝ} {d t l r A B C : ℝ} (hlr : l ≤ r) (hr : r ≤ 0)
    (h : ∀ u ∈ Ioo l r, f (t + d * u) = A + B * u + C * u ^ 2) :
    IntervalIntegrable (fun u => (1 - |u|) * f (t + d * u)) volume l r ∧ ∫ u in l..r, (1 - |u|) * f (t + d * u) =
      (A * r + (A + B) * r ^ 2 / 2 + (B + C) * r ^ 3 / 3 + C * r ^ 4 / 4)
        - (A * l + (A + B) * l ^ 2 / 2 + (B + C) * l ^ 3 / 3 + C * l ^ 4 / 4) := by
  refine piece hlr (F := fun u => A * u + (A + B) * u ^ 2 / 2 + (B + C) * u ^ 3 / 3 + C * u ^ 4 / 4)
    (p := fun u => (1 + u) * (A + B * u + C * u ^ 2)) ?_ ?_ (by fun_prop)
  · intro u hu
    rw [h u hu, abs_of_neg (lt_of_lt_of_le hu.2 hr)]
    ring
  · intro u
    have h1 := ((hasDerivAt_id' u).const_mul A)
    have h2 := ((hasDerivAt_pow 2 u).const_mul (A + B)).div_const 2
    have h3 := ((hasDerivAt_pow 3 u).const_mul (B + C)).div_const 3
    have h4 := ((hasDerivAt_pow 4 u).const_mul C).div_const 4
    exact (((h1.add h2).add h3).add h4).congr_deriv (by push_cast; ring)

theorem down {f : ℝ → ℝ} {d t l r A B C : ℝ} (hlr : l ≤ r) (hl : 0 ≤ l)
    (h : ∀ u ∈ Ioo l r, f (t + d * u) = A + B * u + C * u ^ 2) :
    IntervalIntegrable (fun u => (1 - |u|) * f (t + d * u)) volume l r ∧ ∫ u in l..r, (1 - |u|) * f (t + d * u) =
      (A * r + (B - A) * r ^ 2 / 2 + (C - B) * r ^ 3 / 3 - C * r ^ 4 / 4)
        - (A * l + (B - A) * l ^ 2 / 2 + (C - B) * l ^ 3 / 3 - C * l ^ 4 / 4) := by
  refine piece hlr (F := fun u => A * u + (B - A) * u ^ 2 / 2 + (C - B) * u ^ 3 / 3 - C * u ^ 4 / 4)
    (p := fun u => (1 - u) * (A + B * u + C * u ^ 2)) ?_ ?_ (by fun_prop)
  · intro u hu
    rw [h u hu, abs_of_pos (lt_of_le_of_lt hl hu.1)]
  · intro u
    have h1 := ((hasDerivAt_id' u).const_mul A)
    have h2 := ((hasDerivAt_pow 2 u).const_mul (B - A)).div_const 2
    have h3 := ((hasDerivAt_pow 3 u).const_mul (C - B)).div_const 3
    have h4 := ((hasDerivAt_pow 4 u).const_mul C).div_const 4
    exact (((h1.add h2).add h3).sub h4).congr_deriv (by push_cast; ring)

/-- The periodic continuation of a polynomial. -/
noncomputable def per (α β γ : ℝ) (y : ℝ) : ℝ := α + β * Int.fract y + γ * Int.fract y ^ 2

theorem per_at {α β γ y : ℝ} (n : ℤ) (h0 : (n : ℝ) ≤ y) (h1 : y < n + 1) : per α β γ y = α + β * (y - n) + γ * (y - n) ^ 2 := by
  have : ⌊y⌋ = n := Int.floor_eq_iff.2 ⟨h0, h1⟩
  rw [per, Int.fract, this]

/-- What the smoothing adds at the jump and the corner. -/
noncomputable def corner (j c x d : ℝ) : ℝ :=
  if x < d then j * (1 - x / d) ^ 2 / 2 - c * d * (1 - x / d) ^ 3 / 3
  else if 1 - d < x then -(j * ((x - 1) / d + 1) ^ 2 / 2) - c * d * ((x - 1) / d + 1) ^ 3 / 3
  else 0

theorem per_smoothed (α β γ x d : ℝ) (hx0 : 0 ≤ x) (hx1 : x < 1) (hd : 0 < d) (hd2 : d ≤ 1 / 2) :
    Smoothed (per α β γ) d x (α + β * x + γ * x ^ 2 + γ * d ^ 2 / 6 + corner (β + γ) γ x d) := by
  have base : ∀ {l r : ℝ} (n : ℤ), (n : ℝ) ≤ x + d * l → x + d * r ≤ n + 1 → ∀ u ∈ Ioo l r, per α β γ (x + d * u)
      = (α + β * (x - n) + γ * (x - n) ^ 2) + (β * d + 2 * γ * (x - n) * d) * u + γ * d ^ 2 * u ^ 2 := by
    intro l r n h1 h2 u hu
    have h3 := mul_lt_mul_of_pos_left hu.1 hd
    have h4 := mul_lt_mul_of_pos_left hu.2 hd
    rw [per_at n (by linarith) (by linarith)]
    ring
  unfold corner
  split
  · rename_i hlt
    have hc0 : -1 ≤ -(x / d) := by
      have : x / d ≤ 1 := (div_le_one hd).2 hlt.le
      linarith
    have hc1 : -(x / d) ≤ 0 := by
      have : 0 ≤ x / d := by positivity
      linarith
    have hm : d * -(x / d) = -x := by field_simp
    have h1 := up hc0 hc1 (base (-1) (l := -1) (r := -(x / d)) (by push_cast; linarith) (by rw [hm]; push_cast; linarith))
    have h2 := up hc1 le_rfl (base 0 (l := -(x / d)) (r := 0) (by rw [hm]; push_cast; linarith) (by push_cast; linarith))
    have h3 := down zero_le_one le_rfl (base 0 (l := 0) (r := 1) (by push_cast; linarith) (by push_cast; linarith))
    have h := glue (glue h1 h2) h3
    refine ⟨h.1, h.2.trans ?_⟩
    generalize hz : x / d = z at *
    have : x = z * d := by rw [← hz]; field_simp
    subst this
    push_cast
    ring
  · split
    · rename_i hge hlt
      have hc0 : 0 ≤ (1 - x) / d := div_nonneg (by linarith) hd.le
      have hc1 : (1 - x) / d ≤ 1 := (div_le_one hd).2 (by linarith)
      have hm : d * ((1 - x) / d) = 1 - x := by field_simp
      have h1 := up (by norm_num) le_rfl (base 0 (l := -1) (r := 0) (by push_cast; linarith) (by push_cast; linarith))
      have h2 := down hc0 le_rfl (base 0 (l := 0) (r := (1 - x) / d) (by push_cast; linarith) (by rw [hm]; push_cast; linarith))
      have h3 := down hc1 hc0 (base 1 (l := (1 - x) / d) (r := 1) (by rw [hm]; push_cast; linarith) (by push_cast; linarith))
      have h := glue (glue h1 h2) h3
      refine ⟨h.1, h.2.trans ?_⟩
      have e : (x - 1) / d + 1 = 1 - (1 - x) / d := by ring
      rw [e]
      generalize hz : (1 - x) / d = z at *
      have : x = 1 - z * d := by rw [← hz]; field_simp; ring
      subst this
      push_cast
      ring
    · rename_i hge hle
      have h1 := up (by norm_num) le_rfl (base 0 (l := -1) (r := 0) (by push_cast; linarith) (by push_cast; linarith))
      have h3 := down zero_le_one le_rfl (base 0 (l := 0) (r := 1) (by push_cast; linarith) (by push_cast; linarith))
      have h := glue h1 h3
      refine ⟨h.1, h.2.trans ?_⟩
      push_cast
      ring

theorem per_add_int (α β γ y : ℝ) (n : ℤ) : per α β γ (y + n) = per α β γ y := by
  rw [per, per, Int.fract_add_intCast]

/-- The phase only matters up to whole turns. -/
theorem Smoothed.turn {f : ℝ → ℝ} (hf : ∀ (y : ℝ) (n : ℤ), f (y + n) = f y) {d t v : ℝ} (n : ℤ) (h : Smoothed f d t v) :
    Smoothed f d (t + n) v := by
  have e : (fun u : ℝ => (1 - |u|) * f (t + n + d * u)) = fun u => (1 - |u|) * f (t + d * u) := by
    funext u
    rw [show t + n + d * u = t + d * u + n by ring, hf]
  exact ⟨by rw [e]; exact h.1, by rw [e]; exact h.2⟩

/-! ## The corrections of the code -/

/-- `blep`, as a number. -/
noncomputable def blepR (t dt : ℝ) : ℝ := corner (-2) 0 t dt
/-- `blamp`, as a number. -/
noncomputable def blampR (t dt : ℝ) : ℝ :=
  if t < dt then (1 - t / dt) ^ 3 / 3 else if 1 - dt < t then ((t - 1) / dt + 1) ^ 3 / 3 else 0

theorem blep_eq {t dt : ℝ} (h0 : 0 ≤ t) (h1 : t < 1) : blep t dt = some (blepR t dt) := by
  unfold blep blepR corner divO square
  split
  · have : dt ≠ 0 := by linarith
    simp [this]; ring
  · split
    · have : dt ≠ 0 := by intro h; linarith
      simp [this]; ring
    · rfl

theorem blamp_eq {t dt : ℝ} (h0 : 0 ≤ t) (h1 : t < 1) : blamp t dt = some (blampR t dt) := by
  unfold blamp blampR divO square
  split
  · have : dt ≠ 0 := by linarith
    simp [this]; ring
  · split
    · have : dt ≠ 0 := by intro h; linarith
      simp [this]; ring
    · rfl

theorem wrapped_eq {x : ℝ} (h : 0 ≤ x) : wrapped x = Int.fract x := by
  rw [wrapped, trunc, if_pos h]; rfl

/-- The falling ramp without correction. -/
noncomputable def ramp0 : ℝ → ℝ := per 1 (-2) 0
/-- A parabola, with a corner at every turn. -/
noncomputable def para : ℝ → ℝ := per 0 (-1) 1

/-- The corrected ramp is the smoothed ramp. -/
theorem ramp_smoothed (t d : ℝ) (hd : 0 ≤ d) (hd2 : d ≤ 1 / 2) :
    Smoothed ramp0 d t (ramp0 t + blepR (Int.fract t) d) := by
  rcases hd.eq_or_lt with rfl | hd
  · have : blepR (Int.fract t) 0 = 0 := by
      have h0 := Int.fract_nonneg t
      have h1 := Int.fract_lt_one t
      simp [blepR, corner, not_lt.2 h0, not_lt.2 h1.le]
    rw [this, add_zero]
    exact Smoothed.zero _ t
  · have h := per_smoothed 1 (-2) 0 (Int.fract t) d (Int.fract_nonneg t) (Int.fract_lt_one t) hd hd2
    have h' := h.turn (fun y n => per_add_int _ _ _ y n) ⌊t⌋
    rw [Int.fract_add_floor] at h'
    have e : ramp0 t + blepR (Int.fract t) d
        = 1 + -2 * Int.fract t + 0 * Int.fract t ^ 2 + 0 * d ^ 2 / 6 + corner (-2 + 0) 0 (Int.fract t) d := by
      rw [show (-2 : ℝ) + 0 = -2 by norm_num, ramp0, per, blepR]
      ring
    rw [e]
    exact h'

theorem para_smoothed (t d : ℝ) (hd : 0 ≤ d) (hd2 : d ≤ 1 / 2) :
    Smoothed para d t (para t + d ^ 2 / 6 - d * blampR (Int.fract t) d) := by
  rcases hd.eq_or_lt with rfl | hd
  · have := Smoothed.zero para t
    simpa using this
  · have h := per_smoothed 0 (-1) 1 (Int.fract t) d (Int.fract_nonneg t) (Int.fract_lt_one t) hd hd2
    have h' := h.turn (fun y n => per_add_int _ _ _ y n) ⌊t⌋
    rw [Int.fract_add_floor] at h'
    have e : para t + d ^ 2 / 6 - d * blampR (Int.fract t) d
        = 0 + -1 * Int.fract t + 1 * Int.fract t ^ 2 + 1 * d ^ 2 / 6 + corner (-1 + 1) 1 (Int.fract t) d := by
      simp only [para, per, blampR, corner]
      split
      · ring
      · split <;> ring
    rw [e]
    exact h'

end Verif.Pb
