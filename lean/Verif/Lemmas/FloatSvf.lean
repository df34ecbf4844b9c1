import Verif.Model.FloatSvf
import Verif.Props.SvfModulated
import Verif.Lemmas.Ieee
import Verif.Lemmas.IeeeSigned
import Verif.Props.FloatFilter

/-!
# The state variable filter in floating point: errors of a step (for C90)
-/

namespace Verif.Fl

open Verif.Fi (Fns divO Ty Coef Ic Svf SvOp Box energy tilt step)

/-! ### Errors of single operations -/

/-- A rounded result: relative error `u`, or absolute error `τ` for tiny numbers. -/
def Near (u τ z' z : ℝ) : Prop := |z' - z| ≤ u * |z| + τ

theorem add_near {u τ a b A B α β S p : ℝ} (hu : 0 ≤ u) (ha : |a - A| ≤ α) (hb : |b - B| ≤ β) (hS : |A + B| ≤ S)
    (hp : Near u τ p (a + b)) : |p - (A + B)| ≤ α + β + u * (S + α + β) + τ := by
  have h1 : |a + b - (A + B)| ≤ α + β := by
    rw [show a + b - (A + B) = (a - A) + (b - B) by ring]
    exact le_trans (abs_add_le _ _) (by linarith)
  have h2 : |a + b| ≤ S + α + β := by
    have := abs_add_le (A + B) (a + b - (A + B))
    rw [add_sub_cancel] at this
    linarith
  have h3 : u * |a + b| ≤ u * (S + α + β) := mul_le_mul_of_nonneg_left h2 hu
  have h4 := abs_add_le (p - (a + b)) (a + b - (A + B))
  rw [sub_add_sub_cancel] at h4
  have h5 : |p - (a + b)| ≤ u * |a + b| + τ := hp
  linarith

theorem mul_near {u τ a v A V α ε D p : ℝ} (hu : 0 ≤ u) (ha : |a - A| ≤ α) (hA : |A| ≤ 1) (hv : |v - V| ≤ ε) (hV : |V| ≤ D)
    (hp : Near u τ p (a * v)) : |p - A * V| ≤ ε + α * (D + ε) + u * ((1 + α) * (D + ε)) + τ := by
  have hα : 0 ≤ α := le_trans (abs_nonneg _) ha
  have hε : 0 ≤ ε := le_trans (abs_nonneg _) hv
  have h1 : |v| ≤ D + ε := by
    have := abs_add_le V (v - V)
    rw [add_sub_cancel] at this
    linarith
  have h2 : |a| ≤ 1 + α := by
    have := abs_add_le A (a - A)
    rw [add_sub_cancel] at this
    linarith
  have h3 : |a * v - A * V| ≤ ε + α * (D + ε) := by
    rw [show a * v - A * V = (a - A) * v + A * (v - V) by ring]
    refine le_trans (abs_add_le _ _) ?_
    rw [abs_mul, abs_mul]
    have e1 : |a - A| * |v| ≤ α * (D + ε) := mul_le_mul ha h1 (abs_nonneg _) hα
    have e2 : |A| * |v - V| ≤ 1 * ε := mul_le_mul hA hv (abs_nonneg _) (by norm_num)
    linarith
  have h4 : |a * v| ≤ (1 + α) * (D + ε) := by
    rw [abs_mul]
    exact mul_le_mul h2 h1 (abs_nonneg _) (by linarith)
  have h5 : u * |a * v| ≤ u * ((1 + α) * (D + ε)) := mul_le_mul_of_nonneg_left h4 hu
  have h6 := abs_add_le (p - a * v) (a * v - A * V)
  rw [sub_add_sub_cancel] at h6
  have h7 : |p - a * v| ≤ u * |a * v| + τ := hp
  linarith

/-! ### The coefficients -/

theorem small_mul {u x : ℝ} (hu' : u ≤ 1 / 1600) (hx : 0 ≤ x) : u * x ≤ x / 1600 := by
  have := mul_le_mul_of_nonneg_right hu' hx
  linarith

/-- The product of an approximated number. -/
theorem scale_near {u τ g a A e p : ℝ} (hu : 0 ≤ u) (hg : 0 < g) (hA : 0 ≤ A) (ha : |a - A| ≤ e) (hp : Near u τ p (g * a)) :
    |p - g * A| ≤ g * e + u * (g * A + g * e) + τ := by
  have h1 : |g * a - g * A| ≤ g * e := by
    rw [← mul_sub, abs_mul, abs_of_pos hg]
    exact mul_le_mul_of_nonneg_left ha hg.le
  have h2 := abs_add_le (p - g * a) (g * a - g * A)
  rw [sub_add_sub_cancel] at h2
  have h3 : |g * a| ≤ g * A + g * e := by
    have := abs_add_le (g * A) (g * a - g * A)
    rw [add_sub_cancel, abs_of_nonneg (show 0 ≤ g * A by positivity)] at this
    linarith
  have h4 := mul_le_mul_of_nonneg_left h3 hu
  have h5 : |p - g * a| ≤ u * |g * a| + τ := hp
  linarith

/-- The denominator. -/
theorem denom_near {u τ g k d h w : ℝ} (hu : 0 ≤ u) (hu' : u ≤ 1 / 1600) (hτ : 0 ≤ τ) (hg : 0 < g) (hk : 0 < k)
    (ht : τ * (2 + 2 * g) ^ 2 ≤ u) (n1 : Near u τ d (g + k)) (n2 : Near u τ h (g * d)) (n3 : Near u τ w (1 + h)) :
    |w - (1 + g * (g + k))| ≤ 4 * (u * (1 + g * (g + k))) := by
  have hgk : 0 < g + k := by linarith
  have n1' : |d - (g + k)| ≤ u * (g + k) + τ := by
    have : |d - (g + k)| ≤ u * |g + k| + τ := n1
    rwa [abs_of_pos hgk] at this
  have e3 := scale_near hu hg hgk.le n1' n2
  have hH : 0 < g * (g + k) := by positivity
  have huH : 0 ≤ u * (g * (g + k)) := by positivity
  have q1 := small_mul hu' huH
  have q2 : u * (g * τ) ≤ g * τ / 1600 := small_mul hu' (by positivity)
  have tg : 0 ≤ g * τ := by positivity
  have tg2 : 0 ≤ g ^ 2 * τ := by positivity
  have e4 : |h - g * (g + k)| ≤ 2.1 * (u * (g * (g + k))) + u / 4 := by linarith
  have e5 := add_near hu (a := 1) (A := 1) (α := 0) (by simp) e4 (le_of_eq (abs_of_pos (show 0 < 1 + g * (g + k) by positivity))) n3
  have q3 := small_mul hu' hu
  linarith

theorem inv_near {u W w : ℝ} (hu : 0 ≤ u) (hu' : u ≤ 1 / 1600) (hW : 0 < W) (h : |w - W| ≤ 4 * (u * W)) :
    0 < w ∧ |1 / w - 1 / W| ≤ 4.1 * (u * (1 / W)) := by
  have uW := small_mul hu' hW.le
  have hw : 399 / 400 * W ≤ w := by
    have := (abs_le.1 h).1
    linarith
  have hwpos : 0 < w := by linarith
  refine ⟨hwpos, ?_⟩
  have e : 1 / w - 1 / W = (W - w) * (1 / w) * (1 / W) := by field_simp
  rw [e, abs_mul, abs_mul, abs_of_pos (show 0 < 1 / W by positivity), abs_of_pos (show 0 < 1 / w by positivity), abs_sub_comm]
  have h1 : W * (1 / w) ≤ 400 / 399 := by
    rw [mul_one_div, div_le_iff₀ hwpos]
    linarith
  have h2 : |w - W| * (1 / w) ≤ 4.1 * u := by
    have h3 : |w - W| * (1 / w) ≤ 4 * (u * W) * (1 / w) := mul_le_mul_of_nonneg_right h (by positivity)
    have h4 : u * (W * (1 / w)) ≤ u * (400 / 399) := mul_le_mul_of_nonneg_left h1 hu
    linarith
  have := mul_le_mul_of_nonneg_right h2 (show 0 ≤ 1 / W by positivity)
  linarith

theorem coef_near {u τ g k d h w a1 a2 a3 : ℝ} (hu : 0 ≤ u) (hu' : u ≤ 1 / 1600) (hτ : 0 ≤ τ) (hg : 0 < g) (hk : 0 < k)
    (ht : τ * (2 + 2 * g) ^ 2 ≤ u) (n1 : Near u τ d (g + k)) (n2 : Near u τ h (g * d)) (n3 : Near u τ w (1 + h))
    (n4 : Near u τ a1 (1 / w)) (n5 : Near u τ a2 (g * a1)) (n6 : Near u τ a3 (g * a2)) :
    0 < w ∧ |a1 - 1 / (1 + g * (g + k))| ≤ 12 * u ∧ |a2 - g * (1 / (1 + g * (g + k)))| ≤ 12 * u ∧
      |a3 - g * (g * (1 / (1 + g * (g + k))))| ≤ 12 * u := by
  have hWpos : 0 < 1 + g * (g + k) := by positivity
  obtain ⟨hw, e6⟩ := inv_near hu hu' hWpos (denom_near hu hu' hτ hg hk ht n1 n2 n3)
  refine ⟨hw, ?_⟩
  have b1 : 1 / (1 + g * (g + k)) ≤ 1 := by
    rw [div_le_one hWpos]
    have : 0 < g * (g + k) := by positivity
    linarith
  have b2 : g * (1 / (1 + g * (g + k))) ≤ 1 := by
    rw [mul_one_div, div_le_one hWpos]
    nlinarith [sq_nonneg (g - 1), mul_pos hg hk]
  have b3 : g * (g * (1 / (1 + g * (g + k)))) ≤ 1 := by
    rw [mul_one_div, mul_div_assoc', div_le_one hWpos]
    nlinarith [mul_pos hg hk]
  have hA : 0 < 1 / (1 + g * (g + k)) := by positivity
  generalize 1 / (1 + g * (g + k)) = A at *
  have gA : 0 < g * A := by positivity
  have ggA : 0 < g * (g * A) := by positivity
  have f1 : 0 ≤ u * A := by positivity
  have f2 : 0 ≤ u * (g * A) := by positivity
  have f3 : 0 ≤ u * (g * (g * A)) := by positivity
  have q1 := small_mul hu' f1
  have q2 := small_mul hu' f2
  have q3 := small_mul hu' f3
  have q4 := small_mul hu' hτ
  have tg : 0 ≤ g * τ := by positivity
  have tg2 : 0 ≤ g * (g * τ) := by positivity
  have q5 := small_mul hu' tg
  have q6 := small_mul hu' tg2
  have e7 : |a1 - A| ≤ 6 * (u * A) + τ := by
    have h1 := abs_add_le (a1 - 1 / w) (1 / w - A)
    rw [sub_add_sub_cancel] at h1
    have h2 : |1 / w| ≤ A + 4.1 * (u * A) := by
      have := abs_add_le A (1 / w - A)
      rw [add_sub_cancel, abs_of_pos hA] at this
      linarith
    have h3 := mul_le_mul_of_nonneg_left h2 hu
    have h4 : |a1 - 1 / w| ≤ u * |1 / w| + τ := n4
    linarith
  have e9 : |a2 - g * A| ≤ 7.1 * (u * (g * A)) + (τ + 2 * (g * τ)) := by
    have := scale_near hu hg hA.le e7 n5
    linarith
  have e11 : |a3 - g * (g * A)| ≤ 8.2 * (u * (g * (g * A))) + (τ + 2 * (g * τ) + 4 * (g * (g * τ))) := by
    have := scale_near hu hg gA.le e9 n6
    linarith
  have c1 := mul_le_mul_of_nonneg_left b1 hu
  have c2 := mul_le_mul_of_nonneg_left b2 hu
  have c3 := mul_le_mul_of_nonneg_left b3 hu
  refine ⟨?_, ?_, ?_⟩ <;> linarith

/-! ### A step -/

theorem step_near {u τ a1 a2 a3 A1 A2 A3 s1 s2 x D v3 p1 p2 v1 q1 q2 q3 v2 t1 r1 t2 r2 : ℝ} (hu : 0 ≤ u) (hu' : u ≤ 1 / 1600) (hτ : 0 ≤ τ)
    (hD : |s1| + |s2| + |x| ≤ D)
    (h1 : |a1 - A1| ≤ 12 * u) (h2 : |a2 - A2| ≤ 12 * u) (h3 : |a3 - A3| ≤ 12 * u) (b1 : |A1| ≤ 1) (b2 : |A2| ≤ 1) (b3 : |A3| ≤ 1)
    (n3 : Near u τ v3 (x - s2)) (np1 : Near u τ p1 (a1 * s1)) (np2 : Near u τ p2 (a2 * v3)) (nv1 : Near u τ v1 (p1 + p2))
    (nq1 : Near u τ q1 (a2 * s1)) (nq2 : Near u τ q2 (s2 + q1)) (nq3 : Near u τ q3 (a3 * v3)) (nv2 : Near u τ v2 (q2 + q3))
    (nt1 : Near u τ t1 (2 * v1)) (nr1 : Near u τ r1 (t1 - s1)) (nt2 : Near u τ t2 (2 * v2)) (nr2 : Near u τ r2 (t2 - s2)) :
    |v1 - (A1 * s1 + A2 * (x - s2))| ≤ 31 * (u * D) + 6 * τ ∧ |v2 - (s2 + A2 * s1 + A3 * (x - s2))| ≤ 34 * (u * D) + 8 * τ ∧
      |r1 - (2 * (A1 * s1 + A2 * (x - s2)) - s1)| ≤ 80 * (u * D) + 20 * τ ∧
      |r2 - (2 * (s2 + A2 * s1 + A3 * (x - s2)) - s2)| ≤ 80 * (u * D) + 20 * τ := by
  have hD0 : 0 ≤ D := by have := abs_nonneg s1; have := abs_nonneg s2; have := abs_nonneg x; linarith
  have d1 : |s1| ≤ D := by have := abs_nonneg s2; have := abs_nonneg x; linarith
  have d2 : |s2| ≤ D := by have := abs_nonneg s1; have := abs_nonneg x; linarith
  have d3 : |x - s2| ≤ D := by
    have := abs_sub x s2
    have := abs_nonneg s1
    linarith
  have f1 : 0 ≤ u * D := by positivity
  have q1' := small_mul hu' f1
  have f2 : 0 ≤ u * (u * D) := by positivity
  have q2' := small_mul hu' f2
  have q3' := small_mul hu' hτ
  have f4 : 0 ≤ u * τ := by positivity
  have q4' := small_mul hu' f4
  have f5 : 0 ≤ u * (u * (u * D)) := by positivity
  have q5' := small_mul hu' f5
  have e3 : |v3 - (x - s2)| ≤ u * D + τ := by
    have h : |v3 - (x - s2)| ≤ u * |x - s2| + τ := n3
    have := mul_le_mul_of_nonneg_left d3 hu
    linarith
  have z : ∀ y : ℝ, |y - y| ≤ 0 := fun y => by simp
  have w : ∀ {a b : ℝ}, |a| ≤ 1 → |b| ≤ D → |a * b| ≤ D := fun {a b} ha hb => by
    rw [abs_mul]
    have := mul_le_mul ha hb (abs_nonneg _) (by norm_num)
    linarith
  have ep1 : |p1 - A1 * s1| ≤ 14 * (u * D) + τ := by
    have := mul_near hu h1 b1 (z s1) d1 np1
    linarith
  have ep2 : |p2 - A2 * (x - s2)| ≤ 15 * (u * D) + 3 * τ := by
    have := mul_near hu h2 b2 e3 d3 np2
    linarith
  have eq1 : |q1 - A2 * s1| ≤ 14 * (u * D) + τ := by
    have := mul_near hu h2 b2 (z s1) d1 nq1
    linarith
  have eq3 : |q3 - A3 * (x - s2)| ≤ 15 * (u * D) + 3 * τ := by
    have := mul_near hu h3 b3 e3 d3 nq3
    linarith
  have sV1 : |A1 * s1 + A2 * (x - s2)| ≤ D := by
    have g1 : |A1 * s1| ≤ |s1| := by
      rw [abs_mul]
      have := mul_le_mul_of_nonneg_right b1 (abs_nonneg s1)
      linarith
    have g2 : |A2 * (x - s2)| ≤ |x - s2| := by
      rw [abs_mul]
      have := mul_le_mul_of_nonneg_right b2 (abs_nonneg (x - s2))
      linarith
    have := abs_add_le (A1 * s1) (A2 * (x - s2))
    have := abs_sub x s2
    linarith
  have ev1 : |v1 - (A1 * s1 + A2 * (x - s2))| ≤ 31 * (u * D) + 6 * τ := by
    have := add_near hu ep1 ep2 sV1 nv1
    linarith
  have sq2 : |s2 + A2 * s1| ≤ D := by
    have g1 : |A2 * s1| ≤ |s1| := by
      rw [abs_mul]
      have := mul_le_mul_of_nonneg_right b2 (abs_nonneg s1)
      linarith
    have := abs_add_le s2 (A2 * s1)
    have := abs_nonneg x
    linarith
  have eq2 : |q2 - (s2 + A2 * s1)| ≤ 16 * (u * D) + 3 * τ := by
    have := add_near hu (z s2) eq1 sq2 nq2
    linarith
  have sV2 : |s2 + A2 * s1 + A3 * (x - s2)| ≤ 2 * D := by
    have := abs_add_le (s2 + A2 * s1) (A3 * (x - s2))
    have := w b3 d3
    linarith
  have ev2 : |v2 - (s2 + A2 * s1 + A3 * (x - s2))| ≤ 34 * (u * D) + 8 * τ := by
    have := add_near hu eq2 eq3 sV2 nv2
    linarith
  refine ⟨ev1, ev2, ?_, ?_⟩
  · generalize A1 * s1 + A2 * (x - s2) = V at *
    have st : |V + V| ≤ 2 * D := by have := abs_add_le V V; linarith
    have et := add_near hu ev1 ev1 st (by rw [← two_mul]; exact nt1)
    have sr : |V + V + -s1| ≤ 3 * D := by
      have := abs_add_le (V + V) (-s1)
      rw [abs_neg] at this
      linarith
    have er := add_near hu et (z (-s1)) sr (by rw [← sub_eq_add_neg]; exact nr1)
    rw [show 2 * V - s1 = V + V + -s1 by ring]
    linarith
  · generalize s2 + A2 * s1 + A3 * (x - s2) = V at *
    have st : |V + V| ≤ 4 * D := by have := abs_add_le V V; linarith
    have et := add_near hu ev2 ev2 st (by rw [← two_mul]; exact nt2)
    have sr : |V + V + -s2| ≤ 5 * D := by
      have := abs_add_le (V + V) (-s2)
      rw [abs_neg] at this
      linarith
    have er := add_near hu et (z (-s2)) sr (by rw [← sub_eq_add_neg]; exact nr2)
    rw [show 2 * V - s2 = V + V + -s2 by ring]
    linarith

theorem out_near {u τ m0 m1 m2 M x v1 v2 V1 V2 D y0 y1 y2 y3 y : ℝ} (hu : 0 ≤ u) (hu' : u ≤ 1 / 1600) (hτ : 0 ≤ τ) (hD : 0 ≤ D)
    (hM : |m0| + |m1| + |m2| ≤ M) (hx : |x| ≤ D) (h1 : |V1| ≤ D) (h2 : |V2| ≤ 2 * D)
    (e1 : |v1 - V1| ≤ 31 * (u * D) + 6 * τ) (e2 : |v2 - V2| ≤ 34 * (u * D) + 8 * τ)
    (n0 : Near u τ y0 (m0 * x)) (n1 : Near u τ y1 (m1 * v1)) (n2 : Near u τ y2 (m2 * v2)) (n3 : Near u τ y3 (y0 + y1))
    (n : Near u τ y (y3 + y2)) :
    |y - (m0 * x + m1 * V1 + m2 * V2)| ≤ M * (42 * (u * D) + 10 * τ) + 7 * τ := by
  have f1 : 0 ≤ u * D := by positivity
  have k0 : ∀ {m v V p S e : ℝ}, |V| ≤ S → |v - V| ≤ e → Near u τ p (m * v) → |p - m * V| ≤ |m| * (e + u * (S + e)) + τ := by
    intro m v V p S e hV he hp
    have g1 : |m * v - m * V| ≤ |m| * e := by
      rw [← mul_sub, abs_mul]
      exact mul_le_mul_of_nonneg_left he (abs_nonneg _)
    have g2 : |m * v| ≤ |m| * (S + e) := by
      rw [abs_mul]
      apply mul_le_mul_of_nonneg_left _ (abs_nonneg _)
      have := abs_add_le V (v - V)
      rw [add_sub_cancel] at this
      linarith
    have g3 := mul_le_mul_of_nonneg_left g2 hu
    have g4 : |p - m * v| ≤ u * |m * v| + τ := hp
    have g5 := abs_add_le (p - m * v) (m * v - m * V)
    rw [sub_add_sub_cancel] at g5
    linarith
  have a0 := k0 hx (e := 0) (by simp) n0
  have a1 := k0 h1 e1 n1
  have a2 := k0 h2 e2 n2
  have p0 := abs_nonneg m0
  have p1 := abs_nonneg m1
  have p2 := abs_nonneg m2
  have s1 : |m0 * x + m1 * V1| ≤ (|m0| + |m1|) * D := by
    refine le_trans (abs_add_le _ _) ?_
    rw [abs_mul, abs_mul]
    have := mul_le_mul_of_nonneg_left hx p0
    have := mul_le_mul_of_nonneg_left h1 p1
    linarith
  have s2 : |m0 * x + m1 * V1 + m2 * V2| ≤ (|m0| + |m1|) * D + |m2| * (2 * D) := by
    refine le_trans (abs_add_le _ _) ?_
    rw [abs_mul m2]
    have := mul_le_mul_of_nonneg_left h2 p2
    linarith
  have q1 := small_mul hu' f1
  have q2 := small_mul hu' hτ
  -- the sizes of the three products
  have w1 : 31 * (u * D) + 6 * τ + u * (D + (31 * (u * D) + 6 * τ)) ≤ 33 * (u * D) + 7 * τ := by linarith
  have w2 : 34 * (u * D) + 8 * τ + u * (2 * D + (34 * (u * D) + 8 * τ)) ≤ 37 * (u * D) + 9 * τ := by linarith
  have a0' : |y0 - m0 * x| ≤ |m0| * (u * D) + τ := by linarith
  have a1' : |y1 - m1 * V1| ≤ |m1| * (33 * (u * D) + 7 * τ) + τ := by
    have := mul_le_mul_of_nonneg_left w1 p1
    linarith
  have a2' : |y2 - m2 * V2| ≤ |m2| * (37 * (u * D) + 9 * τ) + τ := by
    have := mul_le_mul_of_nonneg_left w2 p2
    linarith
  have m01 : |m0| * (u * D) + |m1| * (33 * (u * D) + 7 * τ) ≤ (|m0| + |m1|) * (33 * (u * D) + 7 * τ) := by
    have : 0 ≤ |m0| * (32 * (u * D) + 7 * τ) := by positivity
    linarith
  have t1 : |y3 - (m0 * x + m1 * V1)| ≤ (|m0| + |m1|) * (35 * (u * D) + 8 * τ) + 4 * τ := by
    have := add_near hu a0' a1' s1 n3
    have r1 : 0 ≤ (|m0| + |m1|) * (u * D) := by positivity
    have r2 : 0 ≤ (|m0| + |m1|) * τ := by positivity
    have r3 := small_mul hu' r1
    have r4 := small_mul hu' r2
    have r5 := mul_le_mul_of_nonneg_left m01 hu
    linarith
  have t2 := add_near hu t1 a2' s2 n
  have r1 : 0 ≤ (|m0| + |m1|) * (u * D) := by positivity
  have r2 : 0 ≤ (|m0| + |m1|) * τ := by positivity
  have r3 : 0 ≤ |m2| * (u * D) := by positivity
  have r4 : 0 ≤ |m2| * τ := by positivity
  have g1 := small_mul hu' r1
  have g2 := small_mul hu' r2
  have g3 := small_mul hu' r3
  have g4 := small_mul hu' r4
  have hMm : (|m0| + |m1| + |m2|) * (42 * (u * D) + 10 * τ) ≤ M * (42 * (u * D) + 10 * τ) :=
    mul_le_mul_of_nonneg_right hM (by positivity)
  have r5 : 0 ≤ |m1| * (u * D) := by positivity
  linarith

/-! ### The measure of the state -/

/-- Sum of two states. -/
def addIc (s t : Ic ℝ) : Ic ℝ := ⟨s.s1 + t.s1, s.s2 + t.s2⟩

theorem tilt_nonneg (b : Box) (s : Ic ℝ) : 0 ≤ tilt b.eps s := by
  have := (Fi.tilt_energy b s).1
  have h0 : 0 ≤ energy s := by simp only [energy]; positivity
  linarith

theorem tilt_add (b : Box) {t : ℝ} (ht : 0 < t) (s e : Ic ℝ) :
    tilt b.eps (addIc s e) ≤ (1 + t) * tilt b.eps s + (1 + 1 / t) * tilt b.eps e := by
  have h := tilt_nonneg b ⟨t * s.s1 - e.s1, t * s.s2 - e.s2⟩
  have h2 : 0 ≤ 1 / t * tilt b.eps ⟨t * s.s1 - e.s1, t * s.s2 - e.s2⟩ := mul_nonneg (by positivity) h
  have e1 : (1 + t) * tilt b.eps s + (1 + 1 / t) * tilt b.eps e - tilt b.eps (addIc s e)
      = 1 / t * tilt b.eps ⟨t * s.s1 - e.s1, t * s.s2 - e.s2⟩ := by
    simp only [tilt, addIc]
    field_simp
    ring
  linarith

/-- How fast the measure falls for the settings of a box. -/
noncomputable def delta (b : Box) : ℝ := b.g0 * b.eps / b.span

theorem delta_rho (b : Box) : b.rho = 1 - delta b := rfl

theorem delta_range (b : Box) : 0 < delta b ∧ delta b ≤ 1 := by
  have h := b.rho_range
  rw [delta_rho] at h
  constructor <;> linarith

theorem drive_nonneg (b : Box) : 0 ≤ b.drive := by
  have h1 := b.g1_pos
  have h2 := b.hg
  have h3 := b.eps_pos
  have h4 := b.span_pos
  simp only [Box.drive]
  positivity

/-- An error that is small against the state. -/
theorem tilt_err (b : Box) {u ω x : ℝ} (_hu : 0 ≤ u) (hω : 0 ≤ ω) (s e : Ic ℝ)
    (h1 : |e.s1| ≤ 80 * (u * (|s.s1| + |s.s2| + |x| + ω))) (h2 : |e.s2| ≤ 80 * (u * (|s.s1| + |s.s2| + |x| + ω))) :
    tilt b.eps e ≤ 102400 * u ^ 2 * (2 * tilt b.eps s + x ^ 2 + ω ^ 2) := by
  have ht := (Fi.tilt_energy b e).2
  have hs := (Fi.tilt_energy b s).1
  simp only [energy] at ht hs
  set T := |s.s1| + |s.s2| + |x| + ω with hT
  have hT0 : 0 ≤ T := by positivity
  have q1 : e.s1 ^ 2 ≤ (80 * (u * T)) ^ 2 := by rw [← sq_abs]; gcongr
  have q2 : e.s2 ^ 2 ≤ (80 * (u * T)) ^ 2 := by rw [← sq_abs]; gcongr
  have q3 : T ^ 2 ≤ 4 * (s.s1 ^ 2 + s.s2 ^ 2 + x ^ 2 + ω ^ 2) := by
    rw [← sq_abs s.s1, ← sq_abs s.s2, ← sq_abs x, hT]
    generalize |s.s1| = a
    generalize |s.s2| = c
    generalize |x| = d
    nlinarith [sq_nonneg (a - c), sq_nonneg (a - d), sq_nonneg (a - ω), sq_nonneg (c - d), sq_nonneg (c - ω), sq_nonneg (d - ω)]
  have q4 : u ^ 2 * T ^ 2 ≤ u ^ 2 * (4 * (2 * tilt b.eps s + x ^ 2 + ω ^ 2)) := by
    apply mul_le_mul_of_nonneg_left _ (by positivity)
    linarith
  nlinarith

/-- A step with an error: the factor. -/
theorem mix_falls (b : Box) {a e x0 : ℝ} (ha : a ≤ b.rho * x0) (hx : 0 ≤ x0) :
    (1 + delta b / 2) * a + (1 + 1 / (delta b / 2)) * e ≤ (1 - delta b / 2) * x0 + (1 + 1 / (delta b / 2)) * e := by
  obtain ⟨d0, d1⟩ := delta_range b
  rw [delta_rho] at ha
  have h1 : (1 + delta b / 2) * a ≤ (1 + delta b / 2) * ((1 - delta b) * x0) := mul_le_mul_of_nonneg_left ha (by linarith)
  have h2 : (1 + delta b / 2) * (1 - delta b) ≤ 1 - delta b / 2 := by nlinarith
  have h3 := mul_le_mul_of_nonneg_right h2 hx
  linarith

theorem inv_half (b : Box) {e : ℝ} (he : 0 ≤ e) : (1 + 1 / (delta b / 2)) * e ≤ 3 / delta b * e := by
  obtain ⟨d0, d1⟩ := delta_range b
  apply mul_le_mul_of_nonneg_right _ he
  have h1 : 1 / (delta b / 2) = 2 / delta b := by field_simp
  have h2 : 1 ≤ 1 / delta b := by rw [le_div_iff₀ d0]; linarith
  have h3 : 3 / delta b = 1 / delta b + 2 / delta b := by ring
  rw [h1, h3]
  linarith

/-- What the rounding adds to the measure. -/
theorem noise_le (b : Box) {u w : ℝ} (hu : 0 ≤ u) (hs : 1600 * u ≤ delta b) (hw : 0 ≤ w) :
    3 / delta b * (102400 * u ^ 2 * w) ≤ 3 / 25 * delta b * w := by
  obtain ⟨d0, d1⟩ := delta_range b
  have h1 : (1600 * u) ^ 2 ≤ delta b ^ 2 := by gcongr
  have h2 : 3 / delta b * (102400 * u ^ 2) ≤ 3 / 25 * delta b := by
    rw [div_mul_eq_mul_div, div_le_iff₀ d0]
    nlinarith
  have := mul_le_mul_of_nonneg_right h2 hw
  linarith

/-- The level that the measure of the state does not pass. -/
noncomputable def level (b : Box) (B ω : ℝ) : ℝ := 4 / delta b * ((3 / 2 * b.drive + 3 / 25 * delta b) * B + 3 / 25 * delta b * ω ^ 2)

/-- A rounded step stays below the level. -/
theorem level_step (b : Box) (c : Coef ℝ) {g k : ℝ} (hb : b.In g k) (hc : c.From g k) {u ω x B L : ℝ} (hu : 0 ≤ u)
    (hs : 1600 * u ≤ delta b) (s e : Ic ℝ) (hx : x ^ 2 ≤ B) (hL : level b B ω ≤ L) (ht : tilt b.eps s ≤ L)
    (he : tilt b.eps e ≤ 102400 * u ^ 2 * (2 * tilt b.eps s + x ^ 2 + ω ^ 2)) :
    tilt b.eps (addIc (step c s x).1 e) ≤ L := by
  obtain ⟨d0, d1⟩ := delta_range b
  have t0 := tilt_nonneg b s
  have h1 := tilt_add b (show 0 < delta b / 2 by linarith) (step c s x).1 e
  have h2 := Fi.tilt_falls b c hb hc s x
  have h3 := inv_half b (tilt_nonneg b e)
  have hw : 0 ≤ 2 * tilt b.eps s + x ^ 2 + ω ^ 2 := by positivity
  have h4 := noise_le b hu hs hw
  have h5 : 3 / delta b * tilt b.eps e ≤ 3 / delta b * (102400 * u ^ 2 * (2 * tilt b.eps s + x ^ 2 + ω ^ 2)) :=
    mul_le_mul_of_nonneg_left he (by positivity)
  have hd := drive_nonneg b
  have h6 : (1 + delta b / 2) * tilt b.eps (step c s x).1 ≤ (1 - delta b / 2) * tilt b.eps s + 3 / 2 * b.drive * x ^ 2 := by
    have e1 : (1 + delta b / 2) * tilt b.eps (step c s x).1 ≤ (1 + delta b / 2) * (b.rho * tilt b.eps s + b.drive * x ^ 2) :=
      mul_le_mul_of_nonneg_left h2 (by linarith)
    have e2 := mix_falls b (e := 0) (le_refl (b.rho * tilt b.eps s)) t0
    have e3 : (1 + delta b / 2) * (b.drive * x ^ 2) ≤ 3 / 2 * (b.drive * x ^ 2) :=
      mul_le_mul_of_nonneg_right (by linarith) (by positivity)
    linarith
  have h7 : (3 / 2 * b.drive + 3 / 25 * delta b) * B + 3 / 25 * delta b * ω ^ 2 ≤ delta b / 4 * L := by
    have := mul_le_mul_of_nonneg_left hL (show 0 ≤ delta b / 4 by linarith)
    rw [level, ← mul_assoc, show delta b / 4 * (4 / delta b) = 1 by field_simp, one_mul] at this
    exact this
  have h8 : (3 / 2 * b.drive + 3 / 25 * delta b) * x ^ 2 ≤ (3 / 2 * b.drive + 3 / 25 * delta b) * B :=
    mul_le_mul_of_nonneg_left hx (by linarith)
  have h9 : (1 - delta b / 4) * tilt b.eps s ≤ (1 - delta b / 4) * L := mul_le_mul_of_nonneg_left ht (by linarith)
  have h10 : 0 ≤ delta b * tilt b.eps s := by positivity
  nlinarith

/-- How far the state gets away from that of the exact filter. -/
noncomputable def drift (b : Box) (u ω B L : ℝ) : ℝ := 614400 * (u / delta b) ^ 2 * (2 * L + B + ω ^ 2)

theorem drift_step (b : Box) (c : Coef ℝ) {g k : ℝ} (hb : b.In g k) (hc : c.From g k) {u ω x B L : ℝ}
    (s d e : Ic ℝ) (hx : x ^ 2 ≤ B) (ht : tilt b.eps s ≤ L) (hd : tilt b.eps d ≤ drift b u ω B L)
    (he : tilt b.eps e ≤ 102400 * u ^ 2 * (2 * tilt b.eps s + x ^ 2 + ω ^ 2)) :
    tilt b.eps (addIc (step c d 0).1 e) ≤ drift b u ω B L := by
  obtain ⟨d0, d1⟩ := delta_range b
  have t0 := tilt_nonneg b d
  have h1 := tilt_add b (show 0 < delta b / 2 by linarith) (step c d 0).1 e
  have h2 := Fi.tilt_falls b c hb hc d 0
  rw [zero_pow (by norm_num), mul_zero, add_zero] at h2
  have h3 := mix_falls b (e := tilt b.eps e) h2 t0
  have h4 := inv_half b (tilt_nonneg b e)
  have h5 : 3 / delta b * tilt b.eps e ≤ 3 / delta b * (102400 * u ^ 2 * (2 * L + B + ω ^ 2)) := by
    apply mul_le_mul_of_nonneg_left _ (by positivity)
    refine le_trans he ?_
    apply mul_le_mul_of_nonneg_left _ (by positivity)
    linarith
  have h6 : 3 / delta b * (102400 * u ^ 2 * (2 * L + B + ω ^ 2)) = delta b / 2 * drift b u ω B L := by
    rw [drift]
    field_simp
    ring
  have h7 : (1 - delta b / 2) * tilt b.eps d ≤ (1 - delta b / 2) * drift b u ω B L := mul_le_mul_of_nonneg_left hd (by linarith)
  linarith

/-! ### The filter -/

/-- The state as real numbers. -/
def icR (s : Ic ℚ) : Ic ℝ := ⟨s.s1, s.s2⟩

/-- The coefficients of the exact filter. -/
noncomputable def exactC (t : Tune) : Coef ℝ :=
  { a1 := 1 / (1 + t.g * (t.g + t.k)), a2 := t.g * (1 / (1 + t.g * (t.g + t.k))), a3 := t.g * (t.g * (1 / (1 + t.g * (t.g + t.k)))),
    m0 := t.m0, m1 := t.m1, m2 := t.m2 }

/-- The values are those of a box, and the mix is bounded. -/
def Tune.In (b : Box) (M : ℝ) (t : Tune) : Prop := b.In t.g t.k ∧ |(t.m0 : ℝ)| + |(t.m1 : ℝ)| + |(t.m2 : ℝ)| ≤ M

theorem exactC_from {b : Box} {M : ℝ} {t : Tune} (h : t.In b M) : (exactC t).From t.g t.k := by
  obtain ⟨⟨h1, h2, h3, h4⟩, _⟩ := h
  have := b.hg
  have := b.hk
  exact ⟨Fi.from_ne (by linarith) (by linarith), rfl, rfl, rfl⟩

/-- The relative error of a format. -/
noncomputable def unit (p : Nat) : ℝ := (pow2 (-p) : ℚ)
/-- The absolute error for tiny numbers. -/
noncomputable def tiny (emin : Int) : ℝ := (pow2 (emin - 1) : ℚ)
/-- The size below which the absolute error matters. -/
noncomputable def floorOf (p : Nat) (emin : Int) : ℝ := (pow2 (emin - 1 + p) : ℚ)

theorem tiny_eq (p : Nat) (emin : Int) : tiny emin = unit p * floorOf p emin := by
  rw [tiny, unit, floorOf, ← Rat.cast_mul, ← pow2_add, show -(p : Int) + (emin - 1 + p) = emin - 1 by ring]

theorem unit_nonneg (p : Nat) : 0 ≤ unit p := by rw [unit]; exact_mod_cast (pow2_pos _).le
theorem tiny_nonneg (emin : Int) : 0 ≤ tiny emin := by rw [tiny]; exact_mod_cast (pow2_pos _).le
theorem floorOf_nonneg (p : Nat) (emin : Int) : 0 ≤ floorOf p emin := by rw [floorOf]; exact_mod_cast (pow2_pos _).le

theorem near_rnd (p : Nat) (emin : Int) (z : ℚ) : Near (unit p) (tiny emin) ((rnd p emin z : ℚ) : ℝ) z := by
  have h := Rat.cast_le (K := ℝ).2 (rnd_rel p emin z)
  simp only [Near, unit, tiny]
  push_cast at h
  exact h

/-- The precision suffices for the settings of a box. -/
structure Fine (p : Nat) (emin : Int) (b : Box) : Prop where
  unit : 1600 * unit p ≤ delta b
  tiny : tiny emin * (2 + 2 * b.g1) ^ 2 ≤ Fl.unit p

theorem Fine.small {p : Nat} {emin : Int} {b : Box} (h : Fine p emin b) : Fl.unit p ≤ 1 / 1600 := by
  have := h.unit
  have := (delta_range b).2
  linarith

/-- The coefficients are close to those of the exact filter. -/
def CloseC (p : Nat) (c : Coef ℚ) (t : Tune) : Prop :=
  |(c.a1 : ℝ) - (exactC t).a1| ≤ 12 * unit p ∧ |(c.a2 : ℝ) - (exactC t).a2| ≤ 12 * unit p ∧ |(c.a3 : ℝ) - (exactC t).a3| ≤ 12 * unit p ∧
    c.m0 = t.m0 ∧ c.m1 = t.m1 ∧ c.m2 = t.m2

theorem svCoef_close {p : Nat} {emin : Int} {fl : ℚ → ℚ} (hfl : ∀ z : ℚ, Near (unit p) (tiny emin) (fl z : ℝ) z) {b : Box} (hf : Fine p emin b) {M : ℝ} {t : Tune} (ht : t.In b M) :
    ∃ c, svCoef fl t = some c ∧ CloseC p c t := by
  obtain ⟨⟨h1, h2, h3, h4⟩, _⟩ := ht
  have hg : (0 : ℝ) < t.g := by have := b.hg; linarith
  have hk : (0 : ℝ) < t.k := by have := b.hk; linarith
  have hτ : tiny emin * (2 + 2 * (t.g : ℝ)) ^ 2 ≤ unit p := by
    refine le_trans ?_ hf.tiny
    apply mul_le_mul_of_nonneg_left _ (tiny_nonneg emin)
    gcongr
  have n1 := hfl (t.g + t.k)
  have n2 := hfl (t.g * fl (t.g + t.k))
  have n3 := hfl (1 + fl (t.g * fl (t.g + t.k)))
  have n4 := hfl (1 / fl (1 + fl (t.g * fl (t.g + t.k))))
  have n5 := hfl (t.g * fl (1 / fl (1 + fl (t.g * fl (t.g + t.k)))))
  have n6 := hfl (t.g * fl (t.g * fl (1 / fl (1 + fl (t.g * fl (t.g + t.k))))))
  push_cast at n1 n2 n3 n4 n5 n6
  obtain ⟨hw, c1, c2, c3⟩ := coef_near (unit_nonneg p) hf.small (tiny_nonneg emin) hg hk hτ n1 n2 n3 n4 n5 n6
  have hw' : fl (1 + fl (t.g * fl (t.g + t.k))) ≠ 0 := by
    intro h
    rw [h] at hw
    simp at hw
  exact ⟨_, by rw [svCoef, divO, if_neg hw']; rfl, c1, c2, c3, rfl, rfl, rfl⟩

/-- The size of the coefficients of the exact filter. -/
theorem exactC_le {b : Box} {M : ℝ} {t : Tune} (ht : t.In b M) :
    |(exactC t).a1| ≤ 1 ∧ |(exactC t).a2| ≤ 1 ∧ |(exactC t).a3| ≤ 1 := by
  obtain ⟨⟨h1, h2, h3, h4⟩, _⟩ := ht
  have hg : (0 : ℝ) < t.g := by have := b.hg; linarith
  have hk : (0 : ℝ) < t.k := by have := b.hk; linarith
  simp only [exactC]
  generalize (t.g : ℝ) = g at *
  generalize (t.k : ℝ) = k at *
  have hW : 0 < 1 + g * (g + k) := by positivity
  have hgk := mul_pos hg hk
  rw [abs_of_pos (show 0 < 1 / (1 + g * (g + k)) by positivity), abs_of_pos (show 0 < g * (1 / (1 + g * (g + k))) by positivity),
    abs_of_pos (show 0 < g * (g * (1 / (1 + g * (g + k)))) by positivity)]
  refine ⟨?_, ?_, ?_⟩
  · rw [div_le_one hW]; nlinarith
  · rw [mul_one_div, div_le_one hW]
    nlinarith [sq_nonneg (g - 1)]
  · rw [mul_one_div, mul_div_assoc', div_le_one hW]
    nlinarith

/-- A rounded step is an exact one with a small error. -/
theorem svStep_close {p : Nat} {emin : Int} {fl : ℚ → ℚ} (hfl : ∀ z : ℚ, Near (unit p) (tiny emin) (fl z : ℝ) z) {b : Box} (hf : Fine p emin b) {M : ℝ} {t : Tune} (ht : t.In b M) {c : Coef ℚ}
    (hc : CloseC p c t) (s : Ic ℚ) (x : ℚ) :
    (∃ e : Ic ℝ, icR (svStep fl c s x).1 = addIc (step (exactC t) (icR s) x).1 e ∧
      tilt b.eps e ≤ 102400 * unit p ^ 2 * (2 * tilt b.eps (icR s) + (x : ℝ) ^ 2 + floorOf p emin ^ 2)) ∧
    |((svStep fl c s x).2 : ℝ) - (step (exactC t) (icR s) x).2| ≤
      M * (42 * (unit p * (|(s.s1 : ℝ)| + |(s.s2 : ℝ)| + |(x : ℝ)|)) + 10 * tiny emin) + 7 * tiny emin := by
  obtain ⟨a1, a2, a3, e0, e1, e2⟩ := hc
  obtain ⟨b1, b2, b3⟩ := exactC_le ht
  have hu := unit_nonneg p
  have hτ := tiny_nonneg emin
  have nv3 := hfl (x - s.s2)
  have np1 := hfl (c.a1 * s.s1)
  have np2 := hfl (c.a2 * fl (x - s.s2))
  have nv1 := hfl (fl (c.a1 * s.s1) + fl (c.a2 * fl (x - s.s2)))
  have nq1 := hfl (c.a2 * s.s1)
  have nq2 := hfl (s.s2 + fl (c.a2 * s.s1))
  have nq3 := hfl (c.a3 * fl (x - s.s2))
  have nv2 := hfl (fl (s.s2 + fl (c.a2 * s.s1)) + fl (c.a3 * fl (x - s.s2)))
  have step1 : (svStep fl c s x) = (let v1 := fl (fl (c.a1 * s.s1) + fl (c.a2 * fl (x - s.s2)))
    let v2 := fl (fl (s.s2 + fl (c.a2 * s.s1)) + fl (c.a3 * fl (x - s.s2)))
    (⟨fl (fl (2 * v1) - s.s1), fl (fl (2 * v2) - s.s2)⟩,
      fl (fl (fl (c.m0 * x) + fl (c.m1 * v1)) + fl (c.m2 * v2)))) := rfl
  rw [step1]
  generalize fl (fl (c.a1 * s.s1) + fl (c.a2 * fl (x - s.s2))) = v1 at *
  generalize fl (fl (s.s2 + fl (c.a2 * s.s1)) + fl (c.a3 * fl (x - s.s2))) = v2 at *
  have nt1 := hfl (2 * v1)
  have nr1 := hfl (fl (2 * v1) - s.s1)
  have nt2 := hfl (2 * v2)
  have nr2 := hfl (fl (2 * v2) - s.s2)
  have ny0 := hfl (c.m0 * x)
  have ny1 := hfl (c.m1 * v1)
  have ny2 := hfl (c.m2 * v2)
  have ny3 := hfl (fl (c.m0 * x) + fl (c.m1 * v1))
  have ny := hfl (fl (fl (c.m0 * x) + fl (c.m1 * v1)) + fl (c.m2 * v2))
  push_cast at nv3 np1 np2 nv1 nq1 nq2 nq3 nv2 nt1 nr1 nt2 nr2 ny0 ny1 ny2 ny3 ny
  obtain ⟨r1, r2, r3, r4⟩ := step_near hu hf.small hτ (le_refl (|(s.s1 : ℝ)| + |(s.s2 : ℝ)| + |(x : ℝ)|)) a1 a2 a3 b1 b2 b3 nv3 np1 np2 nv1
    nq1 nq2 nq3 nv2 nt1 nr1 nt2 nr2
  have hd : 0 ≤ |(s.s1 : ℝ)| + |(s.s2 : ℝ)| + |(x : ℝ)| := by positivity
  refine ⟨⟨⟨_, _⟩, ?_, tilt_err b hu (floorOf_nonneg p emin) (icR s) _ (le_trans r3 ?_) (le_trans r4 ?_)⟩, ?_⟩
  · simp only [icR, addIc, step, Ic.mk.injEq]
    constructor <;> rw [add_sub_cancel]
  · rw [tiny_eq p]
    simp only [icR]
    have : 0 ≤ unit p * floorOf p emin := mul_nonneg hu (floorOf_nonneg p emin)
    linarith
  · rw [tiny_eq p]
    simp only [icR]
    have : 0 ≤ unit p * floorOf p emin := mul_nonneg hu (floorOf_nonneg p emin)
    linarith
  · have hV1 : |(exactC t).a1 * (s.s1 : ℝ) + (exactC t).a2 * ((x : ℝ) - s.s2)| ≤ |(s.s1 : ℝ)| + |(s.s2 : ℝ)| + |(x : ℝ)| := by
      refine le_trans (abs_add_le _ _) ?_
      rw [abs_mul, abs_mul]
      have g1 := mul_le_mul_of_nonneg_right b1 (abs_nonneg (s.s1 : ℝ))
      have g2 := mul_le_mul_of_nonneg_right b2 (abs_nonneg ((x : ℝ) - s.s2))
      have g3 := abs_sub (x : ℝ) s.s2
      linarith
    have hV2 : |(s.s2 : ℝ) + (exactC t).a2 * (s.s1 : ℝ) + (exactC t).a3 * ((x : ℝ) - s.s2)| ≤ 2 * (|(s.s1 : ℝ)| + |(s.s2 : ℝ)| + |(x : ℝ)|) := by
      refine le_trans (abs_add_le _ _) ?_
      have g0 := abs_add_le (s.s2 : ℝ) ((exactC t).a2 * (s.s1 : ℝ))
      rw [abs_mul] at g0
      rw [abs_mul]
      have g1 := mul_le_mul_of_nonneg_right b2 (abs_nonneg (s.s1 : ℝ))
      have g2 := mul_le_mul_of_nonneg_right b3 (abs_nonneg ((x : ℝ) - s.s2))
      have g3 := abs_sub (x : ℝ) s.s2
      have g4 := abs_nonneg (x : ℝ)
      have g5 := abs_nonneg (s.s1 : ℝ)
      linarith
    have hx : |(x : ℝ)| ≤ |(s.s1 : ℝ)| + |(s.s2 : ℝ)| + |(x : ℝ)| := by
      have g4 := abs_nonneg (s.s1 : ℝ)
      have g5 := abs_nonneg (s.s2 : ℝ)
      linarith
    have hM : |(c.m0 : ℝ)| + |(c.m1 : ℝ)| + |(c.m2 : ℝ)| ≤ M := by rw [e0, e1, e2]; exact ht.2
    have := out_near hu hf.small hτ hd hM hx hV1 hV2 r1 r2 ny0 ny1 ny2 ny3 ny
    rw [e0, e1, e2] at this
    rw [e0, e1, e2]
    exact this

end Verif.Fl
