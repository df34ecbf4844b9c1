import Verif.Model.FloatBlep
import Verif.Lemmas.IeeeSigned
import Mathlib.Tactic.Linarith
import Mathlib.Tactic.Ring

/-!
# C93: the band-limited waveforms stay in range with rounding
-/

namespace Verif.Fl

open Verif.Pb (Waveform PolyBlep Op trunc)

section Basics

variable {p : Nat} {emin : Int}

/-- Eighths up to one and quarters up to two are numbers of the format. -/
theorem rep8 (hp : 3 ≤ p) (he : emin ≤ -3) {x : ℚ} (m : Int) (hm : |m| ≤ 8) (hx : x = m / 8) : Rep p emin x := by
  have h8 : (8 : Int) ≤ 2 ^ p := by
    calc (8 : Int) = 2 ^ 3 := by norm_num
      _ ≤ 2 ^ p := pow_le_pow_right₀ (by norm_num) hp
  have := rep_mul (p := p) (emin := emin) (e := -3) (by omega) he (m := m) (by omega)
  have e3 : pow2 (-3) = 1 / 8 := by norm_num [pow2_eq]
  rw [hx]
  rw [e3] at this
  convert this using 1
  ring

theorem rep16 (hp : 4 ≤ p) (he : emin ≤ -3) {x : ℚ} (m : Int) (hm : |m| ≤ 16) (hx : x = m / 8) : Rep p emin x := by
  have h8 : (16 : Int) ≤ 2 ^ p := by
    calc (16 : Int) = 2 ^ 4 := by norm_num
      _ ≤ 2 ^ p := pow_le_pow_right₀ (by norm_num) hp
  have := rep_mul (p := p) (emin := emin) (e := -3) (by omega) he (m := m) (by omega)
  have e3 : pow2 (-3) = 1 / 8 := by norm_num [pow2_eq]
  rw [hx]
  rw [e3] at this
  convert this using 1
  ring

theorem rep4 (hp : 3 ≤ p) (he : emin ≤ -3) {x : ℚ} (m : Int) (hm : |m| ≤ 8) (hx : x = m / 4) : Rep p emin x := by
  have h8 : (8 : Int) ≤ 2 ^ p := by
    calc (8 : Int) = 2 ^ 3 := by norm_num
      _ ≤ 2 ^ p := pow_le_pow_right₀ (by norm_num) hp
  have := rep_mul (p := p) (emin := emin) (e := -2) (by omega) (by omega) (m := m) (by omega)
  have e3 : pow2 (-2) = 1 / 4 := by norm_num [pow2_eq]
  rw [hx]
  rw [e3] at this
  convert this using 1
  ring

theorem rep1 (hp : 3 ≤ p) (he : emin ≤ -3) {x : ℚ} (m : Int) (hm : |m| ≤ 8) (hx : x = m) : Rep p emin x := by
  have h8 : (8 : Int) ≤ 2 ^ p := by
    calc (8 : Int) = 2 ^ 3 := by norm_num
      _ ≤ 2 ^ p := pow_le_pow_right₀ (by norm_num) hp
  have := rep_mul (p := p) (emin := emin) (e := 0) (by omega) (by omega) (m := m) (by omega)
  have e3 : pow2 0 = 1 := by norm_num [pow2_eq]
  rw [hx]
  rw [e3, mul_one] at this
  exact this

/-- Numbers that are not small lie on a grid. -/
theorem rep_grid {x : ℚ} (h : Rep p emin x) {k : Int} (hk : pow2 k ≤ |x|) : ∃ n : Int, x = n * pow2 (k + 1 - p) := by
  obtain ⟨m, e, rfl, hm, he⟩ := h
  by_cases hc : k + 1 - p ≤ e
  · obtain ⟨n, -, hn⟩ := pow2_div hc
    exact ⟨m * n, by rw [hn]; push_cast; ring⟩
  · exfalso
    have h1 : |(m : ℚ) * pow2 e| < pow2 (p + e) := by
      rw [abs_mul, abs_of_pos (pow2_pos e), pow2_add, pow2_nat]
      refine mul_lt_mul_of_pos_right ?_ (pow2_pos e)
      rw [← Int.cast_abs]
      exact_mod_cast hm
    have h2 : pow2 (p + e) ≤ pow2 k := pow2_le (by omega)
    linarith

/-- Subtracting one from a number between one half and two is exact. -/
theorem rep_sub1 (hp : 1 ≤ p) (he : emin ≤ -(p : Int)) {x : ℚ} (h : Rep p emin x) (h1 : 1 / 2 ≤ x) (h2 : x ≤ 2) :
    Rep p emin (x - 1) := by
  have hone : ∀ j : Int, 0 ≤ j → (1 : ℚ) = ((2 ^ j.toNat : Int) : ℚ) * pow2 (-j) := by
    intro j hj
    obtain ⟨n, rfl⟩ := Int.eq_ofNat_of_zero_le hj
    have := pow2_add (n : Int) (-(n : Int))
    rw [pow2_nat, add_neg_cancel] at this
    have h0 : pow2 0 = 1 := by norm_num [pow2_eq]
    rw [h0] at this
    rw [this]
    simp
  by_cases hx : x < 1
  · obtain ⟨n, hn⟩ := rep_grid h (k := -1) (by
      rw [abs_of_nonneg (by linarith)]
      norm_num [pow2_eq]
      linarith)
    rw [show (-1 : Int) + 1 - p = -p by ring] at hn
    have h11 := hone p (by omega)
    have hpos := pow2_pos (-(p : Int))
    have e1 : x - 1 = ((n - 2 ^ p : Int) : ℚ) * pow2 (-p) := by
      rw [hn]
      conv_lhs => rw [h11]
      push_cast
      simp only [Int.toNat_natCast]
      ring
    rw [e1]
    refine rep_mul hp he ?_
    have a1 : ((n - 2 ^ p : Int) : ℚ) * pow2 (-p) < 0 := by rw [← e1]; linarith
    have a2 : (-(2 ^ p : Int) : ℚ) * pow2 (-p) ≤ ((n - 2 ^ p : Int) : ℚ) * pow2 (-p) := by
      rw [← e1]
      have : (-(2 ^ p : Int) : ℚ) * pow2 (-p) = -1 := by
        conv_rhs => rw [h11]
        simp only [Int.toNat_natCast]
        push_cast
        ring
      rw [this]
      linarith
    have b1 : ((n - 2 ^ p : Int) : ℚ) < 0 := by
      by_contra hh
      exact absurd (mul_nonneg (not_lt.1 hh) hpos.le) (not_le.2 a1)
    have b2 : (-(2 ^ p : Int) : ℚ) ≤ ((n - 2 ^ p : Int) : ℚ) := le_of_mul_le_mul_right a2 hpos
    have c1 : n - 2 ^ p < 0 := by exact_mod_cast b1
    have c2 : -(2 ^ p : Int) ≤ n - 2 ^ p := by exact_mod_cast b2
    rw [abs_le]
    constructor
    · exact c2
    · have : (0 : Int) < 2 ^ p := by positivity
      omega
  · obtain ⟨n, hn⟩ := rep_grid h (k := 0) (by
      rw [abs_of_nonneg (by linarith)]
      norm_num [pow2_eq]
      linarith)
    rw [show (0 : Int) + 1 - p = -((p - 1 : Nat) : Int) by omega] at hn
    have h11 := hone ((p - 1 : Nat) : Int) (by omega)
    have hpos := pow2_pos (-((p - 1 : Nat) : Int))
    have e1 : x - 1 = ((n - 2 ^ (p - 1) : Int) : ℚ) * pow2 (-((p - 1 : Nat) : Int)) := by
      rw [hn]
      conv_lhs => rw [h11]
      push_cast
      simp only [Int.toNat_natCast]
      ring
    rw [e1]
    refine rep_mul hp (by omega) ?_
    have a1 : (0 : ℚ) ≤ ((n - 2 ^ (p - 1) : Int) : ℚ) * pow2 (-((p - 1 : Nat) : Int)) := by rw [← e1]; linarith
    have a2 : ((n - 2 ^ (p - 1) : Int) : ℚ) * pow2 (-((p - 1 : Nat) : Int)) ≤
        ((2 ^ (p - 1) : Int) : ℚ) * pow2 (-((p - 1 : Nat) : Int)) := by
      rw [← e1]
      simp only [Int.toNat_natCast] at h11
      rw [← h11]
      linarith
    have b1 : (0 : ℚ) ≤ ((n - 2 ^ (p - 1) : Int) : ℚ) := by
      by_contra hh
      exact absurd (mul_neg_of_neg_of_pos (not_le.1 hh) hpos) (not_lt.2 a1)
    have b2 : ((n - 2 ^ (p - 1) : Int) : ℚ) ≤ ((2 ^ (p - 1) : Int) : ℚ) := le_of_mul_le_mul_right a2 hpos
    have c1 : 0 ≤ n - 2 ^ (p - 1) := by exact_mod_cast b1
    have c2 : n - 2 ^ (p - 1) ≤ 2 ^ (p - 1) := by exact_mod_cast b2
    have c3 : (2 : Int) ^ (p - 1) ≤ 2 ^ p := pow_le_pow_right₀ (by norm_num) (by omega)
    rw [abs_le]
    constructor <;> omega

theorem trunc_low {x : ℚ} (h0 : 0 ≤ x) (h1 : x < 1) : trunc x = 0 := by
  have : ⌊x⌋ = 0 := Int.floor_eq_zero_iff.2 ⟨h0, h1⟩
  rw [trunc, if_pos h0, this]
  rfl

theorem trunc_mid {x : ℚ} (h1 : 1 ≤ x) (h2 : x < 2) : trunc x = 1 := by
  have : ⌊x⌋ = 1 := by
    rw [Int.floor_eq_iff]
    constructor
    · exact_mod_cast h1
    · norm_num
      linarith
  rw [trunc, if_pos (by linarith), this]
  rfl

theorem trunc_two : trunc (2 : ℚ) = 2 := by
  have : ⌊(2 : ℚ)⌋ = 2 := by
    rw [Int.floor_eq_iff]
    norm_num
  rw [trunc, if_pos (by norm_num), this]
  rfl

/-- What the format has to be: at least three binary digits, and small numbers. -/
structure Roomy (p : Nat) (emin : Int) : Prop where
  digits : 3 ≤ p
  small : emin ≤ -(p : Int) - 2

theorem Roomy.one (h : Roomy p emin) : 1 ≤ p := by have := h.digits; omega
theorem Roomy.three (h : Roomy p emin) : emin ≤ -3 := by have := h.digits; have := h.small; omega

/-- Wrapping a number between zero and two: the whole part goes away, nothing else happens. -/
theorem wrapF_low {x : ℚ} (hr : Rep p emin x) (h0 : 0 ≤ x) (h1 : x < 1) : wrapF (rnd p emin) x = x := by
  rw [wrapF, trunc_low h0 h1, sub_zero, rnd_rep hr]

theorem wrapF_mid (hf : Roomy p emin) {x : ℚ} (hr : Rep p emin x) (h1 : 1 ≤ x) (h2 : x < 2) :
    wrapF (rnd p emin) x = x - 1 := by
  have := hf.small
  rw [wrapF, trunc_mid h1 h2, rnd_rep (rep_sub1 hf.one (by omega) hr (by linarith) h2.le)]

theorem wrapF_two : wrapF (rnd p emin) 2 = 0 := by
  rw [wrapF, trunc_two, sub_self, rnd_zero]

theorem wrapF_range (hf : Roomy p emin) {x : ℚ} (hr : Rep p emin x) (h0 : 0 ≤ x) (h2 : x ≤ 2) :
    0 ≤ wrapF (rnd p emin) x ∧ wrapF (rnd p emin) x < 1 ∧ Rep p emin (wrapF (rnd p emin) x) ∧
      ∃ k : Int, wrapF (rnd p emin) x = x - k := by
  have hrep : Rep p emin (wrapF (rnd p emin) x) := rep_rnd hf.one _
  rcases lt_or_ge x 1 with h | h
  · rw [wrapF_low hr h0 h] at *
    exact ⟨h0, h, hr, 0, by simp⟩
  · rcases h2.lt_or_eq with h' | rfl
    · rw [wrapF_mid hf hr h h'] at *
      exact ⟨by linarith, by linarith, hrep, 1, by simp⟩
    · rw [wrapF_two] at *
      exact ⟨le_refl _, by norm_num, hrep, 2, by norm_num⟩

end Basics

/-! ### The corrections -/

section Corrections

variable {p : Nat} {emin : Int}

theorem rnd_up (hf : Roomy p emin) {x c : ℚ} (hc : Rep p emin c) (h : x ≤ c) : rnd p emin x ≤ c := rnd_le_rep hf.one hc h
theorem rnd_dn (hf : Roomy p emin) {x c : ℚ} (hc : Rep p emin c) (h : c ≤ x) : c ≤ rnd p emin x := rep_le_rnd hf.one hc h

theorem Roomy.r0 (hf : Roomy p emin) : Rep p emin 0 := rep1 hf.digits hf.three 0 (by norm_num) (by norm_num)
theorem Roomy.r1 (hf : Roomy p emin) : Rep p emin 1 := rep1 hf.digits hf.three 1 (by norm_num) (by norm_num)
theorem Roomy.rm1 (hf : Roomy p emin) : Rep p emin (-1) := rep1 hf.digits hf.three (-1) (by norm_num) (by norm_num)
theorem Roomy.r2 (hf : Roomy p emin) : Rep p emin 2 := rep1 hf.digits hf.three 2 (by norm_num) (by norm_num)
theorem Roomy.half (hf : Roomy p emin) : Rep p emin (1 / 2) := rep8 hf.digits hf.three 4 (by norm_num) (by norm_num)
theorem Roomy.mhalf (hf : Roomy p emin) : Rep p emin (-1 / 2) := rep8 hf.digits hf.three (-4) (by norm_num) (by norm_num)
theorem Roomy.quarter (hf : Roomy p emin) : Rep p emin (1 / 4) := rep8 hf.digits hf.three 2 (by norm_num) (by norm_num)
theorem Roomy.three4 (hf : Roomy p emin) : Rep p emin (3 / 4) := rep8 hf.digits hf.three 6 (by norm_num) (by norm_num)

/-- The argument of the correction behind a jump. -/
theorem arg1 (hf : Roomy p emin) {t dt : ℚ} (h0 : 0 ≤ t) (h : t < dt) :
    -1 ≤ rnd p emin (rnd p emin (t / dt) - 1) ∧ rnd p emin (rnd p emin (t / dt) - 1) ≤ 0 := by
  have hdt : 0 < dt := by linarith
  have a : 0 ≤ t / dt := by positivity
  have b : t / dt ≤ 1 := by rw [div_le_one hdt]; exact h.le
  have a' := rnd_dn hf hf.r0 a
  have b' := rnd_up hf hf.r1 b
  exact ⟨rnd_dn hf hf.rm1 (by linarith), rnd_up hf hf.r0 (by linarith)⟩

/-- The argument of the correction before a jump; the comparison with a rounded number is right since the phase is a
number of the format. -/
theorem arg2 (hf : Roomy p emin) {t dt : ℚ} (hr : Rep p emin t) (h1 : t < 1) (hd : dt ≤ 1 / 2)
    (h : rnd p emin (1 - dt) < t) :
    1 - dt < t ∧ 0 < dt ∧ 0 ≤ rnd p emin (rnd p emin (rnd p emin (t - 1) / dt) + 1) ∧
      rnd p emin (rnd p emin (rnd p emin (t - 1) / dt) + 1) ≤ 1 := by
  have hlt : 1 - dt < t := by
    by_contra hh
    have := rnd_dn hf hr (not_lt.1 hh)
    linarith
  have hdt : 0 < dt := by linarith
  have c1 : rnd p emin (t - 1) ≤ 0 := rnd_up hf hf.r0 (by linarith)
  have c2 : -1 ≤ rnd p emin (rnd p emin (t - 1) / dt) := by
    refine rnd_dn hf hf.rm1 ?_
    rw [le_div_iff₀ hdt]
    have := hf.small
    rw [rnd_rep (rep_sub1 hf.one (by omega) hr (by linarith) (by linarith))]
    linarith
  have c3 : rnd p emin (rnd p emin (t - 1) / dt) ≤ 0 :=
    rnd_up hf hf.r0 (div_nonpos_of_nonpos_of_nonneg c1 hdt.le)
  exact ⟨hlt, hdt, rnd_dn hf hf.r0 (by linarith), rnd_up hf hf.r1 (by linarith)⟩

theorem blepF_range (hf : Roomy p emin) {t dt : ℚ} (hr : Rep p emin t) (h0 : 0 ≤ t) (h1 : t < 1) (hd : dt ≤ 1 / 2) :
    (t < dt ∧ -1 ≤ blepF (rnd p emin) t dt ∧ blepF (rnd p emin) t dt ≤ 0) ∨
    (dt ≤ t ∧ 1 - dt < t ∧ 0 ≤ blepF (rnd p emin) t dt ∧ blepF (rnd p emin) t dt ≤ 1) ∨
    (dt ≤ t ∧ blepF (rnd p emin) t dt = 0) := by
  unfold blepF
  by_cases h : t < dt
  · refine Or.inl ⟨h, ?_⟩
    rw [if_pos h]
    obtain ⟨a, b⟩ := arg1 hf h0 h
    simp only
    generalize rnd p emin (rnd p emin (t / dt) - 1) = x at a b ⊢
    have c1 := rnd_dn hf hf.r0 (x := x * x) (by nlinarith)
    have c2 := rnd_up hf hf.r1 (x := x * x) (by nlinarith)
    exact ⟨by linarith, by linarith⟩
  · rw [if_neg h]
    by_cases h' : rnd p emin (1 - dt) < t
    · obtain ⟨a1, -, a, b⟩ := arg2 hf hr h1 hd h'
      refine Or.inr (Or.inl ⟨not_lt.1 h, a1, ?_⟩)
      rw [if_pos h']
      simp only
      generalize rnd p emin (rnd p emin (rnd p emin (t - 1) / dt) + 1) = x at a b ⊢
      exact ⟨rnd_dn hf hf.r0 (by nlinarith), rnd_up hf hf.r1 (by nlinarith)⟩
    · rw [if_neg h']
      exact Or.inr (Or.inr ⟨not_lt.1 h, rfl⟩)

theorem blampF_range (hf : Roomy p emin) {t dt : ℚ} (hr : Rep p emin t) (h0 : 0 ≤ t) (h1 : t < 1) (hd : dt ≤ 1 / 2) :
    0 ≤ blampF (rnd p emin) t dt ∧ blampF (rnd p emin) t dt ≤ 1 / 2 ∧
      (dt ≤ t → t ≤ 1 - dt → blampF (rnd p emin) t dt = 0) := by
  have t1 : 0 ≤ rnd p emin (1 / 3) := rnd_dn hf hf.r0 (by norm_num)
  have t2 : rnd p emin (1 / 3) ≤ 1 / 2 := rnd_up hf hf.half (by norm_num)
  have t3 : rnd p emin (-1 / 3) ≤ 0 := rnd_up hf hf.r0 (by norm_num)
  have t4 : -1 / 2 ≤ rnd p emin (-1 / 3) := rnd_dn hf hf.mhalf (by norm_num)
  unfold blampF
  by_cases h : t < dt
  · rw [if_pos h]
    obtain ⟨a, b⟩ := arg1 hf h0 h
    simp only
    generalize rnd p emin (rnd p emin (t / dt) - 1) = x at a b ⊢
    generalize rnd p emin (-1 / 3) = c at t3 t4 ⊢
    have c1 := rnd_dn hf hf.r0 (x := x * x) (by nlinarith)
    have c2 := rnd_up hf hf.r1 (x := x * x) (by nlinarith)
    generalize rnd p emin (x * x) = q at c1 c2 ⊢
    have d1 := rnd_dn hf hf.mhalf (x := c * q) (by nlinarith)
    have d2 := rnd_up hf hf.r0 (x := c * q) (by nlinarith)
    generalize rnd p emin (c * q) = r at d1 d2 ⊢
    exact ⟨rnd_dn hf hf.r0 (by nlinarith), rnd_up hf hf.half (by nlinarith), fun hh => absurd h (not_lt.2 hh)⟩
  · rw [if_neg h]
    by_cases h' : rnd p emin (1 - dt) < t
    · obtain ⟨a1, -, a, b⟩ := arg2 hf hr h1 hd h'
      rw [if_pos h']
      simp only
      generalize rnd p emin (rnd p emin (rnd p emin (t - 1) / dt) + 1) = x at a b ⊢
      generalize rnd p emin (1 / 3) = c at t1 t2 ⊢
      have c1 := rnd_dn hf hf.r0 (x := x * x) (by nlinarith)
      have c2 := rnd_up hf hf.r1 (x := x * x) (by nlinarith)
      generalize rnd p emin (x * x) = q at c1 c2 ⊢
      have d1 := rnd_dn hf hf.r0 (x := c * q) (by nlinarith)
      have d2 := rnd_up hf hf.half (x := c * q) (by nlinarith)
      generalize rnd p emin (c * q) = r at d1 d2 ⊢
      exact ⟨rnd_dn hf hf.r0 (by nlinarith), rnd_up hf hf.half (by nlinarith), fun _ hh => by linarith⟩
    · rw [if_neg h']
      exact ⟨le_refl _, by norm_num, fun _ _ => rfl⟩

/-- The phase plus a constant, wrapped. -/
theorem blepShift (hf : Roomy p emin) {t c : ℚ} (h0 : 0 ≤ t) (h1 : t < 1) (c0 : 0 ≤ c) (c1 : c ≤ 1) :
    0 ≤ rnd p emin (t + c) ∧ rnd p emin (t + c) ≤ 2 ∧ Rep p emin (rnd p emin (t + c)) :=
  ⟨rnd_dn hf hf.r0 (by linarith), rnd_up hf hf.r2 (by linarith), rep_rnd hf.one _⟩

/-! ### The range of one sample -/

theorem sawF_range (hf : Roomy p emin) {t dt : ℚ} (h0 : 0 ≤ t) (h1 : t < 1) (hd : dt ≤ 1 / 2) :
    -1 ≤ sawF (rnd p emin) t dt ∧ sawF (rnd p emin) t dt ≤ 1 := by
  obtain ⟨s0, s2, sr⟩ := blepShift hf h0 h1 (c := 1 / 2) (by norm_num) (by norm_num)
  obtain ⟨w0, w1, wr, -⟩ := wrapF_range hf sr s0 s2
  unfold sawF
  simp only
  generalize wrapF (rnd p emin) (rnd p emin (t + 1 / 2)) = x at w0 w1 wr ⊢
  have a0 := rnd_dn hf hf.r0 (x := 2 * x) (by linarith)
  have a2 := rnd_up hf hf.r2 (x := 2 * x) (by linarith)
  have b0 := rnd_dn hf hf.rm1 (x := rnd p emin (2 * x) - 1) (by linarith)
  have b2 := rnd_up hf hf.r1 (x := rnd p emin (2 * x) - 1) (by linarith)
  rcases blepF_range hf wr w0 w1 hd with ⟨k1, k2, k3⟩ | ⟨-, k1, k2, k3⟩ | ⟨-, k⟩
  · have a3 := rnd_up hf hf.r1 (x := 2 * x) (by linarith)
    have b3 := rnd_up hf hf.r0 (x := rnd p emin (2 * x) - 1) (by linarith)
    exact ⟨rnd_dn hf hf.rm1 (by linarith), rnd_up hf hf.r1 (by linarith)⟩
  · have a3 := rnd_dn hf hf.r1 (x := 2 * x) (by linarith)
    have b3 := rnd_dn hf hf.r0 (x := rnd p emin (2 * x) - 1) (by linarith)
    exact ⟨rnd_dn hf hf.rm1 (by linarith), rnd_up hf hf.r1 (by linarith)⟩
  · rw [k]
    exact ⟨rnd_dn hf hf.rm1 (by linarith), rnd_up hf hf.r1 (by linarith)⟩

theorem rampBF_range (hf : Roomy p emin) {t dt : ℚ} (hr : Rep p emin t) (h0 : 0 ≤ t) (h1 : t < 1) (hd : dt ≤ 1 / 2) :
    -1 ≤ rampBF (rnd p emin) t dt ∧ rampBF (rnd p emin) t dt ≤ 1 := by
  unfold rampBF
  simp only
  rw [wrapF_low hr h0 h1]
  have a0 := rnd_dn hf hf.r0 (x := 2 * t) (by linarith)
  have a2 := rnd_up hf hf.r2 (x := 2 * t) (by linarith)
  have b0 := rnd_dn hf hf.rm1 (x := 1 - rnd p emin (2 * t)) (by linarith)
  have b2 := rnd_up hf hf.r1 (x := 1 - rnd p emin (2 * t)) (by linarith)
  rcases blepF_range hf hr h0 h1 hd with ⟨k1, k2, k3⟩ | ⟨-, k1, k2, k3⟩ | ⟨-, k⟩
  · have a3 := rnd_up hf hf.r1 (x := 2 * t) (by linarith)
    have b3 := rnd_dn hf hf.r0 (x := 1 - rnd p emin (2 * t)) (by linarith)
    exact ⟨rnd_dn hf hf.rm1 (by linarith), rnd_up hf hf.r1 (by linarith)⟩
  · have a3 := rnd_dn hf hf.r1 (x := 2 * t) (by linarith)
    have b3 := rnd_up hf hf.r0 (x := 1 - rnd p emin (2 * t)) (by linarith)
    exact ⟨rnd_dn hf hf.rm1 (by linarith), rnd_up hf hf.r1 (by linarith)⟩
  · rw [k]
    exact ⟨rnd_dn hf hf.rm1 (by linarith), rnd_up hf hf.r1 (by linarith)⟩

theorem triF_range (hf : Roomy p emin) {t dt : ℚ} (h0 : 0 ≤ t) (h1 : t < 1) (hd0 : 0 ≤ dt) (hd : dt ≤ 1 / 4) :
    -1 ≤ triF (rnd p emin) t dt ∧ triF (rnd p emin) t dt ≤ 1 := by
  have r4 : Rep p emin 4 := rep1 hf.digits hf.three 4 (by norm_num) (by norm_num)
  have r54 : Rep p emin (5 / 4) := rep4 hf.digits hf.three 5 (by norm_num) (by norm_num)
  have r74 : Rep p emin (7 / 4) := rep4 hf.digits hf.three 7 (by norm_num) (by norm_num)
  obtain ⟨s0, s2, sr⟩ := blepShift hf h0 h1 (c := 1 / 4) (by norm_num) (by norm_num)
  obtain ⟨w0, w1, wr, -⟩ := wrapF_range hf sr s0 s2
  obtain ⟨s0', s2', sr'⟩ := blepShift hf h0 h1 (c := 3 / 4) (by norm_num) (by norm_num)
  obtain ⟨w0', w1', wr', -⟩ := wrapF_range hf sr' s0' s2'
  obtain ⟨x0, x1, xz⟩ := blampF_range hf wr w0 w1 (dt := dt) (by linarith)
  obtain ⟨y0, y1, yz⟩ := blampF_range hf wr' w0' w1' (dt := dt) (by linarith)
  have d0 := rnd_dn hf hf.r0 (x := 4 * dt) (by linarith)
  have d1 := rnd_up hf hf.r1 (x := 4 * dt) (by linarith)
  have q0 := rnd_dn hf hf.r0 (x := t * 4) (by linarith)
  have q4 := rnd_up hf r4 (x := t * 4) (by linarith)
  unfold triF
  simp only
  rcases le_or_gt t (1 / 2) with ht | ht
  · -- the first correction is not there
    have e1 := rnd_dn hf hf.quarter (x := t + 1 / 4) (by linarith)
    have e2 := rnd_up hf hf.three4 (x := t + 1 / 4) (by linarith)
    have z : blampF (rnd p emin) (wrapF (rnd p emin) (rnd p emin (t + 1 / 4))) dt = 0 := by
      rw [wrapF_low sr s0 (by linarith)] at xz ⊢
      exact xz (by linarith) (by linarith)
    rw [z, zero_sub]
    generalize blampF (rnd p emin) (wrapF (rnd p emin) (rnd p emin (t + 3 / 4))) dt = b at y0 y1 ⊢
    have q2 := rnd_up hf hf.r2 (x := t * 4) (by linarith)
    generalize rnd p emin (t * 4) = q at q0 q2 q4 ⊢
    have f01 : 0 ≤ foldF (rnd p emin) q ∧ foldF (rnd p emin) q ≤ 1 := by
      unfold foldF
      rw [if_neg (by linarith)]
      by_cases hq : 1 < q
      · rw [if_pos hq]
        exact ⟨rnd_dn hf hf.r0 (by linarith), rnd_up hf hf.r1 (by linarith)⟩
      · rw [if_neg hq]
        exact ⟨q0, not_lt.1 hq⟩
    generalize foldF (rnd p emin) q = v at f01 ⊢
    have g1 := rnd_dn hf hf.rm1 (x := -b) (by linarith)
    have g2 := rnd_up hf hf.r0 (x := -b) (by linarith)
    generalize rnd p emin (-b) = g at g1 g2 ⊢
    generalize rnd p emin (4 * dt) = e at d0 d1 ⊢
    have h1' := rnd_dn hf hf.rm1 (x := e * g) (by nlinarith)
    have h2' := rnd_up hf hf.r0 (x := e * g) (by nlinarith)
    exact ⟨rnd_dn hf hf.rm1 (by linarith [f01.1]), rnd_up hf hf.r1 (by linarith [f01.2])⟩
  · -- the second correction is not there
    have e1 := rnd_dn hf r54 (x := t + 3 / 4) (by linarith)
    have e2 := rnd_up hf r74 (x := t + 3 / 4) (by linarith)
    have z : blampF (rnd p emin) (wrapF (rnd p emin) (rnd p emin (t + 3 / 4))) dt = 0 := by
      rw [wrapF_mid hf sr' (by linarith) (by linarith)] at yz ⊢
      exact yz (by linarith) (by linarith)
    rw [z, sub_zero]
    generalize blampF (rnd p emin) (wrapF (rnd p emin) (rnd p emin (t + 1 / 4))) dt = b at x0 x1 ⊢
    have q2 := rnd_dn hf hf.r2 (x := t * 4) (by linarith)
    generalize rnd p emin (t * 4) = q at q0 q2 q4 ⊢
    have f01 : -1 ≤ foldF (rnd p emin) q ∧ foldF (rnd p emin) q ≤ 0 := by
      unfold foldF
      by_cases hq : 3 ≤ q
      · rw [if_pos hq]
        exact ⟨rnd_dn hf hf.rm1 (by linarith), rnd_up hf hf.r0 (by linarith)⟩
      · rw [if_neg hq, if_pos (by linarith)]
        exact ⟨rnd_dn hf hf.rm1 (by linarith [not_le.1 hq]), rnd_up hf hf.r0 (by linarith)⟩
    generalize foldF (rnd p emin) q = v at f01 ⊢
    have g1 := rnd_dn hf hf.r0 (x := b) (by linarith)
    have g2 := rnd_up hf hf.r1 (x := b) (by linarith)
    generalize rnd p emin b = g at g1 g2 ⊢
    generalize rnd p emin (4 * dt) = e at d0 d1 ⊢
    have h1' := rnd_dn hf hf.r0 (x := e * g) (by nlinarith)
    have h2' := rnd_up hf hf.r1 (x := e * g) (by nlinarith)
    exact ⟨rnd_dn hf hf.rm1 (by linarith [f01.1]), rnd_up hf hf.r1 (by linarith [f01.2])⟩

/-- Apart from one number, a phase below one half stays below one when one half is added. -/
theorem below_half (hf : Roomy p emin) {t : ℚ} (hr : Rep p emin t) (h0 : 0 ≤ t) (h1 : t < 1 / 2)
    (hne : t ≠ 1 / 2 - pow2 (-(p : Int) - 1)) : rnd p emin (t + 1 / 2) < 1 := by
  have hu := pow2_pos (-(p : Int))
  have hlim : Rep p emin (1 - pow2 (-(p : Int))) := by
    have := hf.small
    have h2 : (1 : Int) ≤ 2 ^ p := one_le_pow₀ (by norm_num)
    have := rep_mul hf.one (emin := emin) (e := -(p : Int)) (by omega) (m := 2 ^ p - 1) (by rw [abs_of_nonneg (by omega)]; omega)
    convert this using 1
    have e1 : pow2 ((p : Int) + -(p : Int)) = 1 := by rw [add_neg_cancel]; norm_num [pow2_eq]
    rw [pow2_add, pow2_nat] at e1
    push_cast at e1 ⊢
    linarith
  refine lt_of_le_of_lt (rnd_up hf hlim ?_) (by linarith)
  have hhalf : pow2 (-(p : Int)) = 2 * pow2 (-(p : Int) - 1) := by
    rw [show -(p : Int) = 1 + (-(p : Int) - 1) by ring, pow2_add]
    have : pow2 1 = 2 := by norm_num [pow2_eq]
    rw [this]
    congr 2
    ring
  have hv : 8 * pow2 (-(p : Int) - 1) ≤ 1 / 2 := by
    have h3 : pow2 (-(p : Int) - 1) ≤ pow2 (-4) := pow2_le (by have := hf.digits; omega)
    have : pow2 (-4) = 1 / 16 := by norm_num [pow2_eq]
    linarith
  rcases lt_or_ge t (1 / 4) with h4 | h4
  · have hv' := pow2_pos (-(p : Int) - 1)
    linarith
  · obtain ⟨n, hn⟩ := rep_grid hr (k := -2) (by
      rw [abs_of_nonneg h0]
      norm_num [pow2_eq]
      linarith)
    rw [show (-2 : Int) + 1 - p = -(p : Int) - 1 by ring] at hn
    have hv' := pow2_pos (-(p : Int) - 1)
    have hh : (1 / 2 : ℚ) = ((2 ^ p : Int) : ℚ) * pow2 (-(p : Int) - 1) := by
      have e1 : pow2 ((p : Int) + (-(p : Int) - 1)) = 1 / 2 := by
        rw [show (p : Int) + (-(p : Int) - 1) = -1 by ring]; norm_num [pow2_eq]
      rw [pow2_add, pow2_nat] at e1
      push_cast at e1 ⊢
      linarith
    have a1 : n < 2 ^ p := by
      have : (n : ℚ) * pow2 (-(p : Int) - 1) < ((2 ^ p : Int) : ℚ) * pow2 (-(p : Int) - 1) := by
        rw [← hn, ← hh]; exact h1
      exact_mod_cast lt_of_mul_lt_mul_right this hv'.le
    have a2 : n ≠ 2 ^ p - 1 := by
      rintro rfl
      apply hne
      rw [hn, hh]
      push_cast
      ring
    have a3 : n ≤ 2 ^ p - 2 := by omega
    have a4 : (n : ℚ) ≤ ((2 ^ p - 2 : Int) : ℚ) := by exact_mod_cast a3
    have a5 := mul_le_mul_of_nonneg_right a4 hv'.le
    rw [← hn] at a5
    have a6 : ((2 ^ p - 2 : Int) : ℚ) * pow2 (-(p : Int) - 1) = 1 / 2 - 2 * pow2 (-(p : Int) - 1) := by
      rw [hh]
      push_cast
      ring
    rw [a6] at a5
    linarith

theorem sqrF_range (hf : Roomy p emin) {t dt : ℚ} (hr : Rep p emin t) (h0 : 0 ≤ t) (h1 : t < 1) (hd : dt ≤ 1 / 4)
    (hok : t < 1 / 2 → rnd p emin (t + 1 / 2) < 1) :
    -1 ≤ sqrF (rnd p emin) t dt ∧ sqrF (rnd p emin) t dt ≤ 1 := by
  have r54 : Rep p emin (5 / 4) := rep4 hf.digits hf.three 5 (by norm_num) (by norm_num)
  have r32 : Rep p emin (3 / 2) := rep4 hf.digits hf.three 6 (by norm_num) (by norm_num)
  obtain ⟨s0, s2, sr⟩ := blepShift hf h0 h1 (c := 1 / 2) (by norm_num) (by norm_num)
  obtain ⟨w0, w1, wr, -⟩ := wrapF_range hf sr s0 s2
  unfold sqrF levelF
  simp only
  have B1 := blepF_range hf hr h0 h1 (dt := dt) (by linarith)
  have B2 := blepF_range hf wr w0 w1 (dt := dt) (by linarith)
  generalize hb1 : blepF (rnd p emin) t dt = b1 at B1 ⊢
  generalize hb2 : blepF (rnd p emin) (wrapF (rnd p emin) (rnd p emin (t + 1 / 2))) dt = b2 at B2 ⊢
  by_cases ht : t < 1 / 2
  · rw [if_pos ht]
    have e1 := rnd_dn hf hf.half (x := t + 1 / 2) (by linarith)
    rw [wrapF_low sr s0 (hok ht)] at B2
    have key : -1 ≤ b1 - b2 ∧ b1 - b2 ≤ 0 := by
      rcases B1 with ⟨k1, k2, k3⟩ | ⟨-, k1, k2, k3⟩ | ⟨-, k⟩
      · have e2 := rnd_up hf hf.three4 (x := t + 1 / 2) (by linarith)
        rcases B2 with ⟨l1, l2, l3⟩ | ⟨-, l1, l2, l3⟩ | ⟨-, l⟩
        · exfalso; linarith
        · exfalso; linarith
        · rw [l]; constructor <;> linarith
      · exfalso; linarith
      · rw [k]
        rcases B2 with ⟨l1, l2, l3⟩ | ⟨-, l1, l2, l3⟩ | ⟨-, l⟩
        · exfalso; linarith
        · constructor <;> linarith
        · rw [l]; norm_num
    have g1 := rnd_dn hf hf.rm1 key.1
    have g2 := rnd_up hf hf.r0 key.2
    exact ⟨rnd_dn hf hf.rm1 (by linarith), rnd_up hf hf.r1 (by linarith)⟩
  · rw [if_neg ht]
    have e1 := rnd_dn hf hf.r1 (x := t + 1 / 2) (by linarith)
    have e2 := rnd_up hf r32 (x := t + 1 / 2) (by linarith)
    rw [wrapF_mid hf sr e1 (by linarith)] at B2
    have key : 0 ≤ b1 - b2 ∧ b1 - b2 ≤ 1 := by
      rcases B1 with ⟨k1, k2, k3⟩ | ⟨-, k1, k2, k3⟩ | ⟨-, k⟩
      · exfalso; linarith
      · have e2 := rnd_dn hf r54 (x := t + 1 / 2) (by linarith)
        rcases B2 with ⟨l1, l2, l3⟩ | ⟨-, l1, l2, l3⟩ | ⟨-, l⟩
        · exfalso; linarith
        · exfalso; linarith
        · rw [l]; constructor <;> linarith
      · rw [k]
        rcases B2 with ⟨l1, l2, l3⟩ | ⟨-, l1, l2, l3⟩ | ⟨-, l⟩
        · constructor <;> linarith
        · exfalso; linarith
        · rw [l]; norm_num
    have g1 := rnd_dn hf hf.r0 key.1
    have g2 := rnd_up hf hf.r1 key.2
    exact ⟨rnd_dn hf hf.rm1 (by linarith), rnd_up hf hf.r1 (by linarith)⟩

/-- The number just below one half: the square wave gives two. -/
theorem sqrF_spike (hf : Roomy p emin) {dt : ℚ} (hd0 : 0 < dt) (hd : dt ≤ 1 / 4)
    (htie : rnd p emin (1 / 2 - pow2 (-(p : Int) - 1) + 1 / 2) = 1) :
    sqrF (rnd p emin) (1 / 2 - pow2 (-(p : Int) - 1)) dt = 2 := by
  have hv' := pow2_pos (-(p : Int) - 1)
  have hv : pow2 (-(p : Int) - 1) ≤ 1 / 16 := by
    have h3 : pow2 (-(p : Int) - 1) ≤ pow2 (-4) := pow2_le (by have := hf.digits; omega)
    have : pow2 (-4) = 1 / 16 := by norm_num [pow2_eq]
    linarith
  have d34 := rnd_dn hf hf.three4 (x := 1 - dt) (by linarith)
  unfold sqrF levelF
  simp only
  rw [htie, if_pos (by linarith), wrapF_mid hf hf.r1 (le_refl _) (by norm_num), sub_self]
  have b1 : blepF (rnd p emin) (1 / 2 - pow2 (-(p : Int) - 1)) dt = 0 := by
    unfold blepF
    rw [if_neg (by linarith), if_neg (by linarith)]
  have b2 : blepF (rnd p emin) 0 dt = -1 := by
    unfold blepF
    rw [if_pos hd0, zero_div, rnd_zero]
    simp only
    rw [zero_sub, rnd_rep hf.rm1]
    norm_num
    exact rnd_rep hf.r1
  rw [b1, b2]
  norm_num
  rw [rnd_rep hf.r1]
  norm_num
  exact rnd_rep hf.r2

/-- The rectangle: in range if the comparison of the phase with the pulse width and the wrapped phase agree. -/
theorem rectF_range (hf : Roomy p emin) (h4 : 4 ≤ p) {pw t dt : ℚ} (hr : Rep p emin t) (h0 : 0 ≤ t) (h1 : t < 1) (hd : dt ≤ 1 / 8)
    (p1 : 1 / 4 ≤ pw) (p2 : pw ≤ 3 / 4) (hok : t < pw ↔ rnd p emin (rnd p emin (t + 1) - pw) < 1) :
    rnd p emin (-2 * pw) ≤ rectF (rnd p emin) pw t dt ∧
      rectF (rnd p emin) pw t dt ≤ rnd p emin (rnd p emin (-2 * pw) + 2) := by
  have r18 : Rep p emin (7 / 8) := rep8 hf.digits hf.three 7 (by norm_num) (by norm_num)
  have r74 : Rep p emin (7 / 4) := rep4 hf.digits hf.three 7 (by norm_num) (by norm_num)
  have s1 := rnd_dn hf hf.r1 (x := t + 1) (by linarith)
  have s2 := rnd_up hf hf.r2 (x := t + 1) (by linarith)
  have q0 := rnd_dn hf hf.quarter (x := rnd p emin (t + 1) - pw) (by linarith)
  have q2 := rnd_up hf r74 (x := rnd p emin (t + 1) - pw) (by linarith)
  have qr := rep_rnd (emin := emin) hf.one (rnd p emin (t + 1) - pw)
  obtain ⟨w0, w1, wr, -⟩ := wrapF_range hf qr (by linarith) (by linarith)
  have y1 := rnd_dn hf (rep4 hf.digits hf.three (-6) (by norm_num) (by norm_num)) (x := -2 * pw) (c := -3 / 2) (by linarith)
  have y2 := rnd_up hf hf.mhalf (x := -2 * pw) (by linarith)
  have yr := rep_rnd (emin := emin) hf.one (-2 * pw)
  unfold rectF
  simp only
  have B1 := blepF_range hf hr h0 h1 (dt := dt) (by linarith)
  have B2 := blepF_range hf wr w0 w1 (dt := dt) (by linarith)
  generalize hb1 : blepF (rnd p emin) t dt = b1 at B1 ⊢
  generalize hb2 : blepF (rnd p emin) (wrapF (rnd p emin) (rnd p emin (rnd p emin (t + 1) - pw))) dt = b2 at B2 ⊢
  generalize rnd p emin (-2 * pw) = y at y1 y2 yr ⊢
  have z1 := rnd_dn hf hf.half (x := y + 2) (by linarith)
  have zr := rep_rnd (emin := emin) hf.one (y + 2)
  by_cases ht : t < pw
  · rw [if_pos ht]
    rw [wrapF_low qr (by linarith) (hok.1 ht)] at B2
    have key : -1 ≤ b1 - b2 ∧ b1 - b2 ≤ 0 := by
      rcases B1 with ⟨k1, k2, k3⟩ | ⟨-, k1, k2, k3⟩ | ⟨-, k⟩
      · have e1 := rnd_up hf (rep16 h4 hf.three 9 (by norm_num) (by norm_num)) (x := t + 1) (c := 9 / 8) (by linarith)
        have e2 := rnd_up hf r18 (x := rnd p emin (t + 1) - pw) (by linarith)
        rcases B2 with ⟨l1, l2, l3⟩ | ⟨-, l1, l2, l3⟩ | ⟨-, l⟩
        · exfalso; linarith
        · exfalso; linarith
        · rw [l]; constructor <;> linarith
      · exfalso; linarith
      · rw [k]
        rcases B2 with ⟨l1, l2, l3⟩ | ⟨-, l1, l2, l3⟩ | ⟨-, l⟩
        · exfalso; linarith
        · constructor <;> linarith
        · rw [l]; norm_num
    have g1 := rnd_dn hf hf.rm1 key.1
    have g2 := rnd_up hf hf.r0 key.2
    exact ⟨rnd_dn hf yr (by linarith), rnd_up hf zr (by linarith)⟩
  · rw [if_neg ht]
    have hq : 1 ≤ rnd p emin (rnd p emin (t + 1) - pw) := not_lt.1 fun hh => ht (hok.2 hh)
    rw [wrapF_mid hf qr hq (by linarith)] at B2
    have key : 0 ≤ b1 - b2 ∧ b1 - b2 ≤ 1 := by
      rcases B1 with ⟨k1, k2, k3⟩ | ⟨-, k1, k2, k3⟩ | ⟨-, k⟩
      · exfalso; linarith
      · have e1 := rnd_dn hf (rep16 h4 hf.three 15 (by norm_num) (by norm_num)) (x := t + 1) (c := 15 / 8) (by linarith)
        have e2 := rnd_dn hf (rep16 h4 hf.three 9 (by norm_num) (by norm_num)) (x := rnd p emin (t + 1) - pw) (c := 9 / 8) (by linarith)
        rcases B2 with ⟨l1, l2, l3⟩ | ⟨-, l1, l2, l3⟩ | ⟨-, l⟩
        · exfalso; linarith
        · exfalso; linarith
        · rw [l]; constructor <;> linarith
      · rw [k]
        rcases B2 with ⟨l1, l2, l3⟩ | ⟨-, l1, l2, l3⟩ | ⟨-, l⟩
        · constructor <;> linarith
        · exfalso; linarith
        · rw [l]; norm_num
    have g1 := rnd_dn hf hf.r0 key.1
    have g2 := rnd_up hf hf.r1 key.2
    exact ⟨rnd_dn hf yr (by linarith), rnd_le hf.one (by linarith)⟩

end Corrections

/-! ### Histories -/

section Histories

variable {p : Nat} {emin : Int}

/-- What a host does after `init`: frequencies from zero to half the sample rate, phases that are numbers of the format and
not below zero, any pulse width and waveform, no change of the sample rate. -/
def BlepAllowed (p : Nat) (emin : Int) (sr : ℚ) : Op ℚ → Prop
  | .freq f => 0 ≤ rnd p emin f ∧ 2 * rnd p emin f ≤ sr
  | .sync q => 0 ≤ q ∧ Rep p emin q
  | .setSampleRate _ => False
  | _ => True

/-- The phase is a number of the format from zero up to but not including one, the step at most one half. -/
structure BlepGood (p : Nat) (emin : Int) (sr : ℚ) (b : PolyBlep ℚ) : Prop where
  rep : Rep p emin b.t
  lo : 0 ≤ b.t
  hi : b.t < 1
  step : 0 ≤ b.dt
  nyquist : b.dt ≤ 1 / 2
  rate : b.sr = sr
  pos : 0 < sr

theorem BlepGood.setFreq (hf : Roomy p emin) {sr : ℚ} {b : PolyBlep ℚ} (h : BlepGood p emin sr b) {f : ℚ} (h0 : 0 ≤ f) (h2 : 2 * f ≤ sr) :
    BlepGood p emin sr (blepSetFreq (rnd p emin) b f) := by
  have hs : 0 < b.sr := by rw [h.rate]; exact h.pos
  refine ⟨h.rep, h.lo, h.hi, ?_, ?_, h.rate, h.pos⟩
  · exact rnd_dn hf hf.r0 (div_nonneg h0 hs.le)
  · refine rnd_up hf hf.half ?_
    rw [div_le_iff₀ hs, h.rate]
    linarith

theorem BlepGood.inc (hf : Roomy p emin) {sr : ℚ} {b : PolyBlep ℚ} (h : BlepGood p emin sr b) :
    BlepGood p emin sr (blepInc (rnd p emin) b) ∧
      ∃ k : Int, |(blepInc (rnd p emin) b).t + k - (b.t + b.dt)| ≤ pow2 (-(p : Int)) := by
  have ha := h.lo
  have hb := h.hi
  obtain ⟨s0, s2, sr'⟩ := blepShift hf h.lo h.hi h.step (by linarith [h.nyquist])
  obtain ⟨w0, w1, wr, k, hk⟩ := wrapF_range hf sr' s0 s2
  refine ⟨⟨wr, w0, w1, h.step, h.nyquist, h.rate, h.pos⟩, k, ?_⟩
  have he := rnd_err (p := p) (emin := emin) (x := b.t + b.dt) (k := 1) (by
    rw [abs_of_nonneg (by linarith [h.step])]
    have : pow2 1 = 2 := by norm_num [pow2_eq]
    rw [this]
    linarith [h.nyquist]) (by have := hf.small; omega)
  rw [show (1 : Int) - p - 1 = -(p : Int) by ring] at he
  show |wrapF (rnd p emin) (rnd p emin (b.t + b.dt)) + k - (b.t + b.dt)| ≤ _
  rw [hk]
  convert he using 2
  ring

theorem BlepGood.op (hf : Roomy p emin) {sr : ℚ} {b : PolyBlep ℚ} (h : BlepGood p emin sr b) {o : Op ℚ} (ho : BlepAllowed p emin sr o) :
    BlepGood p emin sr (blepOp (rnd p emin) b o) := by
  cases o with
  | freq f => exact h.setFreq hf ho.1 ho.2
  | pulseWidth q => exact ⟨h.rep, h.lo, h.hi, h.step, h.nyquist, h.rate, h.pos⟩
  | waveform w => exact ⟨h.rep, h.lo, h.hi, h.step, h.nyquist, h.rate, h.pos⟩
  | setSampleRate r => exact absurd ho id
  | sample => exact h
  | sync q =>
    obtain ⟨h0, hr⟩ := ho
    have hu := pow2_pos (-(p : Int))
    have hlim : Rep p emin (1 - pow2 (-(p : Int))) := by
      have := hf.small
      have h2 : (1 : Int) ≤ 2 ^ p := one_le_pow₀ (by norm_num)
      have := rep_mul hf.one (emin := emin) (e := -(p : Int)) (by omega) (m := 2 ^ p - 1) (by rw [abs_of_nonneg (by omega)]; omega)
      convert this using 1
      have e1 : pow2 ((p : Int) + -(p : Int)) = 1 := by rw [add_neg_cancel]; norm_num [pow2_eq]
      rw [pow2_add, pow2_nat] at e1
      push_cast at e1 ⊢
      linarith
    have e : (blepOp (rnd p emin) b (.sync q)).t = rnd p emin (q - ⌊q⌋) := by
      show (if 0 ≤ q then rnd p emin (q - trunc q) else _) = _
      rw [if_pos h0, trunc, if_pos h0]
    have hfl := Int.floor_le q
    refine ⟨?_, ?_, ?_, h.step, h.nyquist, h.rate, h.pos⟩
    · rw [e]; exact rep_rnd hf.one _
    · rw [e]; exact rnd_dn hf hf.r0 (by linarith)
    · rw [e]
      exact lt_of_le_of_lt (rnd_up hf hlim (fract_le hr h0)) (by linarith)

/-- The step is below a quarter wherever the sine is not played. -/
theorem step_quarter (hf : Roomy p emin) {sr : ℚ} {b : PolyBlep ℚ} (h : BlepGood p emin sr b)
    (hh : ¬ rnd p emin (b.sr / 4) ≤ blepHz (rnd p emin) b) : b.dt < 1 / 4 := by
  by_contra hc
  apply hh
  have hs : 0 < b.sr := by rw [h.rate]; exact h.pos
  refine rnd_le hf.one ?_
  nlinarith [not_lt.1 hc]

/-- The waveforms whose samples are between minus one and one. -/
def blepInRange (w : Waveform) : Prop := w = .saw ∨ w = .ramp ∨ w = .tri ∨ w = .sine

/-- The phase that makes the square wave jump. -/
def blepSpike (p : Nat) : ℚ := 1 / 2 - pow2 (-(p : Int) - 1)

/-- The waveforms played in a history are among those of `P`. -/
def BlepPlays (P : Waveform → Prop) : List (Op ℚ) → Prop
  | [] => True
  | .waveform w :: ops => P w ∧ BlepPlays P ops
  | .freq _ :: ops => BlepPlays P ops
  | .pulseWidth _ :: ops => BlepPlays P ops
  | .setSampleRate _ :: ops => BlepPlays P ops
  | .sync _ :: ops => BlepPlays P ops
  | .sample :: ops => BlepPlays P ops

theorem blepRun_op (fl : ℚ → ℚ) (o : Others) (b : PolyBlep ℚ) (op : Op ℚ) (ops : List (Op ℚ)) (h : op ≠ .sample) :
    blepRun fl o b (op :: ops) = blepRun fl o (blepOp fl b op) ops := by
  cases op <;> first | rfl | exact absurd rfl h

theorem blepRun_all (hf : Roomy p emin) (o : Others) {sr : ℚ} (P : Waveform → Prop) (Q : ℚ → Prop)
    (hQ : ∀ b, BlepGood p emin sr b → P b.waveform → Q (blepNext (rnd p emin) o b)) (ops : List (Op ℚ)) :
    ∀ b, BlepGood p emin sr b → P b.waveform → (∀ op ∈ ops, BlepAllowed p emin sr op) → BlepPlays P ops →
      BlepGood p emin sr (blepRun (rnd p emin) o b ops).1 ∧ ∀ y ∈ (blepRun (rnd p emin) o b ops).2, Q y := by
  induction ops with
  | nil => intro b h _ _ _; exact ⟨h, by simp [blepRun]⟩
  | cons op ops ih =>
    intro b h hw ha hp
    have ha' : ∀ op ∈ ops, BlepAllowed p emin sr op := fun x hx => ha x (List.mem_cons_of_mem _ hx)
    by_cases hop : op = .sample
    · subst hop
      obtain ⟨i1, i2⟩ := ih _ (h.inc hf).1 hw ha' hp
      refine ⟨i1, fun y hy => ?_⟩
      rcases List.mem_cons.1 hy with rfl | hy
      · exact hQ b h hw
      · exact i2 y hy
    · rw [blepRun_op _ _ _ _ _ hop]
      have hg := h.op hf (ha op List.mem_cons_self)
      refine ih _ hg ?_ ha' ?_
      · cases op <;> first | exact hw | exact hp.1
      · cases op <;> first | exact hp | exact hp.2

/-- **C93**: whatever is done to the oscillator, its phase stays from zero up to but not including one, and every sample of
the saw, ramp and triangle waves is between minus one and one, to the last digit of the sample type. -/
theorem C93_range (hf : Roomy p emin) (o : Others) (hsin : ∀ x, -1 ≤ o.sin x ∧ o.sin x ≤ 1) (sr : ℚ) (ops : List (Op ℚ))
    (b : PolyBlep ℚ) (h : BlepGood p emin sr b) (hw : blepInRange b.waveform) (ha : ∀ op ∈ ops, BlepAllowed p emin sr op) (hp : BlepPlays blepInRange ops) :
    (0 ≤ (blepRun (rnd p emin) o b ops).1.t ∧ (blepRun (rnd p emin) o b ops).1.t < 1) ∧
      ∀ y ∈ (blepRun (rnd p emin) o b ops).2, -1 ≤ y ∧ y ≤ 1 := by
  have := blepRun_all hf o blepInRange (fun y => -1 ≤ y ∧ y ≤ 1) (sr := sr) ?_ ops b h hw ha hp
  · exact ⟨⟨this.1.lo, this.1.hi⟩, this.2⟩
  · intro b hb hbw
    unfold blepNext
    split_ifs with hz
    · exact hsin _
    · have hq := step_quarter hf hb hz
      rcases hbw with e | e | e | e <;> rw [e]
      · exact sawF_range hf hb.lo hb.hi hb.nyquist
      · exact rampBF_range hf hb.rep hb.lo hb.hi hb.nyquist
      · exact triF_range hf hb.lo hb.hi hb.step hq.le
      · exact hsin _

/-- The oscillator from `new` and `init` is good. -/
theorem C93_init (hf : Roomy p emin) (w : Waveform) (f : ℚ) (sr : Nat) (h0 : 0 ≤ f) (h2 : 2 * f ≤ rnd p emin sr)
    (hs : 0 < rnd p emin sr) :
    BlepGood p emin (rnd p emin sr) (blepInit (rnd p emin) (.new w f) sr) ∧
      (blepInit (rnd p emin) (.new w f) sr).waveform = w := by
  have g : BlepGood p emin (rnd p emin sr) { (PolyBlep.new w f : PolyBlep ℚ) with sr := rnd p emin sr } :=
    ⟨hf.r0, le_refl _, by show (0 : ℚ) < 1; norm_num, le_refl _, by show (0 : ℚ) ≤ 1 / 2; norm_num, rfl, hs⟩
  unfold blepInit
  split_ifs with hc
  · exact ⟨g.setFreq hf h0 h2, rfl⟩
  · exact ⟨g, rfl⟩

/-- Frames at one frequency. -/
def blepFrames (fl : ℚ → ℚ) : Nat → PolyBlep ℚ → PolyBlep ℚ
  | 0, b => b
  | n + 1, b => blepFrames fl n (blepInc fl b)

/-- **C93**: after `n` frames at one frequency the phase is off by at most `n` units of the last digit below one, whole turns
aside. -/
theorem C93_phase (hf : Roomy p emin) {sr : ℚ} (n : Nat) (b : PolyBlep ℚ) (h : BlepGood p emin sr b) :
    BlepGood p emin sr (blepFrames (rnd p emin) n b) ∧
      ∃ k : Int, |(blepFrames (rnd p emin) n b).t + k - (b.t + n * b.dt)| ≤ n * pow2 (-(p : Int)) := by
  induction n generalizing b with
  | zero => exact ⟨h, 0, by simp [blepFrames]⟩
  | succ n ih =>
    obtain ⟨g, k, hk⟩ := h.inc hf
    obtain ⟨g', k', hk'⟩ := ih _ g
    refine ⟨g', k' + k, ?_⟩
    have hdt : (blepInc (rnd p emin) b).dt = b.dt := rfl
    rw [hdt] at hk'
    show |(blepFrames (rnd p emin) n (blepInc (rnd p emin) b)).t + ((k' + k : Int) : ℚ) - (b.t + ((n + 1 : Nat) : ℚ) * b.dt)| ≤ ((n + 1 : Nat) : ℚ) * _
    rw [abs_le] at hk hk' ⊢
    push_cast
    constructor <;> nlinarith [hk.1, hk.2, hk'.1, hk'.2]

/-! ### The square wave -/

/-- C93 for the square wave, as far as it goes: a sample is between minus one and one exactly when the phase is not the last
number below one half (or the oscillator stands still); at that number the sample is two. -/
theorem C93_square_partial (hf : Roomy p emin) (htie : rnd p emin (blepSpike p + 1 / 2) = 1) {sr : ℚ} (o : Others) (b : PolyBlep ℚ)
    (h : BlepGood p emin sr b) (hw : b.waveform = .sqr) (hz : ¬ rnd p emin (b.sr / 4) ≤ blepHz (rnd p emin) b) :
    ((-1 ≤ blepNext (rnd p emin) o b ∧ blepNext (rnd p emin) o b ≤ 1) ↔ ¬ (b.t = blepSpike p ∧ 0 < b.dt)) ∧
      (b.t = blepSpike p → 0 < b.dt → blepNext (rnd p emin) o b = 2) := by
  have hq := step_quarter hf h hz
  have e : blepNext (rnd p emin) o b = sqrF (rnd p emin) b.t b.dt := by
    unfold blepNext
    rw [if_neg hz, hw]
    rfl
  have hspike : b.t = blepSpike p → 0 < b.dt → blepNext (rnd p emin) o b = 2 := by
    intro ht hd
    rw [e, ht]
    exact sqrF_spike hf hd hq.le htie
  refine ⟨⟨?_, ?_⟩, hspike⟩
  · rintro ⟨-, hy⟩ ⟨ht, hd⟩
    rw [hspike ht hd] at hy
    norm_num at hy
  · intro hn
    rw [e]
    by_cases ht : b.t = blepSpike p
    · have hd : b.dt = 0 := le_antisymm (not_lt.1 fun hd => hn ⟨ht, hd⟩) h.step
      rw [hd]
      have z : ∀ x : ℚ, 0 ≤ x → x < 1 → blepF (rnd p emin) x 0 = 0 := by
        intro x hx0 hx1
        unfold blepF
        rw [if_neg (not_lt.2 hx0), if_neg (by rw [sub_zero, rnd_rep hf.r1]; linarith)]
      obtain ⟨s0, s2, sr'⟩ := blepShift hf h.lo h.hi (c := 1 / 2) (by norm_num) (by norm_num)
      obtain ⟨w0, w1, -, -⟩ := wrapF_range hf sr' s0 s2
      unfold sqrF levelF
      simp only
      rw [z _ h.lo h.hi, z _ w0 w1, sub_zero, rnd_zero, add_zero]
      split_ifs
      · rw [rnd_rep hf.r1]; norm_num
      · rw [rnd_rep hf.rm1]; norm_num
    · exact sqrF_range hf h.rep h.lo h.hi hq.le fun hlt => below_half hf h.rep h.lo hlt ht

/-- C93 for the rectangle, as far as it goes: for pulse widths from one quarter to three quarters and frequencies up to an
eighth of the sample rate a sample is between `-2 w` and `2 - 2 w` (rounded), as long as the rounded phase behind the end of
the pulse and the comparison of the phase with the pulse width agree about which side of the end it is.  Where they
disagree there are spikes (`C93_pulse_violated`). -/
theorem C93_rect_partial (hf : Roomy p emin) (h4 : 4 ≤ p) {sr : ℚ} (o : Others) (b : PolyBlep ℚ) (h : BlepGood p emin sr b)
    (hw : b.waveform = .rect) (hz : ¬ rnd p emin (b.sr / 4) ≤ blepHz (rnd p emin) b) (hd : b.dt ≤ 1 / 8)
    (p1 : 1 / 4 ≤ b.pw) (p2 : b.pw ≤ 3 / 4) (hok : b.t < b.pw ↔ rnd p emin (rnd p emin (b.t + 1) - b.pw) < 1) :
    rnd p emin (-2 * b.pw) ≤ blepNext (rnd p emin) o b ∧
      blepNext (rnd p emin) o b ≤ rnd p emin (rnd p emin (-2 * b.pw) + 2) := by
  have e : blepNext (rnd p emin) o b = rectF (rnd p emin) b.pw b.t b.dt := by
    unfold blepNext
    rw [if_neg hz, hw]
    rfl
  rw [e]
  exact rectF_range hf h4 h.rep h.lo h.hi hd p1 p2 hok

theorem tie32 : rnd32 (blepSpike 24 + 1 / 2) = 1 := by decide +kernel
theorem tie64 : rnd64 (blepSpike 53 + 1 / 2) = 1 := by decide +kernel
theorem roomy32 : Roomy 24 (-149) := ⟨by norm_num, by norm_num⟩
theorem roomy64 : Roomy 53 (-1074) := ⟨by norm_num, by norm_num⟩

/-! ### Frequencies that are too low -/

/-- C93 is false for frequencies below the sample rate times `2 ^ -(p + 1)`: the phase never gets past one half. -/
theorem C93_stuck_violated (hf : Roomy p emin) {sr : ℚ} (n : Nat) (b : PolyBlep ℚ) (h : BlepGood p emin sr b)
    (hd : b.dt < pow2 (-(p : Int) - 1)) (ht : b.t ≤ 1 / 2) : (blepFrames (rnd p emin) n b).t ≤ 1 / 2 := by
  induction n generalizing b with
  | zero => exact ht
  | succ n ih =>
    obtain ⟨g, -⟩ := h.inc hf
    refine ih _ g hd ?_
    have hv : 8 * pow2 (-(p : Int) - 1) ≤ 1 / 2 := by
      have h3 : pow2 (-(p : Int) - 1) ≤ pow2 (-4) := pow2_le (by have := hf.digits; omega)
      have : pow2 (-4) = 1 / 16 := by norm_num [pow2_eq]
      linarith
    have hv' := pow2_pos (-(p : Int) - 1)
    have hlo := h.lo
    have hst := h.step
    have hx : rnd p emin (b.t + b.dt) ≤ 1 / 2 := by
      by_contra hc
      have hc := not_le.1 hc
      obtain ⟨m, hm⟩ := rep_grid (rep_rnd (emin := emin) hf.one (b.t + b.dt)) (k := -1) (by
        rw [abs_of_nonneg (by linarith)]
        norm_num [pow2_eq]
        linarith)
      have he := rnd_err (p := p) (emin := emin) (x := b.t + b.dt) (k := 0) (by
        rw [abs_of_nonneg (by linarith)]
        have : pow2 0 = 1 := by norm_num [pow2_eq]
        rw [this]
        linarith) (by have := hf.small; omega)
      rw [show (0 : Int) - p - 1 = -(p : Int) - 1 by ring] at he
      rw [show (-1 : Int) + 1 - p = 1 + (-(p : Int) - 1) by ring, pow2_add, show pow2 1 = 2 by norm_num [pow2_eq]] at hm
      have hh : (1 / 2 : ℚ) = ((2 ^ (p - 1) : Int) : ℚ) * (2 * pow2 (-(p : Int) - 1)) := by
        have e1 : pow2 (((p - 1 : Nat) : Int) + 1 + (-(p : Int) - 1)) = 1 / 2 := by
          have := hf.digits
          rw [show ((p - 1 : Nat) : Int) + 1 + (-(p : Int) - 1) = -1 by omega]; norm_num [pow2_eq]
        rw [pow2_add, pow2_add, pow2_nat, show pow2 1 = 2 by norm_num [pow2_eq]] at e1
        push_cast at e1 ⊢
        linarith
      have h1 : (2 ^ (p - 1) : Int) < m := by
        have : ((2 ^ (p - 1) : Int) : ℚ) * (2 * pow2 (-(p : Int) - 1)) < (m : ℚ) * (2 * pow2 (-(p : Int) - 1)) := by
          rw [← hm, ← hh]; exact hc
        exact_mod_cast lt_of_mul_lt_mul_right this (by linarith)
      have h2 : ((2 ^ (p - 1) + 1 : Int) : ℚ) ≤ m := by exact_mod_cast h1
      have h3 := mul_le_mul_of_nonneg_right h2 (show (0 : ℚ) ≤ 2 * pow2 (-(p : Int) - 1) by linarith)
      rw [← hm] at h3
      push_cast at h3 hh
      rw [add_mul, ← hh] at h3
      have := (abs_le.1 he).2
      linarith
    show wrapF (rnd p emin) (rnd p emin (b.t + b.dt)) ≤ 1 / 2
    rw [wrapF_low (rep_rnd hf.one _) (rnd_dn hf hf.r0 (by linarith)) (by linarith)]
    exact hx

end Histories

/-! ### How far the samples are from the exact ones -/

section Close

variable {p : Nat} {emin : Int}

theorem blepErr2 (hf : Roomy p emin) {x : ℚ} (h : |x| < 2) : |rnd p emin x - x| ≤ pow2 (-(p : Int)) := by
  have he := rnd_err (p := p) (emin := emin) (x := x) (k := 1) (by
    have : pow2 1 = 2 := by norm_num [pow2_eq]
    rwa [this]) (by have := hf.small; omega)
  rwa [show (1 : Int) - p - 1 = -(p : Int) by ring] at he

theorem blepErr4 (hf : Roomy p emin) {x : ℚ} (h : |x| < 4) : |rnd p emin x - x| ≤ 2 * pow2 (-(p : Int)) := by
  have he := rnd_err (p := p) (emin := emin) (x := x) (k := 2) (by
    have : pow2 2 = 4 := by norm_num [pow2_eq]
    rwa [this]) (by have := hf.small; omega)
  rwa [show (2 : Int) - p - 1 = 1 + -(p : Int) by ring, pow2_add, show pow2 1 = 2 by norm_num [pow2_eq]] at he

theorem square_close {x x' u : ℚ} (hu : 0 ≤ u) (h : |x' - x| ≤ 2 * u) (hx : |x| ≤ 1) (hx' : |x'| ≤ 1) : |x' * x' - x * x| ≤ 4 * u := by
  have e : x' * x' - x * x = (x' - x) * (x' + x) := by ring
  rw [e, abs_mul]
  have h2 : |x' + x| ≤ 2 := (abs_add_le _ _).trans (by linarith)
  nlinarith [abs_nonneg (x' - x), abs_nonneg (x' + x)]

theorem blepF_close (hf : Roomy p emin) {t dt : ℚ} (hr : Rep p emin t) (h0 : 0 ≤ t) (h1 : t < 1) (hd0 : 0 < dt) (hd : dt ≤ 1 / 2) :
    ∃ y, Pb.blep t dt = some y ∧ |blepF (rnd p emin) t dt - y| ≤ 5 * pow2 (-(p : Int)) + (pow2 (-(p : Int)) / dt) ^ 2 := by
  have hu := pow2_pos (-(p : Int))
  have hdn : dt ≠ 0 := hd0.ne'
  have hsq : 0 ≤ (pow2 (-(p : Int)) / dt) ^ 2 := sq_nonneg _
  unfold Pb.blep blepF Pb.divO Pb.square
  by_cases h : t < dt
  · rw [if_pos h, if_pos h, if_neg hdn]
    refine ⟨_, rfl, ?_⟩
    simp only
    obtain ⟨a, b⟩ := arg1 hf h0 h
    have q0 : 0 ≤ t / dt := by positivity
    have q1 : t / dt ≤ 1 := by rw [div_le_one hd0]; exact h.le
    have p0 := rnd_dn hf hf.r0 q0
    have p1 := rnd_up hf hf.r1 q1
    have e1 := blepErr2 hf (x := t / dt) (by rw [abs_lt]; constructor <;> linarith)
    have e2 := blepErr2 hf (x := rnd p emin (t / dt) - 1) (by rw [abs_lt]; constructor <;> linarith)
    generalize rnd p emin (rnd p emin (t / dt) - 1) = x' at a b e2 ⊢
    have e3 := blepErr2 hf (x := x' * x') (by rw [abs_lt]; constructor <;> nlinarith)
    have e4 := square_close (x := t / dt - 1) (x' := x') hu.le (by
      rw [abs_le] at e1 e2 ⊢
      constructor <;> linarith [e1.1, e1.2, e2.1, e2.2]) (by rw [abs_le]; constructor <;> linarith) (by rw [abs_le]; constructor <;> linarith)
    rw [abs_le] at e3 e4 ⊢
    constructor <;> linarith [e3.1, e3.2, e4.1, e4.2]
  · rw [if_neg h, if_neg h]
    by_cases h' : rnd p emin (1 - dt) < t
    · obtain ⟨a1, -, a, b⟩ := arg2 hf hr h1 hd h'
      rw [if_pos h', if_pos a1, if_neg hdn]
      refine ⟨_, rfl, ?_⟩
      simp only
      have hsm := hf.small
      have hex := rnd_rep (rep_sub1 hf.one (by omega) hr (by linarith) (by linarith))
      rw [hex] at a b ⊢
      have q0 : -1 ≤ (t - 1) / dt := by rw [le_div_iff₀ hd0]; linarith
      have q1 : (t - 1) / dt ≤ 0 := div_nonpos_of_nonpos_of_nonneg (by linarith) hd0.le
      have p0 := rnd_dn hf hf.rm1 q0
      have p1 := rnd_up hf hf.r0 q1
      have e1 := blepErr2 hf (x := (t - 1) / dt) (by rw [abs_lt]; constructor <;> linarith)
      have e2 := blepErr2 hf (x := rnd p emin ((t - 1) / dt) + 1) (by rw [abs_lt]; constructor <;> linarith)
      generalize rnd p emin (rnd p emin ((t - 1) / dt) + 1) = x' at a b e2 ⊢
      have e3 := blepErr2 hf (x := x' * x') (by rw [abs_lt]; constructor <;> nlinarith)
      have e4 := square_close (x := (t - 1) / dt + 1) (x' := x') hu.le (by
        rw [abs_le] at e1 e2 ⊢
        constructor <;> linarith [e1.1, e1.2, e2.1, e2.2]) (by rw [abs_le]; constructor <;> linarith) (by rw [abs_le]; constructor <;> linarith)
      rw [abs_le] at e3 e4 ⊢
      constructor <;> linarith [e3.1, e3.2, e4.1, e4.2]
    · rw [if_neg h']
      by_cases h2 : 1 - dt < t
      · rw [if_pos h2, if_neg hdn]
        refine ⟨_, rfl, ?_⟩
        have e1 := blepErr2 hf (x := 1 - dt) (by rw [abs_lt]; constructor <;> linarith)
        have e2 := (abs_le.1 e1).2
        have h3 := not_lt.1 h'
        have e : (t - 1) / dt + 1 = (t - (1 - dt)) / dt := by field_simp; ring
        have k0 : 0 ≤ (t - 1) / dt + 1 := by rw [e]; exact div_nonneg (by linarith) hd0.le
        have k1 : (t - 1) / dt + 1 ≤ pow2 (-(p : Int)) / dt := by
          rw [e]
          exact div_le_div_of_nonneg_right (by linarith) hd0.le
        rw [zero_sub, abs_neg, abs_of_nonneg (mul_nonneg k0 k0)]
        nlinarith
      · rw [if_neg h2]
        refine ⟨_, rfl, ?_⟩
        rw [sub_self, abs_zero]
        linarith

/-- **C93**: a sample of the ramp wave is off by at most nine units of the last digit below one, plus what is lost when the
start of the correction is missed by one frame; so is a sample of the saw wave, at a phase at most one unit away. -/
theorem C93_close (hf : Roomy p emin) {sr : ℚ} {b : PolyBlep ℚ} (h : BlepGood p emin sr b) (hd0 : 0 < b.dt) :
    (∃ y, Pb.ramp b.t b.dt = some y ∧
      |rampBF (rnd p emin) b.t b.dt - y| ≤ 9 * pow2 (-(p : Int)) + (pow2 (-(p : Int)) / b.dt) ^ 2) ∧
    (∃ (x y : ℚ) (k : Int), 0 ≤ x ∧ x < 1 ∧ |x + k - b.t| ≤ pow2 (-(p : Int)) ∧ Pb.saw x b.dt = some y ∧
      |sawF (rnd p emin) b.t b.dt - y| ≤ 9 * pow2 (-(p : Int)) + (pow2 (-(p : Int)) / b.dt) ^ 2) := by
  have hlo := h.lo
  have hhi := h.hi
  constructor
  · obtain ⟨y, hy, hb⟩ := blepF_close hf h.rep h.lo h.hi hd0 h.nyquist
    have hw : Pb.wrapped b.t = b.t := by rw [Pb.wrapped, trunc_low hlo hhi, sub_zero]
    refine ⟨1 - 2 * b.t + y, by simp only [Pb.ramp, hw, hy]; rfl, ?_⟩
    unfold rampBF
    simp only
    rw [wrapF_low h.rep hlo hhi]
    have hbr : -1 ≤ blepF (rnd p emin) b.t b.dt ∧ blepF (rnd p emin) b.t b.dt ≤ 1 := by
      rcases blepF_range hf h.rep hlo hhi h.nyquist with ⟨-, k2, k3⟩ | ⟨-, -, k2, k3⟩ | ⟨-, k⟩
      · constructor <;> linarith
      · constructor <;> linarith
      · rw [k]; norm_num
    have e1 := blepErr2 hf (x := 2 * b.t) (by rw [abs_lt]; constructor <;> linarith)
    have a0 := rnd_dn hf hf.r0 (x := 2 * b.t) (by linarith)
    have a2 := rnd_up hf hf.r2 (x := 2 * b.t) (by linarith)
    have e2 := blepErr2 hf (x := 1 - rnd p emin (2 * b.t)) (by rw [abs_lt]; constructor <;> linarith)
    have b0 := rnd_dn hf hf.rm1 (x := 1 - rnd p emin (2 * b.t)) (by linarith)
    have b2 := rnd_up hf hf.r1 (x := 1 - rnd p emin (2 * b.t)) (by linarith)
    have e3 := blepErr4 hf (x := rnd p emin (1 - rnd p emin (2 * b.t)) + blepF (rnd p emin) b.t b.dt) (by
      rw [abs_lt]; constructor <;> linarith [hbr.1, hbr.2])
    rw [abs_le] at e1 e2 e3 hb ⊢
    constructor <;> linarith [e1.1, e1.2, e2.1, e2.2, e3.1, e3.2, hb.1, hb.2]
  · obtain ⟨s0, s2, sr'⟩ := blepShift hf hlo hhi (c := 1 / 2) (by norm_num) (by norm_num)
    obtain ⟨w0, w1, wr, k, hk⟩ := wrapF_range hf sr' s0 s2
    have e0 := blepErr2 hf (x := b.t + 1 / 2) (by rw [abs_lt]; constructor <;> linarith)
    unfold sawF
    simp only
    generalize wrapF (rnd p emin) (rnd p emin (b.t + 1 / 2)) = t1 at w0 w1 wr hk ⊢
    obtain ⟨y, hy, hb⟩ := blepF_close hf wr w0 w1 hd0 h.nyquist
    have fin : |rnd p emin (rnd p emin (rnd p emin (2 * t1) - 1) - blepF (rnd p emin) t1 b.dt) - (2 * t1 - 1 - y)| ≤
        9 * pow2 (-(p : Int)) + (pow2 (-(p : Int)) / b.dt) ^ 2 := by
      have hbr : -1 ≤ blepF (rnd p emin) t1 b.dt ∧ blepF (rnd p emin) t1 b.dt ≤ 1 := by
        rcases blepF_range hf wr w0 w1 h.nyquist with ⟨-, k2, k3⟩ | ⟨-, -, k2, k3⟩ | ⟨-, k⟩
        · constructor <;> linarith
        · constructor <;> linarith
        · rw [k]; norm_num
      have e1 := blepErr2 hf (x := 2 * t1) (by rw [abs_lt]; constructor <;> linarith)
      have a0 := rnd_dn hf hf.r0 (x := 2 * t1) (by linarith)
      have a2 := rnd_up hf hf.r2 (x := 2 * t1) (by linarith)
      have e2 := blepErr2 hf (x := rnd p emin (2 * t1) - 1) (by rw [abs_lt]; constructor <;> linarith)
      have b0 := rnd_dn hf hf.rm1 (x := rnd p emin (2 * t1) - 1) (by linarith)
      have b2 := rnd_up hf hf.r1 (x := rnd p emin (2 * t1) - 1) (by linarith)
      have e3 := blepErr4 hf (x := rnd p emin (rnd p emin (2 * t1) - 1) - blepF (rnd p emin) t1 b.dt) (by
        rw [abs_lt]; constructor <;> linarith [hbr.1, hbr.2])
      rw [abs_le] at e1 e2 e3 hb ⊢
      constructor <;> linarith [e1.1, e1.2, e2.1, e2.2, e3.1, e3.2, hb.1, hb.2]
    rcases lt_or_ge t1 (1 / 2) with hh | hh
    · have hw : Pb.wrapped (t1 + 1 / 2 + 1 / 2) = t1 := by
        rw [Pb.wrapped, trunc_mid (by linarith) (by linarith)]
        ring
      refine ⟨t1 + 1 / 2, 2 * t1 - 1 - y, k - 1, by linarith, by linarith, ?_, by simp only [Pb.saw, hw, hy]; rfl, fin⟩
      rw [hk]
      push_cast
      convert e0 using 2
      ring
    · have hw : Pb.wrapped (t1 - 1 / 2 + 1 / 2) = t1 := by
        rw [Pb.wrapped, sub_add_cancel, trunc_low w0 w1, sub_zero]
      refine ⟨t1 - 1 / 2, 2 * t1 - 1 - y, k, by linarith, by linarith, ?_, by simp only [Pb.saw, hw, hy]; rfl, fin⟩
      rw [hk]
      convert e0 using 2
      ring

end Close

/-! ### Witnesses in `f32` at 48 kHz -/

/-- A wave at 48 kHz. -/
def at48 (w : Waveform) (f : ℚ) : PolyBlep ℚ := blepInit rnd32 (.new w f) 48000

theorem blepFrames_add (fl : ℚ → ℚ) (m n : Nat) (b : PolyBlep ℚ) : blepFrames fl (m + n) b = blepFrames fl n (blepFrames fl m b) := by
  induction m generalizing b with
  | zero => simp [blepFrames]
  | succ m ih => rw [Nat.add_right_comm]; exact ih _

theorem blepFrames_keep (fl : ℚ → ℚ) (n : Nat) (b : PolyBlep ℚ) :
    (blepFrames fl n b).waveform = b.waveform ∧ (blepFrames fl n b).sr = b.sr ∧ (blepFrames fl n b).freq = b.freq ∧ (blepFrames fl n b).dt = b.dt ∧
      (blepFrames fl n b).pw = b.pw := by
  induction n generalizing b with
  | zero => exact ⟨rfl, rfl, rfl, rfl, rfl⟩
  | succ n ih => exact ih (blepInc fl b)

/-- C93 is false for the square wave: at 4 kHz the sample is two in every period from the second on. -/
theorem C93_square_violated (o : Others) (k : Nat) :
    blepNext rnd32 o (blepFrames rnd32 (18 + 12 * k) (at48 .sqr 4000)) = 2 := by
  have h18 : (blepFrames rnd32 18 (at48 .sqr 4000)).t = blepSpike 24 := by decide +kernel
  have h30 : (blepFrames rnd32 30 (at48 .sqr 4000)).t = blepSpike 24 := by decide +kernel
  have same : ∀ n m, (blepFrames rnd32 n (at48 .sqr 4000)).t = (blepFrames rnd32 m (at48 .sqr 4000)).t →
      blepFrames rnd32 n (at48 .sqr 4000) = blepFrames rnd32 m (at48 .sqr 4000) := by
    intro n m h
    obtain ⟨a1, a2, a3, a4, a5⟩ := blepFrames_keep rnd32 n (at48 .sqr 4000)
    obtain ⟨b1, b2, b3, b4, b5⟩ := blepFrames_keep rnd32 m (at48 .sqr 4000)
    rw [PolyBlep.mk.injEq]
    exact ⟨a1.trans b1.symm, a2.trans b2.symm, a3.trans b3.symm, a4.trans b4.symm, a5.trans b5.symm, h⟩
  have hk : blepFrames rnd32 (18 + 12 * k) (at48 .sqr 4000) = blepFrames rnd32 18 (at48 .sqr 4000) := by
    induction k with
    | zero => rfl
    | succ k ih =>
      rw [show 18 + 12 * (k + 1) = (18 + 12 * k) + 12 by ring, blepFrames_add, ih, ← blepFrames_add]
      exact same 30 18 (h30.trans h18.symm)
  rw [hk]
  have g := C93_init (p := 24) (emin := -149) roomy32 .sqr 4000 48000 (by norm_num) (by decide +kernel) (by decide +kernel)
  have g18 := C93_phase roomy32 18 _ g.1
  obtain ⟨a1, a2, -, a4, -⟩ := blepFrames_keep rnd32 18 (at48 .sqr 4000)
  refine (C93_square_partial roomy32 tie32 o _ g18.1 a1 ?_).2 h18 ?_
  · show ¬ rnd32 ((blepFrames rnd32 18 (at48 .sqr 4000)).sr / 4) ≤ rnd32 ((blepFrames rnd32 18 (at48 .sqr 4000)).dt * (blepFrames rnd32 18 (at48 .sqr 4000)).sr)
    rw [a2, a4]
    decide +kernel
  · show 0 < (blepFrames rnd32 18 (at48 .sqr 4000)).dt
    rw [a4]
    decide +kernel

/-- C93 is false for the rectangle and the modified square wave as well, with the pulse width one half they start with. -/
theorem C93_pulse_violated (o : Others) :
    blepNext rnd32 o (blepFrames rnd32 12 (at48 .rect 2000)) = 2 ∧
    blepNext rnd32 o (blepFrames rnd32 15 (at48 .sqr2 8400)) < -149 / 100 := by
  have e1 : blepNext rnd32 o (blepFrames rnd32 12 (at48 .rect 2000)) =
      rectF rnd32 (blepFrames rnd32 12 (at48 .rect 2000)).pw (blepFrames rnd32 12 (at48 .rect 2000)).t (blepFrames rnd32 12 (at48 .rect 2000)).dt := by
    unfold blepNext
    rw [if_neg (by decide +kernel), (blepFrames_keep rnd32 12 (at48 .rect 2000)).1]
    rfl
  have e2 : blepNext rnd32 o (blepFrames rnd32 15 (at48 .sqr2 8400)) =
      sqr2F rnd32 (blepFrames rnd32 15 (at48 .sqr2 8400)).pw (blepFrames rnd32 15 (at48 .sqr2 8400)).t (blepFrames rnd32 15 (at48 .sqr2 8400)).dt := by
    unfold blepNext
    rw [if_neg (by decide +kernel), (blepFrames_keep rnd32 15 (at48 .sqr2 8400)).1]
    rfl
  rw [e1, e2]
  constructor <;> decide +kernel

-- the end of the pulse is met exactly: the phase is one half after four frames of an eighth of a period
example : (let b := blepFrames rnd32 4 (at48 .rect 6000)
    b.t = 1 / 2 ∧ b.pw = 1 / 2 ∧ b.dt = 1 / 8 ∧ ¬ rnd32 (b.sr / 4) ≤ blepHz rnd32 b ∧
    (b.t < b.pw ↔ rnd32 (rnd32 (b.t + 1) - b.pw) < 1)) := by decide +kernel

example : BlepGood 24 (-149) (rnd32 48000) (at48 .saw 440) ∧ blepInRange (at48 .saw 440).waveform ∧
    (∀ op ∈ [Op.sample, .freq 1000, .sync 3, .sample, .waveform .tri, .sample], BlepAllowed 24 (-149) (rnd32 48000) op) ∧
    BlepPlays blepInRange [Op.sample, .freq 1000, .sync 3, .sample, .waveform .tri, .sample] := by
  refine ⟨(C93_init roomy32 .saw 440 48000 (by norm_num) (by decide +kernel) (by decide +kernel)).1, .inl rfl, ?_, ?_⟩
  · intro op hop
    simp only [List.mem_cons, List.not_mem_nil, or_false] at hop
    have hr : Rep 24 (-149) 3 := rep1 (by norm_num) (by norm_num) 3 (by norm_num) (by norm_num)
    rcases hop with rfl | rfl | rfl | rfl | rfl | rfl
    · trivial
    · exact ⟨by decide +kernel, by decide +kernel⟩
    · exact ⟨by norm_num, hr⟩
    all_goals trivial
  · exact ⟨.inr (.inr (.inl rfl)), trivial⟩

example : BlepGood 53 (-1074) (rnd64 44100) (blepInit rnd64 (.new .ramp 440) 44100) ∧ 0 < (blepInit rnd64 (.new .ramp 440) 44100).dt :=
  ⟨(C93_init roomy64 .ramp 440 44100 (by norm_num) (by decide +kernel) (by decide +kernel)).1, by decide +kernel⟩

/-- A low-frequency oscillator at one thousandth of a hertz stops at one half. -/
example : (at48 .tri (rnd32 (1 / 1000))).dt < pow2 (-((24 : Nat) : Int) - 1) ∧ 0 < (at48 .tri (rnd32 (1 / 1000))).dt := by decide +kernel

end Verif.Fl
