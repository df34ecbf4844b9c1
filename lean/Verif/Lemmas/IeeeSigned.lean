import Verif.Lemmas.Ieee

/-!
# Rounding of negative numbers
-/

namespace Verif.Fl

theorem rne_neg (x : ℚ) : rne (-x) = -rne x := by
  by_cases hx : x = ⌊x⌋
  · have h1 := rne_int ⌊x⌋
    rw [← hx] at h1
    have h2 : -x = ((-⌊x⌋ : Int) : ℚ) := by push_cast; linarith
    rw [h2, rne_int, h1]
  · have h0 := Int.floor_le x
    have h1 := Int.lt_floor_add_one x
    have h0' : (⌊x⌋ : ℚ) < x := lt_of_le_of_ne h0 (Ne.symm hx)
    have hf : ⌊-x⌋ = -⌊x⌋ - 1 := by
      rw [Int.floor_eq_iff]
      push_cast
      constructor <;> linarith
    rw [rne, rne, hf]
    push_cast
    have hm : (-⌊x⌋ - 1) % 2 = 0 ↔ ¬ ⌊x⌋ % 2 = 0 := by omega
    split_ifs <;> first | omega | (exfalso; linarith)

theorem elog_neg (x : ℚ) : elog (-x) = elog x := by
  unfold elog
  rw [abs_neg, Rat.num_neg_eq_neg_num, Rat.den_neg_eq_den, Int.natAbs_neg]

theorem rnd_neg (p : Nat) (emin : Int) (x : ℚ) : rnd p emin (-x) = -rnd p emin x := by
  by_cases hx : x = 0
  · rw [hx, neg_zero, rnd_zero, neg_zero]
  · rw [rnd_of_ne hx, rnd_of_ne (neg_ne_zero.2 hx), show ulpExp p emin (-x) = ulpExp p emin x by rw [ulpExp, ulpExp, elog_neg],
      neg_div, rne_neg]
    push_cast
    ring

/-- Rounding keeps the order, also below zero. -/
theorem rnd_le {p : Nat} (hp1 : 1 ≤ p) {emin : Int} {x y : ℚ} (h : x ≤ y) : rnd p emin x ≤ rnd p emin y := by
  rcases le_total 0 x with h0 | h0
  · exact rnd_mono hp1 h0 h
  rcases le_total y 0 with h1 | h1
  · have := rnd_mono hp1 (emin := emin) (neg_nonneg.2 h1) (neg_le_neg h)
    rw [rnd_neg, rnd_neg] at this
    linarith
  · have a := rnd_nonneg (p := p) (emin := emin) h1
    have b := rnd_nonneg (p := p) (emin := emin) (neg_nonneg.2 h0)
    rw [rnd_neg] at b
    linarith

/-- A number that is representable bounds the rounded value if it bounds the value. -/
theorem rnd_le_rep {p : Nat} (hp1 : 1 ≤ p) {emin : Int} {x b : ℚ} (hb : Rep p emin b) (h : x ≤ b) : rnd p emin x ≤ b := by
  have := rnd_le hp1 (emin := emin) h
  rwa [rnd_rep hb] at this

theorem rep_le_rnd {p : Nat} (hp1 : 1 ≤ p) {emin : Int} {x b : ℚ} (hb : Rep p emin b) (h : b ≤ x) : b ≤ rnd p emin x := by
  have := rnd_le hp1 (emin := emin) h
  rwa [rnd_rep hb] at this

theorem rnd_abs_le {p : Nat} (hp1 : 1 ≤ p) {emin : Int} {x b : ℚ} (hb : Rep p emin b) (h : |x| ≤ b) : |rnd p emin x| ≤ b := by
  rw [abs_le] at h ⊢
  refine ⟨?_, rnd_le_rep hp1 hb h.2⟩
  have := rnd_le_rep hp1 hb (show -x ≤ b by linarith)
  rw [rnd_neg] at this
  linarith

/-- Multiples of a power of two that are not too many. -/
theorem rep_mul {p : Nat} (hp : 1 ≤ p) {emin e : Int} (he : emin ≤ e) {m : Int} (hm : |m| ≤ 2 ^ p) : Rep p emin (m * pow2 e) := by
  rcases lt_or_eq_of_le hm with h | h
  · exact ⟨m, e, rfl, h, he⟩
  · have h1 : (1 : Int) < 2 ^ p := one_lt_pow₀ (by norm_num) (by omega)
    have hpow : pow2 ((p : Int) + e) = (2 ^ p : Int) * pow2 e := by
      rw [pow2_add, pow2_nat]
      push_cast
      ring
    rcases abs_eq (by positivity) |>.1 h with hc | hc
    · refine ⟨1, p + e, ?_, by simpa using h1, by omega⟩
      rw [hpow, hc]
      push_cast
      ring
    · refine ⟨-1, p + e, ?_, by simpa using h1, by omega⟩
      rw [hpow, hc]
      push_cast
      ring

theorem rep_neg {p : Nat} {emin : Int} {x : ℚ} (h : Rep p emin x) : Rep p emin (-x) := by
  obtain ⟨m, e, rfl, hm, he⟩ := h
  exact ⟨-m, e, by push_cast; ring, by rwa [abs_neg], he⟩

end Verif.Fl
