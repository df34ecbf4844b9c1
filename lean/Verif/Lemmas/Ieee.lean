import Verif.Model.Ieee
import Mathlib.Algebra.Order.Field.Power
import Mathlib.Algebra.Order.Floor.Ring
import Mathlib.Data.Nat.Log
import Mathlib.Tactic.Linarith
import Mathlib.Tactic.Positivity
import Mathlib.Tactic.FieldSimp
import Mathlib.Tactic.Ring
import Mathlib.Tactic.NormNum
import Mathlib.Tactic.Push

/-!
# Facts about rounding
-/

namespace Verif.Fl

theorem pow2_eq (e : Int) : pow2 e = (2 : ℚ) ^ e := by
  cases e with
  | ofNat n => simp [pow2]
  | negSucc n => simp [pow2, zpow_negSucc]

theorem pow2_pos (e : Int) : 0 < pow2 e := by
  rw [pow2_eq]
  positivity

theorem pow2_add (a b : Int) : pow2 (a + b) = pow2 a * pow2 b := by
  simp only [pow2_eq]
  exact zpow_add₀ (by norm_num) a b

theorem pow2_le {a b : Int} (h : a ≤ b) : pow2 a ≤ pow2 b := by
  simp only [pow2_eq]
  exact zpow_le_zpow_right₀ (by norm_num) h

theorem pow2_lt {a b : Int} : pow2 a < pow2 b ↔ a < b := by
  simp only [pow2_eq]
  exact zpow_lt_zpow_iff_right₀ (by norm_num)

theorem pow2_nat (n : Nat) : pow2 n = ((2 ^ n : Nat) : ℚ) := rfl

/-- A power of two over a smaller one is whole. -/
theorem pow2_div {a b : Int} (h : b ≤ a) : ∃ n : Int, 0 < n ∧ pow2 a = n * pow2 b := by
  obtain ⟨k, hk⟩ := Int.le.dest h
  refine ⟨2 ^ k, by positivity, ?_⟩
  rw [← hk, add_comm b, pow2_add, pow2_nat]
  push_cast
  ring

theorem elog_spec {x : ℚ} (hx : x ≠ 0) : pow2 (elog x) ≤ |x| ∧ |x| < pow2 (elog x + 1) := by
  have hn : x.num.natAbs ≠ 0 := by simpa using hx
  have hd : x.den ≠ 0 := x.den_nz
  have h1 := Nat.log2_self_le hn
  have h2 := Nat.lt_log2_self (n := x.num.natAbs)
  have h3 := Nat.log2_self_le hd
  have h4 := Nat.lt_log2_self (n := x.den)
  have hax : |x| = (x.num.natAbs : ℚ) / x.den := by
    conv_lhs => rw [← Rat.num_div_den x]
    rw [abs_div, Nat.abs_cast]
    congr 1
    rw [Nat.cast_natAbs, Int.cast_abs]
  set a := Nat.log2 x.num.natAbs
  set b := Nat.log2 x.den
  have hdq : (0 : ℚ) < x.den := by exact_mod_cast Nat.pos_of_ne_zero hd
  have q1 : (2 : ℚ) ^ a ≤ x.num.natAbs := by exact_mod_cast h1
  have q2 : (x.num.natAbs : ℚ) < 2 ^ (a + 1) := by exact_mod_cast h2
  have q3 : (2 : ℚ) ^ b ≤ x.den := by exact_mod_cast h3
  have q4 : (x.den : ℚ) < 2 ^ (b + 1) := by exact_mod_cast h4
  have e1 : pow2 ((a : Int) - b) = 2 ^ a / 2 ^ b := by
    rw [pow2_eq, zpow_sub₀ (by norm_num)]
    simp
  have e0 : pow2 ((a : Int) - b - 1) = 2 ^ a / 2 ^ (b + 1) := by
    rw [show (a : Int) - b - 1 = a - ((b + 1 : Nat) : Int) by push_cast; ring, pow2_eq, zpow_sub₀ (by norm_num)]
    simp only [zpow_natCast]
  have e2 : pow2 ((a : Int) - b + 1) = 2 ^ (a + 1) / 2 ^ b := by
    rw [show (a : Int) - b + 1 = ((a + 1 : Nat) : Int) - b by push_cast; ring, pow2_eq, zpow_sub₀ (by norm_num)]
    simp only [zpow_natCast]
  have hlow : pow2 ((a : Int) - b - 1) ≤ |x| := by
    rw [e0, hax]
    exact div_le_div₀ (by positivity) q1 hdq q4.le
  have hup : |x| < pow2 ((a : Int) - b + 1) := by
    rw [e2, hax]
    exact div_lt_div₀ q2 q3 (by positivity) (by positivity)
  have hdef : elog x = if |x| < pow2 ((a : Int) - b) then (a : Int) - b - 1 else (a : Int) - b := rfl
  rw [hdef]
  split_ifs with hc
  · exact ⟨hlow, by rw [sub_add_cancel]; exact hc⟩
  · exact ⟨not_lt.1 hc, hup⟩

/-- The exponent of numbers below a power of two. -/
theorem elog_lt {x : ℚ} (hx : x ≠ 0) {k : Int} (h : |x| < pow2 k) : elog x < k := by
  have := (elog_spec hx).1
  exact pow2_lt.1 (lt_of_le_of_lt this h)

theorem le_elog {x : ℚ} (hx : x ≠ 0) {k : Int} (h : pow2 k ≤ |x|) : k ≤ elog x := by
  have := (elog_spec hx).2
  have := pow2_lt.1 (lt_of_le_of_lt h this)
  omega

/-! ### Rounding to whole numbers -/

theorem rne_near (x : ℚ) : |(rne x : ℚ) - x| ≤ 1 / 2 := by
  have h1 := Int.floor_le x
  have h2 := Int.lt_floor_add_one x
  rw [rne]
  split_ifs with a b c
  · rw [abs_le]; constructor <;> linarith
  · push_cast; rw [abs_le]; constructor <;> linarith
  · rw [abs_le]; constructor <;> linarith
  · push_cast; rw [abs_le]; constructor <;> linarith

/-- Close to a whole number. -/
theorem rne_of_near {x : ℚ} {n : Int} (h : |x - n| < 1 / 2) : rne x = n := by
  have h1 := rne_near x
  rw [abs_lt] at h
  rw [abs_le] at h1
  have h2 : (rne x : ℚ) < n + 1 := by linarith
  have h3 : (n : ℚ) < rne x + 1 := by linarith
  have h2' : rne x < n + 1 := by exact_mod_cast h2
  have h3' : n < rne x + 1 := by exact_mod_cast h3
  omega

theorem rne_int (n : Int) : rne n = n := rne_of_near (by simp)

theorem rne_floor (x : ℚ) : rne x = ⌊x⌋ ∨ rne x = ⌊x⌋ + 1 := by
  rw [rne]
  split_ifs <;> simp

theorem rne_mono {x y : ℚ} (h : x ≤ y) : rne x ≤ rne y := by
  have hf := Int.floor_le_floor h
  rcases hf.lt_or_eq with hlt | heq
  · rcases rne_floor x with h1 | h1 <;> rcases rne_floor y with h2 | h2 <;> omega
  · rw [rne, rne, heq]
    have : x - (⌊y⌋ : ℚ) ≤ y - ⌊y⌋ := by linarith
    split_ifs <;> first | omega | (exfalso; linarith)

theorem rne_le_int {x : ℚ} {n : Int} (h : x ≤ n) : rne x ≤ n := by
  have := rne_mono h
  rwa [rne_int] at this

theorem int_le_rne {x : ℚ} {n : Int} (h : (n : ℚ) ≤ x) : n ≤ rne x := by
  have := rne_mono h
  rwa [rne_int] at this

/-! ### Rounding to floats -/

/-- The last place that is kept. -/
def ulpExp (p : Nat) (emin : Int) (x : ℚ) : Int := max (elog x - (p - 1)) emin

theorem rnd_of_ne {p : Nat} {emin : Int} {x : ℚ} (hx : x ≠ 0) :
    rnd p emin x = rne (x / pow2 (ulpExp p emin x)) * pow2 (ulpExp p emin x) := by
  rw [rnd, if_neg hx]
  rfl

theorem rnd_zero (p : Nat) (emin : Int) : rnd p emin 0 = 0 := by simp [rnd]

theorem rnd_near {p : Nat} {emin : Int} {x : ℚ} (hx : x ≠ 0) :
    |rnd p emin x - x| ≤ pow2 (ulpExp p emin x) / 2 := by
  rw [rnd_of_ne hx]
  have hp := pow2_pos (ulpExp p emin x)
  set P := pow2 (ulpExp p emin x)
  have h := rne_near (x / P)
  have e : (rne (x / P) : ℚ) * P - x = ((rne (x / P) : ℚ) - x / P) * P := by
    field_simp
  rw [e, abs_mul, abs_of_pos hp]
  nlinarith

/-- The error for numbers below a power of two. -/
theorem rnd_err {p : Nat} {emin : Int} {x : ℚ} {k : Int} (h : |x| < pow2 k) (hk : emin ≤ k - p) :
    |rnd p emin x - x| ≤ pow2 (k - p - 1) := by
  by_cases hx : x = 0
  · subst hx
    rw [rnd_zero, sub_self, abs_zero]
    exact (pow2_pos _).le
  · refine (rnd_near hx).trans ?_
    have h1 := elog_lt hx h
    have h2 : ulpExp p emin x ≤ k - p := by
      rw [ulpExp, max_le_iff]
      constructor
      · omega
      · exact hk
    have h3 : pow2 (k - p) = 2 * pow2 (k - p - 1) := by
      have := pow2_add 1 (k - p - 1)
      rw [show (1 : Int) + (k - p - 1) = k - p by ring] at this
      rw [this]
      norm_num [pow2_eq]
    have := pow2_le h2
    linarith

/-- Representable numbers are not changed. -/
theorem rnd_rep {p : Nat} {emin : Int} {x : ℚ} (h : Rep p emin x) : rnd p emin x = x := by
  by_cases hx : x = 0
  · rw [hx, rnd_zero]
  obtain ⟨m, e, he, hm, hem⟩ := h
  have hE : ulpExp p emin x ≤ e := by
    rw [ulpExp, max_le_iff]
    refine ⟨?_, hem⟩
    have : elog x < p + e := by
      refine elog_lt hx ?_
      rw [he, abs_mul, abs_of_pos (pow2_pos e), pow2_add, pow2_nat]
      refine mul_lt_mul_of_pos_right ?_ (pow2_pos e)
      have : ((|m| : Int) : ℚ) < ((2 ^ p : Int) : ℚ) := by exact_mod_cast hm
      rw [Int.cast_abs] at this
      push_cast at this ⊢
      exact this
    omega
  obtain ⟨n, -, hn⟩ := pow2_div hE
  rw [rnd_of_ne hx]
  have hp := pow2_pos (ulpExp p emin x)
  have hxe : x / pow2 (ulpExp p emin x) = ((m * n : Int) : ℚ) := by
    rw [div_eq_iff hp.ne', Int.cast_mul, mul_assoc, ← hn]
    exact he
  have hx2 : x = ((m * n : Int) : ℚ) * pow2 (ulpExp p emin x) := by
    rw [← hxe, div_mul_cancel₀ _ hp.ne']
  rw [hxe, rne_int]
  exact hx2.symm

theorem rnd_nonneg {p : Nat} {emin : Int} {x : ℚ} (h : 0 ≤ x) : 0 ≤ rnd p emin x := by
  by_cases hx : x = 0
  · rw [hx, rnd_zero]
  rw [rnd_of_ne hx]
  have hp := pow2_pos (ulpExp p emin x)
  refine mul_nonneg ?_ hp.le
  have : (0 : Int) ≤ rne (x / pow2 (ulpExp p emin x)) := int_le_rne (by
    rw [Int.cast_zero]
    exact div_nonneg h hp.le)
  exact_mod_cast this

/-- Rounding keeps the order. -/
theorem rnd_mono {p : Nat} (hp1 : 1 ≤ p) {emin : Int} {x y : ℚ} (hx0 : 0 ≤ x) (h : x ≤ y) : rnd p emin x ≤ rnd p emin y := by
  by_cases hx : x = 0
  · rw [hx, rnd_zero]
    exact rnd_nonneg (hx0.trans h)
  have hxp : 0 < x := lt_of_le_of_ne hx0 (Ne.symm hx)
  have hyp : 0 < y := lt_of_lt_of_le hxp h
  have hy : y ≠ 0 := hyp.ne'
  have sx := elog_spec hx
  have sy := elog_spec hy
  rw [abs_of_pos hxp] at sx
  rw [abs_of_pos hyp] at sy
  have hlog : elog x ≤ elog y := by
    have := pow2_lt.1 (lt_of_le_of_lt (sx.1.trans h) sy.2)
    omega
  have hE : ulpExp p emin x ≤ ulpExp p emin y := by
    rw [ulpExp, ulpExp]
    exact max_le_max (by omega) le_rfl
  rw [rnd_of_ne hx, rnd_of_ne hy]
  have hpx := pow2_pos (ulpExp p emin x)
  have hpy := pow2_pos (ulpExp p emin y)
  rcases hE.lt_or_eq with hlt | heq
  · -- a power of two lies in between
    have hy1 : ulpExp p emin y = elog y - (p - 1) := by
      simp only [ulpExp] at hlt ⊢
      rcases max_choice (elog y - ((p : Int) - 1)) emin with hh | hh
      · exact hh
      · rw [hh] at hlt
        have := le_max_right (elog x - ((p : Int) - 1)) emin
        omega
    have hx1 : elog x - (p - 1) ≤ ulpExp p emin x := le_max_left _ _
    have hxy : elog x + 1 ≤ elog y := by omega
    have hb : x ≤ pow2 (elog y) := sx.2.le.trans (pow2_le hxy)
    obtain ⟨n, -, hn⟩ := pow2_div (a := elog y) (b := ulpExp p emin x) (by omega)
    obtain ⟨n', -, hn'⟩ := pow2_div (a := elog y) (b := ulpExp p emin y) (by omega)
    have l1 : (rne (x / pow2 (ulpExp p emin x)) : ℚ) ≤ n := by
      have : rne (x / pow2 (ulpExp p emin x)) ≤ n := rne_le_int (by
        rw [div_le_iff₀ hpx, ← hn]
        exact hb)
      exact_mod_cast this
    have l2 : (n' : ℚ) ≤ rne (y / pow2 (ulpExp p emin y)) := by
      have : n' ≤ rne (y / pow2 (ulpExp p emin y)) := int_le_rne (by
        rw [le_div_iff₀ hpy, ← hn']
        exact sy.1)
      exact_mod_cast this
    calc _ ≤ (n : ℚ) * pow2 (ulpExp p emin x) := mul_le_mul_of_nonneg_right l1 hpx.le
      _ = n' * pow2 (ulpExp p emin y) := by rw [← hn, ← hn']
      _ ≤ _ := mul_le_mul_of_nonneg_right l2 hpy.le
  · rw [heq]
    refine mul_le_mul_of_nonneg_right ?_ hpy.le
    have : rne (x / pow2 (ulpExp p emin y)) ≤ rne (y / pow2 (ulpExp p emin y)) :=
      rne_mono (div_le_div_of_nonneg_right h hpy.le)
    exact_mod_cast this

/-- The error relative to the number, and the error near zero. -/
theorem rnd_rel (p : Nat) (emin : Int) (x : ℚ) :
    |rnd p emin x - x| ≤ pow2 (-p) * |x| + pow2 (emin - 1) := by
  by_cases hx : x = 0
  · subst hx
    rw [rnd_zero, sub_self, abs_zero, mul_zero, zero_add]
    exact (pow2_pos _).le
  have hn := rnd_near (p := p) (emin := emin) hx
  have hs := (elog_spec hx).1
  have half : ∀ e : Int, pow2 e / 2 = pow2 (e - 1) := by
    intro e
    have := pow2_add (e - 1) 1
    rw [sub_add_cancel] at this
    rw [this]
    norm_num [pow2_eq]
  rw [half] at hn
  refine hn.trans ?_
  have h0 := pow2_pos (-(p : Int))
  rcases max_choice (elog x - ((p : Int) - 1)) emin with hh | hh
  · have : pow2 (ulpExp p emin x - 1) = pow2 (-p) * pow2 (elog x) := by
      rw [ulpExp, hh, ← pow2_add]
      congr 1
      ring
    rw [this]
    have := mul_le_mul_of_nonneg_left hs h0.le
    have := pow2_pos (emin - 1)
    linarith
  · rw [ulpExp, hh]
    have := mul_nonneg h0.le (abs_nonneg x)
    linarith

/-- Rounding a number close below a whole number that is not a power of two. -/
theorem rnd_close {p : Nat} {emin : Int} (he : emin ≤ 0) {z : ℚ} {k n : Nat} (hk : k < p)
    (hemin : emin ≤ (k : Int) - p + 1) (h1 : 2 ^ k < n) (h2 : n < 2 ^ (k + 1)) (hz : z ≤ n)
    (hd : (n : ℚ) - z < pow2 ((k : Int) - p)) : rnd p emin z = n := by
  have hp1 : pow2 ((k : Int) - p) ≤ 1 := by
    have := pow2_le (a := (k : Int) - p) (b := 0) (by omega)
    simpa [pow2_eq] using this
  have hzk : pow2 k ≤ z := by
    rw [pow2_nat]
    have : ((2 ^ k + 1 : Nat) : ℚ) ≤ n := by exact_mod_cast h1
    push_cast at this ⊢
    linarith
  have hz0 : 0 < z := lt_of_lt_of_le (pow2_pos _) hzk
  have hel : elog z = k := by
    have a := le_elog hz0.ne' (k := k) (by rwa [abs_of_pos hz0])
    have b : elog z < (k + 1 : Nat) := by
      refine elog_lt hz0.ne' ?_
      rw [abs_of_pos hz0, pow2_nat]
      have : (n : ℚ) < ((2 ^ (k + 1) : Nat) : ℚ) := by exact_mod_cast h2
      linarith
    push_cast at b
    omega
  have hul : ulpExp p emin z = (k : Int) - p + 1 := by
    rw [ulpExp, hel]
    rw [show (k : Int) - ((p : Int) - 1) = k - p + 1 by ring]
    exact max_eq_left hemin
  rw [rnd_of_ne hz0.ne', hul]
  have hp := pow2_pos ((k : Int) - p + 1)
  obtain ⟨q, -, hq⟩ := pow2_div (a := 0) (b := (k : Int) - p + 1) (by omega)
  have hq1 : (q : ℚ) * pow2 ((k : Int) - p + 1) = 1 := by
    rw [← hq]
    simp [pow2_eq]
  have e2 : pow2 ((k : Int) - p + 1) = 2 * pow2 ((k : Int) - p) := by
    rw [add_comm, pow2_add]
    norm_num [pow2_eq]
  have hr : rne (z / pow2 ((k : Int) - p + 1)) = n * q := by
    refine rne_of_near ?_
    have : z / pow2 ((k : Int) - p + 1) - ((n * q : Int) : ℚ) = (z - n) / pow2 ((k : Int) - p + 1) := by
      rw [eq_div_iff hp.ne', sub_mul, div_mul_cancel₀ _ hp.ne']
      push_cast
      rw [mul_assoc, hq1, mul_one]
    rw [this, abs_div, abs_of_pos hp, div_lt_iff₀ hp, e2, abs_sub_comm, abs_of_nonneg (by linarith)]
    linarith
  rw [hr]
  push_cast
  rw [mul_assoc, hq1, mul_one]

/-- A whole number with few bits is representable. -/
theorem rep_nat {p : Nat} {emin : Int} {n : Nat} (h : n < 2 ^ p) (he : emin ≤ 0) : Rep p emin n := by
  refine ⟨n, 0, ?_, ?_, he⟩
  · simp [pow2_eq]
  · rw [Nat.abs_cast]
    exact_mod_cast h

/-- Rounding gives representable numbers, if the next power of two is one. -/
theorem rep_rnd {p : Nat} (hp1 : 1 ≤ p) {emin : Int} (x : ℚ) : Rep p emin (rnd p emin x) := by
  by_cases hx : x = 0
  · rw [hx, rnd_zero]
    exact ⟨0, emin, by simp, by positivity, le_rfl⟩
  rw [rnd_of_ne hx]
  set E := ulpExp p emin x with hEdef
  have hp := pow2_pos E
  have hb : |x| < pow2 (E + p) := by
    refine lt_of_lt_of_le (elog_spec hx).2 (pow2_le ?_)
    have : elog x - (p - 1) ≤ E := le_max_left _ _
    omega
  have hq : |x / pow2 E| ≤ ((2 ^ p : Int) : ℚ) := by
    rw [abs_div, abs_of_pos hp, div_le_iff₀ hp]
    rw [add_comm, pow2_add, pow2_nat] at hb
    push_cast at hb ⊢
    exact hb.le
  have hm : |rne (x / pow2 E)| ≤ 2 ^ p := by
    rw [abs_le] at hq ⊢
    constructor
    · refine int_le_rne ?_
      push_cast at hq ⊢
      exact hq.1
    · exact rne_le_int hq.2
  rcases hm.lt_or_eq with hlt | heq
  · exact ⟨_, E, rfl, hlt, le_max_right _ _⟩
  · -- exactly a power of two
    have h2 : (2 : Int) ^ p = 2 * 2 ^ (p - 1) := by
      rw [← pow_succ', Nat.sub_add_cancel hp1]
    have e2 : pow2 (E + 1) = 2 * pow2 E := by
      rw [add_comm, pow2_add]
      norm_num [pow2_eq]
    have hlt2 : (2 : Int) ^ (p - 1) < 2 ^ p := by
      rw [h2]
      have : (0 : Int) < 2 ^ (p - 1) := by positivity
      linarith
    rcases abs_choice (rne (x / pow2 E)) with hc | hc
    · rw [hc] at heq
      refine ⟨2 ^ (p - 1), E + 1, ?_, by rw [abs_of_pos (by positivity)]; exact hlt2, ?_⟩
      · rw [heq, h2, e2]
        push_cast
        ring
      · have : emin ≤ E := le_max_right _ _
        omega
    · rw [hc] at heq
      refine ⟨-2 ^ (p - 1), E + 1, ?_, by rw [abs_neg, abs_of_pos (by positivity)]; exact hlt2, ?_⟩
      · rw [show rne (x / pow2 E) = -2 ^ p by omega, h2, e2]
        push_cast
        ring
      · have : emin ≤ E := le_max_right _ _
        omega

/-- The fraction of a representable number stays away from one. -/
theorem fract_le {p : Nat} {emin : Int} {x : ℚ} (h : Rep p emin x) (hx : 0 ≤ x) :
    x - ⌊x⌋ ≤ 1 - pow2 (-p) := by
  obtain ⟨m, e, he, hm, hem⟩ := h
  have hpos := pow2_pos (-(p : Int))
  have hp1 : pow2 (-(p : Int)) ≤ 1 := by
    have := pow2_le (a := -(p : Int)) (b := 0) (by omega)
    simpa [pow2_eq] using this
  by_cases hc : -(p : Int) ≤ e
  · -- a multiple of `2 ^ -p`
    obtain ⟨n, -, hn⟩ := pow2_div hc
    have hx2 : x = ((m * n : Int) : ℚ) * pow2 (-p) := by
      rw [he, hn]
      push_cast
      ring
    obtain ⟨k, -, hk⟩ := pow2_div (a := 0) (b := -(p : Int)) (by omega)
    have hk1 : (1 : ℚ) = k * pow2 (-p) := by
      rw [← hk]
      simp [pow2_eq]
    have hlt := Int.lt_floor_add_one x
    have e1 : x - ⌊x⌋ = ((m * n - ⌊x⌋ * k : Int) : ℚ) * pow2 (-p) := by
      push_cast
      rw [sub_mul, show (⌊x⌋ : ℚ) * k * pow2 (-(p : Int)) = ⌊x⌋ * (k * pow2 (-p)) by ring, ← hk1, mul_one]
      conv_lhs => rw [hx2]
      push_cast
      rw [show (⌊((m : ℚ) * n) * pow2 (-(p : Int))⌋ : ℚ) = ⌊x⌋ by
        have : x = (m : ℚ) * n * pow2 (-(p : Int)) := by rw [hx2]; push_cast; ring
        rw [← this]]
    have e2 : ((m * n - ⌊x⌋ * k : Int) : ℚ) < k := by
      have : ((m * n - ⌊x⌋ * k : Int) : ℚ) * pow2 (-p) < k * pow2 (-p) := by
        rw [← e1, ← hk1]
        linarith
      exact lt_of_mul_lt_mul_right this hpos.le
    have e3 : m * n - ⌊x⌋ * k ≤ k - 1 := by
      have : m * n - ⌊x⌋ * k < k := by exact_mod_cast e2
      omega
    have e4 : ((m * n - ⌊x⌋ * k : Int) : ℚ) ≤ k - 1 := by exact_mod_cast e3
    rw [e1]
    calc _ ≤ ((k : ℚ) - 1) * pow2 (-p) := mul_le_mul_of_nonneg_right e4 hpos.le
      _ = 1 - pow2 (-p) := by rw [sub_mul, ← hk1, one_mul]
  · -- below one half
    have h1 : x ≤ pow2 (p + e) := by
      rw [he, pow2_add, pow2_nat]
      refine mul_le_mul_of_nonneg_right ?_ (pow2_pos e).le
      have : (m : ℚ) < ((2 ^ p : Int) : ℚ) := by exact_mod_cast lt_of_le_of_lt (le_abs_self m) hm
      push_cast at this ⊢
      exact this.le
    have h2 : pow2 (p + e) ≤ pow2 (-1) := pow2_le (by omega)
    have h3 : pow2 (-1) = 1 / 2 := by norm_num [pow2_eq]
    have hfl : (0 : ℚ) ≤ ⌊x⌋ := by exact_mod_cast Int.floor_nonneg.2 hx
    by_cases hp0 : p = 0
    · subst hp0
      have hm0 : m = 0 := by
        have : |m| < 1 := by simpa using hm
        exact Int.abs_lt_one_iff.1 this
      have hx0 : x = 0 := by rw [he, hm0]; simp
      rw [hx0]
      simp [pow2_eq]
    · have h4 : pow2 (-(p : Int)) ≤ pow2 (-1) := pow2_le (by omega)
      linarith

/-- Truncating a rounded number. -/
theorem trunc_near {p : Nat} (hp : 1 ≤ p) {emin : Int} (he : emin ≤ 0) {y : ℚ} (hy : 0 ≤ y) {k : Nat} (hk : y < pow2 k)
    (hkp : k ≤ p) (hem : emin ≤ (k : Int) - p) :
    y - 1 < ⌊rnd p emin y⌋.toNat ∧ (⌊rnd p emin y⌋.toNat : ℚ) ≤ y + pow2 ((k : Int) - p - 1) := by
  have h0 := rnd_nonneg (p := p) (emin := emin) hy
  have hc : ((⌊rnd p emin y⌋.toNat : Nat) : ℚ) = ⌊rnd p emin y⌋ := by
    have := Int.toNat_of_nonneg (Int.floor_nonneg.2 h0)
    exact_mod_cast this
  rw [hc]
  constructor
  · have hfy : 0 ≤ ⌊y⌋ := Int.floor_nonneg.2 hy
    have hrep : Rep p emin (⌊y⌋.toNat : ℚ) := by
      refine rep_nat ?_ he
      have h1 : (⌊y⌋ : ℚ) < ((2 ^ k : Nat) : ℚ) := lt_of_le_of_lt (Int.floor_le y) (by rwa [pow2_nat] at hk)
      have h2 : ⌊y⌋ < ((2 ^ k : Nat) : Int) := by exact_mod_cast h1
      have h3 : (2 : Nat) ^ k ≤ 2 ^ p := Nat.pow_le_pow_right (by norm_num) hkp
      omega
    have hcy : ((⌊y⌋.toNat : Nat) : ℚ) = ⌊y⌋ := by
      have := Int.toNat_of_nonneg hfy
      exact_mod_cast this
    rw [hcy] at hrep
    have hm := rnd_mono hp (emin := emin) (x := (⌊y⌋ : ℚ)) (by exact_mod_cast hfy) (Int.floor_le y)
    rw [rnd_rep hrep] at hm
    have : ⌊y⌋ ≤ ⌊rnd p emin y⌋ := Int.le_floor.2 hm
    have h5 : (⌊y⌋ : ℚ) ≤ ⌊rnd p emin y⌋ := by exact_mod_cast this
    have := Int.lt_floor_add_one y
    linarith
  · have h1 := rnd_err (p := p) (emin := emin) (x := y) (k := k) (by rwa [abs_of_nonneg hy]) hem
    have h2 := Int.floor_le (rnd p emin y)
    have := (abs_le.1 h1).2
    linarith

/-- What `as u32` does with numbers in range. -/
theorem asU32_eq {x : ℚ} (h : x < U32) : asU32 x = ⌊x⌋.toNat := by
  rw [asU32, min_eq_right]
  have h1 : (⌊x⌋ : ℚ) < U32 := lt_of_le_of_lt (Int.floor_le x) h
  have h2 : ⌊x⌋ < (U32 : Int) := by exact_mod_cast h1
  have h3 : 0 < U32 := by decide
  omega

theorem fract_nonneg {x : ℚ} (hx : 0 ≤ x) : 0 ≤ fract x := by
  rw [fract, if_pos hx]
  have := Int.floor_le x
  linarith

/-- The smaller field of a converted number. -/
theorem sub_near {p : Nat} (hp : 1 ≤ p) {emin : Int} (he : emin ≤ 0) {x : ℚ} (hx : 0 ≤ x) (hr : Rep p emin x) {B k : Nat}
    (hB0 : 0 < B) (hB : B < 2 ^ k) (hkp : k ≤ p) (hk32 : k ≤ 32) (hem : emin ≤ (k : Int) - p)
    (htop : rnd p emin ((1 - pow2 (-p)) * B) < B) :
    asU32 (rnd p emin (fract x * B)) < B ∧ fract x * B - 1 < asU32 (rnd p emin (fract x * B)) ∧
      (asU32 (rnd p emin (fract x * B)) : ℚ) ≤ fract x * B + pow2 ((k : Int) - p - 1) := by
  have hf0 := fract_nonneg hx
  have hB0' : (0 : ℚ) < B := by exact_mod_cast hB0
  have hf1 : fract x ≤ 1 - pow2 (-p) := by
    rw [fract, if_pos hx]
    exact fract_le hr hx
  have hy0 : 0 ≤ fract x * B := mul_nonneg hf0 hB0'.le
  have hle : rnd p emin (fract x * B) < B := lt_of_le_of_lt
    (rnd_mono hp hy0 (mul_le_mul_of_nonneg_right hf1 hB0'.le)) htop
  have hBq : (B : ℚ) < ((2 ^ k : Nat) : ℚ) := by exact_mod_cast hB
  have hBU : (B : ℚ) ≤ U32 := by
    have h3 : (2 : Nat) ^ k ≤ 2 ^ 32 := Nat.pow_le_pow_right (by norm_num) hk32
    have : B ≤ U32 := by
      have : U32 = 2 ^ 32 := rfl
      omega
    exact_mod_cast this
  have has := asU32_eq (lt_of_lt_of_le hle hBU)
  rw [has]
  have hpk : fract x * B < pow2 k := by
    rw [pow2_nat]
    have : fract x * B ≤ 1 * B := mul_le_mul_of_nonneg_right (by have := pow2_pos (-(p : Int)); linarith) hB0'.le
    linarith
  obtain ⟨h1, h2⟩ := trunc_near hp he hy0 hpk hkp hem
  refine ⟨?_, h1, h2⟩
  have h3 : (⌊rnd p emin (fract x * B)⌋ : ℚ) < (B : Int) := lt_of_le_of_lt (Int.floor_le _) (by exact_mod_cast hle)
  have h4 : ⌊rnd p emin (fract x * B)⌋ < (B : Int) := by exact_mod_cast h3
  omega

end Verif.Fl
