import Verif.Lemmas.Ieee
import Verif.Lemmas.Delay
import Mathlib.Tactic.IntervalCases

/-!
# C73, C74: times and beats through floating point numbers

The specification is exact rational arithmetic: a time is a whole number of tesimals, a float is the rational
number that it stands for.
-/

namespace Verif.Fl

/-- A time in tesimals. -/
def tes (s : Seconds) : Nat := s.seconds * 282240000 + s.sub

/-- A beat time in tesimals. -/
def tesB (b : Beats) : Nat := b.beats * 1476034560 + b.sub

/-- The finite `f64`s. -/
abbrev F64 (x : ℚ) : Prop := Rep 53 (-1074) x

/-- The finite `f32`s. -/
abbrev F32 (x : ℚ) : Prop := Rep 24 (-149) x

/-! ### Helpers -/

theorem pow2_val : pow2 (-25) = 1 / 33554432 ∧ pow2 (-23) = 1 / 8388608 ∧ pow2 (-54) = 1 / 18014398509481984 ∧
    pow2 (-53) = 1 / 9007199254740992 ∧ pow2 6 = 64 := by
  decide +kernel

theorem floor_cast {x : ℚ} (hx : 0 ≤ x) : ((⌊x⌋.toNat : Nat) : ℚ) = ⌊x⌋ := by
  have := Int.toNat_of_nonneg (Int.floor_nonneg.2 hx)
  exact_mod_cast this

theorem asU32_floor {x : ℚ} (h : x < U32) : asU32 (⌊x⌋ : ℚ) = ⌊x⌋.toNat := by
  have : ((⌊x⌋ : Int) : ℚ) < U32 := lt_of_le_of_lt (Int.floor_le x) h
  rw [asU32_eq this, Int.floor_intCast]

theorem secs_near {x : ℚ} (hr : F64 x) (h0 : 0 ≤ x) (h1 : x < U32) :
    (fromSecs x).sub < 282240000 ∧ x * 282240000 - 1 < tes (fromSecs x) ∧
      (tes (fromSecs x) : ℚ) ≤ x * 282240000 + 1 / 33554432 := by
  obtain ⟨a, b, c⟩ := sub_near (p := 53) (emin := -1074) (by norm_num) (by norm_num) h0 hr (B := 282240000) (k := 29)
    (by norm_num) (by norm_num) (by norm_num) (by norm_num) (by norm_num) (by decide +kernel)
  have hs : (fromSecs x).seconds = ⌊x⌋.toNat := asU32_floor h1
  have hsub : (fromSecs x).sub = asU32 (rnd 53 (-1074) (fract x * ((282240000 : Nat) : ℚ))) := rfl
  rw [← hsub] at a b c
  have hf : fract x = x - ⌊x⌋ := if_pos h0
  have e : pow2 (((29 : Nat) : Int) - ((53 : Nat) : Int) - 1) = 1 / 33554432 := pow2_val.1
  rw [e] at c
  refine ⟨a, ?_, ?_⟩
  · rw [tes, hs]
    push_cast at b ⊢
    rw [floor_cast h0]
    rw [hf] at b
    linarith
  · rw [tes, hs]
    push_cast at c ⊢
    rw [floor_cast h0]
    rw [hf] at c
    linarith

theorem beats_near {x : ℚ} (hr : F64 x) (h0 : 0 ≤ x) (h1 : x < U32) :
    (fromBeats x).sub < 1476034560 ∧ x * 1476034560 - 1 < tesB (fromBeats x) ∧
      (tesB (fromBeats x) : ℚ) ≤ x * 1476034560 + 1 / 8388608 := by
  obtain ⟨a, b, c⟩ := sub_near (p := 53) (emin := -1074) (by norm_num) (by norm_num) h0 hr (B := 1476034560) (k := 31)
    (by norm_num) (by norm_num) (by norm_num) (by norm_num) (by norm_num) (by decide +kernel)
  have hs : (fromBeats x).beats = ⌊x⌋.toNat := asU32_eq h1
  have hsub : (fromBeats x).sub = asU32 (rnd 53 (-1074) (fract x * ((1476034560 : Nat) : ℚ))) := rfl
  rw [← hsub] at a b c
  have hf : fract x = x - ⌊x⌋ := if_pos h0
  have e : pow2 (((31 : Nat) : Int) - ((53 : Nat) : Int) - 1) = 1 / 8388608 := pow2_val.2.1
  rw [e] at c
  refine ⟨a, ?_, ?_⟩
  · rw [tesB, hs]
    push_cast at b ⊢
    rw [floor_cast h0]
    rw [hf] at b
    linarith
  · rw [tesB, hs]
    push_cast at c ⊢
    rw [floor_cast h0]
    rw [hf] at c
    linarith

theorem rep64 (x : ℚ) : F64 (rnd64 x) := rep_rnd (by norm_num) x

theorem rnd64_rep {x : ℚ} (h : F64 x) : rnd64 x = x := rnd_rep h

theorem rnd64_err {x : ℚ} {k : Int} (h : |x| < pow2 k) (hk : -1021 ≤ k) : |rnd64 x - x| ≤ pow2 (k - 54) := by
  have := rnd_err (p := 53) (emin := -1074) h (by push_cast; omega)
  rwa [show k - ((53 : Nat) : Int) - 1 = k - 54 by push_cast; ring] at this

theorem rnd64_nonneg {x : ℚ} (h : 0 ≤ x) : 0 ≤ rnd64 x := rnd_nonneg h

theorem rnd64_mono {x y : ℚ} (h0 : 0 ≤ x) (h : x ≤ y) : rnd64 x ≤ rnd64 y := rnd_mono (by norm_num) h0 h

/-- A pair of a whole part and a fraction, added in floating point. -/
theorem sum_near {a b B : Nat} (hB : 0 < B) (hb : b < B) (hB2 : B < 2 ^ 53) {k : Nat} (ha : a < 2 ^ k) :
    |rnd64 (a + rnd64 ((b : ℚ) / B)) - (a + (b : ℚ) / B)| ≤ pow2 ((k : Int) - 54) + 1 / 18014398509481984 ∧
      0 ≤ rnd64 (a + rnd64 ((b : ℚ) / B)) ∧ rnd64 (a + rnd64 ((b : ℚ) / B)) ≤ rnd64 (2 ^ k) := by
  have hBq : (0 : ℚ) < B := by exact_mod_cast hB
  have hbq : (b : ℚ) + 1 ≤ B := by exact_mod_cast hb
  have hBq2 : (B : ℚ) + 1 ≤ 9007199254740992 := by exact_mod_cast hB2
  have hfr : (b : ℚ) / B ≤ 1 - 1 / B := by
    rw [div_le_iff₀ hBq, sub_mul, div_mul_cancel₀ _ hBq.ne']
    linarith
  have hfr0 : 0 ≤ (b : ℚ) / B := by positivity
  have hinv : (1 : ℚ) / 9007199254740992 < 1 / B := one_div_lt_one_div_of_lt hBq (by linarith)
  have hlt1 : (b : ℚ) / B < 1 := by linarith
  have e1 := rnd64_err (x := (b : ℚ) / B) (k := 0) (by
    rw [abs_of_nonneg hfr0]
    have : pow2 0 = 1 := by decide +kernel
    rw [this]
    exact hlt1) (by norm_num)
  rw [show (0 : Int) - 54 = -54 by norm_num, pow2_val.2.2.1] at e1
  have e1' := abs_le.1 e1
  have hr0 : 0 ≤ rnd64 ((b : ℚ) / B) := rnd64_nonneg hfr0
  have haq : (a : ℚ) + 1 ≤ 2 ^ k := by exact_mod_cast ha
  have ha0 : (0 : ℚ) ≤ a := by positivity
  have hr1 : rnd64 ((b : ℚ) / B) < 1 := by
    have : (1 : ℚ) / 18014398509481984 < 1 / 9007199254740992 := by norm_num
    linarith [e1'.2]
  have e2 := rnd64_err (x := a + rnd64 ((b : ℚ) / B)) (k := k) (by
    rw [abs_of_nonneg (by linarith), pow2_nat]
    push_cast
    linarith) (by omega)
  refine ⟨?_, rnd64_nonneg (by linarith), rnd64_mono (by linarith) (by linarith)⟩
  have e2' := abs_le.1 e2
  rw [abs_le]
  constructor <;> linarith [e1'.1, e1'.2, e2'.1, e2'.2]

/-- The same, relative to the value. -/
theorem sum_rel {a b B : Nat} (hB : 0 < B) (hB2 : B < 2 ^ 53) :
    |rnd64 (a + rnd64 ((b : ℚ) / B)) - (a + (b : ℚ) / B)| ≤ (a + (b : ℚ) / B) * (9 / 4 * pow2 (-53)) := by
  have hBq : (0 : ℚ) < B := by exact_mod_cast hB
  have hBq2 : (B : ℚ) + 1 ≤ 9007199254740992 := by exact_mod_cast hB2
  have hinv : (1 : ℚ) / 9007199254740992 < 1 / B := one_div_lt_one_div_of_lt hBq (by linarith)
  have tiny : pow2 (-1074 - 1) ≤ 1 / 100 * (pow2 (-53) * (1 / 9007199254740992)) := by decide +kernel
  by_cases hz : a = 0 ∧ b = 0
  · obtain ⟨rfl, rfl⟩ := hz
    have : rnd64 0 = 0 := rnd_zero _ _
    simp [this]
  have hfr0 : 0 ≤ (b : ℚ) / B := by positivity
  have ha0 : (0 : ℚ) ≤ a := by positivity
  have hge : (1 : ℚ) / 9007199254740992 ≤ a + (b : ℚ) / B := by
    by_cases h : a = 0
    · have hb : 1 ≤ b := by
        rcases Nat.eq_zero_or_pos b with hb | hb
        · exact absurd ⟨h, hb⟩ hz
        · exact hb
      have hbq : (1 : ℚ) ≤ b := by exact_mod_cast hb
      have : (1 : ℚ) / B ≤ b / B := div_le_div_of_nonneg_right hbq hBq.le
      linarith
    · have : (1 : ℚ) ≤ a := by exact_mod_cast Nat.pos_of_ne_zero h
      have : (1 : ℚ) / 9007199254740992 ≤ 1 := by norm_num
      linarith
  have q1 := rnd_rel 53 (-1074) ((b : ℚ) / B)
  have q2 := rnd_rel 53 (-1074) (a + rnd64 ((b : ℚ) / B))
  have e53 : pow2 (-((53 : Nat) : Int)) = 1 / 9007199254740992 := pow2_val.2.2.2.1
  rw [e53] at q1 q2
  rw [pow2_val.2.2.2.1] at tiny ⊢
  have hr0 : 0 ≤ rnd64 ((b : ℚ) / B) := rnd64_nonneg hfr0
  rw [abs_of_nonneg hfr0] at q1
  rw [abs_of_nonneg (add_nonneg ha0 hr0)] at q2
  change |rnd64 _ - _| ≤ _ at q1
  change |rnd64 _ - _| ≤ _ at q2
  have q1' := abs_le.1 q1
  have q2' := abs_le.1 q2
  rw [abs_le]
  constructor <;> linarith [q1'.1, q1'.2, q2'.1, q2'.2]

theorem floor_exact {y : ℚ} {n : Nat} {t : Nat} (h1 : y - 1 < t) (h2 : (t : ℚ) ≤ y + 1 / 8388608)
    (hy : |y - n| < 1 - 1 / 8388608) : t ≤ n ∧ n ≤ t + 1 := by
  have hy' := abs_lt.1 hy
  constructor
  · have : (t : ℚ) < n + 1 := by linarith
    exact Nat.lt_succ_iff.1 (by exact_mod_cast this)
  · have : (n : ℚ) < t + 1 + 1 := by linarith
    exact Nat.lt_succ_iff.1 (by exact_mod_cast this)

/-- Beside the whole number itself nothing is close enough. -/
theorem floor_whole {y : ℚ} {n : Nat} {t : Nat} (h1 : y - 1 < t) (h2 : (t : ℚ) ≤ y + 1 / 8388608) (hy : y = n) : t = n := by
  have a : (t : ℚ) < n + 1 := by linarith
  have b : (n : ℚ) < t + 1 := by linarith
  have a' : t < n + 1 := by exact_mod_cast a
  have b' : n < t + 1 := by exact_mod_cast b
  omega

theorem gap0 {a b c : Nat} (h1 : 32 * a ≤ 32 * b) (h2 : 32 * b < 32 * c) (h : 32 * a ≠ 32 * b) :
    32 * a + 32 ≤ 32 * b ∧ 32 * b + 32 ≤ 32 * c := by
  omega

theorem gap {q n : Nat} (h1 : q * 100000 ≤ n * 28224) (h2 : n * 28224 < (q + 1) * 100000)
    (h : q * 100000 ≠ n * 28224) : q * 100000 + 32 ≤ n * 28224 ∧ n * 28224 + 32 ≤ (q + 1) * 100000 := by
  rw [show q * 100000 = 32 * (q * 3125) by ring, show n * 28224 = 32 * (n * 882) by ring] at h1 h ⊢
  rw [show (q + 1) * 100000 = 32 * ((q + 1) * 3125) by ring, show n * 28224 = 32 * (n * 882) by ring] at h2
  rw [show (q + 1) * 100000 = 32 * ((q + 1) * 3125) by ring]
  exact gap0 h1 h2 h

theorem pow_mod_three (k : Nat) : 2 ^ k % 3 ≠ 0 := by
  induction k with
  | zero => decide
  | succ n ih =>
    rw [pow_succ]
    omega

/-! ### C73 -/

/-- Partial. `from_secs_f64` of every finite `f64` that is not negative and fits gives a value in normal form, less than
one tesimal below the number given and hardly above it.  It is exact when the number is a whole number of tesimals.
What is missing: the nearest tesimal.  The conversion truncates after rounding, see `C73_violated`. -/
theorem C73_from_partial {x : ℚ} (hr : F64 x) (h0 : 0 ≤ x) (h1 : x < U32) :
    (fromSecs x).sub < 282240000 ∧ x * 282240000 - 1 < tes (fromSecs x) ∧
      (tes (fromSecs x) : ℚ) ≤ x * 282240000 + 1 / 33554432 ∧
      ∀ n : Nat, x * 282240000 = n → tes (fromSecs x) = n := by
  obtain ⟨a, b, c⟩ := secs_near hr h0 h1
  exact ⟨a, b, c, fun n hn => floor_whole b (by linarith) hn⟩

/-- An earlier time in seconds is not a later time in tesimals. -/
theorem C73_mono {x y : ℚ} (hx : F64 x) (h0 : 0 ≤ x) (h : x ≤ y) (h1 : y < U32) :
    tes (fromSecs x) ≤ tes (fromSecs y) := by
  have hx1 : x < U32 := lt_of_le_of_lt h h1
  have hy0 : 0 ≤ y := h0.trans h
  have sx : (fromSecs x).seconds = ⌊x⌋.toNat := asU32_floor hx1
  have sy : (fromSecs y).seconds = ⌊y⌋.toNat := asU32_floor h1
  have hf := Int.floor_le_floor h
  have hfx := Int.floor_nonneg.2 h0
  rcases hf.lt_or_eq with hlt | heq
  · have := (secs_near hx h0 hx1).1
    simp only [tes, sx, sy]
    omega
  · have hsub : (fromSecs x).sub ≤ (fromSecs y).sub := by
      have hm : rnd64 (fract x * ((282240000 : Nat) : ℚ)) ≤ rnd64 (fract y * ((282240000 : Nat) : ℚ)) := by
        refine rnd64_mono (mul_nonneg (fract_nonneg h0) (by norm_num)) (mul_le_mul_of_nonneg_right ?_ (by norm_num))
        rw [fract, if_pos h0, fract, if_pos hy0, heq]
        linarith
      have hfl := Int.floor_le_floor hm
      have : asU32 (rnd64 (fract x * ((282240000 : Nat) : ℚ))) ≤ asU32 (rnd64 (fract y * ((282240000 : Nat) : ℚ))) := by
        rw [asU32, asU32]
        omega
      exact this
    simp only [tes, sx, sy, heq]
    omega

/-- Partial. A time of less than 2 ^ 25 seconds that goes through `to_secs_f64` and `from_secs_f64` comes back as it was
or one tesimal earlier.  What is missing: that it comes back as it was, see `C73_violated`. -/
theorem C73_round_partial {s : Seconds} (hs : s.sub < 282240000) (hb : s.seconds < 2 ^ 25) :
    tes (fromSecs (toSecs s)) ≤ tes s ∧ tes s ≤ tes (fromSecs (toSecs s)) + 1 := by
  obtain ⟨e, p0, p1⟩ := sum_near (a := s.seconds) (b := s.sub) (B := 282240000) (by norm_num) hs (by norm_num) hb
  have hp : rnd64 ((2 : ℚ) ^ 25) < U32 := by decide +kernel
  obtain ⟨-, b, c⟩ := secs_near (x := toSecs s) (rep64 _) p0 (lt_of_le_of_lt p1 hp)
  refine floor_exact b (by linarith) ?_
  have e' : pow2 (((25 : Nat) : Int) - 54) = 1 / 536870912 := by decide +kernel
  rw [e'] at e
  have : toSecs s * 282240000 - (tes s : ℚ) =
      (toSecs s - (s.seconds + (s.sub : ℚ) / ((282240000 : Nat) : ℚ))) * 282240000 := by
    rw [tes]
    push_cast
    ring
  rw [this, abs_mul, abs_of_pos (by norm_num : (0 : ℚ) < 282240000)]
  change |toSecs s - _| ≤ _ at e
  have := mul_le_mul_of_nonneg_right e (by norm_num : (0 : ℚ) ≤ 282240000)
  refine lt_of_le_of_lt this ?_
  norm_num

/-- Times with up to ten binary digits after the point come back as they were. -/
theorem C73_dyadic {s : Seconds} {j : Nat} (hs : s.sub = j * 275625) (hj : j < 1024) (hb : s.seconds < U32) :
    toSecs s = s.seconds + (j : ℚ) / 1024 ∧ fromSecs (toSecs s) = s := by
  have e10 : pow2 (-10) = 1 / 1024 := by decide +kernel
  have r1 : F64 ((j : ℚ) / 1024) := by
    refine ⟨j, -10, ?_, ?_, by norm_num⟩
    · rw [e10]
      push_cast
      ring
    · rw [Nat.abs_cast]
      have : (2 : Int) ^ 53 = 9007199254740992 := by norm_num
      omega
  have r2 : F64 ((s.seconds : ℚ) + (j : ℚ) / 1024) := by
    refine ⟨s.seconds * 1024 + j, -10, ?_, ?_, by norm_num⟩
    · rw [e10]
      push_cast
      ring
    · rw [abs_of_nonneg (by positivity)]
      have : (2 : Int) ^ 53 = 9007199254740992 := by norm_num
      have : U32 = 4294967296 := rfl
      omega
  have h1 : toSecs s = s.seconds + (j : ℚ) / 1024 := by
    rw [toSecs, show (s.sub : ℚ) / ((282240000 : Nat) : ℚ) = j / 1024 by
      rw [hs]
      push_cast
      ring, rnd64_rep r1, rnd64_rep r2]
  refine ⟨h1, ?_⟩
  rw [h1]
  have hj' : (j : ℚ) / 1024 < 1 := by
    rw [div_lt_one (by norm_num)]
    exact_mod_cast hj
  have hj0 : 0 ≤ (j : ℚ) / 1024 := by positivity
  have hx0 : 0 ≤ (s.seconds : ℚ) + (j : ℚ) / 1024 := by positivity
  have hfl : ⌊(s.seconds : ℚ) + (j : ℚ) / 1024⌋ = s.seconds := by
    rw [Int.floor_eq_iff]
    push_cast
    constructor <;> linarith
  have hlt : (s.seconds : ℚ) + (j : ℚ) / 1024 < U32 := by
    have : (s.seconds : ℚ) + 1 ≤ U32 := by exact_mod_cast hb
    exact lt_of_lt_of_le (by linarith) this
  obtain ⟨a, b, c, d⟩ := C73_from_partial r2 hx0 hlt
  have ht := d (tes s) (by
    rw [tes, hs]
    push_cast
    ring)
  have hsec : (fromSecs ((s.seconds : ℚ) + (j : ℚ) / 1024)).seconds = s.seconds := by
    have h2 : (fromSecs ((s.seconds : ℚ) + (j : ℚ) / 1024)).seconds = ⌊(s.seconds : ℚ) + (j : ℚ) / 1024⌋.toNat :=
      asU32_floor hlt
    rw [h2, hfl, Int.toNat_natCast]
  rw [tes, tes, hsec] at ht
  have hsub : (fromSecs ((s.seconds : ℚ) + (j : ℚ) / 1024)).sub = s.sub := by omega
  cases hfs : fromSecs ((s.seconds : ℚ) + (j : ℚ) / 1024) with
  | mk u v =>
    rw [hfs] at hsec hsub
    cases s
    simp only at hsec hsub
    rw [hsec, hsub]

theorem toSamples_eq {s : Seconds} {k sr : Nat} (hk : k * sr = 282240000) (hs : s.sub < 282240000) (hb : s.seconds < 2 ^ 25) :
    s.toSamples sr = .ok (tes s / k) := by
  have hsr : sr ≤ 282240000 := Nat.le_of_dvd (by norm_num) ⟨k, by rw [← hk, Nat.mul_comm]⟩
  have hk0 : 0 < k := by
    rcases Nat.eq_zero_or_pos k with h | h
    · rw [h] at hk
      simp at hk
    · exact h
  have hsr0 : 0 < sr := by
    rcases Nat.eq_zero_or_pos sr with h | h
    · rw [h] at hk
      simp at hk
    · exact h
  have l1 : s.seconds * sr ≤ 33554432 * 282240000 := Nat.mul_le_mul (by omega) hsr
  have l2 : s.sub * sr ≤ 282240000 * 282240000 := Nat.mul_le_mul (by omega) hsr
  have l3 : s.sub * sr / 282240000 ≤ 282240000 := Nat.div_le_of_le_mul l2
  have hq : s.sub * sr / 282240000 = s.sub / k := by
    rw [← hk]
    exact Nat.mul_div_mul_right _ _ hsr0
  have hU : U64 = 18446744073709551616 := rfl
  have h1 : mulC U64 s.seconds sr = .ok (s.seconds * sr) := by
    rw [mulC, if_pos (by omega)]
  have h2 : mulC U64 s.sub sr = .ok (s.sub * sr) := by
    rw [mulC, if_pos (by omega)]
  have h3 : divC (s.sub * sr) 282240000 = .ok (s.sub * sr / 282240000) := by
    rw [divC, if_neg (by norm_num)]
  have h4 : addC U64 (s.seconds * sr) (s.sub * sr / 282240000) = .ok (s.seconds * sr + s.sub * sr / 282240000) := by
    rw [addC, if_pos (by omega)]
  rw [Seconds.toSamples, h1, bind_ok, h2, bind_ok, h3, bind_ok, h4, hq]
  congr 1
  rw [tes, ← hk, show s.seconds * (k * sr) + s.sub = s.sub + k * (s.seconds * sr) by ring,
    Nat.add_mul_div_left _ _ hk0]
  ring

/-- Partial. A number of frames given as the closest `f64` in seconds, up to 2 ^ 24 seconds and at a sample rate that
divides a second into whole tesimals, becomes that frame or the one before.  It is the right frame whenever the `f64` is
exact.  What is missing: the right frame for the other numbers, see `C73_violated`. -/
theorem C73_samples_partial {n k sr : Nat} (hk : k * sr = 282240000) (hn : n < sr * 2 ^ 24) :
    ∃ m, (fromSecs (rnd64 ((n : ℚ) / sr))).toSamples sr = .ok m ∧ m ≤ n ∧ n ≤ m + 1 ∧ (F64 ((n : ℚ) / sr) → m = n) := by
  have hk0 : 0 < k := by
    rcases Nat.eq_zero_or_pos k with h | h
    · rw [h] at hk
      simp at hk
    · exact h
  have hsr0 : 0 < sr := by
    rcases Nat.eq_zero_or_pos sr with h | h
    · rw [h] at hk
      simp at hk
    · exact h
  have hsq : (0 : ℚ) < sr := by exact_mod_cast hsr0
  have hx0 : 0 ≤ (n : ℚ) / sr := by positivity
  have hx1 : (n : ℚ) / sr < pow2 24 := by
    rw [div_lt_iff₀ hsq, show (24 : Int) = ((24 : Nat) : Int) by rfl, pow2_nat, mul_comm]
    exact_mod_cast hn
  have e := rnd64_err (x := (n : ℚ) / sr) (k := 24) (by rwa [abs_of_nonneg hx0]) (by norm_num)
  have e' : pow2 (24 - 54) = 1 / 1073741824 := by decide +kernel
  rw [e'] at e
  have p24 : pow2 24 = 16777216 := by decide +kernel
  rw [p24] at hx1
  have hr0 : 0 ≤ rnd64 ((n : ℚ) / sr) := rnd64_nonneg hx0
  have hr1 : rnd64 ((n : ℚ) / sr) < 16777217 := by
    have := (abs_le.1 e).2
    linarith
  have hU : ((U32 : Nat) : ℚ) = 4294967296 := by norm_num
  have hlt : rnd64 ((n : ℚ) / sr) < U32 := by
    rw [hU]
    linarith
  obtain ⟨a, b, c, d⟩ := C73_from_partial (rep64 ((n : ℚ) / sr)) hr0 hlt
  have hsec : (fromSecs (rnd64 ((n : ℚ) / sr))).seconds < 2 ^ 25 := by
    have h1 : (fromSecs (rnd64 ((n : ℚ) / sr))).seconds = ⌊rnd64 ((n : ℚ) / sr)⌋.toNat := asU32_floor hlt
    rw [h1]
    have h2 : ⌊rnd64 ((n : ℚ) / sr)⌋ < 16777217 := Int.floor_lt.2 (by exact_mod_cast hr1)
    omega
  refine ⟨_, toSamples_eq hk a hsec, ?_⟩
  have hkq : (k : ℚ) * sr = 282240000 := by exact_mod_cast hk
  have hnk : (n : ℚ) / sr * 282240000 = ((n * k : Nat) : ℚ) := by
    rw [← hkq]
    push_cast
    field_simp
  obtain ⟨u, v⟩ := floor_exact b (n := n * k) (by linarith) (by
    rw [← hnk, ← sub_mul, abs_mul, abs_of_pos (by norm_num : (0 : ℚ) < 282240000)]
    have := mul_le_mul_of_nonneg_right e (by norm_num : (0 : ℚ) ≤ 282240000)
    refine lt_of_le_of_lt this ?_
    norm_num)
  refine ⟨?_, ?_, ?_⟩
  · have := Nat.div_le_div_right (c := k) u
    rwa [Nat.mul_div_cancel _ hk0] at this
  · have h1 : n * k ≤ tes (fromSecs (rnd64 ((n : ℚ) / sr))) + k := by omega
    have := Nat.div_le_div_right (c := k) h1
    rwa [Nat.mul_div_cancel _ hk0, Nat.add_div_right _ hk0] at this
  · intro hrep
    have := d (n * k) (by rw [rnd64_rep hrep, hnk])
    rw [this, Nat.mul_div_cancel _ hk0]

/-- A `Duration` becomes the last tesimal that is not after it. -/
theorem C73_duration (secs : Nat) {nanos : Nat} (hn : nanos < 1000000000) :
    fromDuration secs nanos = ⟨secs % U32, nanos * 28224 / 100000⟩ := by
  have hc : rnd64 (((282240000 : Nat) : ℚ) / 1000000000) < 28224 / 100000 ∧
      28224 / 100000 - 1 / 100000000000000000 < rnd64 (((282240000 : Nat) : ℚ) / 1000000000) ∧
      (28224 / 100000 - rnd64 (((282240000 : Nat) : ℚ) / 1000000000)) * 18014398509481984 < 28224 / 100000 := by
    decide +kernel
  obtain ⟨c1, c2, c3⟩ := hc
  rw [fromDuration]
  generalize rnd64 (((282240000 : Nat) : ℚ) / 1000000000) = c at c1 c2 c3
  congr 1
  have hU : ((U32 : Nat) : ℚ) = 4294967296 := by norm_num
  have hnq : (nanos : ℚ) < 1000000000 := by exact_mod_cast hn
  have hn0 : (0 : ℚ) ≤ nanos := by positivity
  have hy : (nanos : ℚ) * c ≤ nanos * (28224 / 100000) := mul_le_mul_of_nonneg_left c1.le hn0
  have hyd : (nanos : ℚ) * (28224 / 100000) - nanos * c ≤ 1 / 100000000 := by
    have : (nanos : ℚ) * (28224 / 100000 - c) ≤ 1000000000 * (1 / 100000000000000000) :=
      mul_le_mul hnq.le (by linarith) (by linarith) (by norm_num)
    linarith
  have hc0 : 0 < c := by linarith
  have hz0 : 0 ≤ (nanos : ℚ) * c := mul_nonneg hn0 hc0.le
  have hz1 : (nanos : ℚ) * c < pow2 29 := by
    have : pow2 29 = 536870912 := by decide +kernel
    rw [this]
    linarith
  -- the whole part of the exact product
  set q := nanos * 28224 / 100000 with hq
  have hq1 : q * 100000 ≤ nanos * 28224 := Nat.div_mul_le_self _ _
  have hq2 : nanos * 28224 < (q + 1) * 100000 := by
    have := Nat.lt_div_mul_add (a := nanos * 28224) (b := 100000) (by norm_num)
    omega
  have hmod : nanos * 28224 % 32 = 0 := by omega
  by_cases hz : q * 100000 = nanos * 28224
  · -- a whole number of tesimals
    have hzq : (nanos : ℚ) * (28224 / 100000) = q := by
      have : ((q * 100000 : Nat) : ℚ) = ((nanos * 28224 : Nat) : ℚ) := by rw [hz]
      push_cast at this
      linarith
    by_cases hn00 : nanos = 0
    · have hq0 : q = 0 := by omega
      rw [hq0, hn00]
      have : rnd64 (((0 : Nat) : ℚ) * c) = 0 := by
        rw [Nat.cast_zero, zero_mul]
        exact rnd_zero _ _
      rw [this]
      decide +kernel
    have hqpos : 0 < q := by omega
    have hq9 : q % 3 = 0 := by omega
    have hk1 := Nat.log2_self_le hqpos.ne'
    have hk2 := Nat.lt_log2_self (n := q)
    set k := Nat.log2 q
    have hne : 2 ^ k ≠ q := by
      intro h
      rw [← h] at hq9
      exact pow_mod_three _ hq9
    have hk29 : k < 29 := by
      have : q < 2 ^ 29 := by omega
      exact (Nat.pow_lt_pow_iff_right (by norm_num)).1 (lt_of_le_of_lt hk1 this)
    have hr : rnd64 ((nanos : ℚ) * c) = q := by
      refine rnd_close (p := 53) (emin := -1074) (k := k) (by norm_num) (by omega) (by push_cast; omega)
        (lt_of_le_of_ne hk1 hne) hk2 (by linarith) ?_
      have hp : pow2 ((k : Int) - (53 : Nat)) = pow2 ((k : Int) + 1) * pow2 (-54) := by
        rw [← pow2_add]
        congr 1
        push_cast
        ring
      rw [hp, pow2_val.2.2.1]
      have hkq : (q : ℚ) < pow2 ((k : Int) + 1) := by
        have : ((k : Int) + 1) = ((k + 1 : Nat) : Int) := by push_cast; rfl
        rw [this, pow2_nat]
        exact_mod_cast hk2
      have hnp : (0 : ℚ) < nanos := by exact_mod_cast Nat.pos_of_ne_zero hn00
      have : (nanos : ℚ) * ((28224 / 100000 - c) * 18014398509481984) < nanos * (28224 / 100000) :=
        mul_lt_mul_of_pos_left c3 hnp
      rw [mul_one_div, lt_div_iff₀ (by norm_num)]
      linarith
    rw [hr, asU32_eq (by
      rw [hU]
      have : (q : ℚ) ≤ 1000000000 := by linarith
      linarith)]
    rw [Int.floor_natCast, Int.toNat_natCast]
  · -- at least one part in 3125 away from a whole number
    obtain ⟨hz', hz2⟩ := gap hq1 hq2 hz
    have hlow : (q : ℚ) ≤ nanos * c := by
      have : ((q * 100000 + 32 : Nat) : ℚ) ≤ ((nanos * 28224 : Nat) : ℚ) := by exact_mod_cast hz'
      push_cast at this
      linarith
    have hup : (nanos : ℚ) * c ≤ q + 1 - 32 / 100000 := by
      have : ((nanos * 28224 + 32 : Nat) : ℚ) ≤ (((q + 1) * 100000 : Nat) : ℚ) := by exact_mod_cast hz2
      push_cast at this
      linarith
    have hrep : F64 (q : ℚ) := rep_nat (by omega) (by norm_num)
    have l1 : (q : ℚ) ≤ rnd64 (nanos * c) := by
      have := rnd64_mono (x := (q : ℚ)) (by positivity) hlow
      rwa [rnd64_rep hrep] at this
    have l2 : rnd64 (nanos * c) < q + 1 := by
      have e := rnd64_err (x := (nanos : ℚ) * c) (k := 29) (by rwa [abs_of_nonneg hz0]) (by norm_num)
      have e' : pow2 (29 - 54) = 1 / 33554432 := by decide +kernel
      rw [e'] at e
      have := (abs_le.1 e).2
      linarith
    have hfl : ⌊rnd64 ((nanos : ℚ) * c)⌋ = q := by
      rw [Int.floor_eq_iff]
      push_cast
      exact ⟨l1, l2⟩
    rw [asU32_eq (by
      rw [hU]
      have : (q : ℚ) ≤ 1000000000 := by linarith
      linarith), hfl, Int.toNat_natCast]


/-- A rounded product of a rounded number. -/
theorem prod_rel {t S x e : ℚ} (hS : 0 ≤ S) (hx : 0 ≤ x) (he0 : 0 ≤ e) (he : e ≤ 1 / 4) (h : |t - S| ≤ S * e) :
    |rnd64 (t * x) - S * x| ≤ S * x * (e + 5 / 4 * (1 / 9007199254740992)) + 1 / 1000000000000 ∧ 0 ≤ t := by
  have h' := abs_le.1 h
  have ht : 0 ≤ t := by nlinarith [h'.1]
  have q := rnd_rel 53 (-1074) (t * x)
  have e53 : pow2 (-((53 : Nat) : Int)) = 1 / 9007199254740992 := pow2_val.2.2.2.1
  have tiny : pow2 (-1074 - 1) ≤ 1 / 1000000000000 := by decide +kernel
  rw [e53, abs_of_nonneg (mul_nonneg ht hx)] at q
  change |rnd64 _ - _| ≤ _ at q
  have q' := abs_le.1 q
  have hSx : 0 ≤ S * x := mul_nonneg hS hx
  have h1 : t * x - S * x ≤ S * x * e := by
    have := mul_le_mul_of_nonneg_right h'.2 hx
    linarith
  have h2 : -(S * x * e) ≤ t * x - S * x := by
    have := mul_le_mul_of_nonneg_right h'.1 hx
    linarith
  have h3 : S * x * e ≤ S * x * (1 / 4) := mul_le_mul_of_nonneg_left he hSx
  refine ⟨?_, ht⟩
  rw [abs_le]
  constructor <;> linarith [q'.1, q'.2]

theorem toSecs_rel (s : Seconds) :
    |toSecs s - (tes s : ℚ) / 282240000| ≤ (tes s : ℚ) / 282240000 * (9 / 4 * (1 / 9007199254740992)) := by
  have h := sum_rel (a := s.seconds) (b := s.sub) (B := 282240000) (by norm_num) (by norm_num)
  rw [pow2_val.2.2.2.1] at h
  have e : (s.seconds : ℚ) + (s.sub : ℚ) / ((282240000 : Nat) : ℚ) = (tes s : ℚ) / 282240000 := by
    rw [tes]
    push_cast
    ring
  rw [e] at h
  exact h

theorem toBeats_rel (b : Beats) :
    |toBeats b - (tesB b : ℚ) / 1476034560| ≤ (tesB b : ℚ) / 1476034560 * (9 / 4 * (1 / 9007199254740992)) := by
  have h := sum_rel (a := b.beats) (b := b.sub) (B := 1476034560) (by norm_num) (by norm_num)
  rw [pow2_val.2.2.2.1] at h
  have e : (b.beats : ℚ) + (b.sub : ℚ) / ((1476034560 : Nat) : ℚ) = (tesB b : ℚ) / 1476034560 := by
    rw [tesB]
    push_cast
    ring
  rw [e] at h
  exact h

/-- Partial. A time multiplied by a number, when the product is below 2 ^ 22 seconds, is less than one and a half
tesimals wrong; multiplied by a whole number it is right or one tesimal early.  What is missing: the nearest tesimal, see
`C73_violated`. -/
theorem C73_mul_partial {s : Seconds} {x : ℚ} (hx : 0 ≤ x) (hb : (tes s : ℚ) * x < 282240000 * 2 ^ 22) :
    |(tes (mulF s x) : ℚ) - tes s * x| < 3 / 2 ∧
      ∀ k : Nat, x = k → tes (mulF s x) ≤ tes s * k ∧ tes s * k ≤ tes (mulF s x) + 1 := by
  obtain ⟨e, ht⟩ := prod_rel (S := (tes s : ℚ) / 282240000) (by positivity) hx (by norm_num) (by norm_num) (toSecs_rel s)
  have hT : (tes s : ℚ) / 282240000 * x = tes s * x / 282240000 := by ring
  rw [hT] at e
  have hT0 : (0 : ℚ) ≤ tes s * x := by positivity
  obtain ⟨T, hTe⟩ : ∃ T, T = (tes s : ℚ) * x := ⟨_, rfl⟩
  rw [← hTe] at e hT0 hb ⊢
  have e' := abs_le.1 e
  have hv0 : 0 ≤ rnd64 (toSecs s * x) := rnd64_nonneg (mul_nonneg ht hx)
  have hv1 : rnd64 (toSecs s * x) < 4194305 := by
    have : T / 282240000 < 2 ^ 22 := by
      rw [div_lt_iff₀ (by norm_num)]
      linarith
    have h2 : T / 282240000 * (9 / 4 * (1 / 9007199254740992) + 5 / 4 * (1 / 9007199254740992)) ≤ 1 / 2 := by
      norm_num at this ⊢
      linarith
    norm_num at this
    linarith [e'.2]
  have hm : mulF s x = fromSecs (rnd64 (toSecs s * x)) := by
    have : (4194305 : ℚ) < pow2 1024 := by decide +kernel
    exact if_pos (lt_trans hv1 this)
  obtain ⟨-, b, c⟩ := secs_near (rep64 (toSecs s * x)) hv0 (lt_trans hv1 (by norm_num))
  rw [← hm] at b c
  have hn : |rnd64 (toSecs s * x) * 282240000 - T| < 9 / 20 + 1 / 50 := by
    rw [abs_lt]
    have h3 : T * (7 / 2 * (1 / 9007199254740992)) < 9 / 20 + 1 / 60 := by
      norm_num at hb ⊢
      linarith
    have h4 : T / 282240000 * (9 / 4 * (1 / 9007199254740992) + 5 / 4 * (1 / 9007199254740992)) * 282240000 =
        T * (7 / 2 * (1 / 9007199254740992)) := by ring
    constructor <;> linarith [e'.1, e'.2]
  have hn' := abs_lt.1 hn
  constructor
  · rw [abs_lt]
    constructor <;> linarith [hn'.1, hn'.2]
  · intro k hk
    refine floor_exact b (by linarith) ?_
    have hc : ((tes s * k : Nat) : ℚ) = T := by
      rw [hTe, hk]
      push_cast
      ring
    rw [hc]
    exact lt_trans hn (by norm_num)

/-- A delay line that is asked for at most its maximum, as `to_secs_f64` gives it, is long enough and the next frame
does not panic. -/
theorem C73_delay_partial {s : Seconds} {sr : Nat} {x : ℚ} (h0 : 0 ≤ x) (h : x ≤ toSecs s)
    (h1 : 0 < (sampleInit s sr).buf.length) (v : ℚ) :
    (sampleTime (sampleInit s sr) sr x).delay ≤ (sampleInit s sr).buf.length ∧
      ∃ r, (sampleTime (sampleInit s sr) sr x).process v = .ok r := by
  have hd : (sampleTime (sampleInit s sr) sr x).delay ≤ (sampleInit s sr).buf.length := by
    simp only [sampleTime, sampleInit, List.length_replicate, Dl.asUsize]
    have := rnd64_mono (mul_nonneg h0 (by positivity : (0 : ℚ) ≤ sr))
      (mul_le_mul_of_nonneg_right h (by positivity : (0 : ℚ) ≤ sr))
    have := Int.floor_le_floor this
    omega
  refine ⟨hd, ?_⟩
  have hl : (sampleTime (sampleInit s sr) sr x).buf.length = (sampleInit s sr).buf.length := rfl
  have hw : (sampleTime (sampleInit s sr) sr x).wp = 0 := rfl
  rw [Dl.Sample.process, Dl.write_ok (by rw [hw, hl]; exact h1), bind_ok, List.length_set,
    Dl.subC_ok (by rw [hl]; omega), bind_ok, Dl.modC_ok (by rw [hl]; exact h1), bind_ok]
  have hlt := Nat.mod_lt ((sampleTime (sampleInit s sr) sr x).wp + (sampleTime (sampleInit s sr) sr x).buf.length -
    (sampleTime (sampleInit s sr) sr x).delay) (by rw [hl]; exact h1 : 0 < (sampleTime (sampleInit s sr) sr x).buf.length)
  rw [Dl.read_ok (List.getElem?_eq_getElem (by rw [List.length_set]; exact hlt)), bind_ok,
    Dl.modC_ok (by rw [hl]; exact h1), bind_ok]
  exact ⟨_, rfl⟩

/-- A delay line that is asked for more than its length panics on the first frame. -/
theorem delay_panic {d : Dl.Sample} (h0 : d.wp = 0) (h1 : 0 < d.buf.length) (h : d.buf.length < d.delay) (v : ℚ) :
    d.process v = .error .overflow := by
  rw [Dl.Sample.process, h0, Dl.write_ok h1, bind_ok, List.length_set, subC, if_neg (by omega)]
  rfl

/-- C73 does not hold as it stands.  The `f64` closest to 1.2 seconds is taken as one frame early at 48 kHz, and so are 49
frames.  A time of 197 tesimals does not survive the way to `f64` and back, nor a multiplication by one; at the very end
of the range a whole second is lost.  A delay line made for 1.2 seconds and set to 1.2 seconds panics on its first
frame.  A delay line set to 27 frames at 48 kHz delays by 26.  A duration of 2 ^ 32 seconds becomes zero. -/
theorem C73_violated :
    (fromSecs (rnd64 (6 / 5))).toSamples 48000 = .ok 57599 ∧
      (fromSecs (rnd64 (49 / 48000))).toSamples 48000 = .ok 48 ∧
      fromSecs (toSecs ⟨0, 197⟩) = ⟨0, 196⟩ ∧ mulF ⟨0, 197⟩ 1 = ⟨0, 196⟩ ∧
      fromSecs (toSecs ⟨4294967295, 282239999⟩) = ⟨4294967295, 0⟩ ∧
      (∀ v, (sampleTime (sampleInit (fromSecs (rnd64 (6 / 5))) 48000) 48000 (rnd64 (6 / 5))).process v =
        .error .overflow) ∧
      (sampleTime (sampleInit ⟨1, 0⟩ 48000) 48000 (rnd64 (27 / 48000))).delay = 26 ∧
      fromDuration 4294967296 0 = ⟨0, 0⟩ := by
  refine ⟨by decide +kernel, by decide +kernel, by decide +kernel, by decide +kernel, by decide +kernel, ?_,
    by decide +kernel, by decide +kernel⟩
  intro v
  have h1 : Dl.asUsize (rnd64 (toSecs (fromSecs (rnd64 (6 / 5))) * ((48000 : Nat) : ℚ))) = 57599 := by decide +kernel
  have h2 : Dl.asUsize (rnd64 (rnd64 (6 / 5) * ((48000 : Nat) : ℚ))) = 57600 := by decide +kernel
  refine delay_panic rfl ?_ ?_ v
  · simp only [sampleTime, sampleInit, List.length_replicate, h1]
    norm_num
  · simp only [sampleTime, sampleInit, List.length_replicate, h1, h2]
    norm_num

/-- The hypotheses of the theorems above are met, by 2.5 seconds, 0.1 seconds and 44100 frames a second. -/
example : F64 (5 / 2) ∧ F64 (rnd64 (1 / 10)) ∧ (fromSecs (5 / 2)) = ⟨2, 141120000⟩ ∧
    fromSecs (rnd64 (1 / 10)) = ⟨0, 28224000⟩ ∧ (6400 : Nat) * 44100 = 282240000 ∧
    (fromSecs (rnd64 ((44101 : Nat) / (44100 : Nat)))).toSamples 44100 = .ok 44101 ∧
    fromDuration 3 500000001 = ⟨3, 141120000⟩ ∧ mulF ⟨1, 141120000⟩ (3 / 2) = ⟨2, 70560000⟩ ∧
    (⟨7, 141120000⟩ : Seconds).sub = 512 * 275625 ∧ 0 < (sampleInit ⟨0, 28224000⟩ 48).buf.length := by
  refine ⟨⟨5, -1, ?_, ?_, ?_⟩, rep64 _, ?_, ?_, ?_, ?_, ?_, ?_, ?_, ?_⟩ <;> decide +kernel

/-! ### C74 -/

/-- Partial. `from_beats_f64` of every finite `f64` that is not negative and fits gives a value in normal form, less than
one tesimal below the number given and hardly above it; it is exact when the number is a whole number of tesimals.
`from_beats_f32` gives a value in normal form too, up to 65 tesimals away.  What is missing: the nearest tesimal, see
`C74_violated`. -/
theorem C74_from_partial {x : ℚ} (h0 : 0 ≤ x) (h1 : x < U32) :
    (F64 x → (fromBeats x).sub < 1476034560 ∧ x * 1476034560 - 1 < tesB (fromBeats x) ∧
      (tesB (fromBeats x) : ℚ) ≤ x * 1476034560 + 1 / 8388608 ∧
      ∀ n : Nat, x * 1476034560 = n → tesB (fromBeats x) = n) ∧
    (F32 x → (fromBeats32 x).sub < 1476034560 ∧ |(tesB (fromBeats32 x) : ℚ) - x * 1476034560| ≤ 65) := by
  constructor
  · intro hr
    obtain ⟨a, b, c⟩ := beats_near hr h0 h1
    exact ⟨a, b, c, fun n hn => floor_whole b c hn⟩
  · intro hr
    have hf : fract x = x - ⌊x⌋ := if_pos h0
    have hf0 := fract_nonneg h0
    have hf1 : fract x ≤ 1 - pow2 (-24) := by
      rw [hf]
      exact fract_le hr h0
    have htop : rnd32 ((1 - pow2 (-24)) * ((1476034560 : Nat) : ℚ)) < 1476034560 := by decide +kernel
    have hy0 : 0 ≤ fract x * ((1476034560 : Nat) : ℚ) := by positivity
    have hle : rnd32 (fract x * ((1476034560 : Nat) : ℚ)) < 1476034560 := lt_of_le_of_lt
      (rnd_mono (by norm_num) hy0 (mul_le_mul_of_nonneg_right hf1 (by positivity))) htop
    have hr0 : 0 ≤ rnd32 (fract x * ((1476034560 : Nat) : ℚ)) := rnd_nonneg hy0
    have hsub : (fromBeats32 x).sub = ⌊rnd32 (fract x * ((1476034560 : Nat) : ℚ))⌋.toNat :=
      asU32_eq (lt_trans hle (by norm_num))
    have hs : (fromBeats32 x).beats = ⌊x⌋.toNat := asU32_eq h1
    have e := rnd_err (p := 24) (emin := -149) (x := fract x * ((1476034560 : Nat) : ℚ)) (k := 31) (by
      rw [abs_of_nonneg hy0]
      have p31 : pow2 31 = 2147483648 := by decide +kernel
      rw [p31]
      have := pow2_pos (-24)
      have : fract x * ((1476034560 : Nat) : ℚ) ≤ 1 * ((1476034560 : Nat) : ℚ) :=
        mul_le_mul_of_nonneg_right (by linarith) (by positivity)
      push_cast at this ⊢
      linarith) (by norm_num)
    have e6 : pow2 (31 - ((24 : Nat) : Int) - 1) = 64 := pow2_val.2.2.2.2
    rw [e6] at e
    change |rnd32 _ - _| ≤ _ at e
    have e' := abs_le.1 e
    have f1 := Int.floor_le (rnd32 (fract x * ((1476034560 : Nat) : ℚ)))
    have f2 := Int.lt_floor_add_one (rnd32 (fract x * ((1476034560 : Nat) : ℚ)))
    constructor
    · rw [hsub]
      have : ⌊rnd32 (fract x * ((1476034560 : Nat) : ℚ))⌋ < 1476034560 := Int.floor_lt.2 (by exact_mod_cast hle)
      omega
    · rw [tesB, hsub, hs]
      push_cast at e' f1 f2 hr0 ⊢
      rw [floor_cast h0, floor_cast hr0]
      rw [hf] at *
      rw [abs_le]
      constructor <;> linarith [e'.1, e'.2]

/-- Partial. A beat time below 2 ^ 23 beats that goes through `as_beats_f64` and `from_beats_f64` comes back as it was or
one tesimal earlier.  What is missing: that it comes back as it was, see `C74_violated`. -/
theorem C74_round_partial {b : Beats} (hs : b.sub < 1476034560) (hb : b.beats < 2 ^ 23) :
    tesB (fromBeats (toBeats b)) ≤ tesB b ∧ tesB b ≤ tesB (fromBeats (toBeats b)) + 1 := by
  obtain ⟨e, p0, p1⟩ := sum_near (a := b.beats) (b := b.sub) (B := 1476034560) (by norm_num) hs (by norm_num) hb
  have hp : rnd64 ((2 : ℚ) ^ 23) < U32 := by decide +kernel
  obtain ⟨-, l, c⟩ := beats_near (x := toBeats b) (rep64 _) p0 (lt_of_le_of_lt p1 hp)
  refine floor_exact l c ?_
  have e' : pow2 (((23 : Nat) : Int) - 54) = 1 / 2147483648 := by decide +kernel
  rw [e'] at e
  have : toBeats b * 1476034560 - (tesB b : ℚ) =
      (toBeats b - (b.beats + (b.sub : ℚ) / ((1476034560 : Nat) : ℚ))) * 1476034560 := by
    rw [tesB]
    push_cast
    ring
  rw [this, abs_mul, abs_of_pos (by norm_num : (0 : ℚ) < 1476034560)]
  change |toBeats b - _| ≤ _ at e
  have := mul_le_mul_of_nonneg_right e (by norm_num : (0 : ℚ) ≤ 1476034560)
  refine lt_of_le_of_lt this ?_
  norm_num

/-- Beat times with up to fifteen binary digits after the point come back as they were, and a multiple of one that fits is
right. -/
theorem C74_dyadic {b : Beats} {j : Nat} (hs : b.sub = j * 45045) (hj : j < 32768) (hb : b.beats < U32) :
    fromBeats (toBeats b) = b ∧
      ∀ k : Nat, tesB b * k < U32 * 1476034560 → tesB (mulU32 b k) = tesB b * k ∧ (mulU32 b k).sub < 1476034560 := by
  have e15 : pow2 (-15) = 1 / 32768 := by decide +kernel
  have hU : (2 : Int) ^ 53 = 9007199254740992 := by norm_num
  have r1 : F64 ((j : ℚ) / 32768) := by
    refine ⟨j, -15, ?_, ?_, by norm_num⟩
    · rw [e15]
      push_cast
      ring
    · rw [Nat.abs_cast]
      omega
  have rep : ∀ n : Nat, n < U32 * 32768 → F64 ((n : ℚ) / 32768) := by
    intro n hn
    refine ⟨n, -15, ?_, ?_, by norm_num⟩
    · rw [e15]
      push_cast
      ring
    · rw [Nat.abs_cast]
      omega
  have h1 : toBeats b = ((b.beats * 32768 + j : Nat) : ℚ) / 32768 := by
    have e : (b.beats : ℚ) + (j : ℚ) / 32768 = ((b.beats * 32768 + j : Nat) : ℚ) / 32768 := by
      push_cast
      ring
    rw [toBeats, show (b.sub : ℚ) / ((1476034560 : Nat) : ℚ) = j / 32768 by
      rw [hs]
      push_cast
      ring, rnd64_rep r1, e, rnd64_rep (rep _ (by omega))]
  have hT : tesB b = (b.beats * 32768 + j) * 45045 := by
    rw [tesB, hs]
    ring
  have hx : ∀ n : Nat, n < U32 * 32768 → (fromBeats ((n : ℚ) / 32768)).sub < 1476034560 ∧
      tesB (fromBeats ((n : ℚ) / 32768)) = n * 45045 := by
    intro n hn
    have hlt : (n : ℚ) / 32768 < U32 := by
      rw [div_lt_iff₀ (by norm_num)]
      exact_mod_cast hn
    obtain ⟨a, -, -, d⟩ := (C74_from_partial (x := (n : ℚ) / 32768) (by positivity) hlt).1 (rep n hn)
    refine ⟨a, d _ ?_⟩
    push_cast
    ring
  constructor
  · have hlt : b.beats * 32768 + j < U32 * 32768 := by omega
    obtain ⟨a, c⟩ := hx _ hlt
    rw [h1]
    rw [← hT] at c
    generalize fromBeats (((b.beats * 32768 + j : Nat) : ℚ) / 32768) = w at a c
    cases w
    cases b
    simp only [tesB] at a c hs
    simp only [Beats.mk.injEq]
    omega
  · intro k hk
    rw [hT] at hk
    have hlt : (b.beats * 32768 + j) * k < U32 * 32768 := by
      have : (b.beats * 32768 + j) * k * 45045 < U32 * 32768 * 45045 := by
        rw [show (b.beats * 32768 + j) * k * 45045 = (b.beats * 32768 + j) * 45045 * k by ring]
        exact hk
      exact lt_of_mul_lt_mul_right this (by norm_num)
    obtain ⟨a, c⟩ := hx _ hlt
    have e : toBeats b * k = (((b.beats * 32768 + j) * k : Nat) : ℚ) / 32768 := by
      rw [h1]
      push_cast
      ring
    rw [mulU32, e, rnd64_rep (rep _ hlt)]
    refine ⟨?_, a⟩
    rw [c, hT]
    ring

/-- Partial. A beat time taken `k` times, when that is at most 2 ^ 20 beats, is right or one tesimal early.  The product of
two beat times, up to 2 ^ 18 beats, is less than one and a half tesimals wrong.  What is missing: the exact multiple, see
`C74_violated`. -/
theorem C74_mul_partial {b : Beats} :
    (∀ k : Nat, tesB b * k < 1476034560 * 2 ^ 20 → tesB (mulU32 b k) ≤ tesB b * k ∧ tesB b * k ≤ tesB (mulU32 b k) + 1) ∧
      ∀ b' : Beats, tesB b * tesB b' < 1476034560 * 1476034560 * 2 ^ 18 →
        |(tesB (mulBeats b b') : ℚ) - tesB b * tesB b' / 1476034560| < 3 / 2 := by
  constructor
  · intro k hb
    obtain ⟨e, ht⟩ := prod_rel (S := (tesB b : ℚ) / 1476034560) (x := (k : ℚ))
      (div_nonneg (Nat.cast_nonneg _) (by norm_num)) (Nat.cast_nonneg _) (by norm_num) (by norm_num) (toBeats_rel b)
    have hbq : (tesB b : ℚ) * k < 1476034560 * 2 ^ 20 := by exact_mod_cast hb
    rw [show (tesB b : ℚ) / 1476034560 * k = tesB b * k / 1476034560 by ring] at e
    obtain ⟨T, hTe⟩ : ∃ T, T = (tesB b : ℚ) * k := ⟨_, rfl⟩
    rw [← hTe] at e hbq
    have hT0 : 0 ≤ T := by
      rw [hTe]
      exact mul_nonneg (Nat.cast_nonneg _) (Nat.cast_nonneg _)
    have e' := abs_le.1 e
    have hv0 : 0 ≤ rnd64 (toBeats b * k) := rnd64_nonneg (mul_nonneg ht (Nat.cast_nonneg _))
    have h3 : T * (7 / 2 * (1 / 9007199254740992)) < 7 / 10 := by
      norm_num at hbq ⊢
      linarith
    have h4 : T / 1476034560 * (9 / 4 * (1 / 9007199254740992) + 5 / 4 * (1 / 9007199254740992)) * 1476034560 =
        T * (7 / 2 * (1 / 9007199254740992)) := by ring
    have hv1 : rnd64 (toBeats b * k) < 1048578 := by
      have : T / 1476034560 < 1048576 := by
        rw [div_lt_iff₀ (by norm_num)]
        norm_num at hbq ⊢
        linarith
      linarith [e'.2]
    obtain ⟨-, l, c⟩ := beats_near (rep64 (toBeats b * k)) hv0 (lt_trans hv1 (by norm_num))
    refine floor_exact l c ?_
    have hc : ((tesB b * k : Nat) : ℚ) = T := by
      rw [hTe]
      push_cast
      ring
    rw [hc, abs_lt]
    constructor <;> linarith [e'.1, e'.2]
  · intro b' hb
    have r1 := toBeats_rel b
    have r2 := toBeats_rel b'
    have hbq : (tesB b : ℚ) * tesB b' < 1476034560 * 1476034560 * 2 ^ 18 := by exact_mod_cast hb
    obtain ⟨S, hS⟩ : ∃ S, S = (tesB b : ℚ) / 1476034560 := ⟨_, rfl⟩
    obtain ⟨S', hS'⟩ : ∃ S, S = (tesB b' : ℚ) / 1476034560 := ⟨_, rfl⟩
    rw [← hS] at r1
    rw [← hS'] at r2
    have hS0 : 0 ≤ S := by
      rw [hS]
      exact div_nonneg (Nat.cast_nonneg _) (by norm_num)
    have hS0' : 0 ≤ S' := by
      rw [hS']
      exact div_nonneg (Nat.cast_nonneg _) (by norm_num)
    have r1' := abs_le.1 r1
    have r2' := abs_le.1 r2
    have ht' : 0 ≤ toBeats b' := by linarith [r2'.1]
    have ht : 0 ≤ toBeats b := by linarith [r1'.1]
    have hSS : 0 ≤ S * S' := mul_nonneg hS0 hS0'
    -- the second factor first
    have hm : |toBeats b * toBeats b' - S * S'| ≤ S * S' * (5 * (1 / 9007199254740992)) := by
      have a1 := mul_le_mul_of_nonneg_right r1'.2 ht'
      have a2 := mul_le_mul_of_nonneg_right r1'.1 ht'
      have a3 := mul_le_mul_of_nonneg_left r2'.2 hS0
      have a4 := mul_le_mul_of_nonneg_left r2'.1 hS0
      rw [abs_le]
      constructor <;> linarith
    have e := prod_rel (t := toBeats b * toBeats b') (S := S * S') (x := 1) hSS (by norm_num) (by norm_num) (by norm_num) hm
    rw [mul_one, mul_one] at e
    have e' := abs_le.1 e.1
    have hP : S * S' * (1476034560 * 1476034560) = tesB b * tesB b' := by
      rw [hS, hS']
      ring
    have hlt : S * S' < 262144 := by
      norm_num at hbq
      linarith
    have hv0 : 0 ≤ rnd64 (toBeats b * toBeats b') := rnd64_nonneg (mul_nonneg ht ht')
    have hv1 : rnd64 (toBeats b * toBeats b') < 262146 := by linarith [e'.2]
    obtain ⟨-, l, c⟩ := beats_near (rep64 (toBeats b * toBeats b')) hv0 (lt_trans hv1 (by norm_num))
    change _ < (tesB (mulBeats b b') : ℚ) at l
    change (tesB (mulBeats b b') : ℚ) ≤ _ at c
    rw [← hP, abs_lt]
    constructor <;> linarith [e'.1, e'.2]

/-- C74 does not hold as it stands.  A third of a beat taken four times is not four thirds of a beat, and four thirds of a
beat do not survive the way to `f64` and back.  With `f32` a thousand and a third beats come back 30016 tesimals early, and
above 2 ^ 24 beats a multiplication by one loses a whole beat. -/
theorem C74_violated :
    mulU32 ⟨0, 492011520⟩ 4 = ⟨1, 492011519⟩ ∧ fromBeats (toBeats ⟨1, 492011520⟩) = ⟨1, 492011519⟩ ∧
      fromBeats32 (toBeats32 ⟨1000, 492011520⟩) = ⟨1000, 491981504⟩ ∧
      mulBeats32 ⟨16777217, 0⟩ 1 = ⟨16777216, 0⟩ := by
  refine ⟨?_, ?_, ?_, ?_⟩ <;> decide +kernel

/-- The hypotheses are met: half a beat, a bar of seven eighths taken eight times, and the square of one and a half. -/
example : F64 (1 / 2) ∧ F32 (7 / 2) ∧ fromBeats (1 / 2) = ⟨0, 738017280⟩ ∧ fromBeats32 (7 / 2) = ⟨3, 738017280⟩ ∧
    (⟨3, 738017280⟩ : Beats).sub = 16384 * 45045 ∧ mulU32 ⟨3, 738017280⟩ 8 = ⟨28, 0⟩ ∧
    mulBeats ⟨1, 738017280⟩ ⟨1, 738017280⟩ = ⟨2, 369008640⟩ := by
  refine ⟨⟨1, -1, ?_, ?_, ?_⟩, ⟨7, -1, ?_, ?_, ?_⟩, ?_, ?_, ?_, ?_, ?_⟩ <;> decide +kernel

end Verif.Fl
