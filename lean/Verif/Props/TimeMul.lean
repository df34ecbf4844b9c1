import Verif.Props.Time

/-!
# C28 and C29: differences of `Beats` that saturate, and what the product of two `Seconds` is

The seconds are multiplied with the seconds and the fractions with the fractions; the product of the fractions is not
divided, and the mixed terms are left out.
-/

namespace Verif

open Verif.TimeSpec

/-- C28: the saturating difference of beats is exact, and zero if it would be negative. -/
theorem C28_saturating_sub {a b : Beats} (ha : BNormal a) (hb : BNormal b) :
    ∃ c, a.saturatingSub b = .ok c ∧ BNormal c ∧ bticks c = bticks a - bticks b := by
  have h := C28_checked_sub ha hb
  by_cases hab : bticks b ≤ bticks a
  · obtain ⟨c, h1, h2, h3⟩ := h.1 hab
    refine ⟨c, ?_, h2, by omega⟩
    simp only [Beats.saturatingSub, h1, bind_ok, pure_ok, Option.getD_some]
  · refine ⟨.zero, ?_, by decide, ?_⟩
    · simp only [Beats.saturatingSub, h.2 (by omega), bind_ok, pure_ok, Option.getD_none]
    · rw [show bticks .zero = 0 by decide]
      omega

/-- One beat and a half minus three quarters of a beat, and the other way round. -/
example : BNormal ⟨1, 738017280⟩ ∧ BNormal ⟨0, 1107025920⟩ ∧
    Beats.saturatingSub ⟨1, 738017280⟩ ⟨0, 1107025920⟩ = .ok ⟨0, 1107025920⟩ ∧
    Beats.saturatingSub ⟨0, 1107025920⟩ ⟨1, 738017280⟩ = .ok ⟨0, 0⟩ :=
  ⟨by decide, by decide, by decide, by decide⟩

/-- C29, what is computed: the number of ticks is the product of the seconds, in ticks, and the undivided product of the
fractions.  The result is in normal form unless that product is exactly one second. -/
theorem C29_product {a b : Seconds} (ha : Normal a) (hb : Normal b)
    (h : a.seconds * b.seconds + a.sub * b.sub / tesPerSec < U32) :
    ∃ c, a.mul b = .ok c ∧ ticks c = a.seconds * b.seconds * tesPerSec + a.sub * b.sub ∧
      (Normal c ↔ a.sub * b.sub ≠ tesPerSec) := by
  have hp : a.sub * b.sub ≤ 282239999 * 282239999 := Nat.mul_le_mul (by have := ha.1; omega) (by have := hb.1; omega)
  have h1 : mulC U32 a.seconds b.seconds = .ok (a.seconds * b.seconds) := if_pos (by omega)
  have h2 : mulC U64 a.sub b.sub = .ok (a.sub * b.sub) := if_pos (by omega)
  generalize a.seconds * b.seconds = s at *
  generalize a.sub * b.sub = p at *
  by_cases hc : p > tesPerSec
  · have h3 : p / tesPerSec % U32 = p / tesPerSec := Nat.mod_eq_of_lt (by omega)
    have h4 : p % tesPerSec % U32 = p % tesPerSec := Nat.mod_eq_of_lt (by omega)
    have h5 : addC U32 s (p / tesPerSec) = .ok (s + p / tesPerSec) := if_pos h
    refine ⟨⟨s + p / tesPerSec, p % tesPerSec⟩, ?_, ?_, ?_⟩
    · simp only [Seconds.mul, h1, h2, bind_ok, if_pos hc, h3, h4, h5, pure_ok]
    · simp only [ticks]; omega
    · constructor
      · intro _; omega
      · intro _; exact ⟨by simp only; omega, by simp only; omega⟩
  · have h4 : p % U32 = p := Nat.mod_eq_of_lt (by omega)
    refine ⟨⟨s, p⟩, ?_, ?_, ?_⟩
    · simp only [Seconds.mul, h1, h2, bind_ok, if_neg hc, h4, pure_ok]
    · simp only [ticks]
    · constructor
      · rintro ⟨h6, -⟩
        simp only at h6
        omega
      · intro _; exact ⟨by simp only; omega, by simp only; omega⟩

/-- C29, exactly when the product is right: when the undivided product of the fractions happens to be the sum of the mixed
terms and the divided product. -/
theorem C29_right_iff {a b : Seconds} (ha : Normal a) (hb : Normal b)
    (h : a.seconds * b.seconds + a.sub * b.sub / tesPerSec < U32) :
    MulCorrect a b ↔ a.sub * b.sub = a.seconds * b.sub + a.sub * b.seconds + a.sub * b.sub / tesPerSec ∧
      a.sub * b.sub ≠ tesPerSec := by
  obtain ⟨c, h1, h2, h3⟩ := C29_product ha hb h
  have ht : ticks a * ticks b / tesPerSec =
      a.seconds * b.seconds * tesPerSec + (a.seconds * b.sub + a.sub * b.seconds) + a.sub * b.sub / tesPerSec := by
    simp only [ticks]
    rw [show (a.seconds * 282240000 + a.sub) * (b.seconds * 282240000 + b.sub) =
      a.sub * b.sub + (a.seconds * b.seconds * 282240000 + (a.seconds * b.sub + a.sub * b.seconds)) * 282240000 by ring,
      Nat.add_mul_div_right _ _ (by decide)]
    omega
  constructor
  · rintro ⟨c', h4, h5, h6⟩
    rw [h1] at h4
    simp only [Except.ok.injEq] at h4
    subst h4
    refine ⟨?_, h3.1 h5⟩
    rw [h2, ht] at h6
    omega
  · rintro ⟨h4, h5⟩
    refine ⟨c, h1, h3.2 h5, ?_⟩
    rw [h2, ht]
    omega

/-- The hypotheses hold for half a second and a fifth of one, and for two numbers with a right product. -/
example : Normal ⟨0, 141120000⟩ ∧ Normal ⟨3, 56448000⟩ ∧ 0 * 3 + 141120000 * 56448000 / tesPerSec < U32 ∧
    MulCorrect ⟨1, 2⟩ ⟨1, 2⟩ :=
  ⟨by decide, by decide, by decide, (C29_right_iff (by decide) (by decide) (by decide)).2 (by decide)⟩

/-- C29, beyond the range: multiplying panics in debug builds. -/
theorem C29_overflow {a b : Seconds} (ha : Normal a) (hb : Normal b)
    (h : U32 ≤ a.seconds * b.seconds + a.sub * b.sub / tesPerSec) (hp : a.sub * b.sub ≠ tesPerSec) :
    a.mul b = .error .overflow := by
  have hp' : a.sub * b.sub ≤ 282239999 * 282239999 := Nat.mul_le_mul (by have := ha.1; omega) (by have := hb.1; omega)
  have h2 : mulC U64 a.sub b.sub = .ok (a.sub * b.sub) := if_pos (by omega)
  by_cases h1 : a.seconds * b.seconds < U32
  · have h1' : mulC U32 a.seconds b.seconds = .ok (a.seconds * b.seconds) := if_pos h1
    generalize a.seconds * b.seconds = s at *
    generalize a.sub * b.sub = p at *
    have hc : p > tesPerSec := by omega
    have h3 : p / tesPerSec % U32 = p / tesPerSec := Nat.mod_eq_of_lt (by omega)
    have h5 : addC U32 s (p / tesPerSec) = .error .overflow := if_neg (by omega)
    simp only [Seconds.mul, h1', h2, bind_ok, if_pos hc, h3, h5, bind_error]
  · have h1' : mulC U32 a.seconds b.seconds = .error .overflow := if_neg h1
    simp only [Seconds.mul, h1', bind_error]

/-- Two times beyond the range. -/
example : Normal ⟨65536, 0⟩ ∧ U32 ≤ 65536 * 65536 + 0 * 0 / tesPerSec ∧ 0 * 0 ≠ tesPerSec := by decide

/-- C29 is violated in its form, too: two tesimals times half a second gives a fraction of a whole second, which is not
equal to one second. -/
theorem C29_normal_violated : Normal ⟨0, 2⟩ ∧ Normal ⟨0, 141120000⟩ ∧
    ∃ c, Seconds.mul ⟨0, 2⟩ ⟨0, 141120000⟩ = .ok c ∧ ¬ Normal c ∧ ticks c = ticks ⟨1, 0⟩ ∧ c ≠ ⟨1, 0⟩ :=
  ⟨by decide, by decide, ⟨0, 282240000⟩, by decide, by decide, by decide, by decide⟩

end Verif
