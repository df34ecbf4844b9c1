import Verif.Props.Time

/-!
# C27 beyond the range of `Seconds`

A `u64` holds more tesimals than a `Seconds`; `C27_tesimals_roundtrip` is about those that fit.
-/

namespace Verif

open Verif.TimeSpec

/-- C27, beyond the range: a count of tesimals that does not fit wraps around without any sign of it and comes out as an
earlier time. -/
theorem C27_tesimals_wraps {n : Nat} (h : limit ≤ n) (hn : n < U64) :
    ∃ s, Seconds.fromTesimals n = .ok s ∧ Normal s ∧ ticks s = n % limit ∧ ticks s < n := by
  simp only [limit] at h ⊢
  have hs : (n - n / tesPerSec % U32 * tesPerSec) % U32 = n % tesPerSec := by omega
  have hle : n / tesPerSec % U32 * tesPerSec ≤ n :=
    (Nat.mul_le_mul_right _ (Nat.mod_le _ _)).trans (Nat.div_mul_le_self _ _)
  refine ⟨⟨n / tesPerSec % U32, (n - n / tesPerSec % U32 * tesPerSec) % U32⟩, ?_, ?_, ?_, ?_⟩
  · have h2 : mulC U64 (n / tesPerSec % U32) tesPerSec = .ok (n / tesPerSec % U32 * tesPerSec) := by
      exact if_pos (by omega)
    have h3 : subC n (n / tesPerSec % U32 * tesPerSec) = .ok (n - n / tesPerSec % U32 * tesPerSec) := by
      exact if_pos hle
    simp only [Seconds.fromTesimals, h2]
    rw [bind_ok, h3, bind_ok, pure_ok]
  · rw [hs]
    refine ⟨?_, ?_⟩ <;> simp only <;> omega
  · rw [hs]; simp only [ticks]; omega
  · rw [hs]; simp only [ticks]; omega

/-- Two seconds and five tesimals past the end of the range. -/
example : limit ≤ limit + 2 * tesPerSec + 5 ∧ limit + 2 * tesPerSec + 5 < U64 ∧
    Seconds.fromTesimals (limit + 2 * tesPerSec + 5) = .ok ⟨2, 5⟩ := ⟨by decide, by decide, by decide⟩

end Verif
