import Verif.Model.Delay
import Mathlib.Tactic.Ring
import Mathlib.Tactic.Linarith
import Mathlib.Tactic.Positivity
import Mathlib.Tactic.FieldSimp

/-!
# Ring buffers

A buffer that is written at consecutive positions holds the most recent values.
-/

namespace Verif.Dl

/-- The buffer holds the most recent values `h` (latest first; zero before the first value); the next value goes to `wp`. -/
structure Holds (buf : List Rat) (wp : Nat) (h : List Rat) : Prop where
  lt : wp < buf.length
  get : ∀ i, 0 < i → i ≤ buf.length → buf[(wp + buf.length - i) % buf.length]? = some (h.getD (i - 1) 0)

theorem holds_init {L : Nat} (hL : 0 < L) : Holds (List.replicate L 0) 0 [] := by
  refine ⟨by simpa using hL, fun i hi hl => ?_⟩
  simp only [List.length_replicate] at *
  rw [List.getElem?_replicate, if_pos (Nat.mod_lt _ hL)]; simp

theorem write_ok {buf : List Rat} {i : Nat} (h : i < buf.length) (x : Rat) : write buf i x = .ok (buf.set i x) := by
  simp [write, h]

theorem read_ok {buf : List Rat} {i : Nat} {v : Rat} (h : buf[i]? = some v) : read buf i = .ok v := by
  simp [read, h]

theorem modC_ok {a b : Nat} (h : 0 < b) : modC a b = .ok (a % b) := by
  simp [modC, Nat.pos_iff_ne_zero.mp h]

theorem subC_ok {a b : Nat} (h : b ≤ a) : subC a b = .ok (a - b) := by simp [subC, h]

/-- Positions behind the write position are different from it. -/
theorem back_ne {L wp j : Nat} (hw : wp < L) (h0 : 0 < j) (hj : j < L) : (wp + L - j) % L ≠ wp := by
  by_cases h : j ≤ wp
  · have : wp + L - j = (wp - j) + L := by omega
    rw [this, Nat.add_mod_right, Nat.mod_eq_of_lt (by omega)]; omega
  · rw [Nat.mod_eq_of_lt (by omega)]; omega

theorem back_succ {L wp i : Nat} (hw : wp < L) (hi : 0 < i) (hl : i ≤ L) :
    ((wp + 1) % L + L - i) % L = (wp + L - (i - 1)) % L := by
  by_cases h : wp + 1 = L
  · have e : wp + L - (i - 1) = (L - i) + L := by omega
    rw [h, Nat.mod_self, e, Nat.add_mod_right]; simp
  · rw [Nat.mod_eq_of_lt (by omega : wp + 1 < L)]; congr 1; omega

theorem holds_write {buf : List Rat} {wp : Nat} {h : List Rat} (H : Holds buf wp h) (x : Rat) :
    Holds (buf.set wp x) ((wp + 1) % buf.length) (x :: h) := by
  have hL : 0 < buf.length := Nat.lt_of_le_of_lt (Nat.zero_le _) H.lt
  refine ⟨by simpa using Nat.mod_lt _ hL, fun i hi hl => ?_⟩
  rw [List.length_set] at *
  rw [back_succ H.lt hi hl]
  by_cases h1 : i = 1
  · subst h1
    have e : (wp + buf.length - (1 - 1)) % buf.length = wp := by
      simp [Nat.mod_eq_of_lt H.lt]
    rw [e, List.getElem?_set_self H.lt]; simp
  · have hne := back_ne H.lt (j := i - 1) (by omega) (by omega)
    rw [List.getElem?_set_ne (Ne.symm hne), H.get (i - 1) (by omega) (by omega)]
    congr 1
    obtain ⟨k, rfl⟩ : ∃ k, i = k + 2 := ⟨i - 2, by omega⟩
    simp

end Verif.Dl
