import Verif.Lemmas.Xorshift
import Mathlib.Dynamics.PeriodicPts.Defs
import Mathlib.Tactic.NormNum.Prime
import Mathlib.Data.Finset.Card
import Mathlib.Tactic.Ring
import Mathlib.Algebra.Order.Field.Basic
import Mathlib.Tactic.Linarith
import Mathlib.Order.Interval.Finset.Nat

/-!
# C46: the random generator

Every seed gives a generator that runs through all states but 0: its period is `2 ^ 32 - 1`.
-/

namespace Verif.Ns

theorem pow_full : powM 32 (colsOf genU32) 4294967295 = unitM := by decide +kernel

/-- The whole period brings every state back. -/
theorem gen_full {x : Nat} (h : x < U32) : genU32^[4294967295] x = x := by
  have := rep_pow 32 _ _ 4294967295 rep_gen (by decide) x h
  rw [pow_full, unitM_app h] at this
  exact this.2.symm

/-- If `a` differs from the unit matrix by a matrix that has an inverse, no state but 0 is a fixed point. -/
theorem no_fixed {a k : List Nat} {f : Nat → Nat} (ha : Rep a f) (hk : comp k (List.zipWith (· ^^^ ·) a unitM) = unitM)
    (hl : a.length = 32) {x : Nat} (hx : x < U32) (h : f x = x) : x = 0 := by
  have hz : ∀ (a b : List Nat), a.length = b.length → ∀ x, app (List.zipWith (· ^^^ ·) a b) x = app a x ^^^ app b x := by
    intro a
    induction a with
    | nil => intro b hb x; cases b with
      | nil => simp [app]
      | cons _ _ => simp at hb
    | cons c cs ih => intro b hb x; cases b with
      | nil => simp at hb
      | cons d ds =>
        simp only [List.zipWith_cons_cons, app, ih ds (by simpa using hb)]
        have : (if x % 2 = 1 then c ^^^ d else 0) = (if x % 2 = 1 then c else 0) ^^^ (if x % 2 = 1 then d else 0) := by
          split <;> simp
        rw [this]
        generalize (if x % 2 = 1 then c else 0) = p
        generalize (if x % 2 = 1 then d else 0) = q
        generalize app cs (x / 2) = r
        generalize app ds (x / 2) = s
        rw [Nat.xor_assoc, Nat.xor_assoc, ← Nat.xor_assoc q r s, Nat.xor_comm q r, Nat.xor_assoc r q s]
  have h1 := unitM_app hx
  rw [← hk, app_comp, hz a unitM (by rw [hl]; rfl), unitM_app hx, (ha x hx).2, h, Nat.xor_self] at h1
  rw [← h1]
  exact lin_zero (app_lin k)

/-- The inverse that belongs to the prime factor 3 of the period. -/
def inv3 : List Nat :=
  [3335786257, 3906425407, 341432259, 3494094572, 1287699228, 2747661528, 2150333198, 1082698387, 2611265886,
   3557500517, 3637289613, 2868896625, 410369362, 1269330915, 4088754115, 154103209, 1548993245, 1491119919,
   2404261344, 3419380581, 2808848906, 551830956, 2331709170, 188466835, 3017353089, 1526152647, 441219537,
   2121271239, 792014187, 2569338613, 2655281178, 105270877]

theorem no_fixed3 {x : Nat} (hx : x < U32) (h : genU32^[1431655765] x = x) : x = 0 :=
  no_fixed (k := inv3) (rep_pow 32 _ _ 1431655765 rep_gen (by decide)) (by decide +kernel) (by decide +kernel) hx h

/-- The inverse that belongs to the prime factor 5 of the period. -/
def inv5 : List Nat :=
  [3037765269, 3182012677, 1669387622, 2344659563, 370929321, 3901211764, 1380852402, 4210098316, 2969553326,
   2348631362, 1854761326, 1663573681, 1840518332, 1230994099, 4206056119, 2280264177, 2761711817, 2141840559,
   1783100198, 2364816481, 1110627307, 3500024705, 2915665707, 311039995, 1912523766, 1756755554, 3294084956,
   326808620, 2100464665, 1580234416, 2287416289, 4045495915]

theorem no_fixed5 {x : Nat} (hx : x < U32) (h : genU32^[858993459] x = x) : x = 0 :=
  no_fixed (k := inv5) (rep_pow 32 _ _ 858993459 rep_gen (by decide)) (by decide +kernel) (by decide +kernel) hx h

/-- The inverse that belongs to the prime factor 17 of the period. -/
def inv17 : List Nat :=
  [2080738118, 4098161938, 4167003272, 262081113, 4280086534, 4185094329, 2355677745, 3596925114, 3587069701,
   2535039379, 1691659854, 3661366594, 3081963516, 2254921635, 205510780, 2576529806, 3889960224, 3965609850,
   1675181996, 1663335326, 464242227, 164803375, 1135727768, 3702832275, 733074617, 3475373130, 3364815054,
   2204756806, 2769922784, 2141131413, 4189123440, 1776631044]

theorem no_fixed17 {x : Nat} (hx : x < U32) (h : genU32^[252645135] x = x) : x = 0 :=
  no_fixed (k := inv17) (rep_pow 32 _ _ 252645135 rep_gen (by decide)) (by decide +kernel) (by decide +kernel) hx h

/-- The inverse that belongs to the prime factor 257 of the period. -/
def inv257 : List Nat :=
  [1940479401, 668616311, 607776604, 3685168204, 1129029766, 648810898, 3303171155, 235886680, 3828553010,
   2674952864, 3259775758, 1952802776, 3122666590, 807405955, 2074935119, 10541013, 2953885123, 3744595128,
   1051926783, 353530678, 151549380, 394224902, 2319156462, 238374970, 180587326, 3341967654, 1264618217,
   3233456239, 2630374898, 2982569044, 4209708186, 2989590033]

theorem no_fixed257 {x : Nat} (hx : x < U32) (h : genU32^[16711935] x = x) : x = 0 :=
  no_fixed (k := inv257) (rep_pow 32 _ _ 16711935 rep_gen (by decide)) (by decide +kernel) (by decide +kernel) hx h

/-- The inverse that belongs to the prime factor 65537 of the period. -/
def inv65537 : List Nat :=
  [331728430, 2488218541, 1209385696, 682878283, 839817293, 1408035726, 4013029473, 4095696576, 1033618122,
   2301755989, 769798078, 4185028050, 2663489015, 2683529367, 4136185144, 2950586883, 1578865829, 2816851372,
   349201241, 3096975940, 3937016935, 2625434786, 2636012314, 211073125, 3311055944, 1920044434, 2025742764,
   2060168078, 4064662879, 1177042686, 3953608156, 586778632]

theorem no_fixed65537 {x : Nat} (hx : x < U32) (h : genU32^[65535] x = x) : x = 0 :=
  no_fixed (k := inv65537) (rep_pow 32 _ _ 65535 rep_gen (by decide)) (by decide +kernel) (by decide +kernel) hx h

/-! ### Properties -/

/-- The generator never reaches 0 from another state, so it never gets stuck. -/
theorem gen_ne_zero {x : Nat} (hx : x < U32) (h : x ≠ 0) (n : Nat) : genU32^[n] x ≠ 0 ∧ genU32^[n] x < U32 := by
  have hlt : ∀ n, genU32^[n] x < U32 := by
    intro n
    induction n with
    | zero => exact hx
    | succ n ih => rw [Function.iterate_succ_apply']; exact genU32_lt ih
  refine ⟨fun h0 => h ?_, hlt n⟩
  have h1 : ∀ k, genU32^[k] 0 = 0 := by
    intro k
    induction k with
    | zero => rfl
    | succ k ih => rw [Function.iterate_succ_apply', ih]; exact lin_zero genU32_lin
  have h2 : genU32^[4294967295 * n] x = x := by
    clear h0
    induction n with
    | zero => rfl
    | succ n ih => rw [Nat.mul_succ, Function.iterate_add_apply, gen_full hx, ih]
  have h3 : 4294967295 * n = 4294967294 * n + n := by omega
  rw [h3, Function.iterate_add_apply, h0, h1] at h2
  exact h2.symm

/-- C46, the generator: from every state but 0 the period is exactly `2 ^ 32 - 1`. -/
theorem C46_period {x : Nat} (hx : x < U32) (h0 : x ≠ 0) (n : Nat) : genU32^[n] x = x ↔ 4294967295 ∣ n := by
  have hp : Function.IsPeriodicPt genU32 4294967295 x := gen_full hx
  have hd : Function.minimalPeriod genU32 x ∣ 4294967295 := hp.minimalPeriod_dvd
  have key : Function.minimalPeriod genU32 x = 4294967295 := by
    obtain ⟨m, hm⟩ := hd
    by_cases h1 : m = 1
    · rw [h1, Nat.mul_one] at hm; exact hm.symm
    · exfalso
      obtain ⟨p, pp, hpm⟩ := Nat.exists_prime_and_dvd h1
      have hpN : p ∣ 3 * 5 * 17 * 257 * 65537 := by
        have : p ∣ 4294967295 := by rw [hm]; exact hpm.mul_left _
        exact this
      have hc : p = 3 ∨ p = 5 ∨ p = 17 ∨ p = 257 ∨ p = 65537 := by
        rw [pp.dvd_mul, pp.dvd_mul, pp.dvd_mul, pp.dvd_mul] at hpN
        rcases hpN with (((h | h) | h) | h) | h
        · exact Or.inl ((Nat.prime_dvd_prime_iff_eq pp (by norm_num)).mp h)
        · exact Or.inr (Or.inl ((Nat.prime_dvd_prime_iff_eq pp (by norm_num)).mp h))
        · exact Or.inr (Or.inr (Or.inl ((Nat.prime_dvd_prime_iff_eq pp (by norm_num)).mp h)))
        · exact Or.inr (Or.inr (Or.inr (Or.inl ((Nat.prime_dvd_prime_iff_eq pp (by norm_num)).mp h))))
        · exact Or.inr (Or.inr (Or.inr (Or.inr ((Nat.prime_dvd_prime_iff_eq pp (by norm_num)).mp h))))
      obtain ⟨q, rfl⟩ := hpm
      have hq : ∀ k, p * k = 4294967295 → genU32^[k] x = x := by
        intro k hk
        have e : k = Function.minimalPeriod genU32 x * q := by
          apply Nat.eq_of_mul_eq_mul_left pp.pos
          rw [hk, hm, Nat.mul_left_comm]
        have : Function.IsPeriodicPt genU32 k x := by
          rw [e]; exact (Function.isPeriodicPt_minimalPeriod genU32 x).mul_const q
        exact this
      rcases hc with rfl | rfl | rfl | rfl | rfl
      · exact h0 (no_fixed3 hx (hq _ (by decide)))
      · exact h0 (no_fixed5 hx (hq _ (by decide)))
      · exact h0 (no_fixed17 hx (hq _ (by decide)))
      · exact h0 (no_fixed257 hx (hq _ (by decide)))
      · exact h0 (no_fixed65537 hx (hq _ (by decide)))
  rw [← key]
  exact Function.isPeriodicPt_iff_minimalPeriod_dvd

/-- C46, the generator never maps two states to one. -/
theorem C46_injective {x y : Nat} (hx : x < U32) (hy : y < U32) (h : genU32 x = genU32 y) : x = y := by
  have h1 := gen_full hx
  have h2 := gen_full hy
  rw [show (4294967295 : Nat) = 4294967294 + 1 by norm_num, Function.iterate_add_apply] at h1 h2
  rw [Function.iterate_one] at h1 h2
  rw [h, h2] at h1
  exact h1.symm

theorem iter_inj {x : Nat} (hx : x < U32) (h0 : x ≠ 0) {i j : Nat} (hj : j < 4294967295) (hij : i ≤ j)
    (h : genU32^[i] x = genU32^[j] x) : i = j := by
  have h1 : genU32^[j - i] (genU32^[i] x) = genU32^[i] x := by
    rw [← Function.iterate_add_apply, Nat.sub_add_cancel hij, h]
  have h2 := gen_ne_zero hx h0 i
  have h3 := (C46_period h2.2 h2.1 (j - i)).mp h1
  have h4 := Nat.eq_zero_of_dvd_of_lt h3 (by omega)
  omega

/-- C46, the generator runs through every state but 0, from every seed. -/
theorem C46_all_states (seed : Nat) (hs : seed < U32) (y : Nat) (hy : y < U32) (h0 : y ≠ 0) :
    ∃ n < 4294967295, genU32^[n] (new seed) = y := by
  have hx : new seed < U32 ∧ new seed ≠ 0 := by
    unfold new
    by_cases h : seed = 0
    · rw [if_pos h]; decide
    · rw [if_neg h]; exact ⟨hs, h⟩
  generalize new seed = x at hx
  obtain ⟨hx, hx0⟩ := hx
  have himg : (Finset.range 4294967295).image (fun n => genU32^[n] x) = Finset.Ico 1 4294967296 := by
    apply Finset.eq_of_subset_of_card_le
    · intro z hz
      obtain ⟨n, _, rfl⟩ := Finset.mem_image.mp hz
      have := gen_ne_zero hx hx0 n
      rw [Finset.mem_Ico]; omega
    · rw [Nat.card_Ico, Finset.card_image_of_injOn, Finset.card_range]
      intro i hi j hj h
      have hi' : i < 4294967295 := by simpa using hi
      have hj' : j < 4294967295 := by simpa using hj
      rcases Nat.le_total i j with hij | hij
      · exact iter_inj hx hx0 hj' hij h
      · exact (iter_inj hx hx0 hi' hij h.symm).symm
  have hm : y ∈ (Finset.range 4294967295).image (fun n => genU32^[n] x) := by
    rw [himg, Finset.mem_Ico]; omega
  obtain ⟨n, hn, e⟩ := Finset.mem_image.mp hm
  exact ⟨n, Finset.mem_range.mp hn, e⟩

/-- C46, the generator never gets stuck at 0, whatever the seed. -/
theorem C46_never_zero (seed : Nat) (hs : seed < U32) (n : Nat) : genU32^[n] (new seed) ≠ 0 ∧ genU32^[n] (new seed) < U32 := by
  unfold new
  by_cases h : seed = 0
  · rw [if_pos h]; exact gen_ne_zero (by decide) (by decide) n
  · rw [if_neg h]; exact gen_ne_zero hs h n

/-- C46, the numbers derived from it are in the documented range `0.0..=1.0`. -/
theorem C46_float_range {x : Nat} (h : x < U32) : 0 ≤ genFloat x ∧ genFloat x ≤ 1 := by
  have h1 := genU32_lt h
  unfold genFloat
  constructor
  · exact div_nonneg (Nat.cast_nonneg _) (Nat.cast_nonneg _)
  · rw [div_le_one (by norm_num)]
    have : genU32 x ≤ 4294967296 - 1 := by omega
    exact_mod_cast this

example : genU32 (new 0) = 4596240 ∧ genU32 (new 1) = 270369 := by decide

end Verif.Ns
