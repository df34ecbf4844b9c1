import Verif.Props.Tables

/-!
# C65: windows, normalisation and noise of the wavetables
-/

namespace Verif.Wv

open Verif.Os

/-! ### The windows -/

theorem sin_shift (x : ℝ) : Real.sin (x + -(1 / 2) * Real.pi) = -Real.cos x := by
  rw [show x + -(1 / 2) * Real.pi = x - Real.pi / 2 by ring, Real.sin_sub_pi_div_two]

theorem window_get (freq amp phase c : ℝ) (buf : List ℝ) (hl : buf.length = tableSize) (k : Nat) (hk : k < tableSize)
    (hc : ∀ k, k < tableSize → buf.getD k 0 = c) :
    (addSine realFns freq amp phase buf).length = tableSize ∧
    (addSine realFns freq amp phase buf).getD k 0 =
      c + amp * Real.sin (2 * Real.pi * freq * k / (tableSize : Nat) + phase) := by
  obtain ⟨h1, h2⟩ := sineLoop_get amp (freq * Real.pi * 2 / (tableSize : Nat)) buf phase
  refine ⟨h1.trans hl, ?_⟩
  refine (h2 k (by omega)).trans ?_
  rw [hc k hk]
  congr 3
  ring

theorem getD_zeros (k : Nat) : (zeros : List ℝ).getD k 0 = 0 := by
  unfold zeros
  simp only [List.getD_eq_getElem?_getD, List.getElem?_replicate]
  split <;> rfl

theorem getD_fill (c : ℝ) (k : Nat) (hk : k < tableSize) : (fill c (zeros : List ℝ)).getD k 0 = c := by
  have hl : (fill c (zeros : List ℝ)).length = tableSize := by
    unfold fill zeros
    rw [List.length_map, List.length_replicate]
  rw [getD_lt _ _ (by omega)]
  unfold fill
  rw [List.getElem_map]

theorem length_fill (c : ℝ) : (fill c (zeros : List ℝ)).length = tableSize := by
  unfold fill zeros
  rw [List.length_map, List.length_replicate]

/-- C65, the Hann window: `sin²(πk/N)`. -/
theorem C65_hann (k : Nat) (hk : k < tableSize) :
    (hann realFns).length = tableSize ∧
    (hann realFns).getD k 0 = Real.sin (Real.pi * k / (tableSize : Nat)) ^ 2 := by
  obtain ⟨h1, h2⟩ := window_get 1 (1 / 2) (-(1 / 2) * Real.pi) (1 / 2) (fill (1 / 2) zeros) (length_fill _) k hk
    (getD_fill _)
  refine ⟨h1, h2.trans ?_⟩
  rw [sin_shift, show 2 * Real.pi * 1 * (k : ℝ) / (tableSize : Nat) = 2 * (Real.pi * k / (tableSize : Nat)) by ring,
    Real.cos_two_mul]
  have := Real.sin_sq_add_cos_sq (Real.pi * k / (tableSize : Nat))
  linarith

/-- C65, the Hamming window: `0.53836 - 0.46164 cos(2πk/N)`. -/
theorem C65_hamming (k : Nat) (hk : k < tableSize) :
    (hamming realFns).length = tableSize ∧
    (hamming realFns).getD k 0 = 0.53836 - 0.46164 * Real.cos (2 * Real.pi * k / (tableSize : Nat)) := by
  obtain ⟨h1, h2⟩ := window_get 1 (46164 / 100000) (-(1 / 2) * Real.pi) (53836 / 100000) (fill (53836 / 100000) zeros)
    (length_fill _) k hk (getD_fill _)
  refine ⟨h1, h2.trans ?_⟩
  rw [sin_shift, mul_one]
  norm_num
  ring

/-- C65, the sine window: `sin(πk/N)`. -/
theorem C65_sine_window (k : Nat) (hk : k < tableSize) :
    (sineWindow realFns).length = tableSize ∧
    (sineWindow realFns).getD k 0 = Real.sin (Real.pi * k / (tableSize : Nat)) := by
  obtain ⟨h1, h2⟩ := window_get (1 / 2) 1 0 0 zeros List.length_replicate k hk (fun k _ => getD_zeros k)
  refine ⟨h1, h2.trans ?_⟩
  rw [zero_add, one_mul, add_zero]
  congr 1
  ring

/-- The windows start at the right values and are symmetric: sample `k` equals sample `N - k`. -/
theorem C65_symmetric (k : Nat) (h0 : 0 < k) (hk : k < tableSize) :
    (hann realFns).getD k 0 = (hann realFns).getD (tableSize - k) 0 ∧
    (hamming realFns).getD k 0 = (hamming realFns).getD (tableSize - k) 0 ∧
    (sineWindow realFns).getD k 0 = (sineWindow realFns).getD (tableSize - k) 0 := by
  have hk' : tableSize - k < tableSize := by omega
  have e : ((tableSize - k : Nat) : ℝ) = (tableSize : Nat) - k := by
    rw [Nat.cast_sub hk.le]
  have e1 : Real.pi * ((tableSize - k : Nat) : ℝ) / (tableSize : Nat) = Real.pi - Real.pi * k / (tableSize : Nat) := by
    rw [e]
    have := tableSize_ne
    field_simp
  have e2 : 2 * Real.pi * ((tableSize - k : Nat) : ℝ) / (tableSize : Nat) =
      2 * Real.pi - 2 * Real.pi * k / (tableSize : Nat) := by
    rw [e]
    have := tableSize_ne
    field_simp
  refine ⟨?_, ?_, ?_⟩
  · rw [(C65_hann k hk).2, (C65_hann _ hk').2, e1, Real.sin_pi_sub]
  · rw [(C65_hamming k hk).2, (C65_hamming _ hk').2, e2, Real.cos_two_pi_sub]
  · rw [(C65_sine_window k hk).2, (C65_sine_window _ hk').2, e1, Real.sin_pi_sub]

/-! ### `normalize` -/

theorem loudest_foldl (l : List ℝ) : ∀ m : ℝ,
    m ≤ l.foldl (fun m x => if m < |x| then |x| else m) m ∧
    (∀ x ∈ l, |x| ≤ l.foldl (fun m x => if m < |x| then |x| else m) m) ∧
    (l.foldl (fun m x => if m < |x| then |x| else m) m = m ∨
      ∃ x ∈ l, l.foldl (fun m x => if m < |x| then |x| else m) m = |x|) := by
  induction l with
  | nil => intro m; simp
  | cons y l ih =>
    intro m
    simp only [List.foldl_cons]
    obtain ⟨h1, h2, h3⟩ := ih (if m < |y| then |y| else m)
    have hm : m ≤ (if m < |y| then |y| else m) ∧ |y| ≤ (if m < |y| then |y| else m) := by
      split
      · next h => exact ⟨h.le, le_refl _⟩
      · next h => exact ⟨le_refl _, not_lt.1 h⟩
    refine ⟨hm.1.trans h1, ?_, ?_⟩
    · intro x hx
      rcases List.mem_cons.1 hx with rfl | hx
      · exact hm.2.trans h1
      · exact h2 x hx
    · rcases h3 with h3 | ⟨x, hx, h3⟩
      · by_cases hy : m < |y|
        · right
          exact ⟨y, by simp, by rw [if_pos hy] at h3 ⊢; exact h3⟩
        · left
          rw [if_neg hy] at h3 ⊢
          exact h3
      · right
        exact ⟨x, by simp [hx], h3⟩

/-- The loudest sample: not exceeded and, unless all samples are zero, reached. -/
theorem loudest_spec (l : List ℝ) : (∀ x ∈ l, |x| ≤ loudest l) ∧ (loudest l ≠ 0 → ∃ x ∈ l, |x| = loudest l) ∧
    0 ≤ loudest l := by
  obtain ⟨h1, h2, h3⟩ := loudest_foldl l 0
  refine ⟨h2, fun h0 => ?_, h1⟩
  rcases h3 with h3 | ⟨x, hx, h3⟩
  · exact absurd h3 h0
  · exact ⟨x, hx, h3.symm⟩

/-- C65, normalisation: if a sample of the first table is not zero, `normalize` succeeds, the peak of the first table is
then exactly 1, and all samples of all tables are multiplied by the same positive number. -/
theorem C65_normalize_partial (t : List ℝ) (ts : List (List ℝ)) (x : ℝ) (hx : x ∈ t) (h0 : x ≠ 0) :
    ∃ (c : ℝ) (t' : List ℝ), 0 < c ∧ normalize (t :: ts) = .ok (t' :: ts.map fun u => u.map (· * c)) ∧ t' = t.map (· * c) ∧
      (∀ y ∈ t', |y| ≤ 1) ∧ ∃ y ∈ t', |y| = 1 := by
  obtain ⟨h1, h2, h3⟩ := loudest_spec t
  have hpos : 0 < loudest t := lt_of_lt_of_le (abs_pos.2 h0) (h1 x hx)
  have hc : 0 < 1 / loudest t := by positivity
  refine ⟨1 / loudest t, _, hc, ?_, rfl, ?_, ?_⟩
  · simp only [normalize, if_neg hpos.ne', List.map_cons]
    rfl
  · intro y hy
    obtain ⟨z, hz, rfl⟩ := List.mem_map.1 hy
    rw [abs_mul, abs_of_pos hc, mul_one_div, div_le_one hpos]
    exact h1 z hz
  · obtain ⟨z, hz, he⟩ := h2 hpos.ne'
    refine ⟨_, List.mem_map.2 ⟨z, hz, rfl⟩, ?_⟩
    rw [abs_mul, abs_of_pos hc, he, mul_one_div, div_self hpos.ne']

/-- The hypotheses of `C65_normalize_partial` can be met. -/
example : ∃ (c : ℝ) (t' : List ℝ), 0 < c ∧ normalize [[1, -4], [8, 2]] = .ok (t' :: [[8, 2]].map fun u => u.map (· * c)) ∧
    t' = [1, -4].map (· * c) ∧ (∀ y ∈ t', |y| ≤ 1) ∧ ∃ y ∈ t', |y| = 1 :=
  C65_normalize_partial [1, -4] [[8, 2]] 1 (by simp) one_ne_zero

/-- C65 violated: normalising silent tables panics, for example those of a new wavetable. -/
theorem C65_silent_violated : normalize (tablesNew : List (List ℝ)) = .error .assert := by
  have hl : loudest (zeros : List ℝ) = 0 := by
    by_contra h
    obtain ⟨-, h2, -⟩ := loudest_spec (zeros : List ℝ)
    obtain ⟨x, hx, he⟩ := h2 h
    have : x = 0 := (List.mem_replicate.1 hx).2
    subst this
    rw [abs_zero] at he
    exact h he.symm
  have hn : numTables = 16 + 1 := by decide +kernel
  simp only [tablesNew, hn, List.replicate_succ, normalize, if_pos hl]

/-! ### Noise -/

theorem xorLeft_lt (k x : Nat) (hx : x < U32) : Ns.xorLeft k x < U32 := by
  have h2 : (x <<< k) % U32 < U32 := Nat.mod_lt _ (by decide)
  unfold Ns.xorLeft
  have e : U32 = 2 ^ 32 := by decide
  rw [e] at hx h2 ⊢
  exact Nat.xor_lt_two_pow hx h2

theorem xorRight_lt (k x : Nat) (hx : x < U32) : Ns.xorRight k x < U32 := by
  unfold Ns.xorRight
  have e : U32 = 2 ^ 32 := by decide
  rw [e] at hx ⊢
  refine Nat.xor_lt_two_pow hx (lt_of_le_of_lt ?_ hx)
  rw [Nat.shiftRight_eq_div_pow]
  exact Nat.div_le_self _ _

theorem genU32_lt (x : Nat) (hx : x < U32) : Ns.genU32 x < U32 :=
  xorLeft_lt _ _ (xorRight_lt _ _ (xorLeft_lt _ _ hx))

theorem genFloat_unit (x : Nat) (hx : x < U32) : 0 ≤ Ns.genFloat x ∧ Ns.genFloat x ≤ 1 := by
  have h := genU32_lt x hx
  unfold Ns.genFloat
  have hu : (0 : Rat) < ((U32 - 1 : Nat) : Rat) := by
    have : 0 < U32 - 1 := by decide
    exact_mod_cast this
  refine ⟨by positivity, (div_le_one hu).2 ?_⟩
  have : Ns.genU32 x ≤ U32 - 1 := by omega
  exact_mod_cast this

theorem foldBack_unit (x y : ℝ) (hx : |x| ≤ 1) (h0 : 0 ≤ y) (h1 : y ≤ 1) : |foldBack (x + (y - 1 / 2))| ≤ 1 := by
  rw [abs_le] at hx ⊢
  unfold foldBack
  simp only
  split_ifs <;> constructor <;> linarith [hx.1, hx.2]

theorem noise_unit (p : ℝ) : ∀ (l : List ℝ) (rng : Nat), rng < U32 → (∀ x ∈ l, |x| ≤ 1) →
    (noiseLoop p rng l).length = l.length ∧ ∀ x ∈ noiseLoop p rng l, |x| ≤ 1
  | [], rng, _, _ => by simp [noiseLoop]
  | x :: xs, rng, hr, h => by
    have hx := h x (by simp)
    unfold noiseLoop
    split
    · obtain ⟨h1, h2⟩ := noise_unit p xs (Ns.genU32 (Ns.genU32 rng)) (genU32_lt _ (genU32_lt _ hr))
        (fun y hy => h y (by simp [hy]))
      refine ⟨by simp [h1], fun y hy => ?_⟩
      rcases List.mem_cons.1 hy with rfl | hy
      · obtain ⟨h3, h4⟩ := genFloat_unit _ (genU32_lt _ hr)
        exact foldBack_unit _ _ hx (by exact_mod_cast h3) (by exact_mod_cast h4)
      · exact h2 y hy
    · obtain ⟨h1, h2⟩ := noise_unit p xs (Ns.genU32 rng) (genU32_lt _ hr) (fun y hy => h y (by simp [hy]))
      refine ⟨by simp [h1], fun y hy => ?_⟩
      rcases List.mem_cons.1 hy with rfl | hy
      · exact hx
      · exact h2 y hy

/-- C65, noise: samples between -1 and 1 stay there. -/
theorem C65_noise (p : ℝ) (seed : Nat) (hs : seed < U32) (l : List ℝ) (h : ∀ x ∈ l, |x| ≤ 1) :
    (addNoise p seed l).length = l.length ∧ ∀ x ∈ addNoise p seed l, |x| ≤ 1 := by
  refine noise_unit p l _ ?_ h
  unfold Ns.new
  split
  · decide
  · exact hs

/-- The hypotheses of `C65_noise` can be met, and the noise changes samples. -/
example : (addNoise (0 : Rat) 1 [1, 0, -1]) ≠ [1, 0, -1] ∧ ∀ x ∈ [(1 : ℝ), 0, -1], |x| ≤ 1 := by
  refine ⟨by decide +kernel, by simp⟩

/-! ### The triangle wave -/

/-- The approximation of a triangle wave by its first `n` harmonics: the odd ones with alternating signs, divided by
their squares. -/
noncomputable def triangle (n k : Nat) : ℝ :=
  ((List.range n).map fun i =>
    (-1) ^ i * Real.sin (2 * Real.pi * ((2 * i + 1 : Nat) : ℝ) * k / (tableSize : Nat)) / ((2 * i + 1 : Nat) : ℝ) ^ 2).sum

/-- C65 violated: `add_odd_harmonics` with a falloff of 2, said to give an approximation of a triangle wave, shifts the
harmonics by one radian instead of changing their signs; already the first sample is wrong. -/
theorem C65_triangle_violated : (addOdd realFns 2 2 zeros).getD 0 0 ≠ triangle 2 0 := by
  have hl : (zeros : List ℝ).length = tableSize := List.length_replicate
  have ha := adds_foldl (oddHarmonic realFns 2) _ (adds_odd 2) (List.range 2) zeros
  have h1 := ha.2 0 (by rw [hl]; decide)
  have e : (addOdd realFns 2 2 zeros).getD 0 0 = Real.sin (-1) / 9 := by
    refine h1.trans ?_
    rw [getD_zeros]
    simp only [List.range_succ, List.range_zero, List.nil_append, List.map_append, List.map_cons, List.map_nil,
      List.sum_append, List.sum_cons, List.sum_nil, Partial.at]
    norm_num
    ring
  have e2 : triangle 2 0 = 0 := by
    simp [triangle, List.range_succ]
  rw [e, e2, Real.sin_neg]
  have := Real.sin_pos_of_pos_of_lt_pi one_pos (by linarith [Real.two_le_pi])
  intro h
  linarith

/-- With one harmonic there is nothing to alternate and the claim holds. -/
theorem C65_triangle_partial (k : Nat) (hk : k < tableSize) : (addOdd realFns 1 2 zeros).getD k 0 = triangle 1 k := by
  have hl : (zeros : List ℝ).length = tableSize := List.length_replicate
  have ha := adds_foldl (oddHarmonic realFns 2) _ (adds_odd 2) (List.range 1) zeros
  refine (ha.2 k (by rw [hl]; exact hk)).trans ?_
  rw [getD_zeros]
  simp [triangle, Partial.at, hl]

end Verif.Wv
