import Verif.Model.Tables
import Mathlib.Analysis.SpecialFunctions.Pow.Real
import Mathlib.RingTheory.RootsOfUnity.Complex

/-!
# Spectra of wavetables
-/

namespace Verif.Wv

open Verif.Os

/-- The functions of the reals. -/
noncomputable def realFns : Fns ℝ := ⟨Real.sin, fun x y => x ^ y, Real.pi⟩

/-- The discrete Fourier transform of a table at harmonic `h`. -/
noncomputable def dft (buf : List ℝ) (h : Nat) : ℂ :=
  ∑ k ∈ Finset.range buf.length, (buf.getD k 0 : ℂ) * Complex.exp (-(2 * Real.pi * Complex.I * h * k / buf.length))

/-- No partials above harmonic `H`: the transform vanishes at every harmonic between `H` and its mirror image. -/
def BandLimited (H : Nat) (buf : List ℝ) : Prop := ∀ h : Nat, H < h → h + H < buf.length → dft buf h = 0

/-- The sum of the powers of a root of unity. -/
theorem root_sum {N : Nat} (hN : 0 < N) (m : Int) (hm : ¬ (N : Int) ∣ m) :
    ∑ k ∈ Finset.range N, Complex.exp (2 * Real.pi * Complex.I * m * k / N) = 0 := by
  have hN' : (N : ℂ) ≠ 0 := by exact_mod_cast hN.ne'
  have h1 : ∀ k : Nat, Complex.exp (2 * Real.pi * Complex.I * m * k / N) =
      Complex.exp (2 * Real.pi * Complex.I * m / N) ^ k := by
    intro k
    rw [← Complex.exp_nat_mul]
    congr 1
    ring
  simp only [h1]
  have hne : Complex.exp (2 * Real.pi * Complex.I * m / N) ≠ 1 := by
    intro h
    rw [Complex.exp_eq_one_iff] at h
    obtain ⟨n, hn⟩ := h
    apply hm
    refine ⟨n, ?_⟩
    have hpi : (2 * Real.pi * Complex.I : ℂ) ≠ 0 := Complex.two_pi_I_ne_zero
    have : (m : ℂ) = N * n := by
      field_simp at hn
      linear_combination hn
    exact_mod_cast this
  rw [geom_sum_eq hne]
  have : Complex.exp (2 * Real.pi * Complex.I * m / N) ^ N = 1 := by
    rw [← Complex.exp_nat_mul, Complex.exp_eq_one_iff]
    refine ⟨m, ?_⟩
    field_simp
  rw [this]
  simp

/-- A partial: harmonic, amplitude, phase. -/
structure Partial where
  m : Nat
  amp : ℝ
  phase : ℝ

/-- A partial at sample `k` of a table of `N` samples. -/
noncomputable def Partial.at (p : Partial) (N k : Nat) : ℝ :=
  p.amp * Real.sin (2 * Real.pi * p.m * k / N + p.phase)

/-- `buf'` is `buf` with the partials added. -/
def Adds (ps : List Partial) (buf buf' : List ℝ) : Prop :=
  buf'.length = buf.length ∧
    ∀ k, k < buf.length → buf'.getD k 0 = buf.getD k 0 + (ps.map fun p => p.at buf.length k).sum

theorem Adds.nil (buf : List ℝ) : Adds [] buf buf := ⟨rfl, by simp⟩

theorem Adds.trans {ps qs : List Partial} {a b c : List ℝ} (h : Adds ps a b) (h' : Adds qs b c) :
    Adds (ps ++ qs) a c := by
  refine ⟨h'.1.trans h.1, fun k hk => ?_⟩
  rw [h'.2 k (by rw [h.1]; exact hk), h.2 k hk, h.1, List.map_append, List.sum_append]
  ring

/-- The transform of a partial. -/
noncomputable def Partial.dft (p : Partial) (N h : Nat) : ℂ :=
  ∑ k ∈ Finset.range N, (p.at N k : ℂ) * Complex.exp (-(2 * Real.pi * Complex.I * h * k / N))

theorem dft_adds {ps : List Partial} {a b : List ℝ} (h : Adds ps a b) (n : Nat) :
    dft b n = dft a n + (ps.map fun p => p.dft a.length n).sum := by
  unfold dft
  rw [h.1]
  have : ∀ k ∈ Finset.range a.length, ((b.getD k 0 : ℝ) : ℂ) * Complex.exp (-(2 * Real.pi * Complex.I * n * k / a.length)) =
      (a.getD k 0 : ℂ) * Complex.exp (-(2 * Real.pi * Complex.I * n * k / a.length)) +
      (ps.map fun p => (p.at a.length k : ℂ) * Complex.exp (-(2 * Real.pi * Complex.I * n * k / a.length))).sum := by
    intro k hk
    rw [h.2 k (Finset.mem_range.1 hk)]
    push_cast
    rw [add_mul, List.sum_map_mul_right]
    congr 2
    clear h
    induction ps with
    | nil => simp
    | cons p ps ih => simp [ih]
  rw [Finset.sum_congr rfl this, Finset.sum_add_distrib]
  congr 1
  clear this h
  induction ps with
  | nil => simp
  | cons p ps ih =>
    simp only [List.map_cons, List.sum_cons, Finset.sum_add_distrib, ih]
    rfl

theorem partial_dft (p : Partial) (N h : Nat) : p.dft N h = (p.amp : ℂ) * (Complex.I / 2) *
    (Complex.exp (-(p.phase * Complex.I)) *
        ∑ k ∈ Finset.range N, Complex.exp (2 * Real.pi * Complex.I * (-(p.m + h : Int) : Int) * k / N) -
      Complex.exp (p.phase * Complex.I) *
        ∑ k ∈ Finset.range N, Complex.exp (2 * Real.pi * Complex.I * (p.m - h : Int) * k / N)) := by
  unfold Partial.dft
  rw [Finset.mul_sum, Finset.mul_sum, ← Finset.sum_sub_distrib, Finset.mul_sum]
  refine Finset.sum_congr rfl fun k _ => ?_
  unfold Partial.at
  push_cast
  rw [Complex.sin]
  rw [← Complex.exp_add, ← Complex.exp_add]
  have e1 : Complex.exp (-(p.phase * Complex.I) + 2 * Real.pi * Complex.I * (-(p.m + h)) * k / N) =
      Complex.exp (-(2 * Real.pi * p.m * k / N + p.phase) * Complex.I) *
        Complex.exp (-(2 * Real.pi * Complex.I * h * k / N)) := by
    rw [← Complex.exp_add]
    congr 1
    ring
  have e2 : Complex.exp (p.phase * Complex.I + 2 * Real.pi * Complex.I * (p.m - h) * k / N) =
      Complex.exp ((2 * Real.pi * p.m * k / N + p.phase) * Complex.I) *
        Complex.exp (-(2 * Real.pi * Complex.I * h * k / N)) := by
    rw [← Complex.exp_add]
    congr 1
    ring
  rw [e1, e2]
  ring

/-- A partial contributes nothing to other harmonics. -/
theorem partial_zero (p : Partial) {N h : Nat} (hN : 0 < N) (h1 : ¬ (N : Int) ∣ (p.m - h : Int))
    (h2 : ¬ (N : Int) ∣ (p.m + h : Int)) : p.dft N h = 0 := by
  have e2 : ¬ (N : Int) ∣ -(p.m + h : Int) := by rwa [Int.dvd_neg]
  have r1 := root_sum hN _ h1
  have r2 := root_sum hN _ e2
  rw [partial_dft]
  push_cast at r1 r2 ⊢
  rw [r1, r2]
  simp

/-- A partial contributes to its own harmonic. -/
theorem partial_self (p : Partial) {N : Nat} (hm : 0 < p.m) (hN : 2 * p.m < N) (ha : p.amp ≠ 0) :
    p.dft N p.m ≠ 0 := by
  have hN0 : 0 < N := by omega
  have e2 : ¬ (N : Int) ∣ -(p.m + p.m : Int) := by
    rw [Int.dvd_neg]
    intro hd
    have := Int.le_of_dvd (by omega) hd
    omega
  have r2 := root_sum hN0 _ e2
  rw [partial_dft]
  push_cast at r2 ⊢
  rw [r2]
  have : ∑ k ∈ Finset.range N, Complex.exp (2 * Real.pi * Complex.I * ((p.m : ℂ) - p.m) * k / N) = N := by
    simp
  rw [this]
  have hNc : (N : ℂ) ≠ 0 := by exact_mod_cast hN0.ne'
  have hac : (p.amp : ℂ) ≠ 0 := by exact_mod_cast ha
  simp only [mul_zero, zero_sub]
  refine mul_ne_zero (mul_ne_zero hac (by simp)) (neg_ne_zero.2 (mul_ne_zero (Complex.exp_ne_zero _) hNc))

/-- Two different harmonics below half the table. -/
theorem partial_other (p : Partial) {N h : Nat} (hne : p.m ≠ h) (hh : 0 < h) (hs : p.m + h < N) : p.dft N h = 0 := by
  refine partial_zero p (by omega) ?_ ?_
  · rintro ⟨c, hc⟩
    rcases lt_trichotomy c 0 with h0 | h0 | h0
    · have : (N : Int) * c ≤ N * (-1) := Int.mul_le_mul_of_nonneg_left (by omega) (by omega)
      omega
    · subst h0; omega
    · have : (N : Int) * 1 ≤ N * c := Int.mul_le_mul_of_nonneg_left (by omega) (by omega)
      omega
  · intro hd
    have := Int.le_of_dvd (by omega) hd
    omega

/-- Adding partials up to `H` adds no partials above `H`. -/
theorem BandLimited.adds {H : Nat} {ps : List Partial} {a b : List ℝ} (ha : BandLimited H a) (h : Adds ps a b)
    (hp : ∀ p ∈ ps, p.m ≤ H) : BandLimited H b := by
  intro n h1 h2
  rw [h.1] at h2
  rw [dft_adds h, ha n h1 h2, zero_add]
  apply List.sum_eq_zero
  intro x hx
  obtain ⟨p, hp', rfl⟩ := List.mem_map.1 hx
  have := hp p hp'
  exact partial_other p (by omega) (by omega) (by omega)

/-- A single highest partial above `H` is not allowed. -/
theorem not_bandLimited {H : Nat} {ps : List Partial} {q : Partial} {a b : List ℝ} (ha : BandLimited H a)
    (h : Adds (ps ++ [q]) a b) (hp : ∀ p ∈ ps, p.m < q.m) (hq : H < q.m) (hN : 2 * q.m < a.length)
    (hamp : q.amp ≠ 0) : ¬ BandLimited H b := by
  intro hb
  have h0 := hb q.m hq (by rw [h.1]; omega)
  rw [dft_adds h, ha q.m hq (by omega), zero_add, List.map_append, List.sum_append] at h0
  have hz : (ps.map fun p => p.dft a.length q.m).sum = 0 := by
    apply List.sum_eq_zero
    intro x hx
    obtain ⟨p, hp', rfl⟩ := List.mem_map.1 hx
    have := hp p hp'
    exact partial_other p (by omega) (by omega) (by omega)
  rw [hz] at h0
  simp only [List.map_cons, List.map_nil, List.sum_cons, List.sum_nil, add_zero, zero_add] at h0
  exact partial_self q (by omega) hN hamp h0

/-! ### The functions -/

theorem getD_lt {α : Type} (l : List α) (d : α) {k : Nat} (h : k < l.length) : l.getD k d = l[k] := by
  simp [List.getD_eq_getElem?_getD, List.getElem?_eq_getElem h]

theorem dft_const (c : ℝ) (buf : List ℝ) (hb : ∀ k, k < buf.length → buf.getD k 0 = c) {h : Nat} (h1 : 0 < h)
    (h2 : h < buf.length) : dft buf h = 0 := by
  unfold dft
  have hd : ¬ (buf.length : Int) ∣ -(h : Int) := by
    rw [Int.dvd_neg]
    intro hd
    have := Int.le_of_dvd (by omega) hd
    omega
  have r := root_sum (N := buf.length) (by omega) _ hd
  have : ∀ k ∈ Finset.range buf.length, ((buf.getD k 0 : ℝ) : ℂ) *
      Complex.exp (-(2 * Real.pi * Complex.I * h * k / buf.length)) =
      (c : ℂ) * Complex.exp (2 * Real.pi * Complex.I * (-(h : Int) : Int) * k / buf.length) := by
    intro k hk
    rw [hb k (Finset.mem_range.1 hk)]
    congr 2
    push_cast
    ring
  rw [Finset.sum_congr rfl this, ← Finset.mul_sum, r, mul_zero]

theorem bandLimited_zeros (H : Nat) : BandLimited H zeros := by
  intro h h1 h2
  refine dft_const 0 _ ?_ (by omega) (by omega)
  intro k hk
  unfold zeros at hk ⊢
  rw [List.length_replicate] at hk
  rw [getD_lt _ _ (by rw [List.length_replicate]; exact hk), List.getElem_replicate]

theorem bandLimited_fill (H : Nat) (v : ℝ) (buf : List ℝ) : BandLimited H (fill v buf) := by
  intro h h1 h2
  refine dft_const v _ ?_ (by omega) (by omega)
  intro k hk
  unfold fill at hk ⊢
  rw [getD_lt _ _ hk, List.getElem_map]

theorem getD_multiply (m : ℝ) (buf : List ℝ) (k : Nat) : (multiply m buf).getD k 0 = buf.getD k 0 * m := by
  unfold multiply
  simp only [List.getD_eq_getElem?_getD, List.getElem?_map]
  cases buf[k]? <;> simp

theorem bandLimited_multiply {H : Nat} {buf : List ℝ} (hb : BandLimited H buf) (m : ℝ) :
    BandLimited H (multiply m buf) := by
  intro h h1 h2
  have hl : (multiply m buf).length = buf.length := by simp [multiply]
  rw [hl] at h2
  have := hb h h1 h2
  unfold dft at this ⊢
  rw [hl]
  have e : ∀ k ∈ Finset.range buf.length, (((multiply m buf).getD k 0 : ℝ) : ℂ) *
      Complex.exp (-(2 * Real.pi * Complex.I * h * k / buf.length)) =
      (m : ℂ) * ((buf.getD k 0 : ℂ) * Complex.exp (-(2 * Real.pi * Complex.I * h * k / buf.length))) := by
    intro k _
    rw [getD_multiply]
    push_cast
    ring
  rw [Finset.sum_congr rfl e, ← Finset.mul_sum, this, mul_zero]

theorem sineLoop_get (amp step : ℝ) : ∀ (buf : List ℝ) (phase : ℝ),
    (sineLoop realFns amp step phase buf).length = buf.length ∧ ∀ k, k < buf.length →
    (sineLoop realFns amp step phase buf).getD k 0 = buf.getD k 0 + amp * Real.sin (step * k + phase)
  | [], phase => by simp [sineLoop]
  | x :: xs, phase => by
    obtain ⟨h1, h2⟩ := sineLoop_get amp step xs (phase + step)
    refine ⟨by simp [sineLoop, h1], fun k hk => ?_⟩
    cases k with
    | zero =>
      simp only [sineLoop, List.getD_cons_zero, Nat.cast_zero, mul_zero, zero_add]
      change x + Real.sin phase * amp = _
      ring
    | succ k =>
      have := h2 k (by simpa using hk)
      simp only [sineLoop, List.getD_cons_succ, this]
      congr 3
      push_cast
      ring

theorem tableSize_ne : ((tableSize : Nat) : ℝ) ≠ 0 := by
  unfold tableSize
  norm_num

theorem adds_addSine (m : Nat) (amp phase : ℝ) (buf : List ℝ) (hl : buf.length = tableSize) :
    Adds [⟨m, amp, phase⟩] buf (addSine realFns m amp phase buf) := by
  obtain ⟨h1, h2⟩ := sineLoop_get amp (m * Real.pi * 2 / (tableSize : Nat)) buf phase
  refine ⟨h1, fun k hk => ?_⟩
  refine (h2 k hk).trans ?_
  simp only [List.map_cons, List.map_nil, List.sum_cons, List.sum_nil, add_zero, Partial.at, hl]
  congr 3
  ring

theorem mapIdx_getD (f : Nat → ℝ → ℝ) (buf : List ℝ) (k : Nat) (hk : k < buf.length) :
    (buf.mapIdx f).getD k 0 = f k (buf.getD k 0) := by
  rw [getD_lt _ _ (by simpa using hk), List.getElem_mapIdx, getD_lt _ _ hk]

theorem adds_saw (amp : ℝ) (buf : List ℝ) (i : Nat) :
    Adds [⟨i + 1, 1 / (((i : ℝ) + 1) * Real.pi) * amp, 0⟩] buf (sawHarmonic realFns amp buf i) := by
  refine ⟨by simp [sawHarmonic], fun k hk => ?_⟩
  unfold sawHarmonic
  rw [mapIdx_getD _ _ _ hk]
  simp only [List.map_cons, List.map_nil, List.sum_cons, List.sum_nil, add_zero, Partial.at, realFns]
  push_cast
  have : (k : ℝ) / buf.length * Real.pi * 2 * ((i : ℝ) + 1) = 2 * Real.pi * ((i : ℝ) + 1) * k / buf.length := by ring
  rw [this]
  ring

/-- A loop that adds partials. -/
theorem adds_foldl (f : List ℝ → Nat → List ℝ) (g : Nat → Partial) (h : ∀ buf i, Adds [g i] buf (f buf i)) :
    ∀ (l : List Nat) (buf : List ℝ), Adds (l.map g) buf (l.foldl f buf)
  | [], buf => Adds.nil buf
  | i :: l, buf => (h buf i).trans (adds_foldl f g h l (f buf i))

theorem adds_odd (falloff : ℝ) (buf : List ℝ) (i : Nat) :
    Adds [⟨2 * i + 1, 1 / ((2 * i + 1 : Nat) : ℝ) ^ falloff, if i = 0 then 0 else (-1) ^ (i + 2)⟩] buf
      (oddHarmonic realFns falloff buf i) := by
  refine ⟨by simp [oddHarmonic], fun k hk => ?_⟩
  unfold oddHarmonic
  rw [mapIdx_getD _ _ _ hk]
  simp only [List.map_cons, List.map_nil, List.sum_cons, List.sum_nil, add_zero, Partial.at, realFns]
  push_cast
  have : (k : ℝ) / buf.length * Real.pi * 2 * ((i : ℝ) * 2 + 1) = 2 * Real.pi * (2 * (i : ℝ) + 1) * k / buf.length := by ring
  rw [this]
  ring

/-- The partial added by one step of `fill_sine`. -/
noncomputable def fillPartial (num c n : Nat) : Partial :=
  ⟨c * (n + 1), if n = 0 then 1 else ((num - n : Nat) : ℝ) / num * (1 / 2), 0⟩

theorem adds_fillHarmonic (num c n : Nat) (buf : List ℝ) (hl : buf.length = tableSize) :
    ∃ b, fillHarmonic realFns num (c : ℝ) n buf = .ok b ∧ Adds [fillPartial num c n] buf b := by
  refine ⟨_, by unfold fillHarmonic; rw [if_neg (by omega)], ?_⟩
  refine ⟨by simp, fun k hk => ?_⟩
  rw [mapIdx_getD _ _ _ hk]
  rw [if_pos (by omega)]
  simp only [List.map_cons, List.map_nil, List.sum_cons, List.sum_nil, add_zero, Partial.at, realFns, fillPartial, hl]
  have : (k : ℝ) / (tableSize : Nat) * Real.pi * 2 * ((c : ℝ) * ((n : ℝ) + 1)) =
      2 * Real.pi * ((c * (n + 1) : Nat) : ℝ) * k / (tableSize : Nat) := by push_cast; ring
  rw [this]
  ring

theorem adds_fillSine (num c : Nat) : ∀ (l : List Nat) (buf : List ℝ), buf.length = tableSize →
    ∃ b, l.foldlM (fun b n => fillHarmonic realFns num (c : ℝ) n b) buf = .ok b ∧
      Adds (l.map (fillPartial num c)) buf b
  | [], buf, _ => ⟨buf, rfl, Adds.nil buf⟩
  | n :: l, buf, hl => by
    obtain ⟨b, h1, h2⟩ := adds_fillHarmonic num c n buf hl
    obtain ⟨b', h3, h4⟩ := adds_fillSine num c l b (h2.1.trans hl)
    refine ⟨b', ?_, h2.trans h4⟩
    rw [List.foldlM_cons, h1]
    exact h3

end Verif.Wv
