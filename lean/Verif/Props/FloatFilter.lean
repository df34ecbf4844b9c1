import Verif.Model.FloatFilter
import Verif.Lemmas.Ieee
import Verif.Lemmas.IeeeSigned
import Mathlib.Tactic.Linarith
import Mathlib.Analysis.Real.Pi.Bounds
import Mathlib.Analysis.Complex.Exponential
import Mathlib.Tactic.Ring
import Mathlib.Tactic.Positivity
import Mathlib.Tactic.FieldSimp
import Mathlib.Tactic.LinearCombination

/-!
# C81: one pole filters in floating point
-/

namespace Verif.Fl

open Verif.Fi (OnePole OpOp divO)

/-- The two sample types: `f32` and `f64`. -/
def Fmt (p : Nat) (emin : Int) : Prop := (p = 24 ∧ emin = -149) ∨ (p = 53 ∧ emin = -1074)

theorem Fmt.p1 {p : Nat} {emin : Int} (h : Fmt p emin) : 1 ≤ p := by rcases h with ⟨rfl, _⟩ | ⟨rfl, _⟩ <;> norm_num
theorem Fmt.low {p : Nat} {emin : Int} (h : Fmt p emin) : emin ≤ -(2 * p : Int) - 20 := by
  rcases h with ⟨rfl, rfl⟩ | ⟨rfl, rfl⟩ <;> norm_num

/-- Just above a power of two. -/
theorem rnd_below {p : Nat} (hp : 1 ≤ p) {emin : Int} {x : ℚ} {k : Int} (hk : emin ≤ k - p + 1) (h : x ≤ pow2 k + pow2 (k - p - 1)) :
    rnd p emin x ≤ pow2 k := by
  have hr : Rep p emin (pow2 k) := ⟨1, k, by simp, one_lt_pow₀ (by norm_num) (by omega), by omega⟩
  rcases le_total x (pow2 k) with h1 | h1
  · exact rnd_le_rep hp hr h1
  have hpk := pow2_pos k
  have hx0 : 0 < x := lt_of_lt_of_le hpk h1
  have hx : x ≠ 0 := hx0.ne'
  have h2 : pow2 (k + 1) = pow2 k + pow2 k := by
    rw [pow2_add, show pow2 1 = 2 by decide +kernel]
    ring
  have hlt : pow2 (k - p - 1) < pow2 k := pow2_lt.2 (by omega)
  have he : elog x = k := by
    apply le_antisymm
    · have := elog_lt hx (k := k + 1) (by rw [abs_of_pos hx0, h2]; linarith)
      omega
    · exact le_elog hx (by rwa [abs_of_pos hx0])
  have hu : ulpExp p emin x = k - p + 1 := by
    unfold ulpExp
    rw [he]
    omega
  rw [rnd_of_ne hx, hu]
  have hw := pow2_pos (k - p + 1)
  have e1 : pow2 k = ((2 ^ (p - 1) : Int) : ℚ) * pow2 (k - p + 1) := by
    have : k = ((p - 1 : Nat) : Int) + (k - p + 1) := by omega
    conv_lhs => rw [this, pow2_add, pow2_nat]
    push_cast
    rfl
  have e2 : pow2 (k - p - 1) = 1 / 4 * pow2 (k - p + 1) := by
    rw [show k - p - 1 = -2 + (k - p + 1) by ring, pow2_add, show pow2 (-2) = 1 / 4 by decide +kernel]
  have hz : x / pow2 (k - p + 1) ≤ ((2 ^ (p - 1) : Int) : ℚ) + 1 / 4 := by
    rw [div_le_iff₀ hw, add_mul, ← e1, ← e2]
    exact h
  have hn : rne (x / pow2 (k - p + 1)) ≤ 2 ^ (p - 1) := by
    have h3 := (abs_le.1 (rne_near (x / pow2 (k - p + 1)))).2
    have h4 : ((rne (x / pow2 (k - p + 1)) : Int) : ℚ) < ((2 ^ (p - 1) : Int) : ℚ) + 1 := by linarith
    have h5 : rne (x / pow2 (k - p + 1)) < 2 ^ (p - 1) + 1 := by exact_mod_cast h4
    omega
  rw [e1]
  exact mul_le_mul_of_nonneg_right (by exact_mod_cast hn) hw.le

theorem rnd_below_abs {p : Nat} (hp : 1 ≤ p) {emin : Int} {x : ℚ} {k : Int} (hk : emin ≤ k - p + 1)
    (h : |x| ≤ pow2 k + pow2 (k - p - 1)) : |rnd p emin x| ≤ pow2 k := by
  rw [abs_le] at h ⊢
  refine ⟨?_, rnd_below hp hk h.2⟩
  have := rnd_below hp (x := -x) hk (by linarith)
  rw [rnd_neg] at this
  linarith

/-- The coefficients belong together. -/
def TunedF (p : Nat) (emin : Int) (s : OnePole ℚ) : Prop :=
  0 ≤ s.b1 ∧ s.b1 ≤ 1 ∧ Rep p emin s.b1 ∧ s.a0 = rnd p emin (1 - s.b1)

/-- What the coefficients satisfy. -/
theorem TunedF.a0 {p : Nat} {emin : Int} (hf : Fmt p emin) {s : OnePole ℚ} (h : TunedF p emin s) :
    0 ≤ s.a0 ∧ Rep p emin s.a0 ∧ |s.a0 - (1 - s.b1)| ≤ pow2 (-p - 1) := by
  obtain ⟨h0, h1, hr, e⟩ := h
  have hl := hf.low
  rw [e]
  refine ⟨rnd_nonneg (by linarith), rep_rnd hf.p1 _, ?_⟩
  rcases lt_or_eq_of_le h0 with h | h
  · have := rnd_err (p := p) (emin := emin) (x := 1 - s.b1) (k := 0) (by
      rw [abs_of_nonneg (by linarith), show pow2 0 = 1 by decide +kernel]; linarith) (by omega)
    rwa [show (0 : Int) - p - 1 = -p - 1 by ring] at this
  · rw [← h, sub_zero, rnd_rep ⟨1, 0, by simp [pow2_eq], one_lt_pow₀ (by norm_num) (by have := hf.p1; omega), by omega⟩, sub_self, abs_zero]
    exact (pow2_pos _).le

theorem rep_scale {p : Nat} {emin : Int} {x : ℚ} (h : Rep p emin x) {k : Int} (hk : 0 ≤ k) : Rep p emin (pow2 k * x) := by
  obtain ⟨m, e, rfl, hm, he⟩ := h
  exact ⟨m, k + e, by rw [pow2_add]; ring, hm, by omega⟩

/-- A product with a coefficient. -/
theorem prod_le {p : Nat} {emin : Int} (hf : Fmt p emin) {x c : ℚ} (hc : 0 ≤ c) (hr : Rep p emin c) {k : Int} (hk : 0 ≤ k)
    (hx : |x| ≤ pow2 k) : |rnd p emin (x * c)| ≤ pow2 k * c := by
  refine rnd_abs_le hf.p1 (rep_scale hr hk) ?_
  rw [abs_mul, abs_of_nonneg hc]
  exact mul_le_mul_of_nonneg_right hx hc

/-- The sum before the last rounding. -/
theorem sum_le {p : Nat} {emin : Int} (hf : Fmt p emin) {s : OnePole ℚ} (h : TunedF p emin s) {x : ℚ} {k : Int} (hk : 0 ≤ k)
    (hx : |x| ≤ pow2 k) (hl : |s.last| ≤ pow2 k) :
    |rnd p emin (x * s.a0) + rnd p emin (s.last * s.b1)| ≤ pow2 k + pow2 (k - p - 1) := by
  obtain ⟨a1, a2, a3⟩ := h.a0 hf
  refine le_trans (abs_add_le _ _) ?_
  have h1 := prod_le hf a1 a2 hk hx
  have h2 := prod_le hf h.1 h.2.2.1 hk hl
  have h3 : s.a0 + s.b1 ≤ 1 + pow2 (-p - 1) := by have := (abs_le.1 a3).2; linarith
  have h4 := mul_le_mul_of_nonneg_left h3 (pow2_pos k).le
  rw [show k - (p : Int) - 1 = k + (-p - 1) by ring, pow2_add]
  linarith

theorem lp_le {p : Nat} {emin : Int} (hf : Fmt p emin) {s : OnePole ℚ} (h : TunedF p emin s) {x : ℚ} {k : Int} (hk : 0 ≤ k)
    (hx : |x| ≤ pow2 k) (hl : |s.last| ≤ pow2 k) : |(opLp (rnd p emin) s x).2| ≤ pow2 k := by
  have := hf.low
  exact rnd_below_abs hf.p1 (by omega) (sum_le hf h hk hx hl)

/-- The exponential function of a maths library: of a number that is not positive it is a number from 0 to 1. -/
structure Exp.Ok (ex : Exp) : Prop where
  pi : 0 ≤ ex.pi
  range : ∀ z, z ≤ 0 → 0 ≤ ex.exp z ∧ ex.exp z ≤ 1

theorem rnd_neg_le {p : Nat} {emin : Int} {x : ℚ} (h : x ≤ 0) : rnd p emin x ≤ 0 := by
  have := rnd_nonneg (p := p) (emin := emin) (x := -x) (by linarith)
  rw [rnd_neg] at this
  linarith

theorem setFreq_tunedF {p : Nat} {emin : Int} (hf : Fmt p emin) {ex : Exp} (hex : ex.Ok) (s : OnePole ℚ) {freq sr : ℚ} (h : 0 ≤ freq)
    (hs : 0 < sr) : ∃ s', opSetFreq (rnd p emin) ex s freq sr = some s' ∧ TunedF p emin s' ∧ s'.last = s.last := by
  have hl := hf.low
  refine ⟨{ s with b1 := rnd p emin (ex.exp (rnd p emin (rnd p emin (-2 * ex.pi) * rnd p emin (freq / sr)))), a0 := _ },
    by rw [opSetFreq, divO, if_neg hs.ne']; rfl, ⟨?_, ?_, rep_rnd hf.p1 _, rfl⟩, rfl⟩
  all_goals
    have hz : rnd p emin (rnd p emin (-2 * ex.pi) * rnd p emin (freq / sr)) ≤ 0 := by
      apply rnd_neg_le
      have h1 : rnd p emin (-2 * ex.pi) ≤ 0 := rnd_neg_le (by have := hex.pi; linarith)
      have h2 : 0 ≤ rnd p emin (freq / sr) := rnd_nonneg (div_nonneg h hs.le)
      nlinarith
    have hr := hex.range _ hz
  · exact rnd_nonneg hr.1
  · exact rnd_le_rep hf.p1 ⟨1, 0, by simp [pow2_eq], one_lt_pow₀ (by norm_num) (by have := hf.p1; omega), by omega⟩ hr.2

/-- Frequencies that are not negative, samples of a certain size. -/
def SizeOk (k : Int) : OpOp ℚ → Prop
  | .cutoff f => 0 ≤ f
  | .sample x => |x| ≤ pow2 k

/-- C81, stability: with rounding, whatever the history of samples and changes of the frequency (not negative), the output of the
low-pass filter is never larger than the power of two that bounds the samples and the value it starts from, and that of the high-pass
filter never larger than twice that. -/
theorem C81_range {p : Nat} {emin : Int} (hf : Fmt p emin) {ex : Exp} (hex : ex.Ok) {sr : ℚ} (hs : 0 < sr) {k : Int} (hk : 0 ≤ k)
    (ops : List (OpOp ℚ)) (hops : ∀ o ∈ ops, SizeOk k o) (s : OnePole ℚ) (ht : TunedF p emin s) (hl : |s.last| ≤ pow2 k) :
    (∃ s' out, opLpRun (rnd p emin) ex sr s ops = some (s', out) ∧ ∀ y ∈ out, |y| ≤ pow2 k) ∧
    (∃ s' out, opHpRun (rnd p emin) ex sr s ops = some (s', out) ∧ ∀ y ∈ out, |y| ≤ pow2 (k + 1)) := by
  induction ops generalizing s with
  | nil => exact ⟨⟨s, [], rfl, by simp⟩, ⟨s, [], rfl, by simp⟩⟩
  | cons o ops ih =>
    have ho := hops o List.mem_cons_self
    have hops' := fun o h => hops o (List.mem_cons_of_mem _ h)
    have low := hf.low
    cases o with
    | cutoff f =>
      obtain ⟨s1, h1, ht1, hl1⟩ := setFreq_tunedF hf hex s (show 0 ≤ f from ho) hs
      obtain ⟨⟨s2, o2, h2, h3⟩, ⟨s4, o4, h4, h5⟩⟩ := ih hops' s1 ht1 (by rw [hl1]; exact hl)
      exact ⟨⟨s2, o2, by simp [opLpRun, h1, h2], h3⟩, ⟨s4, o4, by simp [opHpRun, h1, h4], h5⟩⟩
    | sample x =>
      have hy := lp_le hf ht hk (show |x| ≤ pow2 k from ho) hl
      obtain ⟨⟨s2, o2, h2, h3⟩, _⟩ := ih hops' (opLp (rnd p emin) s x).1 ht hy
      obtain ⟨_, ⟨s4, o4, h4, h5⟩⟩ := ih hops' (opHp (rnd p emin) s x).1 ht hy
      refine ⟨⟨s2, (opLp (rnd p emin) s x).2 :: o2, by simp [opLpRun, h2], ?_⟩, ⟨s4, (opHp (rnd p emin) s x).2 :: o4, by
        simp [opHpRun, h4], ?_⟩⟩
      · intro y hm
        rcases List.mem_cons.1 hm with rfl | hm
        · exact hy
        · exact h3 y hm
      · intro y hm
        rcases List.mem_cons.1 hm with rfl | hm
        · have hr : Rep p emin (pow2 (k + 1)) := ⟨1, k + 1, by simp, one_lt_pow₀ (by norm_num) (by have := hf.p1; omega), by omega⟩
          refine rnd_abs_le hf.p1 hr ?_
          rw [pow2_add, show pow2 1 = 2 by decide +kernel]
          have := abs_sub x (opLp (rnd p emin) s x).2
          have hx : |x| ≤ pow2 k := ho
          exact le_trans this (by linarith)
        · exact h5 y hm

/-- A maths library. -/
example : Exp.Ok { exp := fun z => 1 / (1 - z), pi := 3 } := by
  refine ⟨by norm_num, fun z hz => ⟨div_nonneg (by norm_num) (by linarith), ?_⟩⟩
  show 1 / (1 - z) ≤ 1
  rw [div_le_one (by linarith)]
  linarith

example : TunedF 24 (-149) { last := 1 / 2, a0 := 1 / 4, b1 := 3 / 4 } ∧
    ∀ o ∈ [OpOp.sample (1 : ℚ), .cutoff 100, .sample (-2)], SizeOk 1 o := by
  refine ⟨⟨by norm_num, by norm_num, ⟨3, -2, by decide +kernel, by norm_num, by norm_num⟩, by decide +kernel⟩, ?_⟩
  intro o ho
  simp only [List.mem_cons, List.not_mem_nil, or_false] at ho
  rcases ho with rfl | rfl | rfl
  · show |(1 : ℚ)| ≤ pow2 1
    decide +kernel
  · show (0 : ℚ) ≤ 100
    norm_num
  · show |(-2 : ℚ)| ≤ pow2 1
    decide +kernel

/-- C81, range, what goes wrong for other bounds: the samples are `0x1.87c912p-1`, the filter is at that value and its output is above
it. -/
theorem C81_range_violated : ∃ s : OnePole ℚ, TunedF 24 (-149) s ∧ Rep 24 (-149) s.last ∧ s.last < (opLp rnd32 s s.last).2 := by
  refine ⟨⟨12838025 / 16777216, rnd32 (1 - 16741161 / 16777216), 16741161 / 16777216⟩,
    ⟨by norm_num, by norm_num, ⟨16741161, -24, by decide +kernel, by norm_num, by norm_num⟩, rfl⟩,
    ⟨12838025, -24, by decide +kernel, by norm_num, by norm_num⟩, by decide +kernel⟩

/-! ### A constant input -/

/-- One sample, compared with the exact filter. -/
theorem lp_near {p : Nat} {emin : Int} (hf : Fmt p emin) {s : OnePole ℚ} (h : TunedF p emin s) {c : ℚ} {k : Int} (hk : 0 ≤ k)
    (hc : |c| ≤ pow2 k) (hl : |s.last| ≤ pow2 k) :
    |(opLp (rnd p emin) s c).2 - (c + s.b1 * (s.last - c))| ≤ 4 * pow2 (-p) * pow2 k := by
  obtain ⟨a1, a2, a3⟩ := h.a0 hf
  have low := hf.low
  have hM : (1 : ℚ) ≤ pow2 k := by have := pow2_le hk; rwa [show pow2 0 = 1 by decide +kernel] at this
  have hM0 : (0 : ℚ) < pow2 k := by linarith
  have u0 := pow2_pos (-(p : Int))
  have u1 : pow2 (-(p : Int)) ≤ 1 / 4 := by
    have := pow2_le (show -(p : Int) ≤ -2 by rcases hf with ⟨rfl, _⟩ | ⟨rfl, _⟩ <;> norm_num)
    rwa [show pow2 (-2) = 1 / 4 by decide +kernel] at this
  have v0 := pow2_pos (emin - 1)
  have v1 : pow2 (emin - 1) ≤ pow2 (-(p : Int)) / 16 := by
    have := pow2_le (show emin - 1 ≤ -(p : Int) + -4 by omega)
    rw [pow2_add, show pow2 (-4) = 1 / 16 by decide +kernel] at this
    linarith
  have hh : pow2 (-(p : Int) - 1) = pow2 (-(p : Int)) / 2 := by
    rw [show -(p : Int) - 1 = -p + -1 by ring, pow2_add, show pow2 (-1) = 1 / 2 by decide +kernel]
    ring
  have h1 := rnd_rel p emin (c * s.a0)
  have h2 := rnd_rel p emin (s.last * s.b1)
  have h3 := rnd_rel p emin (rnd p emin (c * s.a0) + rnd p emin (s.last * s.b1))
  have h4 := sum_le hf h hk hc hl
  rw [show k - (p : Int) - 1 = k + (-p - 1) by ring, pow2_add] at h4
  rw [hh] at a3 h4
  change |(opLp (rnd p emin) s c).2 - _| ≤ _ at h3
  generalize (opLp (rnd p emin) s c).2 = y at *
  generalize rnd p emin (c * s.a0) = A at *
  generalize rnd p emin (s.last * s.b1) = B at *
  generalize pow2 (-(p : Int)) = u at *
  generalize pow2 (emin - 1) = v at *
  generalize pow2 k = M at *
  obtain ⟨b0, b1, _, _⟩ := h
  generalize s.a0 = a at *
  generalize s.b1 = b at *
  generalize s.last = l at *
  have uM : 0 < u * M := mul_pos u0 hM0
  have hv : v ≤ u * M / 16 := by nlinarith
  have ha : a ≤ 1 - b + u / 2 := by have := (abs_le.1 a3).2; linarith
  -- the products
  have p1 : |A - c * a| ≤ u * M * a + v := by
    have : |c * a| ≤ M * a := by rw [abs_mul, abs_of_nonneg a1]; exact mul_le_mul_of_nonneg_right hc a1
    have := mul_le_mul_of_nonneg_left this u0.le
    linarith
  have p2 : |B - l * b| ≤ u * M * b + v := by
    have : |l * b| ≤ M * b := by rw [abs_mul, abs_of_nonneg b0]; exact mul_le_mul_of_nonneg_right hl b0
    have := mul_le_mul_of_nonneg_left this u0.le
    linarith
  have p3 : |c * a - c * (1 - b)| ≤ M * (u / 2) := by
    rw [← mul_sub, abs_mul]
    exact mul_le_mul hc a3 (abs_nonneg _) hM0.le
  have p4 : |y - (A + B)| ≤ u * (M + M * (u / 2)) + v := by
    have := mul_le_mul_of_nonneg_left h4 u0.le
    linarith
  have e : y - (c + b * (l - c)) = (y - (A + B)) + ((A - c * a) + ((B - l * b) + (c * a - c * (1 - b)))) := by ring
  rw [e]
  have t1 := abs_add_le (y - (A + B)) ((A - c * a) + ((B - l * b) + (c * a - c * (1 - b))))
  have t2 := abs_add_le (A - c * a) ((B - l * b) + (c * a - c * (1 - b)))
  have t3 := abs_add_le (B - l * b) (c * a - c * (1 - b))
  have q1 : u * M * a + u * M * b ≤ u * M * (1 + u / 2) := by
    rw [← mul_add]
    exact mul_le_mul_of_nonneg_left (by linarith) uM.le
  have q2 : u * M * u ≤ u * M * (1 / 4) := mul_le_mul_of_nonneg_left u1 uM.le
  nlinarith

/-- The low-pass filter after `n` samples of a constant. -/
def lpConst (fl : ℚ → ℚ) (c : ℚ) (s : OnePole ℚ) : Nat → OnePole ℚ
  | 0 => s
  | n + 1 => (opLp fl (lpConst fl c s n) c).1

theorem lpConst_coef (fl : ℚ → ℚ) (c : ℚ) (s : OnePole ℚ) (n : Nat) :
    (lpConst fl c s n).a0 = s.a0 ∧ (lpConst fl c s n).b1 = s.b1 := by
  induction n with
  | zero => exact ⟨rfl, rfl⟩
  | succ n ih => exact ih

theorem lpConst_tuned {p : Nat} {emin : Int} {c : ℚ} {s : OnePole ℚ} (h : TunedF p emin s) (n : Nat) :
    TunedF p emin (lpConst (rnd p emin) c s n) := by
  obtain ⟨e1, e2⟩ := lpConst_coef (rnd p emin) c s n
  unfold TunedF
  rw [e1, e2]
  exact h

theorem lpConst_le {p : Nat} {emin : Int} (hf : Fmt p emin) {c : ℚ} {s : OnePole ℚ} (h : TunedF p emin s) {k : Int} (hk : 0 ≤ k)
    (hc : |c| ≤ pow2 k) (hl : |s.last| ≤ pow2 k) (n : Nat) : |(lpConst (rnd p emin) c s n).last| ≤ pow2 k := by
  induction n with
  | zero => exact hl
  | succ n ih => exact lp_le hf (lpConst_tuned h n) hk hc ih

/-- C81, settling, as far as it holds: for a constant input the distance shrinks as for the exact filter, down to
`4 * 2 ^ -p * 2 ^ k / (1 - b1)`, where `2 ^ k` bounds the numbers involved.

Partial: it does not get smaller than any bound (`C81_settles_violated`). -/
theorem C81_settles_partial {p : Nat} {emin : Int} (hf : Fmt p emin) {c : ℚ} {s : OnePole ℚ} (h : TunedF p emin s) (h1 : s.b1 < 1)
    {k : Int} (hk : 0 ≤ k) (hc : |c| ≤ pow2 k) (hl : |s.last| ≤ pow2 k) (n : Nat) :
    |(lpConst (rnd p emin) c s n).last - c| ≤ s.b1 ^ n * |s.last - c| + 4 * pow2 (-p) * pow2 k / (1 - s.b1) := by
  have hE : 0 ≤ 4 * pow2 (-(p : Int)) * pow2 k := by have := pow2_pos (-(p : Int)); have := pow2_pos k; positivity
  have hb : 0 < 1 - s.b1 := by linarith
  induction n with
  | zero =>
    rw [pow_zero, one_mul]
    have := div_nonneg hE hb.le
    exact le_add_of_nonneg_right this
  | succ n ih =>
    have hn := lp_near hf (lpConst_tuned (c := c) h n) hk hc (lpConst_le hf h hk hc hl n)
    rw [(lpConst_coef (rnd p emin) c s n).2] at hn
    change |(lpConst (rnd p emin) c s (n + 1)).last - _| ≤ _ at hn
    generalize 4 * pow2 (-(p : Int)) * pow2 k = E at *
    generalize (lpConst (rnd p emin) c s (n + 1)).last = y at *
    generalize (lpConst (rnd p emin) c s n).last = l at *
    have b0 := h.1
    generalize s.b1 = b at *
    have t := abs_add_le (y - (c + b * (l - c))) (b * (l - c))
    rw [show y - (c + b * (l - c)) + b * (l - c) = y - c by ring, abs_mul, abs_of_nonneg b0] at t
    have := mul_le_mul_of_nonneg_left ih b0
    have e : b * (b ^ n * |s.last - c| + E / (1 - b)) + E = b ^ (n + 1) * |s.last - c| + E / (1 - b) := by
      have : E = E / (1 - b) * (1 - b) := (div_mul_cancel₀ E hb.ne').symm
      rw [pow_succ]
      linear_combination this
    linarith

/-- One sample is monotone in the state. -/
theorem lp_mono {p : Nat} {emin : Int} (hf : Fmt p emin) {s : OnePole ℚ} (hb : 0 ≤ s.b1) (c : ℚ) {l : ℚ} (h : s.last ≤ l) :
    (opLp (rnd p emin) s c).2 ≤ (opLp (rnd p emin) { s with last := l } c).2 := by
  refine rnd_le hf.p1 (add_le_add le_rfl (rnd_le hf.p1 ?_))
  exact mul_le_mul_of_nonneg_right h hb

/-- A state that a constant input does not change is not passed. -/
theorem lpConst_fix {p : Nat} {emin : Int} (hf : Fmt p emin) {s : OnePole ℚ} (hb : 0 ≤ s.b1) {c y : ℚ}
    (hy : (opLp (rnd p emin) { s with last := y } c).2 = y) (h : s.last ≤ y) (n : Nat) : (lpConst (rnd p emin) c s n).last ≤ y := by
  induction n with
  | zero => exact h
  | succ n ih =>
    have e := lpConst_coef (rnd p emin) c s n
    have := lp_mono hf (s := lpConst (rnd p emin) c s n) (by rw [e.2]; exact hb) c ih
    refine le_trans this (le_of_eq ?_)
    simp only [e.1, e.2]
    exact hy

/-- The coefficient that `f32` gives for 1 Hz at 48 kHz, `0x1.ffeed8p-1`. -/
def b1Hz : ℚ := 16775020 / 16777216

/-- The filter with this coefficient, from rest. -/
def op1Hz : OnePole ℚ := { last := 0, a0 := rnd32 (1 - b1Hz), b1 := b1Hz }

/-- It is the right one. -/
theorem b1Hz_right : |(b1Hz : ℝ) - Real.exp (-2 * Real.pi * (1 / 48000))| < 1 / 2 ^ 24 := by
  have h1 := Real.pi_gt_d6
  have h2 := Real.pi_lt_d6
  have hx : |(-2 * Real.pi * (1 / 48000))| ≤ 1 := by rw [abs_le]; constructor <;> linarith
  have h3 := Real.abs_exp_sub_one_sub_id_le hx
  have h4 : (-2 * Real.pi * (1 / 48000)) ^ 2 ≤ (1 / 7600) ^ 2 := by
    rw [sq_le_sq, abs_le]
    rw [abs_of_pos (by norm_num : (0 : ℝ) < 1 / 7600)]
    constructor <;> linarith
  rw [abs_le] at h3
  have e : (b1Hz : ℝ) = 16775020 / 16777216 := by norm_num [b1Hz]
  generalize hz : -2 * Real.pi * (1 / 48000) = z at *
  rw [e, abs_lt]
  obtain ⟨h5, h6⟩ := h3
  have g1 : z < -(3.141592 / 24000) := by linarith
  have g2 : -(3.141593 / 24000) < z := by linarith
  norm_num at g1 g2 h4 ⊢
  constructor <;> linarith

/-- C81, settling, what goes wrong: a low-pass filter at 1 Hz, 48 kHz, `f32`, from rest with the constant input 1 never gets closer to it
than 2e-4 (and with the high-pass filter, that much remains of a constant forever).  With the smallest frequency for which the coefficient
is not 1 it does not get beyond one half. -/
theorem C81_settles_violated :
    TunedF 24 (-149) op1Hz ∧ (∀ n, (lpConst rnd32 1 op1Hz n).last ≤ 1 - 2 / 10000) ∧
    TunedF 24 (-149) ⟨0, pow2 (-24), 1 - pow2 (-24)⟩ ∧ (∀ n, (lpConst rnd32 1 ⟨0, pow2 (-24), 1 - pow2 (-24)⟩ n).last ≤ 1 / 2) := by
  have f : Fmt 24 (-149) := .inl ⟨rfl, rfl⟩
  refine ⟨⟨by norm_num [op1Hz, b1Hz], by norm_num [op1Hz, b1Hz], ⟨16775020, -24, by decide +kernel, by norm_num, by norm_num⟩, rfl⟩, ?_,
    ⟨by decide +kernel, by decide +kernel, ⟨16777215, -24, by decide +kernel, by norm_num, by norm_num⟩, by decide +kernel⟩, ?_⟩
  · intro n
    refine le_trans (lpConst_fix (p := 24) (emin := -149) f (s := op1Hz) (y := 16773397 / 16777216) (by norm_num [op1Hz, b1Hz])
      (by decide +kernel) (by norm_num [op1Hz]) n) (by norm_num)
  · intro n
    exact lpConst_fix (p := 24) (emin := -149) f (by decide +kernel) (by decide +kernel) (by norm_num) n

/-! ### After the input -/

/-- More than half of the smallest number does not disappear. -/
theorem rnd_min {p : Nat} (hp : 1 ≤ p) {emin : Int} {x : ℚ} (h : pow2 (emin - 1) < x) : pow2 emin ≤ rnd p emin x := by
  have hr : Rep p emin (pow2 emin) := ⟨1, emin, by simp, one_lt_pow₀ (by norm_num) (by omega), le_rfl⟩
  rcases le_or_gt (pow2 emin) x with h1 | h1
  · exact rep_le_rnd hp hr h1
  have hx0 : 0 < x := lt_trans (pow2_pos _) h
  have he : elog x < emin := elog_lt hx0.ne' (by rwa [abs_of_pos hx0])
  have hu : ulpExp p emin x = emin := by unfold ulpExp; omega
  have hw := pow2_pos emin
  have h2 : pow2 (emin - 1) = 1 / 2 * pow2 emin := by
    rw [show emin - 1 = -1 + emin by ring, pow2_add, show pow2 (-1) = 1 / 2 by decide +kernel]
  have hz : 1 / 2 < x / pow2 emin := by rw [lt_div_iff₀ hw]; linarith
  have hz1 : x / pow2 emin < 1 := by rw [div_lt_one hw]; exact h1
  have hn : rne (x / pow2 emin) = 1 := rne_of_near (by rw [abs_lt]; push_cast; constructor <;> linarith)
  rw [rnd_of_ne hx0.ne', hu, hn]
  simp

theorem rep_pos {p : Nat} {emin : Int} {x : ℚ} (h : Rep p emin x) (h0 : 0 < x) : pow2 emin ≤ x := by
  obtain ⟨m, e, rfl, hm, he⟩ := h
  have hp := pow2_pos e
  have hm0 : 0 < (m : ℚ) := by
    by_contra hc
    have := mul_nonpos_of_nonpos_of_nonneg (not_lt.1 hc) hp.le
    linarith
  have hm1 : (1 : ℚ) ≤ m := by
    have : 0 < m := by exact_mod_cast hm0
    exact_mod_cast this
  have := pow2_le he
  nlinarith

theorem lp_zero {p : Nat} {emin : Int} (hf : Fmt p emin) (s : OnePole ℚ) :
    (opLp (rnd p emin) s 0).2 = rnd p emin (s.last * s.b1) := by
  simp only [opLp, zero_mul, rnd_zero, zero_add]
  exact rnd_rep (rep_rnd hf.p1 _)

/-- C81, the tail: without input the low-pass filter decays with the factor `b1 (1 + 2 ^ -p)` per sample to the order of the smallest
number. -/
theorem C81_tail {p : Nat} {emin : Int} (hf : Fmt p emin) {s : OnePole ℚ} (h : TunedF p emin s) (h1 : s.b1 * (1 + pow2 (-p)) < 1) (n : Nat) :
    |(lpConst (rnd p emin) 0 s n).last| ≤
      (s.b1 * (1 + pow2 (-p))) ^ n * |s.last| + pow2 (emin - 1) / (1 - s.b1 * (1 + pow2 (-p))) := by
  have v0 := pow2_pos (emin - 1)
  have u0 := pow2_pos (-(p : Int))
  have hb := h.1
  have hr : 0 < 1 - s.b1 * (1 + pow2 (-(p : Int))) := by linarith
  have hr0 : 0 ≤ s.b1 * (1 + pow2 (-(p : Int))) := by positivity
  induction n with
  | zero =>
    rw [pow_zero, one_mul]
    exact le_add_of_nonneg_right (div_nonneg v0.le hr.le)
  | succ n ih =>
    have e1 : (lpConst (rnd p emin) 0 s (n + 1)).last = rnd p emin ((lpConst (rnd p emin) 0 s n).last * s.b1) := by
      have := lp_zero hf (lpConst (rnd p emin) 0 s n)
      rwa [(lpConst_coef (rnd p emin) 0 s n).2] at this
    rw [e1]
    generalize (lpConst (rnd p emin) 0 s n).last = l at *
    have er := rnd_rel p emin (l * s.b1)
    have t := abs_add_le (rnd p emin (l * s.b1) - l * s.b1) (l * s.b1)
    rw [sub_add_cancel] at t
    rw [abs_mul l, abs_of_nonneg hb] at er t
    generalize rnd p emin (l * s.b1) = y at *
    generalize pow2 (-(p : Int)) = u at *
    generalize pow2 (emin - 1) = v at *
    generalize s.b1 = b at *
    have := mul_le_mul_of_nonneg_left ih hr0
    have e : b * (1 + u) * ((b * (1 + u)) ^ n * |s.last| + v / (1 - b * (1 + u))) + v =
        (b * (1 + u)) ^ (n + 1) * |s.last| + v / (1 - b * (1 + u)) := by
      have : v = v / (1 - b * (1 + u)) * (1 - b * (1 + u)) := (div_mul_cancel₀ v hr.ne').symm
      rw [pow_succ]
      linear_combination this
    nlinarith

/-- C81, the tail, what goes wrong: a filter that has once been above zero never returns to it, for any coefficient above one half; at
1 Hz, 48 kHz and `f32` it stays at `3 * 2 ^ -149` and at any other of the smallest 3819 numbers forever. -/
theorem C81_silence_violated :
    (∀ p emin, Fmt p emin → ∀ s : OnePole ℚ, TunedF p emin s → 1 / 2 < s.b1 → Rep p emin s.last → 0 < s.last →
      ∀ n, pow2 emin ≤ (lpConst (rnd p emin) 0 s n).last) ∧
    (∀ m : Nat, m ≤ 3819 → ∀ n, (lpConst rnd32 0 { op1Hz with last := m * pow2 (-149) } n).last = m * pow2 (-149)) := by
  constructor
  · intro p emin hf s ht hb hr h0 n
    induction n with
    | zero => exact rep_pos hr h0
    | succ n ih =>
      have e1 : (lpConst (rnd p emin) 0 s (n + 1)).last = rnd p emin ((lpConst (rnd p emin) 0 s n).last * s.b1) := by
        have := lp_zero hf (lpConst (rnd p emin) 0 s n)
        rwa [(lpConst_coef (rnd p emin) 0 s n).2] at this
      rw [e1]
      apply rnd_min hf.p1
      have hw := pow2_pos emin
      have h2 : pow2 (emin - 1) = 1 / 2 * pow2 emin := by
        rw [show emin - 1 = -1 + emin by ring, pow2_add, show pow2 (-1) = 1 / 2 by decide +kernel]
      rw [h2]
      nlinarith
  · intro m hm n
    have f : Fmt 24 (-149) := .inl ⟨rfl, rfl⟩
    induction n with
    | zero => rfl
    | succ n ih =>
      have e1 := lp_zero f (lpConst rnd32 0 { op1Hz with last := m * pow2 (-149) } n)
      rw [(lpConst_coef rnd32 0 { op1Hz with last := m * pow2 (-149) } n).2, ih] at e1
      change (lpConst rnd32 0 { op1Hz with last := m * pow2 (-149) } (n + 1)).last = _ at e1
      rw [e1]
      rcases Nat.eq_zero_or_pos m with rfl | hm0
      · rw [Nat.cast_zero, zero_mul, zero_mul, rnd_zero]
      have hmq : (0 : ℚ) < m := by exact_mod_cast hm0
      have hmq' : (m : ℚ) ≤ 3819 := by exact_mod_cast hm
      have hw := pow2_pos (-149)
      have hb0 : (0 : ℚ) < b1Hz := by norm_num [b1Hz]
      have hx0 : 0 < (m : ℚ) * pow2 (-149) * b1Hz := by positivity
      change rnd 24 (-149) ((m : ℚ) * pow2 (-149) * b1Hz) = _
      have hl : (m : ℚ) * pow2 (-149) * b1Hz < pow2 (-137) := by
        have : pow2 (-137) = 4096 * pow2 (-149) := by decide +kernel
        rw [this]
        have hb1 : b1Hz ≤ 1 := by norm_num [b1Hz]
        nlinarith [mul_pos hmq hw]
      have he : elog ((m : ℚ) * pow2 (-149) * b1Hz) < -137 := elog_lt hx0.ne' (by rwa [abs_of_pos hx0])
      have hu : ulpExp 24 (-149) ((m : ℚ) * pow2 (-149) * b1Hz) = -149 := by unfold ulpExp; push_cast; omega
      rw [rnd_of_ne hx0.ne', hu]
      have : (m : ℚ) * pow2 (-149) * b1Hz / pow2 (-149) = m * b1Hz := by field_simp
      rw [this]
      have hn : rne ((m : ℚ) * b1Hz) = m := by
        apply rne_of_near
        rw [abs_lt]
        norm_num [b1Hz]
        constructor <;> linarith
      rw [hn]
      push_cast
      rfl

end Verif.Fl
