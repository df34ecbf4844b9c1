import Verif.Model.Filter
import Mathlib.Analysis.SpecialFunctions.Pow.Real
import Mathlib.Analysis.SpecialFunctions.Trigonometric.Basic
import Mathlib.Analysis.SpecialFunctions.Trigonometric.Deriv
import Mathlib.Tactic.Linarith
import Mathlib.Tactic.Ring
import Mathlib.Tactic.Positivity
import Mathlib.Tactic.FieldSimp

/-!
# C59: one pole filters
-/

namespace Verif.Fi

/-- The functions of the maths library, exact. -/
noncomputable def real : Fns ℝ where
  exp := Real.exp
  tan := Real.tan
  sqrt := Real.sqrt
  pow10 := fun x => (10 : ℝ) ^ x
  pi := Real.pi

/-- A filter whose coefficients belong to some frequency that is not negative. -/
def OnePole.Tuned (p : OnePole ℝ) : Prop := 0 < p.b1 ∧ p.b1 ≤ 1 ∧ p.a0 = 1 - p.b1

theorem divO_pos {a b : ℝ} (h : b ≠ 0) : divO a b = some (a / b) := by simp [divO, h]

/-- The coefficient for a frequency. -/
theorem setFreq_spec (p : OnePole ℝ) (freq sr : ℝ) (hs : 0 < sr) :
    p.setFreq real freq sr 
      = some ⟨p.last, 1 - Real.exp (-2 * Real.pi * (freq / sr)), Real.exp (-2 * Real.pi * (freq / sr))⟩ := by
  simp [OnePole.setFreq, divO_pos (ne_of_gt hs), real]

theorem setFreq_tuned (p : OnePole ℝ) (freq sr : ℝ) (hs : 0 < sr) (hf : 0 ≤ freq) :
    ∃ p', p.setFreq real freq sr = some p' ∧ p'.Tuned ∧ p'.last = p.last := by
  refine ⟨_, setFreq_spec p freq sr hs, ⟨Real.exp_pos _, ?_, rfl⟩, rfl⟩
  show Real.exp _ ≤ 1
  rw [Real.exp_le_one_iff]
  have : 0 ≤ Real.pi * (freq / sr) := mul_nonneg Real.pi_pos.le (div_nonneg hf hs.le)
  linarith

/-- Frequencies that are not negative, samples between `lo` and `hi`. -/
def OpOp.Ok (lo hi : ℝ) : OpOp ℝ → Prop
  | .cutoff f => 0 ≤ f
  | .sample x => lo ≤ x ∧ x ≤ hi

/-- **C59, range**: whatever the changes of the frequency (not negative), the low-pass filter always produces numbers, and
its output stays between the smallest and largest of its inputs (and the value it starts from). -/
theorem C59_lowpass_range (sr lo hi : ℝ) (hs : 0 < sr) (ops : List (OpOp ℝ)) (hops : ∀ o ∈ ops, o.Ok lo hi) (p : OnePole ℝ)
    (hp : p.Tuned) (hl : lo ≤ p.last ∧ p.last ≤ hi) :
    ∃ p' out, lpRun real sr p ops = some (p', out) ∧ (∀ y ∈ out, lo ≤ y ∧ y ≤ hi) ∧ p'.Tuned ∧ lo ≤ p'.last ∧ p'.last ≤ hi := by
  induction ops generalizing p with
  | nil => exact ⟨p, [], rfl, by simp, hp, hl.1, hl.2⟩
  | cons o ops ih =>
    have ho := hops o List.mem_cons_self
    have hops' := fun o h => hops o (List.mem_cons_of_mem _ h)
    cases o with
    | cutoff f =>
      obtain ⟨p1, h1, ht, hl1⟩ := setFreq_tuned p f sr hs ho
      obtain ⟨p', out, h2, h3⟩ := ih hops' p1 ht (by rw [hl1]; exact hl)
      exact ⟨p', out, by simp [lpRun, h1, h2], h3⟩
    | sample x =>
      obtain ⟨hb0, hb1, ha⟩ := hp
      have hy : lo ≤ (p.lp x).2 ∧ (p.lp x).2 ≤ hi := by
        simp only [OnePole.lp, ha]
        have := ho.1
        have := ho.2
        constructor <;> nlinarith [hl.1, hl.2]
      obtain ⟨p', out, h2, h3, h4⟩ := ih hops' (p.lp x).1 ⟨hb0, hb1, ha⟩ hy
      refine ⟨p', (p.lp x).2 :: out, by simp [lpRun, h2], ?_, h4⟩
      intro y hy'
      rcases List.mem_cons.1 hy' with rfl | h
      · exact hy
      · exact h3 y h

/-- A new low-pass filter is tuned by `init`. -/
theorem C59_init (cutoff sr : ℝ) (hs : 0 < sr) (hc : 0 ≤ cutoff) :
    ∃ p, opInit real (lpfNew cutoff) sr = some p ∧ p.Tuned ∧ p.last = 0 ∧
      p.b1 = Real.exp (-2 * Real.pi * (cutoff / sr)) := by
  have h : opInit real (lpfNew cutoff) sr = (lpfNew cutoff).setFreq real cutoff sr := by
    simp [opInit, lpfNew, OnePole.new]
  obtain ⟨p, h1, h2, h3⟩ := setFreq_tuned (lpfNew cutoff) cutoff sr hs hc
  refine ⟨p, h.trans h1, h2, h3, ?_⟩
  rw [setFreq_spec _ _ _ hs] at h1
  rw [← Option.some.inj h1]

example : ∃ p, opInit real (lpfNew 440) 48000 = some p ∧ p.Tuned :=
  have ⟨p, h, t, _⟩ := C59_init 440 48000 (by norm_num) (by norm_num)
  ⟨p, h, t⟩

/-- The samples in a history. -/
def samples : List (OpOp ℝ) → List ℝ
  | [] => []
  | .cutoff _ :: ops => samples ops
  | .sample x :: ops => x :: samples ops

/-- **C59, split**: the high-pass filter is what the low-pass filter leaves, for every history. -/
theorem C59_split (sr : ℝ) (ops : List (OpOp ℝ)) (p p' : OnePole ℝ) (lo : List ℝ) (h : lpRun real sr p ops = some (p', lo)) :
    hpRun real sr p ops = some (p', List.zipWith (· - ·) (samples ops) lo) := by
  induction ops generalizing p lo with
  | nil =>
    simp only [lpRun, Option.some.injEq, Prod.mk.injEq] at h
    simp [hpRun, h.1, samples]
  | cons o ops ih =>
    cases o with
    | cutoff f =>
      cases h1 : p.setFreq real f sr with
      | none => simp [lpRun, h1] at h
      | some p1 =>
        simp only [lpRun, h1, Option.bind_eq_bind, Option.bind_some] at h
        simp only [hpRun, h1, Option.bind_eq_bind, Option.bind_some]
        exact ih p1 lo h
    | sample x =>
      cases h1 : lpRun real sr (p.lp x).1 ops with
      | none => simp [lpRun, h1] at h
      | some r =>
        simp only [lpRun, h1, Option.bind_eq_bind, Option.bind_some, Option.pure_def, Option.some.injEq, Prod.mk.injEq] at h
        have h2 := ih (p.lp x).1 r.2 (by rw [h1, ← h.1])
        have e : (p.hp x).1 = (p.lp x).1 := rfl
        rw [hpRun, e, h2, ← h.2]
        rfl

/-- **C59, settling**: with a constant input the low-pass filter approaches it, the remaining distance being multiplied by
`b1` with every sample; so the high-pass filter removes it. -/
theorem C59_settles (sr c : ℝ) (n : Nat) (p : OnePole ℝ) (hp : p.Tuned) :
    lpRun real sr p (List.replicate n (.sample c)) = some ({ p with last := c - p.b1 ^ n * (c - p.last) },
      (List.range n).map fun i : Nat => c - p.b1 ^ (i + 1) * (c - p.last)) := by
  induction n generalizing p with
  | zero => simp [lpRun]
  | succ n ih =>
    have hy : (p.lp c).2 = c - p.b1 * (c - p.last) := by
      simp only [OnePole.lp, hp.2.2]; ring
    have hs : (p.lp c).1 = { p with last := c - p.b1 * (c - p.last) } := by
      simp only [OnePole.lp, hp.2.2]
      congr 1
      ring
    rw [List.replicate_succ, lpRun, hs, ih { p with last := c - p.b1 * (c - p.last) } hp, hy, List.range_succ_eq_map]
    simp only [Option.bind_eq_bind, Option.bind_some, Option.pure_def, List.map_cons, List.map_map, Option.some.injEq,
      Prod.mk.injEq, OnePole.mk.injEq, and_true, List.cons.injEq]
    refine ⟨by ring, by ring, ?_⟩
    apply List.map_congr_left
    intro i _
    simp only [Function.comp, Nat.succ_eq_add_one]
    ring

example : ∃ p : OnePole ℝ, p.Tuned ∧ p.b1 ≠ 1 := ⟨⟨0, 1/2, 1/2⟩, ⟨by norm_num, by norm_num, by norm_num⟩, by norm_num⟩

/-- With a frequency above zero, the distance gets as small as one likes. -/
theorem C59_limit (p : OnePole ℝ) (hp : p.Tuned) (h1 : p.b1 < 1) (c ε : ℝ) (hε : 0 < ε) :
    ∃ N : Nat, ∀ n ≥ N, |p.b1 ^ n * (c - p.last)| < ε := by
  by_cases hc : c - p.last = 0
  · exact ⟨0, fun n _ => by simp [hc, hε]⟩
  · have hpos : 0 < |c - p.last| := abs_pos.2 hc
    obtain ⟨N, hN⟩ := exists_pow_lt_of_lt_one (div_pos hε hpos) h1
    refine ⟨N, fun n hn => ?_⟩
    rw [abs_mul, abs_of_nonneg (pow_nonneg hp.1.le n)]
    have := pow_le_pow_of_le_one hp.1.le h1.le hn
    exact (lt_div_iff₀ hpos).1 (lt_of_le_of_lt this hN)

/-- A new high-pass filter lets everything through until its frequency is set. -/
theorem C59_highpass_default (sr : ℝ) (hs : 0 < sr) :
    ∃ p, opInit real hpfNew sr = some p ∧ ∀ xs : List ℝ,
      (hpRun real sr p (xs.map .sample)).map Prod.snd = some xs := by
  have h : opInit real hpfNew sr = (hpfNew : OnePole ℝ).setFreq real 0 sr := by
    simp [opInit, hpfNew, OnePole.new]
  refine ⟨_, h.trans (setFreq_spec _ _ _ hs), fun xs => ?_⟩
  have key : ∀ p : OnePole ℝ, p.last = 0 → p.a0 = 0 → (hpRun real sr p (xs.map .sample)).map Prod.snd = some xs := by
    induction xs with
    | nil => intro p _ _; rfl
    | cons x xs ih =>
      intro p h1 h2
      have h3 := ih (p.hp x).1 (by simp [OnePole.hp, h1, h2]) h2
      cases h4 : hpRun real sr (p.hp x).1 (xs.map .sample) with
      | none => simp [h4] at h3
      | some r =>
        simp only [h4, Option.map_some, Option.some.injEq] at h3
        have hy : (p.hp x).2 = x := by simp [OnePole.hp, h1, h2]
        rw [List.map_cons, hpRun, h4, hy, ← h3]
        rfl
  exact key _ rfl (by simp)

/-- **C59, violated**: a negative frequency makes the filter unstable; for a constant input of one the output exceeds
every bound. -/
theorem C59_negative_violated (sr freq : ℝ) (hs : 0 < sr) (hf : freq < 0) (B : ℝ) :
    ∃ p n p' out, OnePole.new.setFreq real freq sr = some p ∧
      lpRun real sr p (List.replicate n (.sample 1)) = some (p', out) ∧ ∃ y ∈ out, y < B := by
  set b := Real.exp (-2 * Real.pi * (freq / sr)) with hb
  have hb1 : 1 < b := by
    rw [hb, Real.one_lt_exp_iff]
    have : 0 < Real.pi * (-(freq / sr)) := mul_pos Real.pi_pos (by have := div_neg_of_neg_of_pos hf hs; linarith)
    linarith
  have run : ∀ (n : Nat) (p : OnePole ℝ), p.b1 = b → p.a0 = 1 - b →
      ∃ p' out, lpRun real sr p (List.replicate n (.sample 1)) = some (p', out) ∧
        out = (List.range n).map fun i : Nat => 1 - b ^ (i + 1) * (1 - p.last) := by
    intro n
    induction n with
    | zero => intro p _ _; exact ⟨p, [], rfl, rfl⟩
    | succ n ih =>
      intro p h1 h2
      obtain ⟨p', out, h3, h4⟩ := ih (p.lp 1).1 h1 h2
      refine ⟨p', (p.lp 1).2 :: out, by simp [List.replicate_succ, lpRun, h3], ?_⟩
      rw [h4, List.range_succ_eq_map]
      simp only [OnePole.lp, h1, h2, List.map_cons, List.map_map, List.cons.injEq]
      refine ⟨by ring, ?_⟩
      apply List.map_congr_left
      intro i _
      simp only [Function.comp, Nat.succ_eq_add_one]
      ring
  obtain ⟨n, hn⟩ := pow_unbounded_of_one_lt (1 - B) hb1
  obtain ⟨p', out, h3, h4⟩ := run (n + 1) { last := 0, b1 := b, a0 := 1 - b } rfl rfl
  refine ⟨{ last := 0, b1 := b, a0 := 1 - b }, n + 1, p', out, setFreq_spec _ _ _ hs, h3, 1 - b ^ (n + 1) * (1 - 0), ?_, ?_⟩
  · rw [h4]
    exact List.mem_map.2 ⟨n, List.mem_range.2 (Nat.lt_succ_self n), rfl⟩
  · have : b ^ n ≤ b ^ (n + 1) := pow_le_pow_right₀ hb1.le (Nat.le_succ n)
    linarith

/-- `init` for another sample rate does not tune the filter again. -/
theorem C59_init_again_violated (p : OnePole ℝ) (hp : p.Tuned) (sr : ℝ) : opInit real p sr = some p := by
  have : p.a0 ≠ 1 := by rw [hp.2.2]; have := hp.1; intro h; linarith
  simp [opInit, this]

end Verif.Fi
