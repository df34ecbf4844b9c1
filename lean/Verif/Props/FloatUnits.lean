import Verif.Lemmas.Ieee
import Verif.Model.FloatUnits
import Verif.Props.Envelope
import Mathlib.Algebra.Order.Ring.Pow

/-!
# C75: envelopes, low frequency oscillators and phasors with rounding

The specification: outputs between zero and one, and ramps that end after the number of frames that the rate says.
-/

namespace Verif.Fl

open Verif.Env (Asr Ar AsrOp ArOp)

/-- What a rounding needs to have.  `h` bounds the error below one. -/
structure Rounding (fl : ℚ → ℚ) (h : ℚ) : Prop where
  zero : fl 0 = 0
  one : fl 1 = 1
  two : fl 2 = 2
  nonneg : ∀ x, 0 ≤ x → 0 ≤ fl x
  nonpos : ∀ x, x ≤ 0 → fl x ≤ 0
  mono : ∀ x y, 0 ≤ x → x ≤ y → fl x ≤ fl y
  err : ∀ x, |x| < 1 → |fl x - x| ≤ h
  hpos : 0 < h

theorem rnd_nonpos {p : Nat} {emin : Int} {x : ℚ} (h : x ≤ 0) : rnd p emin x ≤ 0 := by
  by_cases hx : x = 0
  · rw [hx, rnd_zero]
  rw [rnd_of_ne hx]
  have hp := pow2_pos (ulpExp p emin x)
  have : rne (x / pow2 (ulpExp p emin x)) ≤ 0 := rne_le_int (by
    rw [Int.cast_zero]
    exact div_nonpos_of_nonpos_of_nonneg h hp.le)
  have : (rne (x / pow2 (ulpExp p emin x)) : ℚ) ≤ 0 := by exact_mod_cast this
  exact mul_nonpos_of_nonpos_of_nonneg this hp.le

theorem rounding {p : Nat} (hp : 2 ≤ p) {emin : Int} (he : emin ≤ -p) : Rounding (rnd p emin) (pow2 (-p - 1)) where
  zero := rnd_zero _ _
  one := by
    have : Rep p emin ((1 : Nat) : ℚ) := rep_nat (Nat.one_lt_two_pow (by omega)) (by omega)
    simpa using rnd_rep this
  two := by
    have : Rep p emin ((2 : Nat) : ℚ) := rep_nat (by
      calc 2 < 2 ^ 2 := by norm_num
        _ ≤ 2 ^ p := Nat.pow_le_pow_right (by norm_num) hp) (by omega)
    simpa using rnd_rep this
  nonneg := fun _ => rnd_nonneg
  nonpos := fun _ => rnd_nonpos
  mono := fun _ _ => rnd_mono (by omega)
  err := fun x hx => by
    have := rnd_err (p := p) (emin := emin) (x := x) (k := 0) (by
      have : pow2 0 = 1 := by decide +kernel
      rwa [this]) (by omega)
    rwa [show (0 : Int) - p - 1 = -p - 1 by ring] at this
  hpos := pow2_pos _

/-- `f32` and `f64`. -/
theorem rounding32 : Rounding rnd32 (1 / 33554432) := by
  have := rounding (p := 24) (by norm_num) (emin := -149) (by norm_num)
  rwa [show pow2 (-((24 : Nat) : Int) - 1) = 1 / 33554432 by decide +kernel] at this

theorem rounding64 : Rounding rnd64 (1 / 18014398509481984) := by
  have := rounding (p := 53) (by norm_num) (emin := -1074) (by norm_num)
  rwa [show pow2 (-((53 : Nat) : Int) - 1) = 1 / 18014398509481984 by decide +kernel] at this

variable {fl : ℚ → ℚ} {h : ℚ}

theorem Rounding.le_one (R : Rounding fl h) {x : ℚ} (hx : 0 ≤ x) (h1 : x ≤ 1) : fl x ≤ 1 := by
  have := R.mono x 1 hx h1
  rwa [R.one] at this

theorem Rounding.ge_one (R : Rounding fl h) {x : ℚ} (h1 : 1 ≤ x) : 1 ≤ fl x := by
  have := R.mono 1 x zero_le_one h1
  rwa [R.one] at this

theorem fall_range (R : Rounding fl h) {t s : ℚ} (t0 : 0 ≤ t) (t1 : t ≤ 1) (s0 : 0 ≤ s) (s1 : s ≤ 1) :
    0 ≤ fall fl t s ∧ fall fl t s ≤ 1 := by
  have a0 : 0 ≤ fl (t * t) := R.nonneg _ (mul_nonneg t0 t0)
  have a1 : fl (t * t) ≤ 1 := R.le_one (mul_nonneg t0 t0) (mul_le_one₀ t1 t0 t1)
  have b0 : 0 ≤ fl (fl (t * t) * t) := R.nonneg _ (mul_nonneg a0 t0)
  have b1 : fl (fl (t * t) * t) ≤ 1 := R.le_one (mul_nonneg a0 t0) (mul_le_one₀ a1 t0 t1)
  exact ⟨R.nonneg _ (mul_nonneg b0 s0), R.le_one (mul_nonneg b0 s0) (mul_le_one₀ b1 s0 s1)⟩

theorem rateF_nonneg (R : Rounding fl h) {s : ℚ} (hs : 0 ≤ s) (sr : Nat) : 0 ≤ rateF fl s sr := by
  rw [rateF]
  split
  · norm_num
  · exact R.nonneg _ (div_nonneg zero_le_one (R.nonneg _ (mul_nonneg hs (R.nonneg _ (Nat.cast_nonneg _)))))

/-! ### Range -/

/-- One operation on an `EnvAsr` with rounding. -/
def asrStep (fl : ℚ → ℚ) (sr : Nat) (e : Asr) : AsrOp → Asr × Option ℚ
  | .attack s => (asrSetAttack fl e sr s, none)
  | .release s => (asrSetRelease fl e sr s, none)
  | .tRelease => (e.release, none)
  | .tRestart => (e.restart, none)
  | .frame => ((asrNext fl e).1, some (asrNext fl e).2.1)

/-- Several operations: the final state and the outputs. -/
def asrRun (fl : ℚ → ℚ) (sr : Nat) (e : Asr) : List AsrOp → Asr × List ℚ
  | [] => (e, [])
  | op :: ops =>
    let r := asrStep fl sr e op
    let r' := asrRun fl sr r.1 ops
    (r'.1, r.2.toList ++ r'.2)

/-- A history with times that are not negative in which the envelope is not restarted while sustaining. -/
def Calm (fl : ℚ → ℚ) (sr : Nat) : Asr → List AsrOp → Prop
  | _, [] => True
  | e, op :: ops =>
    (match op with
      | .attack s => 0 ≤ s
      | .release s => 0 ≤ s
      | .tRestart => e.state ≠ .sustaining
      | _ => True) ∧ Calm fl sr (asrStep fl sr e op).1 ops

/-- The invariant. -/
structure Good (e : Asr) : Prop where
  attack : 0 ≤ e.attackRate
  release : 0 ≤ e.releaseRate
  stopped : e.state = .stopped → e.t = 0
  attacking : e.state = .attacking → 0 ≤ e.t ∧ e.t ≤ 1
  releasing : e.state = .releasing → 0 ≤ e.t ∧ e.t ≤ 1 ∧ 0 ≤ e.releaseScale ∧ e.releaseScale ≤ 1

theorem asr_step_good (R : Rounding fl h) {sr : Nat} {e : Asr} (H : Good e) (op : AsrOp) (ops : List AsrOp)
    (hc : Calm fl sr e (op :: ops)) :
    Good (asrStep fl sr e op).1 ∧ ∀ x, (asrStep fl sr e op).2 = some x → 0 ≤ x ∧ x ≤ 1 := by
  obtain ⟨ha, hr, hs, hat, hre⟩ := H
  obtain ⟨st, t, as, ar, rs, rr, sc⟩ := e
  simp only at ha hr hs hat hre
  cases op with
  | attack s =>
    refine ⟨?_, fun x hx => by simp [asrStep] at hx⟩
    simp only [asrStep, asrSetAttack]
    split
    · exact ⟨ha, hr, hs, hat, hre⟩
    · exact ⟨rateF_nonneg R (R.nonneg _ hc.1) sr, hr, hs, hat, hre⟩
  | release s =>
    refine ⟨?_, fun x hx => by simp [asrStep] at hx⟩
    simp only [asrStep, asrSetRelease]
    split
    · exact ⟨ha, hr, hs, hat, hre⟩
    · exact ⟨ha, rateF_nonneg R (R.nonneg _ hc.1) sr, hs, hat, hre⟩
  | tRelease =>
    refine ⟨?_, fun x hx => by simp [asrStep] at hx⟩
    cases st <;> simp only [asrStep, Asr.release]
    · exact ⟨ha, hr, hs, hat, hre⟩
    · exact ⟨ha, hr, by simp, by simp, fun _ => ⟨zero_le_one, le_refl _, (hat rfl).1, (hat rfl).2⟩⟩
    · exact ⟨ha, hr, by simp, by simp, fun _ => ⟨zero_le_one, le_refl _, zero_le_one, le_refl _⟩⟩
    · exact ⟨ha, hr, hs, hat, hre⟩
  | tRestart =>
    refine ⟨?_, fun x hx => by simp [asrStep] at hx⟩
    refine ⟨ha, hr, by simp [asrStep, Asr.restart], fun _ => ?_, by simp [asrStep, Asr.restart]⟩
    simp only [asrStep, Asr.restart]
    cases st with
    | stopped => rw [hs rfl]; exact ⟨le_refl _, zero_le_one⟩
    | attacking => exact hat rfl
    | sustaining => exact absurd rfl hc.1
    | releasing => exact ⟨(hre rfl).1, (hre rfl).2.1⟩
  | frame =>
    simp only [asrStep, asrNext, Option.some.injEq]
    cases st with
    | stopped => exact ⟨⟨ha, hr, hs, hat, hre⟩, fun x hx => by subst hx; exact ⟨le_refl _, zero_le_one⟩⟩
    | attacking =>
      simp only
      refine ⟨?_, fun x hx => by subst hx; exact hat rfl⟩
      split
      · exact ⟨ha, hr, by simp, by simp, by simp⟩
      · rename_i hlt
        exact ⟨ha, hr, by simp, fun _ => ⟨R.nonneg _ (add_nonneg (hat rfl).1 ha), (not_le.1 hlt).le⟩, by simp⟩
    | sustaining => exact ⟨⟨ha, hr, hs, hat, hre⟩, fun x hx => by subst hx; exact ⟨zero_le_one, le_refl _⟩⟩
    | releasing =>
      obtain ⟨h1, h2, h3, h4⟩ := hre rfl
      have hout := fall_range R h1 h2 h3 h4
      simp only
      split
      · exact ⟨⟨ha, hr, fun _ => rfl, by simp, by simp⟩, fun x hx => by subst hx; exact hout⟩
      · rename_i hlt
        refine ⟨⟨ha, hr, by simp, by simp, fun _ => ⟨(not_le.1 hlt).le, ?_, h3, h4⟩⟩, fun x hx => by subst hx; exact hout⟩
        have hp : 0 ≤ t - rr := by
          by_contra hn
          exact hlt (R.nonpos _ (not_le.1 hn).le)
        exact R.le_one hp (by linarith)

/-- One operation on an `EnvAr` with rounding. -/
def arStep (fl : ℚ → ℚ) (sr : Nat) (e : Ar) : ArOp → Ar × Option ℚ
  | .attack s => (arSetAttack fl e sr s, none)
  | .release s => (arSetRelease fl e sr s, none)
  | .tRestart => (e.restart, none)
  | .frame => ((arNext fl e).1, some (arNext fl e).2.1)

/-- Several operations. -/
def arRun (fl : ℚ → ℚ) (sr : Nat) (e : Ar) : List ArOp → Ar × List ℚ
  | [] => (e, [])
  | op :: ops =>
    let r := arStep fl sr e op
    let r' := arRun fl sr r.1 ops
    (r'.1, r.2.toList ++ r'.2)

/-- The invariant. -/
structure ArGood (e : Ar) : Prop where
  attack : 0 ≤ e.attackRate
  release : 0 ≤ e.releaseRate
  scale : e.releaseScale = 1
  range : 0 ≤ e.t ∧ e.t ≤ 1

theorem ar_step_good (R : Rounding fl h) {sr : Nat} {e : Ar} (H : ArGood e) (op : ArOp) (ho : op.ok) :
    ArGood (arStep fl sr e op).1 ∧ ∀ x, (arStep fl sr e op).2 = some x → 0 ≤ x ∧ x ≤ 1 := by
  obtain ⟨ha, hr, hsc, hrg⟩ := H
  obtain ⟨st, t, as, ar, rs, rr, sc⟩ := e
  simp only at ha hr hsc hrg
  subst hsc
  cases op with
  | attack s =>
    refine ⟨?_, fun x hx => by simp [arStep] at hx⟩
    simp only [arStep, arSetAttack]
    split
    · exact ⟨ha, hr, rfl, hrg⟩
    · exact ⟨rateF_nonneg R (R.nonneg _ ho) sr, hr, rfl, hrg⟩
  | release s =>
    refine ⟨?_, fun x hx => by simp [arStep] at hx⟩
    simp only [arStep, arSetRelease]
    split
    · exact ⟨ha, hr, rfl, hrg⟩
    · exact ⟨ha, rateF_nonneg R (R.nonneg _ ho) sr, rfl, hrg⟩
  | tRestart => exact ⟨⟨ha, hr, rfl, hrg⟩, fun x hx => by simp [arStep] at hx⟩
  | frame =>
    simp only [arStep, arNext, Option.some.injEq]
    cases st with
    | stopped => exact ⟨⟨ha, hr, rfl, hrg⟩, fun x hx => by subst hx; exact ⟨le_refl _, zero_le_one⟩⟩
    | attacking =>
      simp only
      refine ⟨?_, fun x hx => by subst hx; exact hrg⟩
      split
      · exact ⟨ha, hr, rfl, ⟨zero_le_one, le_refl _⟩⟩
      · rename_i hlt
        exact ⟨ha, hr, rfl, ⟨R.nonneg _ (add_nonneg hrg.1 ha), (not_le.1 hlt).le⟩⟩
    | releasing =>
      have hout := fall_range R hrg.1 hrg.2 zero_le_one (le_refl (1 : ℚ))
      simp only
      split
      · exact ⟨⟨ha, hr, rfl, ⟨le_refl _, zero_le_one⟩⟩, fun x hx => by subst hx; exact hout⟩
      · rename_i hlt
        refine ⟨⟨ha, hr, rfl, ⟨(not_le.1 hlt).le, ?_⟩⟩, fun x hx => by subst hx; exact hout⟩
        have hp : 0 ≤ t - rr := by
          by_contra hn
          exact hlt (R.nonpos _ (not_le.1 hn).le)
        exact R.le_one hp (by linarith [hrg.2])

/-- The range of C41 and C42 with rounding: in `f32`, in `f64` and with every rounding that keeps the order, the outputs of
`EnvAsr` (not restarted while sustaining) and of `EnvAr` are between zero and one in every history with times that are
not negative. -/
theorem C75_range (R : Rounding fl h) {a r : ℚ} {sr : Nat} (ha : 0 ≤ a) (hr : 0 ≤ r) :
    (∀ ops, Calm fl sr (asrInit fl (Asr.new a r) sr) ops → ∀ x ∈ (asrRun fl sr (asrInit fl (Asr.new a r) sr) ops).2,
      0 ≤ x ∧ x ≤ 1) ∧
    (∀ ops : List ArOp, (∀ op ∈ ops, op.ok) → ∀ x ∈ (arRun fl sr (arInit fl (Ar.new a r) sr) ops).2, 0 ≤ x ∧ x ≤ 1) := by
  have h1 := rateF_nonneg R ha sr
  have h2 := rateF_nonneg R hr sr
  constructor
  · have key : ∀ (ops : List AsrOp) (e : Asr), Good e → Calm fl sr e ops → ∀ x ∈ (asrRun fl sr e ops).2, 0 ≤ x ∧ x ≤ 1 := by
      intro ops
      induction ops with
      | nil => intro e _ _ x hx; simp [asrRun] at hx
      | cons op ops ih =>
        intro e hg hc x hx
        have hs := asr_step_good R hg op ops hc
        rw [asrRun] at hx
        rcases List.mem_append.1 hx with hx | hx
        · exact hs.2 x (by simpa using hx)
        · exact ih _ hs.1 hc.2 x hx
    intro ops hc
    refine key ops _ ?_ hc
    constructor <;> simp [Asr.new, asrInit, h1, h2]
  · have key : ∀ (ops : List ArOp) (e : Ar), ArGood e → (∀ op ∈ ops, op.ok) → ∀ x ∈ (arRun fl sr e ops).2, 0 ≤ x ∧ x ≤ 1 := by
      intro ops
      induction ops with
      | nil => intro e _ _ x hx; simp [arRun] at hx
      | cons op ops ih =>
        intro e hg ho x hx
        have hs := ar_step_good R (sr := sr) hg op (ho op (by simp))
        rw [arRun] at hx
        rcases List.mem_append.1 hx with hx | hx
        · exact hs.2 x (by simpa using hx)
        · exact ih _ hs.1 (fun op' h' => ho op' (List.mem_cons_of_mem _ h')) x hx
    intro ops ho
    refine key ops _ ?_ ho
    constructor <;> simp [Ar.new, arInit, h1, h2]

/-! ### Time -/

/-- The state of an `EnvAsr` after `n` frames. -/
def asrAfter (fl : ℚ → ℚ) (e : Asr) : Nat → Asr
  | 0 => e
  | n + 1 => (asrNext fl (asrAfter fl e n)).1

/-- The state of an `EnvAr` after `n` frames. -/
def arAfter (fl : ℚ → ℚ) (e : Ar) : Nat → Ar
  | 0 => e
  | n + 1 => (arNext fl (arAfter fl e n)).1

/-- One step up. -/
theorem up_step (R : Rounding fl h) {t r : ℚ} (t0 : 0 ≤ t) (r0 : 0 ≤ r) (n : ℚ) :
    (n * (r - h) ≤ t → fl (t + r) < 1 → (n + 1) * (r - h) ≤ fl (t + r)) ∧
      (t ≤ n * (r + h) → (n + 1) * (r + h) < 1 → fl (t + r) < 1 ∧ fl (t + r) ≤ (n + 1) * (r + h)) := by
  have := R.hpos
  constructor
  · intro hn hlt
    have hs : t + r < 1 := by
      by_contra hc
      have := R.ge_one (not_lt.1 hc)
      linarith
    have e := abs_le.1 (R.err (t + r) (by rw [abs_of_nonneg (by linarith)]; exact hs))
    linarith [e.1]
  · intro hn hlt
    have hs : t + r < 1 := by linarith
    have e := abs_le.1 (R.err (t + r) (by rw [abs_of_nonneg (by linarith)]; exact hs))
    constructor <;> linarith [e.2]

/-- One step down. -/
theorem down_step (R : Rounding fl h) {t r : ℚ} (t1 : t ≤ 1) (r0 : 0 < r) (n : ℚ) :
    (t ≤ 1 - n * (r - h) → 0 < fl (t - r) → fl (t - r) ≤ 1 - (n + 1) * (r - h) ∧ fl (t - r) ≤ 1) ∧
      (1 - n * (r + h) ≤ t → (n + 1) * (r + h) < 1 → 0 < fl (t - r) ∧ 1 - (n + 1) * (r + h) ≤ fl (t - r)) := by
  have := R.hpos
  constructor
  · intro hn hlt
    have hs : 0 ≤ t - r := by
      by_contra hc
      have := R.nonpos _ (not_le.1 hc).le
      linarith
    have e := abs_le.1 (R.err (t - r) (by rw [abs_of_nonneg hs]; linarith))
    exact ⟨by linarith [e.2], R.le_one hs (by linarith)⟩
  · intro hn hlt
    have hs : 0 ≤ t - r := by linarith
    have e := abs_le.1 (R.err (t - r) (by rw [abs_of_nonneg hs]; linarith))
    constructor <;> linarith [e.1]

/-- Partial. The attack of `EnvAsr` with rounding.  From zero, with a rate `r` above the rounding error `h`, the value after
`n` frames lies between `n (r - h)` and `n (r + h)` as long as the envelope is attacking; the attack goes on while
`n (r + h) < 1` and is over when `n (r - h) ≥ 1`.  What is missing: the exact number of frames, and rates up to `h`, see
`C75_violated`. -/
theorem C75_attack_partial (R : Rounding fl h) {e : Asr} (hs : e.state = .attacking) (ht : e.t = 0) (hr : 0 ≤ e.attackRate) (n : Nat) :
    (n * (e.attackRate + h) < 1 → (asrAfter fl e n).state = .attacking) ∧
      (1 ≤ n * (e.attackRate - h) → (asrAfter fl e n).state = .sustaining) ∧
      ((asrAfter fl e n).state = .attacking → n * (e.attackRate - h) ≤ (asrAfter fl e n).t ∧
        (n * (e.attackRate + h) < 1 → (asrAfter fl e n).t ≤ n * (e.attackRate + h))) := by
  have key : ∀ n : Nat, (asrAfter fl e n).attackRate = e.attackRate ∧
      (((asrAfter fl e n).state = .attacking ∧ 0 ≤ (asrAfter fl e n).t ∧ (asrAfter fl e n).t < 1 ∧
          n * (e.attackRate - h) ≤ (asrAfter fl e n).t) ∨ (asrAfter fl e n).state = .sustaining) ∧
      (n * (e.attackRate + h) < 1 → (asrAfter fl e n).state = .attacking ∧ (asrAfter fl e n).t ≤ n * (e.attackRate + h)) := by
    intro n
    induction n with
    | zero =>
      refine ⟨rfl, .inl ⟨hs, ?_, ?_, ?_⟩, fun _ => ⟨hs, ?_⟩⟩ <;> simp [asrAfter, ht]
    | succ n ih =>
      obtain ⟨i1, i2, i3⟩ := ih
      rw [asrAfter]
      generalize asrAfter fl e n = w at i1 i2 i3
      obtain ⟨st, t, as, ar, rs, rr, sc⟩ := w
      simp only at i1 i2 i3
      subst i1
      rcases i2 with ⟨i2, t0, t1, lo⟩ | i2
      · subst i2
        have u := up_step R t0 hr n
        simp only [asrNext]
        by_cases hc : 1 ≤ fl (t + e.attackRate)
        · rw [if_pos hc]
          refine ⟨rfl, .inr rfl, fun hlt => ?_⟩
          push_cast at hlt
          have hn : n * (e.attackRate + h) < 1 := by
            have := R.hpos
            linarith
          have := (u.2 (i3 hn).2 hlt).1
          linarith
        · rw [if_neg hc]
          have hlt := not_le.1 hc
          refine ⟨rfl, .inl ⟨rfl, R.nonneg _ (by linarith), hlt, ?_⟩, fun h2 => ⟨rfl, ?_⟩⟩
          · push_cast
            exact u.1 lo hlt
          · push_cast at h2 ⊢
            have hn : n * (e.attackRate + h) < 1 := by
              have := R.hpos
              linarith
            exact (u.2 (i3 hn).2 h2).2
      · subst i2
        simp only [asrNext]
        refine ⟨trivial, .inr trivial, fun h2 => ?_⟩
        push_cast at h2
        have hn : n * (e.attackRate + h) < 1 := by
          have := R.hpos
          linarith
        exact absurd (i3 hn).1 (by simp)
  obtain ⟨k1, k2, k3⟩ := key n
  refine ⟨fun hn => (k3 hn).1, fun hn => ?_, fun hst => ?_⟩
  · rcases k2 with ⟨-, -, a, b⟩ | k2
    · linarith
    · exact k2
  · rcases k2 with ⟨-, -, a, b⟩ | k2
    · exact ⟨b, fun hn => (k3 hn).2⟩
    · rw [k2] at hst
      cases hst

/-- Partial. The release of `EnvAsr` with rounding: it goes on, with the value between `1 - n (r + h)` and `1 - n (r - h)`,
while `n (r + h) < 1`, has stopped when `n (r - h) ≥ 1`, and the end is reported exactly once.  What is missing: the exact
number of frames, and rates up to `h`, see `C75_violated`. -/
theorem C75_release_partial (R : Rounding fl h) {e : Asr} (hs : e.state = .releasing) (ht : e.t = 1) (hr : h < e.releaseRate) (n : Nat) :
    (n * (e.releaseRate + h) < 1 → (asrAfter fl e n).state = .releasing ∧ 1 - n * (e.releaseRate + h) ≤ (asrAfter fl e n).t ∧
        (asrAfter fl e n).t ≤ 1 - n * (e.releaseRate - h)) ∧
      (1 ≤ n * (e.releaseRate - h) → (asrAfter fl e n).state = .stopped ∧
        ∃! m, m < n ∧ (asrNext fl (asrAfter fl e m)).2.2 = true) := by
  have hh := R.hpos
  have key : ∀ n : Nat, (asrAfter fl e n).releaseRate = e.releaseRate ∧
      (((asrAfter fl e n).state = .releasing ∧ 0 < (asrAfter fl e n).t ∧ (asrAfter fl e n).t ≤ 1 ∧
          (asrAfter fl e n).t ≤ 1 - n * (e.releaseRate - h) ∧ ∀ m < n, (asrNext fl (asrAfter fl e m)).2.2 = false) ∨
        ((asrAfter fl e n).state = .stopped ∧ ∃! m, m < n ∧ (asrNext fl (asrAfter fl e m)).2.2 = true)) ∧
      (n * (e.releaseRate + h) < 1 → (asrAfter fl e n).state = .releasing ∧ 1 - n * (e.releaseRate + h) ≤ (asrAfter fl e n).t) := by
    intro n
    induction n with
    | zero =>
      refine ⟨rfl, .inl ⟨hs, ?_, ?_, ?_, ?_⟩, fun _ => ⟨hs, ?_⟩⟩ <;> simp [asrAfter, ht]
    | succ n ih =>
      obtain ⟨i1, i2, i3⟩ := ih
      have hlast : ∀ m, m < n + 1 → m < n ∨ m = n := fun m hm => by omega
      rcases i2 with ⟨i2, t0, t1, up, nd⟩ | ⟨i2, m, ⟨hm1, hm2⟩, hm3⟩
      · have d := down_step R t1 (r := e.releaseRate) (by linarith) n
        have hnx : asrNext fl (asrAfter fl e n) =
            if fl ((asrAfter fl e n).t - e.releaseRate) ≤ 0 then
              ({ asrAfter fl e n with state := .stopped, t := 0 }, fall fl (asrAfter fl e n).t (asrAfter fl e n).releaseScale, true)
            else ({ asrAfter fl e n with t := fl ((asrAfter fl e n).t - e.releaseRate) },
              fall fl (asrAfter fl e n).t (asrAfter fl e n).releaseScale, false) := by
          rw [asrNext, i2]
          simp only [i1, i2]
        by_cases hc : fl ((asrAfter fl e n).t - e.releaseRate) ≤ 0
        · rw [if_pos hc] at hnx
          refine ⟨by rw [asrAfter, hnx]; exact i1, .inr ⟨by rw [asrAfter, hnx], n, ⟨by omega, by rw [hnx]⟩, ?_⟩, fun hlt => ?_⟩
          · rintro m ⟨hm, hm'⟩
            rcases hlast m hm with h1 | h1
            · rw [nd m h1] at hm'
              cases hm'
            · exact h1
          · push_cast at hlt
            have hn : n * (e.releaseRate + h) < 1 := by linarith
            have := (d.2 (i3 hn).2 hlt).1
            linarith
        · rw [if_neg hc] at hnx
          have hpos := not_le.1 hc
          refine ⟨by rw [asrAfter, hnx]; exact i1, .inl ⟨by rw [asrAfter, hnx]; exact i2, by rw [asrAfter, hnx]; exact hpos,
            by rw [asrAfter, hnx]; exact (d.1 up hpos).2, ?_, ?_⟩, fun hlt => ⟨by rw [asrAfter, hnx]; exact i2, ?_⟩⟩
          · rw [asrAfter, hnx]
            push_cast
            exact (d.1 up hpos).1
          · intro m hm
            rcases hlast m hm with h1 | h1
            · exact nd m h1
            · rw [h1, hnx]
          · rw [asrAfter, hnx]
            push_cast at hlt ⊢
            have hn : n * (e.releaseRate + h) < 1 := by linarith
            exact (d.2 (i3 hn).2 hlt).2
      · have hnx : asrNext fl (asrAfter fl e n) = (asrAfter fl e n, 0, false) := by
          rw [asrNext, i2]
        refine ⟨by rw [asrAfter, hnx]; exact i1, .inr ⟨by rw [asrAfter, hnx]; exact i2, m, ⟨by omega, hm2⟩, ?_⟩, fun hlt => ?_⟩
        · rintro k ⟨hk, hk'⟩
          rcases hlast k hk with h1 | h1
          · exact hm3 k ⟨h1, hk'⟩
          · rw [h1, hnx] at hk'
            cases hk'
        · push_cast at hlt
          have hn : n * (e.releaseRate + h) < 1 := by linarith
          rw [(i3 hn).1] at i2
          cases i2
  obtain ⟨k1, k2, k3⟩ := key n
  constructor
  · intro hn
    refine ⟨(k3 hn).1, (k3 hn).2, ?_⟩
    rcases k2 with ⟨-, -, -, up, -⟩ | ⟨k2, -⟩
    · exact up
    · rw [(k3 hn).1] at k2
      cases k2
  · intro hn
    rcases k2 with ⟨-, a, -, b, -⟩ | k2
    · linarith
    · exact k2

/-! `EnvAr` releases like `EnvAsr`. -/

/-- The `EnvAsr` in the same state. -/
def toAsr (e : Ar) : Asr where
  state := match e.state with
    | .stopped => .stopped
    | .attacking => .attacking
    | .releasing => .releasing
  t := e.t
  attackSeconds := e.attackSeconds
  attackRate := e.attackRate
  releaseSeconds := e.releaseSeconds
  releaseRate := e.releaseRate
  releaseScale := e.releaseScale

theorem toAsr_next (e : Ar) (hs : e.state ≠ .attacking) :
    asrNext fl (toAsr e) = (toAsr (arNext fl e).1, (arNext fl e).2) ∧ (arNext fl e).1.state ≠ .attacking := by
  obtain ⟨st, t, as, ar, rs, rr, sc⟩ := e
  cases st with
  | stopped => simp [toAsr, asrNext, arNext]
  | attacking => exact absurd rfl hs
  | releasing =>
    simp only [toAsr, asrNext, arNext]
    by_cases hc : fl (t - rr) ≤ 0
    · simp [hc]
    · simp [hc]

theorem toAsr_after (e : Ar) (hs : e.state ≠ .attacking) (n : Nat) :
    asrAfter fl (toAsr e) n = toAsr (arAfter fl e n) ∧ (arAfter fl e n).state ≠ .attacking := by
  induction n with
  | zero => exact ⟨rfl, hs⟩
  | succ n ih =>
    rw [asrAfter, arAfter, ih.1]
    have := toAsr_next (fl := fl) _ ih.2
    rw [this.1]
    exact ⟨rfl, this.2⟩

theorem arAfter_add (e : Ar) (m n : Nat) : arAfter fl e (m + n) = arAfter fl (arAfter fl e m) n := by
  induction n with
  | zero => rfl
  | succ n ih =>
    rw [← Nat.add_assoc, arAfter, arAfter, ih]

/-- Partial. `EnvAr` with rounding, triggered at zero with rates above the rounding error: it attacks while
`n (ra + h) < 1` and has stopped when `n` and `m` frames with `n (ra - h) ≥ 1` and `m (rr - h) ≥ 1` have passed.  What is
missing: the exact number of frames, and rates up to `h`, see `C75_violated`. -/
theorem C75_ar_partial (R : Rounding fl h) {e : Ar} (hs : e.state = .attacking) (ht : e.t = 0) (hr : 0 ≤ e.attackRate)
    (hr' : h < e.releaseRate) (n : Nat) :
    (n * (e.attackRate + h) < 1 → (arAfter fl e n).state = .attacking) ∧
      (1 ≤ n * (e.attackRate - h) → ∀ m : Nat, 1 ≤ m * (e.releaseRate - h) → (arAfter fl e (n + m)).state = .stopped) := by
  have key : ∀ n : Nat,
      (((arAfter fl e n).state = .attacking ∧ (arAfter fl e n).attackRate = e.attackRate ∧
          (arAfter fl e n).releaseRate = e.releaseRate ∧ 0 ≤ (arAfter fl e n).t ∧ (arAfter fl e n).t < 1 ∧
          n * (e.attackRate - h) ≤ (arAfter fl e n).t) ∨
        ∃ k ≤ n, (arAfter fl e k).state = .releasing ∧ (arAfter fl e k).t = 1 ∧ (arAfter fl e k).releaseRate = e.releaseRate) ∧
      (n * (e.attackRate + h) < 1 → (arAfter fl e n).state = .attacking ∧ (arAfter fl e n).attackRate = e.attackRate ∧
        0 ≤ (arAfter fl e n).t ∧ (arAfter fl e n).t ≤ n * (e.attackRate + h)) := by
    intro n
    induction n with
    | zero =>
      refine ⟨.inl ⟨hs, rfl, rfl, ?_, ?_, ?_⟩, fun _ => ⟨hs, rfl, ?_, ?_⟩⟩ <;> simp [arAfter, ht]
    | succ n ih =>
      obtain ⟨i2, i3⟩ := ih
      constructor
      · rcases i2 with ⟨i2, i4, i5, t0, t1, lo⟩ | ⟨k, hk, i2⟩
        · have u := up_step R t0 hr n
          by_cases hc : 1 ≤ fl ((arAfter fl e n).t + e.attackRate)
          · refine .inr ⟨n + 1, le_refl _, ?_⟩
            rw [arAfter, arNext, i2]
            simp only [i4, if_pos hc]
            exact ⟨trivial, trivial, i5⟩
          · refine .inl ?_
            rw [arAfter, arNext, i2]
            simp only [i4, if_neg hc]
            have hlt := not_le.1 hc
            refine ⟨trivial, trivial, i5, R.nonneg _ (by linarith), hlt, ?_⟩
            push_cast
            exact u.1 lo hlt
        · exact .inr ⟨k, by omega, i2⟩
      · intro h2
        push_cast at h2
        have hn : n * (e.attackRate + h) < 1 := by
          have := R.hpos
          linarith
        obtain ⟨j1, j2, j3, j4⟩ := i3 hn
        have u := (up_step R j3 hr n).2 j4 h2
        rw [arAfter, arNext, j1]
        simp only [j2, if_neg (not_le.2 u.1)]
        refine ⟨trivial, trivial, R.nonneg _ (by linarith), ?_⟩
        push_cast
        exact u.2
  obtain ⟨k2, k3⟩ := key n
  refine ⟨fun hn => (k3 hn).1, fun hn m hm => ?_⟩
  rcases k2 with ⟨-, -, -, -, a, b⟩ | ⟨k, hk, k4, k5, k6⟩
  · linarith
  · obtain ⟨d, rfl⟩ := Nat.exists_eq_add_of_le hk
    rw [Nat.add_assoc, arAfter_add]
    have hna : (arAfter fl e k).state ≠ .attacking := by
      rw [k4]
      simp
    have hst : (toAsr (arAfter fl e k)).state = .releasing := by
      simp only [toAsr, k4]
    have hrel := (C75_release_partial R (e := toAsr (arAfter fl e k)) hst k5 (by
      change h < (arAfter fl e k).releaseRate
      rw [k6]
      exact hr') (d + m)).2 (by
        change 1 ≤ ((d + m : Nat) : ℚ) * ((arAfter fl e k).releaseRate - h)
        rw [k6]
        have hd : (0 : ℚ) ≤ d * (e.releaseRate - h) := mul_nonneg (Nat.cast_nonneg _) (by linarith)
        push_cast
        linarith)
    have hsim := toAsr_after (fl := fl) _ hna (d + m)
    rw [hsim.1] at hrel
    generalize arAfter fl (arAfter fl e k) (d + m) = w at hrel
    obtain ⟨st, t, as, ar, rs, rr, sc⟩ := w
    cases st
    · rfl
    · exact absurd hrel.1 (by simp [toAsr])
    · exact absurd hrel.1 (by simp [toAsr])

/-! ### Phases -/

/-- The phases of `SinNumeric` from zero. -/
def sinAfter (fl : ℚ → ℚ) (inc : ℚ) : Nat → ℚ
  | 0 => 0
  | n + 1 => sinPhase fl (sinAfter fl inc n) inc

/-- Partial. With rounding the phase of `SinNumeric` stays between zero and one for increments between zero and one, and
until the first cycle is over it is at most `n h` away from `n` increments.  What is missing: a bound for later cycles, and
increments up to `h`, see `C75_violated`. -/
theorem C75_sin_partial (R : Rounding fl h) {inc : ℚ} (h0 : 0 ≤ inc) (h1 : inc ≤ 1) (n : Nat) :
    0 ≤ sinAfter fl inc n ∧ sinAfter fl inc n ≤ 1 ∧
      (n * (inc + h) < 1 → |sinAfter fl inc n - n * inc| ≤ n * h) := by
  have hh := R.hpos
  induction n with
  | zero => simp [sinAfter]
  | succ n ih =>
    obtain ⟨a, b, c⟩ := ih
    rw [sinAfter, sinPhase]
    have hp : 0 ≤ fl (sinAfter fl inc n + inc) := R.nonneg _ (by linarith)
    have hp2 : fl (sinAfter fl inc n + inc) ≤ 2 := by
      have := R.mono (sinAfter fl inc n + inc) 2 (by linarith) (by linarith)
      rwa [R.two] at this
    refine ⟨?_, ?_, ?_⟩
    · split_ifs with hc
      · exact R.nonneg _ (by linarith)
      · exact hp
    · split_ifs with hc
      · exact R.le_one (by linarith) (by linarith)
      · exact not_lt.1 hc
    · intro hlt
      push_cast at hlt ⊢
      have hn : n * (inc + h) < 1 := by linarith
      have c' := abs_le.1 (c hn)
      have u := (up_step R a h0 n).2 (by linarith [c'.2]) hlt
      have e := abs_le.1 (R.err (sinAfter fl inc n + inc) (by
        rw [abs_of_nonneg (by linarith)]
        linarith [c'.2]))
      rw [if_neg (not_lt.2 u.1.le), abs_le]
      constructor <;> linarith [c'.1, c'.2, e.1, e.2]

/-- Subtracting one is exact. -/
theorem rep_sub_one {x : ℚ} (hx : Rep 53 (-1074) x) (h1 : 1 ≤ x) (h2 : x < 9007199254740992) : Rep 53 (-1074) (x - 1) := by
  obtain ⟨m, e, he, hm, hem⟩ := hx
  have hpow : (2 : Int) ^ 53 = 9007199254740992 := by norm_num
  by_cases hc : e ≤ 0
  · obtain ⟨k, hk0, hk⟩ := pow2_div (a := 0) (b := e) hc
    have hk1 : (1 : ℚ) = k * pow2 e := by
      rw [← hk]
      simp [pow2_eq]
    have hp := pow2_pos e
    have hmk : (k : ℚ) ≤ m := by
      rw [he, hk1] at h1
      exact le_of_mul_le_mul_right h1 hp
    have hmk' : k ≤ m := by exact_mod_cast hmk
    refine ⟨m - k, e, ?_, ?_, hem⟩
    · rw [he]
      push_cast
      rw [sub_mul, ← hk1]
    · rw [abs_of_nonneg (by omega)]
      have := le_abs_self m
      omega
  · obtain ⟨k, hk0, hk⟩ := pow2_div (a := e) (b := 0) (by omega)
    have h00 : pow2 0 = 1 := by decide +kernel
    rw [h00, mul_one] at hk
    have hxe : x = ((m * k : Int) : ℚ) := by
      rw [he, hk]
      push_cast
      rfl
    rw [hxe] at h1 h2 ⊢
    have g1 : 1 ≤ m * k := by exact_mod_cast h1
    have g2 : m * k < 9007199254740992 := by exact_mod_cast h2
    refine ⟨m * k - 1, 0, ?_, ?_, by norm_num⟩
    · rw [h00]
      push_cast
      ring
    · rw [abs_of_nonneg (by omega)]
      omega

/-- Partial. The loop of `Phasor` takes a phase below 2 ^ 53 to its fraction, without rounding error and in as many rounds as
there are whole cycles, and the output is between zero and one.  What is missing: that the output stays below one in `f32`,
and larger steps, see `C75_violated`. -/
theorem C75_phasor_partial (R : Rounding fl h) {x : ℚ} (hx : Rep 53 (-1074) x) (h0 : 0 ≤ x) (h1 : x < 9007199254740992) :
    phasorDown^[⌊x⌋.toNat] x = x - ⌊x⌋ ∧ phasorDown (x - ⌊x⌋) = x - ⌊x⌋ ∧
      0 ≤ phasorOut fl (x - ⌊x⌋) ∧ phasorOut fl (x - ⌊x⌋) ≤ 1 := by
  have hfl := Int.floor_le x
  have hfl2 := Int.lt_floor_add_one x
  refine ⟨?_, ?_, R.nonneg _ (by linarith), R.le_one (by linarith) (by linarith)⟩
  · obtain ⟨n, hn⟩ : ∃ n, n = ⌊x⌋.toNat := ⟨_, rfl⟩
    rw [← hn]
    clear hfl hfl2
    induction n generalizing x with
    | zero =>
      have : ⌊x⌋ = 0 := by
        have := Int.floor_nonneg.2 h0
        omega
      rw [this]
      simp
    | succ n ih =>
      have hge : (1 : Int) ≤ ⌊x⌋ := by omega
      have hx1 : 1 ≤ x := by
        have : ((1 : Int) : ℚ) ≤ x := Int.le_floor.1 hge
        exact_mod_cast this
      have hr := rep_sub_one hx hx1 h1
      rw [Function.iterate_succ_apply, phasorDown, if_pos hx1]
      have hrr : rnd64 (x - 1) = x - 1 := rnd_rep hr
      rw [hrr]
      have hfs : ⌊x - 1⌋ = ⌊x⌋ - 1 := by exact_mod_cast Int.floor_sub_one x
      rw [ih hr (by linarith) (by linarith) (by omega), hfs]
      push_cast
      ring
  · rw [phasorDown, if_neg (by linarith)]

/-- An `EnvAsr` in `f32` with an attack of 700 seconds at 48 kHz, triggered. -/
def slow : Asr := (asrInit rnd32 (Asr.new 700 700) 48000).restart

/-- Long times have a rate that is lost in `f32`. -/
theorem rate_lost {s : ℚ} {sr : Nat} (hs : 33554432 ≤ s * rnd32 sr) : 0 ≤ rateF rnd32 s sr ∧ rateF rnd32 s sr ≤ 1 / 33554432 := by
  have R := rounding32
  have hne : s ≠ 0 := by
    rintro rfl
    norm_num at hs
  rw [rateF, if_neg hne]
  have e1 : rnd32 33554432 = 33554432 := by decide +kernel
  have e2 : rnd32 (1 / 33554432) = 1 / 33554432 := by decide +kernel
  have l1 : 33554432 ≤ rnd32 (s * rnd32 sr) := by
    have := R.mono _ _ (by norm_num) hs
    rwa [e1] at this
  have l2 : 1 / rnd32 (s * rnd32 sr) ≤ 1 / 33554432 := one_div_le_one_div_of_le (by norm_num) l1
  have l3 : 0 ≤ 1 / rnd32 (s * rnd32 sr) := by
    apply div_nonneg zero_le_one
    linarith
  refine ⟨R.nonneg _ l3, ?_⟩
  have := R.mono _ _ l3 l2
  rwa [e2] at this

/-- C75 does not hold as it stands.  In `f32`, with an attack time of 2 ^ 25 frames or more the value never exceeds one
half and the attack never ends; with a release time of 2 ^ 25 frames or more the value stays where it is and the end is
never reported.  That is the case for 700 seconds at 48 kHz.  A `SinNumeric` in `f32` at a thousandth of a hertz and
48 kHz never gets past half of its first cycle.  The output of a `Phasor` in `f32` can be one, and a `Phasor` with a step
of 2 ^ 54 cycles loops forever. -/
theorem C75_violated :
    (∀ e : Asr, e.state = .attacking → e.t = 0 → 0 ≤ e.attackRate → e.attackRate ≤ 1 / 33554432 →
      ∀ n, (asrAfter rnd32 e n).state = .attacking ∧ (asrAfter rnd32 e n).t ≤ 1 / 2) ∧
    (∀ e : Asr, e.state = .releasing → e.t = 1 → 0 ≤ e.releaseRate → e.releaseRate ≤ 1 / 33554432 →
      ∀ n, asrAfter rnd32 e n = e ∧ (asrNext rnd32 (asrAfter rnd32 e n)).2.2 = false) ∧
    (∀ (s : ℚ) (sr : Nat), 33554432 ≤ s * rnd32 sr → 0 ≤ rateF rnd32 s sr ∧ rateF rnd32 s sr ≤ 1 / 33554432) ∧
    (∀ n, (asrAfter rnd32 slow n).state = .attacking ∧ (asrNext rnd32 (asrAfter rnd32 slow n)).2.1 ≤ 1 / 2) ∧
    (∀ n, sinAfter rnd32 (sinInc rnd32 (1 / 1000) 48000) n ≤ 1 / 2) ∧
    phasorOut rnd32 (phasorStep (rnd64 (47999999999 / 1000000)) 48000) = 1 ∧
      phasorStep (rnd64 (47999999999 / 1000000)) 48000 < 1 ∧
    (∀ n, phasorDown^[n] (pow2 54) = pow2 54) := by
  have R := rounding32
  have half : rnd32 (1 / 2 + 1 / 33554432) = 1 / 2 := by decide +kernel
  have top : rnd32 (1 - 1 / 33554432) = 1 := by decide +kernel
  have att : ∀ e : Asr, e.state = .attacking → e.t = 0 → 0 ≤ e.attackRate → e.attackRate ≤ 1 / 33554432 →
      ∀ n, (asrAfter rnd32 e n).state = .attacking ∧ (asrAfter rnd32 e n).t ≤ 1 / 2 := by
    intro e hs ht h0 h1 n
    have key : (asrAfter rnd32 e n).state = .attacking ∧ (asrAfter rnd32 e n).t ≤ 1 / 2 ∧ 0 ≤ (asrAfter rnd32 e n).t ∧
        (asrAfter rnd32 e n).attackRate = e.attackRate := by
      induction n with
      | zero =>
        refine ⟨hs, ?_, ?_, rfl⟩ <;> simp [asrAfter, ht]
      | succ n ih =>
        obtain ⟨a, b, c, d⟩ := ih
        have l0 : 0 ≤ rnd32 ((asrAfter rnd32 e n).t + e.attackRate) := R.nonneg _ (by linarith)
        have l1 : rnd32 ((asrAfter rnd32 e n).t + e.attackRate) ≤ 1 / 2 := by
          have := R.mono ((asrAfter rnd32 e n).t + e.attackRate) (1 / 2 + 1 / 33554432) (by linarith) (by linarith)
          rwa [half] at this
        rw [asrAfter, asrNext, a]
        simp only [d]
        rw [if_neg (by linarith)]
        exact ⟨rfl, l1, l0, rfl⟩
    exact ⟨key.1, key.2.1⟩
  refine ⟨att, ?_, fun s sr => rate_lost, ?_, ?_, by decide +kernel, by decide +kernel, ?_⟩
  · intro e hs ht h0 h1
    have nx : asrNext rnd32 e = (e, fall rnd32 e.t e.releaseScale, false) := by
      have l1 : rnd32 (1 - e.releaseRate) = 1 := by
        apply le_antisymm (R.le_one (by linarith) (by linarith))
        have := R.mono (1 - 1 / 33554432) (1 - e.releaseRate) (by norm_num) (by linarith)
        rwa [top] at this
      rw [asrNext, hs]
      obtain ⟨st, t, as, ar, rs, rr, sc⟩ := e
      simp only at hs ht l1 ⊢
      subst ht
      rw [l1, if_neg (by norm_num), hs]
    intro n
    have key : asrAfter rnd32 e n = e := by
      induction n with
      | zero => rfl
      | succ n ih => rw [asrAfter, ih, nx]
    rw [key]
    exact ⟨rfl, by rw [nx]⟩
  · intro n
    obtain ⟨a, b⟩ := att slow rfl rfl (by decide +kernel) (by decide +kernel) n
    refine ⟨a, ?_⟩
    rw [asrNext, a]
    exact b
  · intro n
    have i0 : 0 ≤ sinInc rnd32 (1 / 1000) 48000 := by decide +kernel
    have i1 : sinInc rnd32 (1 / 1000) 48000 ≤ 1 / 33554432 := by decide +kernel
    generalize sinInc rnd32 (1 / 1000) 48000 = inc at i0 i1
    have key : 0 ≤ sinAfter rnd32 inc n ∧ sinAfter rnd32 inc n ≤ 1 / 2 := by
      induction n with
      | zero => simp [sinAfter]
      | succ n ih =>
        have l0 : 0 ≤ rnd32 (sinAfter rnd32 inc n + inc) := R.nonneg _ (by linarith)
        have l1 : rnd32 (sinAfter rnd32 inc n + inc) ≤ 1 / 2 := by
          have := R.mono (sinAfter rnd32 inc n + inc) (1 / 2 + 1 / 33554432) (by linarith) (by linarith)
          rwa [half] at this
        rw [sinAfter, sinPhase]
        rw [if_neg (by linarith)]
        exact ⟨l0, l1⟩
    exact key.2
  · intro n
    induction n with
    | zero => rfl
    | succ n ih =>
      rw [Function.iterate_succ_apply, show phasorDown (pow2 54) = pow2 54 by decide +kernel, ih]

/-- The hypotheses are met: an envelope with half a second of attack at 48 kHz in `f32`, whose attack goes on after 23000
frames and is over after 25000. -/
example :
    let e := (asrInit rnd32 (Asr.new (1 / 2) 2) 48000).restart
    e.state = .attacking ∧ e.t = 0 ∧ 0 ≤ e.attackRate ∧ (23000 : Nat) * (e.attackRate + 1 / 33554432) < 1 ∧
      1 ≤ (25000 : Nat) * (e.attackRate - 1 / 33554432) ∧ 1 / 33554432 < e.releaseRate ∧
      Calm rnd32 48000 (asrInit rnd32 (Asr.new (1 / 2) 2) 48000) [.tRestart, .frame, .tRelease, .frame, .tRestart] := by
  refine ⟨rfl, rfl, by decide +kernel, by decide +kernel, by decide +kernel, by decide +kernel, ?_⟩
  refine ⟨by decide +kernel, trivial, trivial, trivial, ?_, trivial⟩
  decide +kernel

/-- And a step of three and a quarter cycles. -/
example : Rep 53 (-1074) (13 / 4) ∧ phasorDown^[3] (13 / 4) = 1 / 4 := by
  refine ⟨⟨13, -2, ?_, ?_, ?_⟩, ?_⟩ <;> decide +kernel

end Verif.Fl
