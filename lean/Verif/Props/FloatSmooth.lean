import Verif.Model.FloatSmooth
import Verif.Lemmas.IeeeSigned
import Verif.Props.FloatUnits
import Verif.Props.Smooth

/-!
# C80: parameter smoothing with rounding

The specification is the line of C32 in exact arithmetic, and that the last value sent is the value that was set.
-/

namespace Verif.Fl

/-- A number that an `f64` can hold. -/
abbrev Rep64 (x : ℚ) : Prop := Rep 53 (-1074) x

theorem rnd64_isRep (x : ℚ) : Rep64 (rnd64 x) := rep_rnd (by norm_num) x
theorem rnd64_fix {x : ℚ} (h : Rep64 x) : rnd64 x = x := rnd_rep h
theorem rnd64_le {x y : ℚ} (h : x ≤ y) : rnd64 x ≤ rnd64 y := rnd_le (by norm_num) h
theorem rnd64_zero : rnd64 0 = 0 := rnd_zero _ _
theorem rnd64_nn {x : ℚ} (h : 0 ≤ x) : 0 ≤ rnd64 x := rnd_nonneg h
theorem rnd64_nonpos {x : ℚ} (h : x ≤ 0) : rnd64 x ≤ 0 := rnd_nonpos h
theorem rep64_one : Rep64 1 := by
  have : Rep 53 (-1074) ((1 : Nat) : ℚ) := rep_nat (by norm_num) (by norm_num)
  simpa using this
theorem rep64_pow2 {k : Int} (h : -1074 ≤ k) : Rep64 (pow2 k) := ⟨1, k, by simp, by norm_num, h⟩

/-- Where a ramp ends. -/
def rampEnd (a b : ℚ) : ℚ := rnd64 (rnd64 (b - a) + a)

/-! ### One ramp -/

theorem mix_range (dur el : Nat) (hd : 0 < dur) (he : el ≤ dur) :
    0 ≤ rnd64 (rnd64 el / rnd64 dur) ∧ rnd64 (rnd64 el / rnd64 dur) ≤ 1 := by
  have d1 : 1 ≤ rnd64 dur := rep_le_rnd (by norm_num) rep64_one (by exact_mod_cast hd)
  have e0 : 0 ≤ rnd64 el := rnd64_nn (Nat.cast_nonneg _)
  have ed : rnd64 el ≤ rnd64 dur := rnd64_le (by exact_mod_cast he)
  have dp : 0 < rnd64 dur := by linarith
  refine ⟨rnd64_nn (div_nonneg e0 dp.le), ?_⟩
  have := rnd64_le ((div_le_one dp).2 ed)
  rwa [rnd64_fix rep64_one] at this

theorem mix_mono (dur : Nat) (hd : 0 < dur) {e f : Nat} (h : e ≤ f) :
    rnd64 (rnd64 e / rnd64 dur) ≤ rnd64 (rnd64 f / rnd64 dur) := by
  have d1 : 1 ≤ rnd64 dur := rep_le_rnd (by norm_num) rep64_one (by exact_mod_cast hd)
  exact rnd64_le (div_le_div_of_nonneg_right (rnd64_le (by exact_mod_cast h)) (by linarith))

theorem mix_end (dur : Nat) (hd : 0 < dur) : rnd64 (rnd64 dur / rnd64 dur) = 1 := by
  have d1 : 1 ≤ rnd64 dur := rep_le_rnd (by norm_num) rep64_one (by exact_mod_cast hd)
  rw [div_self (by linarith), rnd64_fix rep64_one]

/-- At the end of the ramp. -/
theorem rampF_end (a b : ℚ) {dur : Nat} (hd : 0 < dur) : rampF a b dur dur = rampEnd a b := by
  unfold rampF rampEnd
  rw [mix_end dur hd, mul_one, rnd64_fix (rnd64_isRep _)]

/-- At its start. -/
theorem rampF_start {a : ℚ} (ha : Rep64 a) (b : ℚ) (dur : Nat) : rampF a b dur 0 = a := by
  unfold rampF
  rw [Nat.cast_zero, rnd64_zero, zero_div, rnd64_zero, mul_zero, rnd64_zero, zero_add, rnd64_fix ha]

/-- It goes in one direction. -/
theorem rampF_mono (a : ℚ) {b : ℚ} {dur : Nat} (hd : 0 < dur) {e f : Nat} (h : e ≤ f) :
    (a ≤ b → rampF a b dur e ≤ rampF a b dur f) ∧ (b ≤ a → rampF a b dur f ≤ rampF a b dur e) := by
  have m := mix_mono dur hd h
  unfold rampF
  constructor
  · intro hab
    have d0 : 0 ≤ rnd64 (b - a) := rnd64_nn (by linarith)
    refine rnd64_le ?_
    have := rnd64_le (mul_le_mul_of_nonneg_left m d0)
    linarith
  · intro hab
    have d0 : rnd64 (b - a) ≤ 0 := rnd64_nonpos (by linarith)
    refine rnd64_le ?_
    have := rnd64_le (mul_le_mul_of_nonpos_left m d0)
    linarith

/-- The values of a ramp lie between its start and its end. -/
theorem rampF_between {a b : ℚ} (ha : Rep64 a) {dur el : Nat} (hd : 0 < dur) (he : el ≤ dur) :
    Sm.Between a (rampEnd a b) (rampF a b dur el) := by
  have s := rampF_start ha b dur
  have e := rampF_end a b hd
  rcases le_total a b with hab | hab
  · left
    have h1 := (rampF_mono a hd (Nat.zero_le el)).1 hab
    have h2 := (rampF_mono a hd he).1 hab
    rw [s] at h1
    rw [e] at h2
    exact ⟨h1, h2⟩
  · right
    have h1 := (rampF_mono a hd (Nat.zero_le el)).2 hab
    have h2 := (rampF_mono a hd he).2 hab
    rw [s] at h1
    rw [e] at h2
    exact ⟨h2, h1⟩

/-- If the difference is a number of the format, the ramp ends at the target. -/
theorem rampEnd_exact {a b : ℚ} (hb : Rep64 b) (h : Rep64 (b - a)) : rampEnd a b = b := by
  unfold rampEnd
  rw [rnd64_fix h, sub_add_cancel, rnd64_fix hb]

/-- How far from the target the ramp ends. -/
theorem rampEnd_near {a b M : ℚ} (ha : |a| ≤ M) (hb : |b| ≤ M) : |rampEnd a b - b| ≤ 4 * pow2 (-53) * M + 3 * pow2 (-1075) := by
  have hM : 0 ≤ M := le_trans (abs_nonneg _) ha
  have u0 := pow2_pos (-53)
  have u1 : pow2 (-53) ≤ 1 / 4 := by decide +kernel
  have v0 := pow2_pos (-1075)
  have e1 := rnd_rel 53 (-1074) (b - a)
  have e2 := rnd_rel 53 (-1074) (rnd64 (b - a) + a)
  change |rnd64 (b - a) - (b - a)| ≤ pow2 (-53) * |b - a| + pow2 (-1075) at e1
  change |rampEnd a b - (rnd64 (b - a) + a)| ≤ pow2 (-53) * |rnd64 (b - a) + a| + pow2 (-1075) at e2
  generalize pow2 (-53) = u at *
  generalize pow2 (-1075) = v at *
  have hba : |b - a| ≤ 2 * M := le_trans (abs_sub b a) (by linarith)
  have e1' : |rnd64 (b - a) - (b - a)| ≤ u * (2 * M) + v := by
    have := mul_le_mul_of_nonneg_left hba u0.le
    linarith
  have hs : |rnd64 (b - a) + a| ≤ M + (u * (2 * M) + v) := by
    have := abs_add_le (rnd64 (b - a) - (b - a)) b
    rw [show rnd64 (b - a) - (b - a) + b = rnd64 (b - a) + a by ring] at this
    linarith
  have h2 : u * |rnd64 (b - a) + a| ≤ u * (M + (u * (2 * M) + v)) := mul_le_mul_of_nonneg_left hs u0.le
  have t := abs_add_le (rampEnd a b - (rnd64 (b - a) + a)) (rnd64 (b - a) - (b - a))
  rw [show rampEnd a b - (rnd64 (b - a) + a) + (rnd64 (b - a) - (b - a)) = rampEnd a b - b by ring] at t
  have h3 : u * (u * (2 * M)) ≤ 1 / 4 * (u * (2 * M)) := mul_le_mul_of_nonneg_right u1 (by positivity)
  have h4 : u * v ≤ 1 / 4 * v := mul_le_mul_of_nonneg_right u1 v0.le
  nlinarith

/-- How far the values of a ramp are from the line. -/
theorem rampF_near {a b M : ℚ} (hM : pow2 (-1000) ≤ M) (ha : |a| ≤ M) (hb : |b| ≤ M) {dur el : Nat} (hd : 0 < dur) (he : el ≤ dur)
    (hbig : dur < 2 ^ 53) : |rampF a b dur el - Sm.line a b dur el| ≤ 11 * pow2 (-53) * M := by
  have hM0 : 0 < M := lt_of_lt_of_le (pow2_pos _) hM
  have u0 := pow2_pos (-53)
  have u1 : pow2 (-53) ≤ 1 / 1000 := by decide +kernel
  have v0 := pow2_pos (-1075)
  have v1 : pow2 (-1075) ≤ pow2 (-53) / 4 := by decide +kernel
  have v2 : pow2 (-1075) ≤ pow2 (-53) * M / 4 := by
    have h1 : pow2 (-1075) ≤ pow2 (-53) * pow2 (-1000) / 4 := by decide +kernel
    have := mul_le_mul_of_nonneg_left hM u0.le
    linarith
  have fd : rnd64 dur = dur := rnd64_fix (rep_nat hbig (by norm_num))
  have fe : rnd64 el = el := rnd64_fix (rep_nat (by omega) (by norm_num))
  have hdq : (0 : ℚ) < dur := by exact_mod_cast hd
  have t0 : 0 ≤ (el : ℚ) / dur := div_nonneg (Nat.cast_nonneg _) hdq.le
  have t1 : (el : ℚ) / dur ≤ 1 := by rw [div_le_one hdq]; exact_mod_cast he
  obtain ⟨x0, x1⟩ := mix_range dur el hd he
  have e0 := rnd_rel 53 (-1074) ((el : ℚ) / dur)
  have e1 := rnd_rel 53 (-1074) (b - a)
  unfold rampF Sm.line
  rw [fd, fe] at *
  have e2 := rnd_rel 53 (-1074) (rnd64 (b - a) * rnd64 ((el : ℚ) / dur))
  have e3 := rnd_rel 53 (-1074) (rnd64 (rnd64 (b - a) * rnd64 ((el : ℚ) / dur)) + a)
  change |rnd64 ((el : ℚ) / dur) - (el : ℚ) / dur| ≤ pow2 (-53) * |(el : ℚ) / dur| + pow2 (-1075) at e0
  change |rnd64 (b - a) - (b - a)| ≤ pow2 (-53) * |b - a| + pow2 (-1075) at e1
  change |rnd64 (rnd64 (b - a) * rnd64 ((el : ℚ) / dur)) - rnd64 (b - a) * rnd64 ((el : ℚ) / dur)| ≤
    pow2 (-53) * |rnd64 (b - a) * rnd64 ((el : ℚ) / dur)| + pow2 (-1075) at e2
  change |rnd64 (rnd64 (rnd64 (b - a) * rnd64 ((el : ℚ) / dur)) + a) - (rnd64 (rnd64 (b - a) * rnd64 ((el : ℚ) / dur)) + a)| ≤
    pow2 (-53) * |rnd64 (rnd64 (b - a) * rnd64 ((el : ℚ) / dur)) + a| + pow2 (-1075) at e3
  generalize (el : ℚ) / dur = t at *
  generalize rnd64 t = mix at *
  generalize rnd64 (b - a) = D at *
  generalize rnd64 (D * mix) = P at *
  generalize rnd64 (P + a) = y at *
  generalize pow2 (-53) = u at *
  generalize pow2 (-1075) = v at *
  have uM : 0 < u * M := mul_pos u0 hM0
  have hba : |b - a| ≤ 2 * M := le_trans (abs_sub b a) (by linarith)
  -- the difference
  have d1 : |D - (b - a)| ≤ 9 / 4 * (u * M) := by
    have := mul_le_mul_of_nonneg_left hba u0.le
    linarith
  have hu : u * M ≤ 1 / 1000 * M := mul_le_mul_of_nonneg_right u1 hM0.le
  have hD : |D| ≤ 3 * M := by
    have := abs_add_le (D - (b - a)) (b - a)
    rw [sub_add_cancel] at this
    linarith
  -- the position
  have d0 : |mix - t| ≤ 5 / 4 * u := by
    rw [abs_of_nonneg t0] at e0
    have := mul_le_mul_of_nonneg_left t1 u0.le
    linarith
  -- the product
  have p1 : |D * mix - (b - a) * t| ≤ 19 / 4 * (u * M) := by
    rw [show D * mix - (b - a) * t = (D - (b - a)) * mix + (b - a) * (mix - t) by ring]
    refine le_trans (abs_add_le _ _) ?_
    rw [abs_mul, abs_mul, abs_of_nonneg x0]
    have h1 : |D - (b - a)| * mix ≤ 9 / 4 * (u * M) * 1 := mul_le_mul d1 x1 x0 (by linarith)
    have h2 : |b - a| * |mix - t| ≤ 2 * M * (5 / 4 * u) := mul_le_mul hba d0 (abs_nonneg _) (by linarith)
    linarith
  have p2 : |D * mix| ≤ 3 * M := by
    rw [abs_mul, abs_of_nonneg x0]
    have := mul_le_mul hD x1 x0 (by linarith)
    linarith
  have p3 : |P - (b - a) * t| ≤ 8 * (u * M) := by
    have h1 := mul_le_mul_of_nonneg_left p2 u0.le
    have := abs_add_le (P - D * mix) (D * mix - (b - a) * t)
    rw [show P - D * mix + (D * mix - (b - a) * t) = P - (b - a) * t by ring] at this
    linarith
  -- the point on the line
  have c1 : |(b - a) * t + a| ≤ M := by
    rw [abs_le] at ha hb ⊢
    constructor <;> nlinarith
  have c2 : |P + a| ≤ 2 * M := by
    have := abs_add_le (P - (b - a) * t) ((b - a) * t + a)
    rw [show P - (b - a) * t + ((b - a) * t + a) = P + a by ring] at this
    linarith
  have c3 := mul_le_mul_of_nonneg_left c2 u0.le
  have := abs_add_le (y - (P + a)) (P - (b - a) * t)
  rw [show y - (P + a) + (P - (b - a) * t) = y - (a + (b - a) * t) by ring] at this
  linarith

/-! ### The ramp as it is sent -/

/-- The state after `k` blocks of `bs` frames. -/
def smAfter (bs : Nat) (s : SmSt) : Nat → SmSt
  | 0 => s
  | k + 1 => (smStep (smAfter bs s k) (.block bs)).1

/-- What the unit generator receives at the start of block `k`. -/
def smSent (bs : Nat) (s : SmSt) (k : Nat) : Option ℚ := (smStep (smAfter bs s k) (.block bs)).2

theorem smAfter_ramp {bs dur : Nat} (hb : 0 < bs) (hd : 0 < dur) (a b : ℚ) (k : Nat) :
    smAfter bs (.linear a b dur 0 false false) k =
      .linear a b dur (min (k * bs) dur) false (decide (dur + bs ≤ k * bs)) := by
  induction k with
  | zero =>
    simp only [smAfter, Nat.zero_mul, Nat.zero_min]
    congr 1
    symm
    rw [decide_eq_false_iff_not]
    omega
  | succ k ih =>
    rw [smAfter, ih]
    have e : (k + 1) * bs = k * bs + bs := Nat.succ_mul k bs
    rw [e]
    generalize k * bs = m
    simp only [smStep, smNext]
    by_cases h1 : dur + bs ≤ m
    · simp [h1]
      omega
    · have h1' : m < dur + bs := by omega
      simp only [h1, decide_false, Bool.false_eq_true, if_false]
      by_cases h2 : min m dur = dur
      · have h3 : dur ≤ m := by omega
        have h4 : min (m + bs) dur = dur := by omega
        simp [h4, h3]
      · have h3 : m < dur := by omega
        have h4 : min m dur = m := by omega
        simp [h4, show ¬ m = dur by omega, show ¬ dur ≤ m by omega]

theorem smSent_ramp {bs dur : Nat} (hb : 0 < bs) (hd : 0 < dur) (x : ℚ) (el : Nat) (a b : ℚ) (k : Nat) :
    smSent bs (smStep (.linear x a dur el false true) (.set b)).1 k =
      if k * bs < dur + bs then some (rampF a b dur (min (k * bs) dur)) else none := by
  have e : (smStep (.linear x a dur el false true) (.set b)).1 = .linear a b dur 0 false false := by simp [smStep, smSet]
  rw [e, smSent, smAfter_ramp hb hd]
  by_cases h : k * bs < dur + bs
  · have h' : ¬ dur + bs ≤ k * bs := by omega
    simp only [smStep, smNext, if_pos h, h', decide_false, Bool.false_eq_true, if_false]
    split <;> rfl
  · have h' : dur + bs ≤ k * bs := by omega
    simp [smStep, smNext, h, h']

/-- C80, one ramp from a settled value `a` to `b`, as far as it holds.  The first value sent is `a`.  All values lie between `a` and the
last one, in order, and within 11 units of `2 ^ -53` of the largest number involved of the line.  The last one is sent at the first
block start at or after the end of the ramp, nothing comes after it, it is within 4 such units of `b`, and it is `b` if the difference of
the two is a number of the format.

Partial: in general the last value is not `b` (`C80_target_violated`). -/
theorem C80_ramp_partial {bs dur : Nat} (hb : 0 < bs) (hd : 0 < dur) (hbig : dur < 2 ^ 53) (x : ℚ) (el : Nat) {a b M : ℚ}
    (ra : Rep64 a) (rb : Rep64 b) (hM : pow2 (-1000) ≤ M) (ha : |a| ≤ M) (hbM : |b| ≤ M) :
    let s := (smStep (.linear x a dur el false true) (.set b)).1
    ∃ e, smSent bs s 0 = some a ∧
      (∀ k, k * bs < dur + bs → ∃ v, smSent bs s k = some v ∧ Sm.Between a e v ∧
        |v - Sm.line a b dur (min (k * bs) dur)| ≤ 11 * pow2 (-53) * M ∧ (dur ≤ k * bs → v = e)) ∧
      (∀ k v w, smSent bs s k = some v → smSent bs s (k + 1) = some w → Sm.Between v e w) ∧
      (∀ k, dur + bs ≤ k * bs → smSent bs s k = none) ∧
      |e - b| ≤ 4 * pow2 (-53) * M + 3 * pow2 (-1075) ∧ (Rep64 (b - a) → e = b) := by
  refine ⟨rampEnd a b, ?_, ?_, ?_, ?_, rampEnd_near ha hbM, rampEnd_exact rb⟩
  · rw [smSent_ramp hb hd, if_pos (by omega), Nat.zero_mul, Nat.zero_min, rampF_start ra]
  · intro k hk
    refine ⟨rampF a b dur (min (k * bs) dur), by rw [smSent_ramp hb hd, if_pos hk], rampF_between ra hd (by omega),
      rampF_near hM ha hbM hd (by omega) hbig, fun h => ?_⟩
    rw [show min (k * bs) dur = dur by omega, rampF_end a b hd]
  · intro k v w hv hw
    rw [smSent_ramp hb hd] at hv hw
    split at hv
    · split at hw
      · simp only [Option.some.injEq] at hv hw
        rw [← hv, ← hw]
        have e : (k + 1) * bs = k * bs + bs := Nat.succ_mul k bs
        rw [e]
        have l1 : min (k * bs) dur ≤ min (k * bs + bs) dur := by omega
        have l2 : min (k * bs + bs) dur ≤ dur := by omega
        rcases le_total a b with hab | hab
        · left
          have h2 := (rampF_mono a hd l2).1 hab
          rw [rampF_end a b hd] at h2
          exact ⟨(rampF_mono a hd l1).1 hab, h2⟩
        · right
          have h2 := (rampF_mono a hd l2).2 hab
          rw [rampF_end a b hd] at h2
          exact ⟨h2, (rampF_mono a hd l1).2 hab⟩
      · simp at hw
    · simp at hv
  · intro k hk
    rw [smSent_ramp hb hd, if_neg (by omega)]

example : Rep64 (1 / 4) ∧ Rep64 (3 / 4) ∧ Rep64 (3 / 4 - 1 / 4) :=
  ⟨⟨1, -2, by norm_num [pow2_eq], by norm_num, by norm_num⟩, ⟨3, -2, by norm_num [pow2_eq], by norm_num, by norm_num⟩,
    ⟨1, -1, by norm_num [pow2_eq], by norm_num, by norm_num⟩⟩

/-! ### Histories -/

/-- A ramp is under way. -/
def SmSt.running : SmSt → Bool
  | .none _ => false
  | .linear _ _ _ _ _ done => !done

/-- A history in which ramp times are not zero, set values satisfy `ok`, and the smoothing is not changed while a ramp is under
way. -/
def CalmF (ok : ℚ → Prop) : SmSt → List SmOp → Prop
  | _, [] => True
  | s, op :: ops =>
    (match op with
      | .set v => ok v
      | .smoothNone => s.running = false
      | .smoothLinear d _ => 0 < d ∧ s.running = false
      | .block _ => True) ∧ CalmF ok (smStep s op).1 ops

/-- All values satisfy `ok`. -/
def OkSt (ok : ℚ → Prop) : SmSt → Prop
  | .none v => ok v
  | .linear a b dur el _ _ => ok a ∧ ok b ∧ 0 < dur ∧ el ≤ dur

theorem ok_step {ok : ℚ → Prop} (hok : ∀ a b dur el, ok a → ok b → 0 < dur → el ≤ dur → ok (rampF a b dur el)) {s : SmSt}
    (hg : OkSt ok s) (op : SmOp) (ops : List SmOp) (hc : CalmF ok s (op :: ops)) :
    OkSt ok (smStep s op).1 ∧ ∀ v, (smStep s op).2 = some v → ok v := by
  cases s with
  | none c =>
    cases op with
    | set v => exact ⟨hg, fun w hw => by simp only [smStep, smSet, Option.some.injEq] at hw; subst hw; exact hc.1⟩
    | smoothNone => exact ⟨hg, fun w hw => by simp [smStep] at hw⟩
    | smoothLinear d ar => exact ⟨⟨hg, hg, hc.1.1, Nat.zero_le _⟩, fun w hw => by simp [smStep] at hw⟩
    | block bs => exact ⟨hg, fun w hw => by simp [smStep, smNext] at hw⟩
  | linear a b dur el ar done =>
    obtain ⟨ha, hb, hd, he⟩ := hg
    have hr := hok a b dur el ha hb hd he
    cases op with
    | set v =>
      refine ⟨?_, fun w hw => by simp [smStep, smSet] at hw⟩
      simp only [smStep, smSet]
      refine ⟨?_, hc.1, hd, Nat.zero_le _⟩
      split
      · exact hb
      · exact hr
    | smoothNone => exact ⟨hr, fun w hw => by simp [smStep] at hw⟩
    | smoothLinear d ar' =>
      have h := hc.1
      simp only [SmSt.running, Bool.not_eq_false'] at h
      refine ⟨?_, fun w hw => by simp [smStep] at hw⟩
      simp only [smStep, smLinear, h.2, if_true]
      exact ⟨hb, hb, h.1, Nat.zero_le _⟩
    | block bs =>
      simp only [smStep, smNext]
      cases done with
      | true => exact ⟨⟨ha, hb, hd, he⟩, fun w hw => by simp at hw⟩
      | false =>
        simp only [Bool.false_eq_true, if_false]
        refine ⟨?_, ?_⟩
        · split
          · exact ⟨ha, hb, hd, he⟩
          · split
            · exact ⟨ha, hb, hd, by omega⟩
            · exact ⟨ha, hb, hd, by omega⟩
        · intro w hw
          have : rampF a b dur el = w := by
            split at hw
            · simpa using hw
            · split at hw <;> simpa using hw
          rw [← this]
          exact hr

theorem ok_run {ok : ℚ → Prop} (hok : ∀ a b dur el, ok a → ok b → 0 < dur → el ≤ dur → ok (rampF a b dur el)) (ops : List SmOp) :
    ∀ s, OkSt ok s → CalmF ok s ops → ∀ v, some v ∈ (smRun s ops).2 → ok v := by
  induction ops with
  | nil => intro s _ _ v hv; simp [smRun] at hv
  | cons op ops ih =>
    intro s hg hc v hv
    have hs := ok_step hok hg op ops hc
    rw [smRun] at hv
    rcases List.mem_cons.1 hv with hv | hv
    · exact hs.2 v hv.symm
    · exact ih _ hs.1 hc.2 v hv

/-- A tie above a power of two goes down. -/
theorem rnd64_tie {k : Int} (hk : -1022 ≤ k) : rnd64 (pow2 k + pow2 (k - 53)) = pow2 k := by
  have hp := pow2_pos k
  have hq := pow2_pos (k - 53)
  have hlt : pow2 (k - 53) < pow2 k := pow2_lt.2 (by omega)
  have hx : pow2 k + pow2 (k - 53) ≠ 0 := by positivity
  have h2 : pow2 (k + 1) = pow2 k + pow2 k := by
    rw [pow2_add, show pow2 1 = 2 by decide +kernel]
    ring
  have habs : |pow2 k + pow2 (k - 53)| = pow2 k + pow2 (k - 53) := abs_of_pos (by positivity)
  have he : elog (pow2 k + pow2 (k - 53)) = k := by
    apply le_antisymm
    · have := elog_lt hx (k := k + 1) (by rw [habs, h2]; linarith)
      omega
    · exact le_elog hx (by rw [habs]; linarith)
  unfold rnd64
  rw [rnd_of_ne hx]
  have hu : ulpExp 53 (-1074) (pow2 k + pow2 (k - 53)) = k - 52 := by
    unfold ulpExp
    rw [he]
    push_cast
    omega
  have hw : pow2 (k - 52) ≠ 0 := (pow2_pos _).ne'
  have e1 : pow2 k = 4503599627370496 * pow2 (k - 52) := by
    rw [show k = 52 + (k - 52) by ring, pow2_add, show pow2 52 = 4503599627370496 by decide +kernel]
    ring_nf
  have e2 : pow2 (k - 53) = 1 / 2 * pow2 (k - 52) := by
    rw [show k - 53 = -1 + (k - 52) by ring, pow2_add, show pow2 (-1) = 1 / 2 by decide +kernel]
  rw [hu, e1, e2, ← add_mul, mul_div_assoc, div_self hw, mul_one]
  rw [show rne (4503599627370496 + 1 / 2) = 4503599627370496 by decide +kernel]
  push_cast
  rfl

/-- The end of a ramp between numbers up to a power of two is not above it. -/
theorem rampEnd_le {a b : ℚ} {k : Int} (hk : -1022 ≤ k) (ha : |a| ≤ pow2 k) (hb : |b| ≤ pow2 k) : rampEnd a b ≤ pow2 k := by
  rw [abs_le] at ha hb
  have h2 : pow2 (k + 1) = pow2 k + pow2 k := by
    rw [pow2_add, show pow2 1 = 2 by decide +kernel]
    ring
  have hba : |b - a| ≤ pow2 (k + 1) := by rw [h2, abs_le]; constructor <;> linarith
  have herr : rnd64 (b - a) - (b - a) ≤ pow2 (k - 53) := by
    rcases lt_or_eq_of_le hba with h | h
    · have := rnd_err (p := 53) (emin := -1074) h (by push_cast; omega)
      rw [show k + 1 - ((53 : Nat) : Int) - 1 = k - 53 by push_cast; ring] at this
      exact (abs_le.1 this).2
    · have hr : Rep64 (b - a) := by
        rcases abs_eq (pow2_pos _).le |>.1 h with e | e
        · rw [e]; exact rep64_pow2 (by omega)
        · rw [e]; exact rep_neg (rep64_pow2 (by omega))
      rw [rnd64_fix hr, sub_self]
      exact (pow2_pos _).le
  have : rampEnd a b ≤ rnd64 (pow2 k + pow2 (k - 53)) := rnd64_le (by linarith)
  rwa [rnd64_tie hk] at this

theorem rampEnd_neg (a b : ℚ) : rampEnd (-a) (-b) = -rampEnd a b := by
  unfold rampEnd
  rw [show -b - -a = -(b - a) by ring]
  unfold rnd64
  rw [rnd_neg, show -rnd 53 (-1074) (b - a) + -a = -(rnd 53 (-1074) (b - a) + a) by ring, rnd_neg]

theorem rampEnd_abs {a b : ℚ} {k : Int} (hk : -1022 ≤ k) (ha : |a| ≤ pow2 k) (hb : |b| ≤ pow2 k) : |rampEnd a b| ≤ pow2 k := by
  rw [abs_le]
  refine ⟨?_, rampEnd_le hk ha hb⟩
  have := rampEnd_le (a := -a) (b := -b) hk (by rwa [abs_neg]) (by rwa [abs_neg])
  rw [rampEnd_neg] at this
  linarith

theorem rampEnd_nonneg {a b : ℚ} (ra : Rep64 a) (hb : 0 ≤ b) : 0 ≤ rampEnd a b := by
  unfold rampEnd
  apply rnd64_nn
  have : -a ≤ rnd64 (b - a) := rep_le_rnd (by norm_num) (rep_neg ra) (by linarith)
  linarith

theorem rep_rampF (a b : ℚ) (dur el : Nat) : Rep64 (rampF a b dur el) := rnd64_isRep _

/-- C80, ranges: whatever the history, as long as ramp times are not zero and the smoothing is not changed while a ramp is under way, no
value sent is larger than the smallest power of two that is at least as large as all values set, and if no value set is negative, none that
is sent is.

Partial: for other limits the values sent can be beyond them by a rounding error (`C80_target_violated`), and changing the smoothing
during a ramp has the problems of C32. -/
theorem C80_range_partial (ops : List SmOp) :
    (∀ k : Int, -1022 ≤ k → CalmF (fun x => Rep64 x ∧ |x| ≤ pow2 k) .init ops → ∀ v, some v ∈ (smRun .init ops).2 → |v| ≤ pow2 k) ∧
    (CalmF (fun x => Rep64 x ∧ 0 ≤ x) .init ops → ∀ v, some v ∈ (smRun .init ops).2 → 0 ≤ v) := by
  have r0 : Rep64 0 := ⟨0, 0, by simp, by norm_num, by norm_num⟩
  constructor
  · intro k hk hc v hv
    have hi : OkSt (fun x => Rep64 x ∧ |x| ≤ pow2 k) .init := ⟨r0, by rw [abs_zero]; exact (pow2_pos _).le⟩
    refine (ok_run ?_ ops .init hi hc v hv).2
    · rintro a b dur el ⟨ra, ha⟩ ⟨rb, hb⟩ hd he
      refine ⟨rep_rampF a b dur el, ?_⟩
      have h1 := rampEnd_abs hk ha hb
      rw [abs_le] at ha h1 ⊢
      rcases rampF_between (b := b) ra hd he with ⟨h2, h3⟩ | ⟨h2, h3⟩
      · constructor <;> linarith
      · constructor <;> linarith
  · intro hc v hv
    have hi : OkSt (fun x => Rep64 x ∧ 0 ≤ x) .init := ⟨r0, le_rfl⟩
    refine (ok_run ?_ ops .init hi hc v hv).2
    rintro a b dur el ⟨ra, ha⟩ ⟨rb, hb⟩ hd he
    refine ⟨rep_rampF a b dur el, ?_⟩
    have h1 := rampEnd_nonneg ra hb
    rcases rampF_between (b := b) ra hd he with ⟨h2, h3⟩ | ⟨h2, h3⟩ <;> linarith

example : CalmF (fun x => Rep64 x ∧ |x| ≤ pow2 2) .init [.set 3, .smoothLinear 8 false, .set 1, .block 4, .set 2, .block 4] := by
  have h : ∀ n : Nat, n < 4 → Rep64 (n : ℚ) ∧ |(n : ℚ)| ≤ pow2 2 := by
    intro n hn
    refine ⟨rep_nat (by omega) (by norm_num), ?_⟩
    rw [show pow2 2 = 4 by decide +kernel, abs_of_nonneg (Nat.cast_nonneg _)]
    have : (n : ℚ) < 4 := by exact_mod_cast hn
    linarith
  exact ⟨by simpa using h 3 (by norm_num), ⟨by omega, rfl⟩, by simpa using h 1 (by norm_num), trivial, by simpa using h 2 (by norm_num),
    trivial, trivial⟩

/-- C80, what goes wrong: a parameter is at 440 and set to 0.1, with a ramp of eight frames in blocks of four.  The last value sent is
beyond the value that was set, at a distance of more than `2 ^ -46`, and nothing is sent after it.  From `2 ^ 53 + 2` to 1 it ends at
0, and setting a parameter that is to go from 1 to 0.1 ends below both. -/
theorem C80_target_violated :
    (∃ v, smSent 4 (smStep (.linear 440 440 8 0 false true) (.set (rnd64 (1 / 10)))).1 2 = some v ∧ rnd64 (1 / 10) + pow2 (-46) < v ∧
      ∀ k, 3 ≤ k → smSent 4 (smStep (.linear 440 440 8 0 false true) (.set (rnd64 (1 / 10)))).1 k = none) ∧
    smSent 4 (smStep (.linear 0 9007199254740996 8 0 false true) (.set 1)).1 2 = some 0 ∧
    (∃ v, smSent 4 (smStep (.linear 1 1 8 0 false true) (.set (rnd64 (1 / 10)))).1 2 = some v ∧ v < rnd64 (1 / 10)) := by
  refine ⟨⟨rampF 440 (rnd64 (1 / 10)) 8 8, ?_, by decide +kernel, ?_⟩, by decide +kernel, ⟨rampF 1 (rnd64 (1 / 10)) 8 8, ?_, by
    decide +kernel⟩⟩
  · rw [smSent_ramp (by norm_num) (by norm_num)]; norm_num
  · intro k hk
    rw [smSent_ramp (by norm_num) (by norm_num), if_neg (by omega)]
  · rw [smSent_ramp (by norm_num) (by norm_num)]; norm_num

/-! ### The length of a ramp -/

/-- C80, the length of a ramp, as far as it holds: the whole part of the product of the time, as `f32`, and the sample rate, which is at
most one frame and `2 ^ -24` of the length below it.

Partial: it is not the nearest number of frames (`C80_frames_violated`). -/
theorem C80_frames_partial {t : ℚ} (ht : 0 ≤ t) (sr : Nat) (hs : sr < 2 ^ 29) :
    durFrames t sr = ⌊rnd32 t * sr⌋.toNat ∧
    |(durFrames t sr : ℚ) - t * sr| ≤ 1 + (pow2 (-24) * t + pow2 (-150)) * sr := by
  have hr : Rep64 (rnd32 t * sr) := by
    obtain ⟨m, e, h1, h2, h3⟩ := rep_rnd (p := 24) (by norm_num) (emin := -149) t
    refine ⟨m * sr, e, ?_, ?_, by omega⟩
    · have : rnd32 t = m * pow2 e := h1
      rw [this]; push_cast; ring
    · rw [abs_mul, Nat.abs_cast]
      have hs' : (sr : Int) < 2 ^ 29 := by exact_mod_cast hs
      calc |m| * (sr : Int) ≤ |m| * 2 ^ 29 := mul_le_mul_of_nonneg_left hs'.le (abs_nonneg _)
        _ < 2 ^ 24 * 2 ^ 29 := mul_lt_mul_of_pos_right h2 (by norm_num)
        _ = 2 ^ 53 := by norm_num
  have e1 : durFrames t sr = ⌊rnd32 t * sr⌋.toNat := by
    unfold durFrames
    rw [rnd64_fix hr]
  refine ⟨e1, ?_⟩
  rw [e1]
  have h0 : 0 ≤ rnd32 t * sr := mul_nonneg (rnd_nonneg ht) (Nat.cast_nonneg _)
  have hf : ((⌊rnd32 t * (sr : ℚ)⌋.toNat : Nat) : ℚ) = (⌊rnd32 t * (sr : ℚ)⌋ : ℚ) := by
    have : ((⌊rnd32 t * (sr : ℚ)⌋.toNat : Nat) : Int) = ⌊rnd32 t * (sr : ℚ)⌋ := Int.toNat_of_nonneg (Int.floor_nonneg.2 h0)
    exact_mod_cast this
  rw [hf]
  have f1 := Int.floor_le (rnd32 t * (sr : ℚ))
  have f2 := Int.lt_floor_add_one (rnd32 t * (sr : ℚ))
  have er := rnd_rel 24 (-149) t
  change |rnd32 t - t| ≤ pow2 (-24) * |t| + pow2 (-150) at er
  rw [abs_of_nonneg ht] at er
  have hm : |rnd32 t * sr - t * sr| ≤ (pow2 (-24) * t + pow2 (-150)) * sr := by
    rw [← sub_mul, abs_mul, Nat.abs_cast]
    exact mul_le_mul_of_nonneg_right er (Nat.cast_nonneg _)
  rw [abs_le] at hm ⊢
  constructor <;> linarith

/-- C80, the length of a ramp, what goes wrong: 10 milliseconds at 48 kHz are 479 frames, and 0.7 seconds are 33599, because the `f32`
is a little less and the product is cut off. -/
theorem C80_frames_violated :
    durFrames (1 / 100) 48000 = 479 ∧ (1 / 100 : ℚ) * 48000 = 480 ∧ durFrames (7 / 10) 48000 = 33599 ∧ (7 / 10 : ℚ) * 48000 = 33600 := by
  refine ⟨by decide +kernel, by norm_num, by decide +kernel, by norm_num⟩

end Verif.Fl
