import Verif.Model.Envelope
import Mathlib.Tactic.Linarith
import Mathlib.Tactic.FieldSimp
import Mathlib.Tactic.Ring
import Mathlib.Tactic.Positivity
import Mathlib.Algebra.Order.Ring.Pow
import Mathlib.Algebra.Order.Archimedean.Basic
import Mathlib.Data.Rat.Floor

/-!
# C41, C42: attack-sustain-release and attack-release envelopes
-/

namespace Verif.Env

theorem rateOf_pos {s : Rat} {sr : Nat} (hs : 0 ≤ s) (hsr : 0 < sr) : 0 < rateOf s sr := by
  unfold rateOf
  split
  · exact one_pos
  · have : 0 < s := lt_of_le_of_ne hs (Ne.symm ‹_›)
    have : (0 : Rat) < sr := by exact_mod_cast hsr
    positivity

/-! ### C41 -/

/-- What can happen to the envelope. -/
inductive AsrOp where
  | attack (seconds : Rat)
  | release (seconds : Rat)
  | tRelease
  | tRestart
  | frame
  deriving DecidableEq

/-- One operation: the new state, the output if there is one, and whether the envelope reports being done. -/
def Asr.step (sr : Nat) (e : Asr) : AsrOp → Asr × Option Rat × Bool
  | .attack s => (e.setAttack sr s, none, false)
  | .release s => (e.setRelease sr s, none, false)
  | .tRelease => (e.release, none, false)
  | .tRestart => (e.restart, none, false)
  | .frame => (e.next.1, some e.next.2.1, e.next.2.2)

/-- Several operations: the final state, the outputs and the number of reports. -/
def Asr.run (sr : Nat) (e : Asr) : List AsrOp → Asr × List Rat × Nat
  | [] => (e, [], 0)
  | op :: ops =>
    let r := e.step sr op
    let r' := Asr.run sr r.1 ops
    (r'.1, r.2.1.toList ++ r'.2.1, (if r.2.2 then 1 else 0) + r'.2.2)

/-- A history with times that are not negative in which the envelope is not restarted while sustaining. -/
def AsrCalm (sr : Nat) : Asr → List AsrOp → Prop
  | _, [] => True
  | e, op :: ops =>
    (match op with
      | .attack s => 0 ≤ s
      | .release s => 0 ≤ s
      | .tRestart => e.state ≠ .sustaining
      | _ => True) ∧ AsrCalm sr (e.step sr op).1 ops

/-- The invariant. -/
structure AsrGood (e : Asr) : Prop where
  attack : 0 < e.attackRate
  release : 0 < e.releaseRate
  stopped : e.state = .stopped → e.t = 0
  attacking : e.state = .attacking → 0 ≤ e.t ∧ e.t ≤ 1
  releasing : e.state = .releasing → 0 < e.t ∧ e.t ≤ 1 ∧ 0 ≤ e.releaseScale ∧ e.releaseScale ≤ 1

theorem asr_new_good {a r : Rat} {sr : Nat} (ha : 0 ≤ a) (hr : 0 ≤ r) (hsr : 0 < sr) : AsrGood ((Asr.new a r).init sr) := by
  have h1 := rateOf_pos ha hsr
  have h2 := rateOf_pos hr hsr
  constructor <;> simp [Asr.new, Asr.init, h1, h2]

theorem asr_step_good {sr : Nat} (hsr : 0 < sr) {e : Asr} (h : AsrGood e) (op : AsrOp) (ops : List AsrOp)
    (hc : AsrCalm sr e (op :: ops)) :
    AsrGood (e.step sr op).1 ∧ ∀ x, (e.step sr op).2.1 = some x → 0 ≤ x ∧ x ≤ 1 := by
  obtain ⟨ha, hr, hs, hat, hre⟩ := h
  obtain ⟨st, t, as, ar, rs, rr, sc⟩ := e
  simp only at ha hr hs hat hre
  cases op with
  | attack s =>
    refine ⟨?_, fun x hx => by simp [Asr.step] at hx⟩
    simp only [Asr.step, Asr.setAttack]
    split
    · exact ⟨ha, hr, hs, hat, hre⟩
    · exact ⟨rateOf_pos hc.1 hsr, hr, hs, hat, hre⟩
  | release s =>
    refine ⟨?_, fun x hx => by simp [Asr.step] at hx⟩
    simp only [Asr.step, Asr.setRelease]
    split
    · exact ⟨ha, hr, hs, hat, hre⟩
    · exact ⟨ha, rateOf_pos hc.1 hsr, hs, hat, hre⟩
  | tRelease =>
    refine ⟨?_, fun x hx => by simp [Asr.step] at hx⟩
    cases st <;> simp only [Asr.step, Asr.release]
    · exact ⟨ha, hr, hs, hat, hre⟩
    · exact ⟨ha, hr, by simp, by simp, fun _ => ⟨one_pos, le_refl _, (hat rfl).1, (hat rfl).2⟩⟩
    · exact ⟨ha, hr, by simp, by simp, fun _ => ⟨one_pos, le_refl _, zero_le_one, le_refl _⟩⟩
    · exact ⟨ha, hr, hs, hat, hre⟩
  | tRestart =>
    refine ⟨?_, fun x hx => by simp [Asr.step] at hx⟩
    refine ⟨ha, hr, by simp [Asr.step, Asr.restart], fun _ => ?_, by simp [Asr.step, Asr.restart]⟩
    simp only [Asr.step, Asr.restart]
    cases st with
    | stopped => rw [hs rfl]; exact ⟨le_refl _, zero_le_one⟩
    | attacking => exact hat rfl
    | sustaining => exact absurd rfl hc.1
    | releasing => exact ⟨(hre rfl).1.le, (hre rfl).2.1⟩
  | frame =>
    simp only [Asr.step, Asr.next, Option.some.injEq]
    cases st with
    | stopped => exact ⟨⟨ha, hr, hs, hat, hre⟩, fun x hx => by subst hx; exact ⟨le_refl _, zero_le_one⟩⟩
    | attacking =>
      simp only
      refine ⟨?_, fun x hx => by subst hx; exact hat rfl⟩
      split
      · exact ⟨ha, hr, by simp, by simp, by simp⟩
      · rename_i hlt
        exact ⟨ha, hr, by simp, fun _ => ⟨by have := (hat rfl).1; simp only; linarith, by simp only; linarith⟩, by simp⟩
    | sustaining => exact ⟨⟨ha, hr, hs, hat, hre⟩, fun x hx => by subst hx; exact ⟨zero_le_one, le_refl _⟩⟩
    | releasing =>
      obtain ⟨h1, h2, h3, h4⟩ := hre rfl
      have hp0 : 0 ≤ t ^ 3 := by positivity
      have hp1 : t ^ 3 ≤ 1 := pow_le_one₀ h1.le h2
      have hout : 0 ≤ t ^ 3 * sc ∧ t ^ 3 * sc ≤ 1 := ⟨mul_nonneg hp0 h3, mul_le_one₀ hp1 h3 h4⟩
      simp only
      split
      · exact ⟨⟨ha, hr, fun _ => rfl, by simp, by simp⟩, fun x hx => by subst hx; exact hout⟩
      · rename_i hlt
        refine ⟨⟨ha, hr, by simp, by simp, fun _ => ⟨?_, ?_, h3, h4⟩⟩, fun x hx => by subst hx; exact hout⟩
        · simp only; linarith
        · simp only; linarith

/-- C41: the output is between 0 and 1 in every history with times that are not negative in which the envelope is not
restarted while sustaining.

Missing: restarting while sustaining, where the output exceeds every bound (`C41_restart_violated`). -/
theorem C41_range_partial {a r : Rat} {sr : Nat} (ha : 0 ≤ a) (hr : 0 ≤ r) (hsr : 0 < sr) (ops : List AsrOp)
    (hc : AsrCalm sr ((Asr.new a r).init sr) ops) :
    ∀ x ∈ (Asr.run sr ((Asr.new a r).init sr) ops).2.1, 0 ≤ x ∧ x ≤ 1 := by
  have key : ∀ (ops : List AsrOp) (e : Asr), AsrGood e → AsrCalm sr e ops → ∀ x ∈ (Asr.run sr e ops).2.1, 0 ≤ x ∧ x ≤ 1 := by
    intro ops
    induction ops with
    | nil => intro e _ _ x hx; simp [Asr.run] at hx
    | cons op ops ih =>
      intro e hg hc x hx
      have hs := asr_step_good hsr hg op ops hc
      rw [Asr.run] at hx
      rcases List.mem_append.1 hx with hx | hx
      · exact hs.2 x (by simpa using hx)
      · exact ih _ hs.1 hc.2 x hx
  exact key ops _ (asr_new_good ha hr hsr) hc

/-- Restart and process one frame, `k` times. -/
def restarts : Nat → List AsrOp
  | 0 => []
  | k + 1 => .tRestart :: .frame :: restarts k

/-- C41 is violated: with an attack time of zero every restart while sustaining raises the output by one, without bound. -/
theorem C41_restart_violated (k : Nat) :
    (Asr.run 1 ((Asr.new 0 1).init 1) (restarts (k + 1))).2.1 = (List.range (k + 1)).map fun (i : Nat) => (i : Rat) := by
  have key : ∀ (k j : Nat) (e : Asr), e.t = j → e.attackRate = 1 →
      (Asr.run 1 e (restarts k)).2.1 = (List.range k).map fun (i : Nat) => (j : Rat) + (i : Rat) := by
    intro k
    induction k with
    | zero => intro j e _ _; rfl
    | succ k ih =>
      intro j e ht hr
      have hge : (1 : Rat) ≤ e.t + e.attackRate := by
        rw [ht, hr]
        have : (0 : Rat) ≤ (j : Rat) := by positivity
        linarith
      have e1 : (Asr.run 1 e (restarts (k + 1))).2.1 = e.t ::
          (Asr.run 1 { e with t := e.t + e.attackRate, state := .sustaining } (restarts k)).2.1 := by
        have e2 : (Asr.step 1 (Asr.step 1 e .tRestart).1 .frame) =
            ({ e with t := e.t + e.attackRate, state := .sustaining }, some e.t, false) := by
          have hge' : (1 : Rat) ≤ e.restart.t + e.restart.attackRate := hge
          have hst : e.restart.state = .attacking := rfl
          simp only [Asr.step, Asr.next, hst, if_pos hge']
          rfl
        simp only [restarts, Asr.run]
        rw [e2]
        rfl
      rw [e1, ih (j + 1) { e with t := e.t + e.attackRate, state := .sustaining } (by simp [ht, hr]) hr, List.range_succ_eq_map, List.map_cons, List.map_map]
      rw [ht]
      congr 1
      · simp
      · refine List.map_congr_left fun i _ => ?_
        simp
        ring
  rw [key (k + 1) 0 _ (by simp [Asr.new, Asr.init]) (by simp [Asr.new, Asr.init, rateOf])]
  simp

/-- The state after `n` frames. -/
def Asr.after (e : Asr) : Nat → Asr
  | 0 => e
  | n + 1 => (Asr.after e n).next.1

/-- The output of frame `n`. -/
def Asr.out (e : Asr) (n : Nat) : Rat := (e.after n).next.2.1

/-- Whether the envelope reports being done at frame `n`. -/
def Asr.doneAt (e : Asr) (n : Nat) : Bool := (e.after n).next.2.2

/-- C41: in the attack the output rises linearly until it reaches 1 and stays there; no report of being done. -/
theorem C41_attack {e : Asr} (hs : e.state = .attacking) (ht : e.t ≤ 1) (hr : 0 < e.attackRate) (n : Nat) :
    e.out n = min 1 (e.t + n * e.attackRate) ∧ e.doneAt n = false := by
  have key : ∀ n : Nat, (e.after n = { e with t := e.t + n * e.attackRate } ∧ (n ≠ 0 → e.t + n * e.attackRate < 1)) ∨
      ((e.after n).state = .sustaining ∧ 1 ≤ e.t + n * e.attackRate) := by
    intro n
    induction n with
    | zero => left; simp [Asr.after]
    | succ n ih =>
      have hc : ((n + 1 : Nat) : Rat) = (n : Rat) + 1 := by push_cast; ring
      rcases ih with ⟨h1, h2⟩ | ⟨h1, h2⟩
      · rw [Asr.after, h1]
        simp only [Asr.next, hs, hc]
        by_cases hge : 1 ≤ e.t + n * e.attackRate + e.attackRate
        · right
          rw [if_pos hge]
          exact ⟨rfl, by linarith⟩
        · left
          rw [if_neg hge]
          have e1 : e.t + n * e.attackRate + e.attackRate = e.t + (n + 1) * e.attackRate := by ring
          rw [e1] at hge ⊢
          exact ⟨rfl, fun _ => by linarith⟩
      · right
        rw [Asr.after]
        have : (e.after n).next.1 = e.after n := by simp [Asr.next, h1]
        rw [this]
        refine ⟨h1, ?_⟩
        rw [hc]
        linarith
  rcases key n with ⟨h1, h2⟩ | ⟨h1, h2⟩
  · rw [Asr.out, Asr.doneAt, h1]
    simp only [Asr.next, hs]
    refine ⟨?_, trivial⟩
    rw [min_eq_right]
    by_cases hn : n = 0
    · subst hn; simpa using ht
    · exact (h2 hn).le
  · rw [Asr.out, Asr.doneAt, min_eq_left h2]
    simp [Asr.next, h1]

/-- C41: while sustaining the output is 1. -/
theorem C41_sustain {e : Asr} (hs : e.state = .sustaining) (n : Nat) : e.out n = 1 ∧ e.doneAt n = false ∧ e.after n = e := by
  have : ∀ n, e.after n = e := by
    intro n
    induction n with
    | zero => rfl
    | succ n ih => rw [Asr.after, ih]; simp [Asr.next, hs]
  rw [Asr.out, Asr.doneAt, this n]
  simp [Asr.next, hs]

/-- C41: in the release the output falls as the cube of a line until it reaches 0 and stays there; being done is reported
exactly at the last frame before the line reaches 0. -/
theorem C41_release {e : Asr} (hs : e.state = .releasing) (ht : 0 < e.t) (hr : 0 < e.releaseRate) (n : Nat) :
    e.out n = (max 0 (e.t - n * e.releaseRate)) ^ 3 * e.releaseScale ∧
    (e.doneAt n = true ↔ n * e.releaseRate < e.t ∧ e.t ≤ (n + 1) * e.releaseRate) := by
  have key : ∀ n : Nat, (e.after n = { e with t := e.t - n * e.releaseRate } ∧ n * e.releaseRate < e.t) ∨
      ((e.after n).state = .stopped ∧ e.t ≤ n * e.releaseRate) := by
    intro n
    induction n with
    | zero => left; simp [Asr.after, ht]
    | succ n ih =>
      have hc : ((n + 1 : Nat) : Rat) = (n : Rat) + 1 := by push_cast; ring
      rcases ih with ⟨h1, h2⟩ | ⟨h1, h2⟩
      · rw [Asr.after, h1]
        simp only [Asr.next, hs, hc]
        by_cases hge : e.t - n * e.releaseRate - e.releaseRate ≤ 0
        · right
          rw [if_pos hge]
          exact ⟨rfl, by linarith⟩
        · left
          rw [if_neg hge]
          have e1 : e.t - n * e.releaseRate - e.releaseRate = e.t - (n + 1) * e.releaseRate := by ring
          rw [e1] at hge ⊢
          exact ⟨rfl, by linarith⟩
      · right
        rw [Asr.after]
        have : (e.after n).next.1 = e.after n := by simp [Asr.next, h1]
        rw [this]
        refine ⟨h1, ?_⟩
        rw [hc]
        linarith
  rcases key n with ⟨h1, h2⟩ | ⟨h1, h2⟩
  · rw [Asr.out, Asr.doneAt, h1]
    rw [max_eq_right (by linarith)]
    simp only [Asr.next, hs]
    split
    · rename_i hle
      refine ⟨rfl, ?_⟩
      simp only [true_iff]
      exact ⟨h2, by linarith⟩
    · rename_i hle
      refine ⟨rfl, ?_⟩
      simp only [Bool.false_eq_true, false_iff, not_and, not_le]
      intro _
      linarith
  · rw [Asr.out, Asr.doneAt, max_eq_left (by linarith)]
    simp only [Asr.next, h1]
    refine ⟨by simp, ?_⟩
    simp only [Bool.false_eq_true, false_iff, not_and]
    intro h3
    linarith

/-- C41: the output never rises in the release. -/
theorem C41_falls {e : Asr} (hs : e.state = .releasing) (ht : 0 < e.t) (hr : 0 < e.releaseRate) (hsc : 0 ≤ e.releaseScale)
    {m n : Nat} (h : m ≤ n) : e.out n ≤ e.out m := by
  rw [(C41_release hs ht hr n).1, (C41_release hs ht hr m).1]
  refine mul_le_mul_of_nonneg_right ?_ hsc
  refine pow_le_pow_left₀ (le_max_left _ _) (max_le_max (le_refl _) ?_) 3
  have : (m : Rat) ≤ n := by exact_mod_cast h
  have := mul_le_mul_of_nonneg_right this hr.le
  linarith

/-- C41: a release that is left alone reports being done at exactly one frame. -/
theorem C41_done_once {e : Asr} (hs : e.state = .releasing) (ht : 0 < e.t) (hr : 0 < e.releaseRate) :
    ∃ n, e.doneAt n = true ∧ (∀ m, e.doneAt m = true → m = n) ∧ (∀ m, n < m → e.out m = 0) := by
  -- the last frame before the line reaches 0
  obtain ⟨N, hN⟩ := exists_nat_gt (e.t / e.releaseRate)
  have hN' : e.t < N * e.releaseRate := by rwa [div_lt_iff₀ hr] at hN
  have hex : ∃ n : Nat, e.t ≤ (n + 1 : Nat) * e.releaseRate := ⟨N, by push_cast; linarith⟩
  obtain ⟨d, hspec, hmin⟩ : ∃ d : Nat, e.t ≤ (d + 1 : Nat) * e.releaseRate ∧ ∀ m < d, ¬ e.t ≤ (m + 1 : Nat) * e.releaseRate := by
    classical
    exact ⟨Nat.find hex, Nat.find_spec hex, fun m hm => Nat.find_min hex hm⟩
  refine ⟨d, ?_, ?_, ?_⟩
  · rw [(C41_release hs ht hr _).2]
    refine ⟨?_, by push_cast at hspec; exact hspec⟩
    cases d with
    | zero => simpa using ht
    | succ k =>
      have := hmin k (by omega)
      exact not_le.1 this
  · intro m hm
    rw [(C41_release hs ht hr m).2] at hm
    have h1 : d ≤ m := by
      by_contra hlt
      exact hmin m (by omega) (by push_cast; exact hm.2)
    rcases Nat.lt_or_ge d m with h | h
    · exfalso
      have h3 : ((d + 1 : Nat) : Rat) ≤ m := by exact_mod_cast h
      have := mul_le_mul_of_nonneg_right h3 hr.le
      linarith [hm.1]
    · omega
  · intro m hm
    rw [(C41_release hs ht hr m).1]
    have h3 : ((d + 1 : Nat) : Rat) ≤ m := by exact_mod_cast hm
    have := mul_le_mul_of_nonneg_right h3 hr.le
    rw [max_eq_left (by linarith)]
    simp

/-- C41: over a whole history there are at most as many reports of being done as release triggers. -/
theorem C41_done_count {a r : Rat} {sr : Nat} (ops : List AsrOp) :
    (Asr.run sr ((Asr.new a r).init sr) ops).2.2 ≤ ops.count .tRelease := by
  have key : ∀ (ops : List AsrOp) (e : Asr),
      (Asr.run sr e ops).2.2 ≤ (if e.state = .releasing then 1 else 0) + ops.count .tRelease := by
    intro ops
    induction ops with
    | nil => intro e; simp [Asr.run]
    | cons op ops ih =>
      intro e
      have h := ih (e.step sr op).1
      rw [Asr.run]
      simp only
      obtain ⟨st, t, as, ar, rs, rr, sc⟩ := e
      cases op with
      | attack s =>
        have hst : ((⟨st, t, as, ar, rs, rr, sc⟩ : Asr).step sr (.attack s)).1.state = st := by
          simp only [Asr.step, Asr.setAttack]; split <;> rfl
        rw [hst] at h
        simpa [Asr.step] using h
      | release s =>
        have hst : ((⟨st, t, as, ar, rs, rr, sc⟩ : Asr).step sr (.release s)).1.state = st := by
          simp only [Asr.step, Asr.setRelease]; split <;> rfl
        rw [hst] at h
        simpa [Asr.step] using h
      | tRelease =>
        rw [List.count_cons_self]
        have : ∀ b : Prop, [Decidable b] → (if b then 1 else 0 : Nat) ≤ 1 := by intro b _; split <;> omega
        have h1 := this (((⟨st, t, as, ar, rs, rr, sc⟩ : Asr).step sr .tRelease).1.state = .releasing)
        have h2 : ((⟨st, t, as, ar, rs, rr, sc⟩ : Asr).step sr .tRelease).2.2 = false := rfl
        rw [h2]
        simp only [Bool.false_eq_true, if_false]
        omega
      | tRestart =>
        have h1 : ((⟨st, t, as, ar, rs, rr, sc⟩ : Asr).step sr .tRestart).1.state = .attacking := rfl
        have h2 : ((⟨st, t, as, ar, rs, rr, sc⟩ : Asr).step sr .tRestart).2.2 = false := rfl
        rw [h1] at h
        rw [h2]
        have h3 : (AsrOp.tRestart :: ops).count .tRelease = ops.count .tRelease := by simp
        rw [h3]
        simp only [Bool.false_eq_true, if_false, reduceCtorEq] at h ⊢
        omega
      | frame =>
        have h3 : (AsrOp.frame :: ops).count .tRelease = ops.count .tRelease := by simp
        rw [h3]
        cases st with
        | stopped => simpa [Asr.step, Asr.next] using h
        | attacking =>
          have h1 : ((⟨.attacking, t, as, ar, rs, rr, sc⟩ : Asr).step sr .frame).1.state ≠ .releasing := by
            simp only [Asr.step, Asr.next]; split <;> simp
          rw [if_neg h1] at h
          have h2 : ((⟨.attacking, t, as, ar, rs, rr, sc⟩ : Asr).step sr .frame).2.2 = false := rfl
          rw [h2]
          simp only [Bool.false_eq_true, if_false]
          omega
        | sustaining => simpa [Asr.step, Asr.next] using h
        | releasing =>
          simp only [if_true]
          simp only [Asr.step, Asr.next] at h ⊢
          split
          · rename_i hle
            simp only [hle, if_true, reduceCtorEq, if_false] at h ⊢
            omega
          · rename_i hle
            simp only [hle, if_true, if_false, Bool.false_eq_true] at h ⊢
            omega
  have := key ops ((Asr.new a r).init sr)
  have hst : ((Asr.new a r).init sr).state ≠ .releasing := by
    simp only [Asr.new, Asr.init]
    simp
  rw [if_neg hst] at this
  omega

-- attack in four frames, release in two
example : (Asr.run 2 ((Asr.new 2 1).init 2)
    [.tRestart, .frame, .frame, .frame, .frame, .frame, .tRelease, .frame, .frame, .frame]).2 =
    ([0, 1/4, 1/2, 3/4, 1, 1, 1/8, 0], 1) := by decide +kernel

example : AsrCalm 2 ((Asr.new 2 1).init 2) [.tRestart, .frame, .tRelease, .frame] :=
  ⟨by decide +kernel, trivial, trivial, trivial, trivial⟩

/-! ### C42 -/

/-- What can happen to the envelope. -/
inductive ArOp where
  | attack (seconds : Rat)
  | release (seconds : Rat)
  | tRestart
  | frame
  deriving DecidableEq

/-- One operation. -/
def Ar.step (sr : Nat) (e : Ar) : ArOp → Ar × Option Rat × Bool
  | .attack s => (e.setAttack sr s, none, false)
  | .release s => (e.setRelease sr s, none, false)
  | .tRestart => (e.restart, none, false)
  | .frame => (e.next.1, some e.next.2.1, e.next.2.2)

/-- Several operations. -/
def Ar.run (sr : Nat) (e : Ar) : List ArOp → Ar × List Rat × Nat
  | [] => (e, [], 0)
  | op :: ops =>
    let r := e.step sr op
    let r' := Ar.run sr r.1 ops
    (r'.1, r.2.1.toList ++ r'.2.1, (if r.2.2 then 1 else 0) + r'.2.2)

/-- Times that are not negative. -/
def ArOp.ok : ArOp → Prop
  | .attack s => 0 ≤ s
  | .release s => 0 ≤ s
  | _ => True

/-- The invariant. -/
structure ArGood (e : Ar) : Prop where
  attack : 0 < e.attackRate
  release : 0 < e.releaseRate
  scale : e.releaseScale = 1
  range : 0 ≤ e.t ∧ e.t ≤ 1
  releasing : e.state = .releasing → 0 < e.t

theorem ar_new_good {a r : Rat} {sr : Nat} (ha : 0 ≤ a) (hr : 0 ≤ r) (hsr : 0 < sr) : ArGood ((Ar.new a r).init sr) := by
  have h1 := rateOf_pos ha hsr
  have h2 := rateOf_pos hr hsr
  constructor <;> simp [Ar.new, Ar.init, h1, h2]

theorem ar_step_good {sr : Nat} (hsr : 0 < sr) {e : Ar} (h : ArGood e) (op : ArOp) (ho : op.ok) :
    ArGood (e.step sr op).1 ∧ ∀ x, (e.step sr op).2.1 = some x → 0 ≤ x ∧ x ≤ 1 := by
  obtain ⟨ha, hr, hsc, hrg, hre⟩ := h
  obtain ⟨st, t, as, ar, rs, rr, sc⟩ := e
  simp only at ha hr hsc hrg hre
  subst hsc
  cases op with
  | attack s =>
    refine ⟨?_, fun x hx => by simp [Ar.step] at hx⟩
    simp only [Ar.step, Ar.setAttack]
    split
    · exact ⟨ha, hr, rfl, hrg, hre⟩
    · exact ⟨rateOf_pos ho hsr, hr, rfl, hrg, hre⟩
  | release s =>
    refine ⟨?_, fun x hx => by simp [Ar.step] at hx⟩
    simp only [Ar.step, Ar.setRelease]
    split
    · exact ⟨ha, hr, rfl, hrg, hre⟩
    · exact ⟨ha, rateOf_pos ho hsr, rfl, hrg, hre⟩
  | tRestart =>
    exact ⟨⟨ha, hr, rfl, hrg, by simp [Ar.step, Ar.restart]⟩, fun x hx => by simp [Ar.step] at hx⟩
  | frame =>
    simp only [Ar.step, Ar.next, Option.some.injEq]
    cases st with
    | stopped => exact ⟨⟨ha, hr, rfl, hrg, hre⟩, fun x hx => by subst hx; exact ⟨le_refl _, zero_le_one⟩⟩
    | attacking =>
      simp only
      refine ⟨?_, fun x hx => by subst hx; exact hrg⟩
      split
      · exact ⟨ha, hr, rfl, ⟨zero_le_one, le_refl _⟩, fun _ => one_pos⟩
      · rename_i hlt
        exact ⟨ha, hr, rfl, ⟨by simp only; linarith [hrg.1], by simp only; linarith⟩, by simp⟩
    | releasing =>
      have h1 := hre rfl
      have hp0 : 0 ≤ t ^ 3 * 1 := by positivity
      have hp1 : t ^ 3 * 1 ≤ 1 := by rw [mul_one]; exact pow_le_one₀ h1.le hrg.2
      simp only
      split
      · exact ⟨⟨ha, hr, rfl, ⟨le_refl _, zero_le_one⟩, by simp⟩, fun x hx => by subst hx; exact ⟨hp0, hp1⟩⟩
      · rename_i hlt
        refine ⟨⟨ha, hr, rfl, ⟨?_, ?_⟩, fun _ => ?_⟩, fun x hx => by subst hx; exact ⟨hp0, hp1⟩⟩
        · simp only; linarith
        · simp only; linarith
        · simp only; linarith

/-- C42: the output is between 0 and 1 in every history with times that are not negative. -/
theorem C42_range {a r : Rat} {sr : Nat} (ha : 0 ≤ a) (hr : 0 ≤ r) (hsr : 0 < sr) (ops : List ArOp) (ho : ∀ op ∈ ops, op.ok) :
    ∀ x ∈ (Ar.run sr ((Ar.new a r).init sr) ops).2.1, 0 ≤ x ∧ x ≤ 1 := by
  have key : ∀ (ops : List ArOp) (e : Ar), ArGood e → (∀ op ∈ ops, op.ok) → ∀ x ∈ (Ar.run sr e ops).2.1, 0 ≤ x ∧ x ≤ 1 := by
    intro ops
    induction ops with
    | nil => intro e _ _ x hx; simp [Ar.run] at hx
    | cons op ops ih =>
      intro e hg ho x hx
      have hs := ar_step_good hsr hg op (ho op (by simp))
      rw [Ar.run] at hx
      rcases List.mem_append.1 hx with hx | hx
      · exact hs.2 x (by simpa using hx)
      · exact ih _ hs.1 (fun op' h' => ho op' (List.mem_cons_of_mem _ h')) x hx
  exact key ops _ (ar_new_good ha hr hsr) ho

/-- The state after a history. -/
theorem ar_run_good {sr : Nat} (hsr : 0 < sr) : ∀ (ops : List ArOp) (e : Ar), ArGood e → (∀ op ∈ ops, op.ok) →
    ArGood (Ar.run sr e ops).1 := by
  intro ops
  induction ops with
  | nil => intro e h _; exact h
  | cons op ops ih =>
    intro e h ho
    exact ih _ (ar_step_good hsr h op (ho op (by simp))).1 fun op' h' => ho op' (List.mem_cons_of_mem _ h')

/-- The state after `n` frames. -/
def Ar.after (e : Ar) : Nat → Ar
  | 0 => e
  | n + 1 => (Ar.after e n).next.1

/-- The output of frame `n`. -/
def Ar.out (e : Ar) (n : Nat) : Rat := (e.after n).next.2.1

/-- Whether the envelope reports being done at frame `n`. -/
def Ar.doneAt (e : Ar) (n : Nat) : Bool := (e.after n).next.2.2

theorem ar_after_add (e : Ar) (m : Nat) : ∀ n, e.after (m + n) = (e.after m).after n := by
  intro n
  induction n with
  | zero => rfl
  | succ n ih => rw [← Nat.add_assoc, Ar.after, ih]; rfl

theorem ar_release {e : Ar} (hs : e.state = .releasing) (ht : 0 < e.t) (hr : 0 < e.releaseRate) (n : Nat) :
    e.out n = (max 0 (e.t - n * e.releaseRate)) ^ 3 * e.releaseScale ∧
    (e.doneAt n = true ↔ n * e.releaseRate < e.t ∧ e.t ≤ (n + 1) * e.releaseRate) := by
  have key : ∀ n : Nat, (e.after n = { e with t := e.t - n * e.releaseRate } ∧ n * e.releaseRate < e.t) ∨
      ((e.after n).state = .stopped ∧ e.t ≤ n * e.releaseRate) := by
    intro n
    induction n with
    | zero => left; simp [Ar.after, ht]
    | succ n ih =>
      have hc : ((n + 1 : Nat) : Rat) = (n : Rat) + 1 := by push_cast; ring
      rcases ih with ⟨h1, h2⟩ | ⟨h1, h2⟩
      · rw [Ar.after, h1]
        simp only [Ar.next, hs, hc]
        by_cases hge : e.t - n * e.releaseRate - e.releaseRate ≤ 0
        · right
          rw [if_pos hge]
          exact ⟨rfl, by linarith⟩
        · left
          rw [if_neg hge]
          have e1 : e.t - n * e.releaseRate - e.releaseRate = e.t - (n + 1) * e.releaseRate := by ring
          rw [e1] at hge ⊢
          exact ⟨rfl, by linarith⟩
      · right
        rw [Ar.after]
        have : (e.after n).next.1 = e.after n := by simp [Ar.next, h1]
        rw [this]
        refine ⟨h1, ?_⟩
        rw [hc]
        linarith
  rcases key n with ⟨h1, h2⟩ | ⟨h1, h2⟩
  · rw [Ar.out, Ar.doneAt, h1]
    rw [max_eq_right (by linarith)]
    simp only [Ar.next, hs]
    split
    · rename_i hle
      refine ⟨rfl, ?_⟩
      simp only [true_iff]
      exact ⟨h2, by linarith⟩
    · rename_i hle
      refine ⟨rfl, ?_⟩
      simp only [Bool.false_eq_true, false_iff, not_and, not_le]
      intro _
      linarith
  · rw [Ar.out, Ar.doneAt, max_eq_left (by linarith)]
    simp only [Ar.next, h1]
    refine ⟨by simp, ?_⟩
    simp only [Bool.false_eq_true, false_iff, not_and]
    intro h3
    linarith

/-- The attack: a line up to a frame at which the release starts from exactly 1. -/
theorem ar_attack {e : Ar} (hs : e.state = .attacking) (hr : 0 < e.attackRate) :
    ∃ k, 0 < k ∧ (∀ n < k, e.out n = e.t + n * e.attackRate ∧ e.doneAt n = false) ∧
      e.after k = { e with state := .releasing, t := 1, releaseScale := 1 } ∧
      1 ≤ e.t + k * e.attackRate ∧ (∀ n, 0 < n → n < k → e.t + n * e.attackRate < 1) := by
  obtain ⟨N, hN⟩ := exists_nat_gt ((1 - e.t) / e.attackRate)
  have hN' : 1 - e.t < N * e.attackRate := by rwa [div_lt_iff₀ hr] at hN
  have hex : ∃ n : Nat, 1 ≤ e.t + (n + 1 : Nat) * e.attackRate := ⟨N, by push_cast; linarith⟩
  classical
  have hmin : ∀ n : Nat, n < Nat.find hex → e.t + (n + 1 : Nat) * e.attackRate < 1 := fun n hn =>
    not_le.1 (Nat.find_min hex hn)
  have hafter : ∀ n, n ≤ Nat.find hex → e.after n = { e with t := e.t + n * e.attackRate } := by
    intro n
    induction n with
    | zero => intro _; simp [Ar.after]
    | succ n ih =>
      intro hn
      have h1 := hmin n (by omega)
      rw [Ar.after, ih (by omega)]
      simp only [Ar.next, hs]
      have e1 : e.t + n * e.attackRate + e.attackRate = e.t + (n + 1 : Nat) * e.attackRate := by push_cast; ring
      rw [e1, if_neg (not_le.2 h1)]
  refine ⟨Nat.find hex + 1, by omega, ?_, ?_, Nat.find_spec hex, ?_⟩
  · intro n hn
    rw [Ar.out, Ar.doneAt, hafter n (by omega)]
    simp [Ar.next, hs]
  · rw [Ar.after, hafter _ (le_refl _)]
    simp only [Ar.next, hs]
    have e1 : e.t + (Nat.find hex : Nat) * e.attackRate + e.attackRate = e.t + (Nat.find hex + 1 : Nat) * e.attackRate := by
      push_cast; ring
    have h2 := Nat.find_spec hex
    rw [e1, if_pos h2]
  · intro n h0 hn
    obtain ⟨m, rfl⟩ : ∃ m, n = m + 1 := ⟨n - 1, by omega⟩
    exact hmin m (by omega)

/-- C42: a trigger in any state reachable with times that are not negative, left alone: the output rises linearly for `k`
frames, is exactly 1 at frame `k`, then falls as the cube of a line to 0, and being done is reported at exactly one frame. -/
theorem C42_trigger {a r : Rat} {sr : Nat} (ha : 0 ≤ a) (hr : 0 ≤ r) (hsr : 0 < sr) (ops : List ArOp) (ho : ∀ op ∈ ops, op.ok) :
    let e := (Ar.run sr ((Ar.new a r).init sr) ops).1.restart
    ∃ k d, k ≤ d ∧ (∀ n < k, e.out n = e.t + n * e.attackRate) ∧ e.out k = 1 ∧
      (∀ n, e.out (k + n) = (max 0 (1 - n * e.releaseRate)) ^ 3) ∧
      (∀ n, d < n → e.out n = 0) ∧ (∀ n, e.doneAt n = true ↔ n = d) := by
  intro e
  have hg : ArGood e := by
    have := ar_run_good hsr ops _ (ar_new_good ha hr hsr) ho
    exact (ar_step_good hsr this .tRestart trivial).1
  have hs : e.state = .attacking := rfl
  obtain ⟨k, hk0, hk1, hk2, _, _⟩ := ar_attack hs hg.attack
  have hrel := ar_release (e := e.after k) (by rw [hk2]) (by rw [hk2]; exact one_pos) (by rw [hk2]; exact hg.release)
  have hk2t : (e.after k).t = 1 := by rw [hk2]
  have hk2r : (e.after k).releaseRate = e.releaseRate := by rw [hk2]
  have hk2s : (e.after k).releaseScale = 1 := by rw [hk2]
  simp only [hk2t, hk2r, hk2s, mul_one] at hrel
  have hout : ∀ n, e.out (k + n) = (e.after k).out n := fun n => by rw [Ar.out, Ar.out, ar_after_add]
  have hdone : ∀ n, e.doneAt (k + n) = (e.after k).doneAt n := fun n => by rw [Ar.doneAt, Ar.doneAt, ar_after_add]
  have hr0 := hg.release
  -- the last frame of the release
  obtain ⟨N, hN⟩ := exists_nat_gt (1 / e.releaseRate)
  have hN' : 1 < N * e.releaseRate := by rwa [div_lt_iff₀ hr0] at hN
  have hex : ∃ n : Nat, 1 ≤ (n + 1 : Nat) * e.releaseRate := ⟨N, by push_cast; linarith⟩
  obtain ⟨d, hspec, hmin⟩ : ∃ d : Nat, 1 ≤ (d + 1 : Nat) * e.releaseRate ∧ ∀ m < d, (m + 1 : Nat) * e.releaseRate < 1 := by
    classical
    exact ⟨Nat.find hex, Nat.find_spec hex, fun m hm => not_le.1 (Nat.find_min hex hm)⟩
  refine ⟨k, k + d, by omega, fun n hn => (hk1 n hn).1, ?_, ?_, ?_, ?_⟩
  · have := hout 0
    rw [Nat.add_zero] at this
    rw [this, (hrel 0).1]
    norm_num
  · intro n
    rw [hout, (hrel n).1]
  · intro n hn
    obtain ⟨m, rfl⟩ : ∃ m, n = k + m := ⟨n - k, by omega⟩
    rw [hout, (hrel m).1]
    have h3 : ((d + 1 : Nat) : Rat) ≤ m := by exact_mod_cast (by omega : d + 1 ≤ m)
    have := mul_le_mul_of_nonneg_right h3 hr0.le
    rw [max_eq_left (by linarith)]
    norm_num
  · intro n
    constructor
    · intro hd
      rcases Nat.lt_or_ge n k with h | h
      · rw [(hk1 n h).2] at hd
        simp at hd
      · obtain ⟨m, rfl⟩ : ∃ m, n = k + m := ⟨n - k, by omega⟩
        rw [hdone, (hrel m).2] at hd
        have h1 : d ≤ m := by
          by_contra hlt
          exact not_le.2 (hmin m (by omega)) (by push_cast; exact hd.2)
        rcases Nat.lt_or_ge d m with h' | h'
        · exfalso
          have h3 : ((d + 1 : Nat) : Rat) ≤ m := by exact_mod_cast h'
          have := mul_le_mul_of_nonneg_right h3 hr0.le
          linarith [hd.1]
        · omega
    · intro hn
      subst hn
      rw [hdone, (hrel _).2]
      refine ⟨?_, by push_cast at hspec; exact hspec⟩
      cases d with
      | zero => simp
      | succ j => exact hmin j (by omega)

-- attack in two frames, release in two
example : (Ar.run 2 ((Ar.new 1 1).init 2) [.tRestart, .frame, .frame, .frame, .frame, .frame]).2 =
    ([0, 1/2, 1, 1/8, 0], 1) := by decide +kernel

/-! ### C35 with envelopes -/

/-- C35 is violated for an envelope under a wrapper that processes frame by frame, such as `WrArParams`: the envelope is done at
frame 1 of the block, but reports frame 0, so the whole block is silenced. -/
theorem C35_frames_violated :
    let e := ((Asr.new 0 1).init 2)
    let e := { e with state := .releasing, t := 1 }
    (e.block 0 4).2.2 = [.done 1] ∧ (e.frames 4).2.2 = [.done 0] ∧ (e.block 0 4).2.1 = [1, 1/8, 0, 0] ∧
    (Dn.Gen.new.block 0 (e.frames 4).2.1 [.wrapped .freeParent (e.frames 4).2.2]).2 = [0, 0, 0, 0] := by decide +kernel

/-- C35 is violated for an envelope under `WrPreciseTiming`: processed in two parts because of a parameter change at frame 2, the
envelope is done at frame 3 of the block but reports frame 1, the frame in the second part. -/
theorem C35_parts_violated :
    let e := ((Asr.new 0 2).init 2)
    let e := { e with state := .releasing, t := 1 }
    (e.block 0 4).2.2 = [.done 3] ∧ (e.block 0 2).2.2 ++ ((e.block 0 2).1.block 0 2).2.2 = [.done 1] := by decide +kernel

/-- C35 is violated for `Envelope`, which always reports frame 0: the whole block in which it ends is silenced. -/
theorem C35_segments_violated :
    (match ((Seq.new 0 [⟨2, 4⟩] 1 false).init 1).restart.block 4 with
      | .ok r => some (r.2, (Dn.Gen.new.block (some 0) r.2.1 [.wrapped .freeParent r.2.2]).2)
      | .error _ => none) =
    some (([some 0, some 2, some 4, some 4], [.done 0]), [some 0, some 0, some 0, some 0]) := by decide +kernel

end Verif.Env
