import Verif.Model.Smooth
import Mathlib.Tactic.Linarith
import Mathlib.Tactic.FieldSimp
import Mathlib.Tactic.Ring
import Mathlib.Tactic.Positivity

/-!
# C32: parameter smoothing
-/

namespace Verif.Sm

/-! ### One ramp -/

/-- The state after `k` blocks of `bs` frames. -/
def afterBlocks (bs : Nat) (s : St) : Nat → St
  | 0 => s
  | k + 1 => (step (afterBlocks bs s k) (.block bs)).1

/-- What the unit generator receives at the start of block `k`. -/
def sent (bs : Nat) (s : St) (k : Nat) : Option F := (step (afterBlocks bs s k) (.block bs)).2

/-- The line from `a` to `b` in `dur` frames at frame `f`. -/
def line (a b : Rat) (dur f : Nat) : Rat := a + (b - a) * ((f : Rat) / dur)

theorem ramp_line {dur : Nat} (hd : 0 < dur) (a b : Rat) (el : Nat) :
    ramp (some a) (some b) dur el = some (line a b dur el) := by
  have : dur ≠ 0 := by omega
  simp only [ramp, F.ratio, if_neg this, F.sub, F.mul, F.add, line]
  congr 1
  ring

theorem line_end {dur : Nat} (hd : 0 < dur) (a b : Rat) : line a b dur dur = b := by
  have : (dur : Rat) ≠ 0 := by positivity
  simp only [line]
  field_simp
  ring

theorem after_ramp {bs dur : Nat} (hb : 0 < bs) (hd : 0 < dur) (a b : Rat) (k : Nat) :
    afterBlocks bs (.linear (some a) (some b) dur 0 false false) k =
      .linear (some a) (some b) dur (min (k * bs) dur) false (decide (dur + bs ≤ k * bs)) := by
  induction k with
  | zero =>
    simp only [afterBlocks, Nat.zero_mul, Nat.zero_min]
    congr 1
    symm
    rw [decide_eq_false_iff_not]
    omega
  | succ k ih =>
    rw [afterBlocks, ih]
    have e : (k + 1) * bs = k * bs + bs := Nat.succ_mul k bs
    rw [e]
    generalize k * bs = m
    simp only [step, next]
    by_cases h1 : dur + bs ≤ m
    · simp [h1]
      omega
    · have h1' : m < dur + bs := by omega
      simp only [Bool.not_false, bne_self_eq_false, Bool.and_false, Bool.false_eq_true, if_false, h1, decide_false]
      by_cases h2 : min m dur = dur
      · have h3 : dur ≤ m := by omega
        have h4 : min (m + bs) dur = dur := by omega
        simp [h4, h3]
      · have h3 : m < dur := by omega
        have h4 : min m dur = m := by omega
        simp [h4, show ¬ m = dur by omega, show ¬ dur ≤ m by omega]

/-- C32: a ramp from a settled value.  In the state of a finished (or fresh) linear smoothing at the value `a`,
a new value `b` is set; then at every block start up to and including the first one at or after the ramp
time the unit generator receives the point on the line from `a` to `b`, later nothing more. -/
theorem C32_ramp_partial {bs dur : Nat} (hb : 0 < bs) (hd : 0 < dur) (x : F) (el : Nat) (a b : Rat) (k : Nat) :
    sent bs (step (.linear x (some a) dur el false true) (.set (some b))).1 k =
      if k * bs < dur + bs then some (some (line a b dur (min (k * bs) dur))) else none := by
  have e : (step (.linear x (some a) dur el false true) (.set (some b))).1 =
      .linear (some a) (some b) dur 0 false false := by simp [step, set]
  rw [e, sent, after_ramp hb hd]
  by_cases h : k * bs < dur + bs
  · simp only [step, next, if_pos h, ramp_line hd]
    have h' : ¬ dur + bs ≤ k * bs := by omega
    simp only [h', decide_false, Bool.not_false, bne_self_eq_false, Bool.and_false, Bool.false_eq_true, if_false]
    split <;> rfl
  · have h' : dur + bs ≤ k * bs := by omega
    simp [step, next, h, h']

/-- C32: the ramp arrives at exactly the target at the first block start at or after the ramp time, and
then no more updates are sent. -/
theorem C32_arrives {bs dur : Nat} (hb : 0 < bs) (hd : 0 < dur) (x : F) (el : Nat) (a b : Rat) (k : Nat) (h : dur ≤ k * bs) :
    (k * bs < dur + bs → sent bs (step (.linear x (some a) dur el false true) (.set (some b))).1 k = some (some b)) ∧
    (dur + bs ≤ k * bs → sent bs (step (.linear x (some a) dur el false true) (.set (some b))).1 k = none) := by
  rw [C32_ramp_partial hb hd]
  constructor
  · intro h1
    rw [if_pos h1, show min (k * bs) dur = dur by omega, line_end hd]
  · intro h1
    rw [if_neg (by omega)]

theorem line_mono {dur : Nat} (hd : 0 < dur) {a b : Rat} (hab : a ≤ b) {f g : Nat} (h : f ≤ g) :
    line a b dur f ≤ line a b dur g := by
  have hd' : (0 : Rat) < dur := by exact_mod_cast hd
  have hfg : (f : Rat) / dur ≤ (g : Rat) / dur := div_le_div_of_nonneg_right (by exact_mod_cast h) hd'.le
  have := mul_le_mul_of_nonneg_left hfg (sub_nonneg.2 hab)
  simp only [line]
  linarith

theorem line_anti {dur : Nat} (hd : 0 < dur) {a b : Rat} (hab : b ≤ a) {f g : Nat} (h : f ≤ g) :
    line a b dur g ≤ line a b dur f := by
  have hd' : (0 : Rat) < dur := by exact_mod_cast hd
  have hfg : (f : Rat) / dur ≤ (g : Rat) / dur := div_le_div_of_nonneg_right (by exact_mod_cast h) hd'.le
  have := mul_le_mul_of_nonneg_left hfg (sub_nonneg.2 hab)
  simp only [line]
  linarith

theorem line_start {dur : Nat} (a b : Rat) : line a b dur 0 = a := by simp [line]

/-- `x` lies between `a` and `b`. -/
def Between (a b x : Rat) : Prop := (a ≤ x ∧ x ≤ b) ∨ (b ≤ x ∧ x ≤ a)

theorem line_between {dur : Nat} (hd : 0 < dur) (a b : Rat) {f g : Nat} (h : f ≤ g) (hg : g ≤ dur) :
    Between (line a b dur f) b (line a b dur g) := by
  rcases le_total a b with hab | hab
  · left
    refine ⟨line_mono hd hab h, ?_⟩
    have := line_mono hd hab hg
    rwa [line_end hd] at this
  · right
    refine ⟨?_, line_anti hd hab h⟩
    have := line_anti hd hab hg
    rwa [line_end hd] at this

/-- C32: the values sent during a ramp go steadily from the start to the target: each one lies between the
one before and the target, and the first one is the start. -/
theorem C32_monotone {bs dur : Nat} (hb : 0 < bs) (hd : 0 < dur) (x : F) (el : Nat) (a b : Rat) :
    sent bs (step (.linear x (some a) dur el false true) (.set (some b))).1 0 = some (some a) ∧
    ∀ k v w, sent bs (step (.linear x (some a) dur el false true) (.set (some b))).1 k = some (some v) →
      sent bs (step (.linear x (some a) dur el false true) (.set (some b))).1 (k + 1) = some (some w) →
      Between v b w ∧ Between a b w := by
  constructor
  · rw [C32_ramp_partial hb hd, if_pos (by omega)]
    simp [line_start]
  · intro k v w hv hw
    rw [C32_ramp_partial hb hd] at hv hw
    split at hv
    · split at hw
      · simp only [Option.some.injEq] at hv hw
        rw [← hv, ← hw]
        have e : (k + 1) * bs = k * bs + bs := Nat.succ_mul k bs
        rw [e]
        refine ⟨line_between hd a b (by omega) (by omega), ?_⟩
        have := line_between hd a b (f := 0) (g := min (k * bs + bs) dur) (by omega) (by omega)
        rwa [line_start] at this
      · simp at hw
    · simp at hv

example : (run (.linear (some 0) (some 2) 10 0 false true)
    [.set (some 12), .block 4, .block 4, .block 4, .block 4, .block 4]).2 =
    [none, some (some 2), some (some 6), some (some 10), some (some 12), none] := by decide +kernel

/-! ### Histories -/

/-- A ramp is under way. -/
def St.running : St → Bool
  | .none _ => false
  | .linear _ _ _ _ _ done => !done

/-- A history in which ramp times are not zero, set values are finite and in the range from `lo` to `hi`, and the
smoothing is not changed while a ramp is under way. -/
def Calm (lo hi : Rat) : St → List Op → Prop
  | _, [] => True
  | s, op :: ops =>
    (match op with
      | .set v => ∃ x, v = some x ∧ lo ≤ x ∧ x ≤ hi
      | .smoothNone => s.running = false
      | .smoothLinear d _ => 0 < d ∧ s.running = false
      | .block _ => True) ∧ Calm lo hi (step s op).1 ops

/-- The range invariant. -/
def Good (lo hi : Rat) : St → Prop
  | .none v => ∃ x, v = some x ∧ lo ≤ x ∧ x ≤ hi
  | .linear a b dur el _ done => ∃ x y, a = some x ∧ b = some y ∧ lo ≤ x ∧ x ≤ hi ∧ lo ≤ y ∧ y ≤ hi ∧ 0 < dur ∧ el ≤ dur ∧
      (done = true → el = dur ∨ x = y)

theorem line_range {lo hi a b : Rat} {dur el : Nat} (hd : 0 < dur) (he : el ≤ dur) (ha : lo ≤ a ∧ a ≤ hi)
    (hb : lo ≤ b ∧ b ≤ hi) : lo ≤ line a b dur el ∧ line a b dur el ≤ hi := by
  have := line_between hd a b (f := 0) (g := el) (by omega) he
  rw [line_start] at this
  rcases this with ⟨h1, h2⟩ | ⟨h1, h2⟩
  · exact ⟨le_trans ha.1 h1, le_trans h2 hb.2⟩
  · exact ⟨le_trans hb.1 h1, le_trans h2 ha.2⟩

theorem good_step {lo hi : Rat} {s : St} (hg : Good lo hi s) (op : Op) (ops : List Op) (hc : Calm lo hi s (op :: ops)) :
    Good lo hi (step s op).1 ∧ ∀ v, (step s op).2 = some v → ∃ x, v = some x ∧ lo ≤ x ∧ x ≤ hi := by
  cases s with
  | none c =>
    cases op with
    | set v => exact ⟨hg, fun w hw => by simp only [step, set, Option.some.injEq] at hw; subst hw; exact hc.1⟩
    | smoothNone => exact ⟨hg, fun w hw => by simp [step] at hw⟩
    | smoothLinear d ar =>
      obtain ⟨x, hx, h1, h2⟩ := hg
      exact ⟨⟨x, x, hx, hx, h1, h2, h1, h2, hc.1.1, by omega, fun _ => .inr rfl⟩, fun w hw => by simp [step] at hw⟩
    | block bs => exact ⟨hg, fun w hw => by simp [step, next] at hw⟩
  | linear a b dur el ar done =>
    obtain ⟨x, y, rfl, rfl, hx1, hx2, hy1, hy2, hd, he, hdone⟩ := hg
    have hr := line_range hd he ⟨hx1, hx2⟩ ⟨hy1, hy2⟩
    cases op with
    | set v =>
      obtain ⟨z, rfl, hz1, hz2⟩ := hc.1
      refine ⟨?_, fun w hw => by simp [step, set] at hw⟩
      simp only [step, set]
      cases done with
      | true => exact ⟨y, z, rfl, rfl, hy1, hy2, hz1, hz2, hd, by omega, fun h => by simp at h⟩
      | false =>
        refine ⟨line x y dur el, z, by simp [ramp_line hd], rfl, hr.1, hr.2, hz1, hz2, hd, by omega, fun h => by simp at h⟩
    | smoothNone =>
      refine ⟨?_, fun w hw => by simp [step] at hw⟩
      simp only [step, smoothNone, ramp_line hd]
      exact ⟨_, rfl, hr.1, hr.2⟩
    | smoothLinear d ar' =>
      have h := hc.1
      simp only [St.running, Bool.not_eq_false'] at h
      refine ⟨?_, fun w hw => by simp [step] at hw⟩
      simp only [step, smoothLinear, h.2, if_true]
      exact ⟨y, y, rfl, rfl, hy1, hy2, hy1, hy2, h.1, by omega, fun _ => .inr rfl⟩
    | block bs =>
      simp only [step, next, bne_self_eq_false, Bool.and_false, Bool.false_eq_true, if_false, ramp_line hd]
      cases done with
      | true =>
        simp only [if_true]
        exact ⟨⟨x, y, rfl, rfl, hx1, hx2, hy1, hy2, hd, he, hdone⟩, fun w hw => by simp at hw⟩
      | false =>
        simp only [Bool.false_eq_true, if_false]
        refine ⟨?_, ?_⟩
        · split
          · rename_i h
            exact ⟨x, y, rfl, rfl, hx1, hx2, hy1, hy2, hd, he, fun _ => .inl h⟩
          · split
            · exact ⟨x, y, rfl, rfl, hx1, hx2, hy1, hy2, hd, by omega, fun h => by simp at h⟩
            · exact ⟨x, y, rfl, rfl, hx1, hx2, hy1, hy2, hd, by omega, fun h => by simp at h⟩
        · intro w hw
          have : some (line x y dur el) = w := by
            split at hw
            · simpa using hw
            · split at hw <;> simpa using hw
          exact ⟨_, this.symm, hr.1, hr.2⟩

/-- C32: whatever the history, as long as ramp times are not zero and the smoothing is not changed while a ramp is
under way, the unit generator only ever receives finite values in the range of the values set and the value 0 the
wrapper starts with. -/
theorem C32_range_partial {lo hi : Rat} (h0 : lo ≤ 0 ∧ 0 ≤ hi) (ops : List Op) (hc : Calm lo hi .init ops) :
    ∀ v, some v ∈ (run .init ops).2 → ∃ x, v = some x ∧ lo ≤ x ∧ x ≤ hi := by
  have key : ∀ (ops : List Op) (s : St), Good lo hi s → Calm lo hi s ops →
      ∀ v, some v ∈ (run s ops).2 → ∃ x, v = some x ∧ lo ≤ x ∧ x ≤ hi := by
    intro ops
    induction ops with
    | nil => intro s _ _ v hv; simp [run] at hv
    | cons op ops ih =>
      intro s hg hc v hv
      have hs := good_step hg op ops hc
      rw [run] at hv
      rcases List.mem_cons.1 hv with hv | hv
      · exact hs.2 v hv.symm
      · exact ih _ hs.1 hc.2 v hv
  exact key ops _ ⟨0, rfl, h0.1, h0.2⟩ hc

example : Calm 0 9 .init [.set (some 5), .smoothLinear 8 false, .set (some 9), .block 4, .block 4, .block 4, .block 4,
    .smoothNone, .set (some 3)] := by
  refine ⟨⟨5, rfl, by norm_num, by norm_num⟩, ⟨by omega, rfl⟩, ⟨9, rfl, by norm_num, by norm_num⟩, trivial, trivial,
    trivial, trivial, by decide +kernel, ⟨3, rfl, by norm_num, by norm_num⟩, trivial⟩

/-- Sets of finite values and blocks. -/
def Plain : Op → Prop
  | .set v => ∃ x, v = some x
  | .block _ => True
  | _ => False

/-- What an observer of the calls knows: the value the unit generator has, the value last set, and the value last set when
the last block was processed. -/
structure Seen where
  value : Rat
  target : Rat
  heading : Rat

/-- The observer's view after a call with the given output. -/
def Seen.after (o : Seen) (op : Op) (out : Option F) : Seen :=
  match op, out with
  | .set (some v), _ => { o with target := v }
  | .block _, some (some w) => { o with value := w, heading := o.target }
  | .block _, _ => { o with heading := o.target }
  | _, _ => o

/-- The observer's view after several calls. -/
def Seen.run (o : Seen) (s : St) : List Op → Seen
  | [] => o
  | op :: ops => Seen.run (o.after op (step s op).2) (step s op).1 ops

/-- How the state and the observations fit together. -/
def Fits (o : Seen) : St → Prop
  | .none _ => False
  | .linear a b dur el _ done => ∃ x, a = some x ∧ b = some o.target ∧ 0 < dur ∧ el ≤ dur ∧
      if done then o.value = o.target ∧ o.heading = o.target else Between o.value o.heading (line x o.target dur el)

theorem between_self (a : Rat) : Between a a a := .inl ⟨le_refl a, le_refl a⟩

theorem fits_step {o : Seen} {s : St} (h : Fits o s) (op : Op) (hp : Plain op) :
    Fits (o.after op (step s op).2) (step s op).1 ∧
    ∀ v, (step s op).2 = some v → ∃ w, v = some w ∧ Between o.value o.heading w := by
  cases s with
  | none c => exact h.elim
  | linear a b dur el ar done =>
    obtain ⟨x, rfl, rfl, hd, he, hr⟩ := h
    cases op with
    | set v =>
      obtain ⟨z, rfl⟩ := hp
      refine ⟨?_, fun v hv => by simp [step, set] at hv⟩
      simp only [step, set, Seen.after]
      cases done with
      | true =>
        simp only [if_true] at hr ⊢
        refine ⟨o.target, rfl, rfl, hd, by omega, ?_⟩
        simp only [Bool.false_eq_true, if_false, line_start]
        rw [hr.1, hr.2]
        exact between_self _
      | false =>
        simp only [Bool.false_eq_true, if_false] at hr ⊢
        refine ⟨line x o.target dur el, ramp_line hd _ _ _, rfl, hd, by omega, ?_⟩
        simp only [Bool.false_eq_true, if_false, line_start]
        exact hr
    | smoothNone => exact hp.elim
    | smoothLinear d ar' => exact hp.elim
    | block bs =>
      cases done with
      | true =>
        simp only [if_true] at hr
        simp only [step, next, bne_self_eq_false, Bool.and_false, Bool.false_eq_true, if_false, if_true, Seen.after]
        refine ⟨⟨x, rfl, rfl, hd, he, ?_⟩, fun v hv => by simp at hv⟩
        simp only [if_true]
        exact ⟨hr.1, trivial⟩
      | false =>
        simp only [Bool.false_eq_true, if_false] at hr
        simp only [step, next, bne_self_eq_false, Bool.and_false, Bool.false_eq_true, if_false, ramp_line hd]
        by_cases h1 : el = dur
        · simp only [if_pos h1, Seen.after]
          refine ⟨⟨x, rfl, rfl, hd, he, ?_⟩, ?_⟩
          · simp only [if_true]
            rw [h1, line_end hd]
            exact ⟨rfl, trivial⟩
          · intro v hv
            simp only [Option.some.injEq] at hv
            exact ⟨_, hv.symm, hr⟩
        · simp only [if_neg h1]
          cases ar with
          | true =>
            simp only [if_true, Seen.after]
            refine ⟨⟨x, rfl, rfl, hd, by omega, ?_⟩, ?_⟩
            · simp only [Bool.false_eq_true, if_false]
              exact line_between hd _ _ (by omega) (by omega)
            · intro v hv
              simp only [Option.some.injEq] at hv
              exact ⟨_, hv.symm, hr⟩
          | false =>
            simp only [Bool.false_eq_true, if_false, Seen.after]
            refine ⟨⟨x, rfl, rfl, hd, by omega, ?_⟩, ?_⟩
            · simp only [Bool.false_eq_true, if_false]
              exact line_between hd _ _ (by omega) (by omega)
            · intro v hv
              simp only [Option.some.injEq] at hv
              exact ⟨_, hv.symm, hr⟩

theorem fits_run {ops : List Op} : ∀ {o : Seen} {s : St}, Fits o s → (∀ op ∈ ops, Plain op) →
    Fits (o.run s ops) (run s ops).1 := by
  induction ops with
  | nil => intro o s h _; exact h
  | cons op ops ih =>
    intro o s h hp
    simp only [Seen.run, run]
    exact ih (fits_step h op (hp op (by simp))).1 fun op' h' => hp op' (List.mem_cons_of_mem _ h')

/-- C32, no jumps: starting from linear smoothing settled at `a`, after any history of set values and blocks, the value sent
next lies between the value the unit generator has and the value it was heading for; in particular a new value set in the
middle of a ramp does not make the parameter jump.

Missing: changes of the smoothing between them, for which see the `_violated` theorems. -/
theorem C32_no_jump_partial {dur : Nat} (hd : 0 < dur) (a : Rat) (ar : Bool) (ops : List Op) (hp : ∀ op ∈ ops, Plain op)
    (bs : Nat) (v : F)
    (hv : (step (run (.linear (some a) (some a) dur 0 ar true) ops).1 (.block bs)).2 = some v) :
    ∃ w, v = some w ∧
      Between ((Seen.mk a a a).run (.linear (some a) (some a) dur 0 ar true) ops).value
        ((Seen.mk a a a).run (.linear (some a) (some a) dur 0 ar true) ops).heading w := by
  have h0 : Fits ⟨a, a, a⟩ (.linear (some a) (some a) dur 0 ar true) := ⟨a, rfl, rfl, hd, by omega, by simp⟩
  exact (fits_step (fits_run h0 hp) (.block bs) trivial).2 v hv

-- a value set in the middle of a ramp: the next value continues the old ramp, then it turns
example : (run (.linear (some 0) (some 0) 4 0 false true)
    [.set (some 8), .block 2, .block 2, .set (some 0), .block 2, .block 2]).2 =
    [none, some (some 0), some (some 4), none, some (some 8), some (some 4)] := by decide +kernel

/-! ### Violations -/

/-- C32 is violated: values set before the smoothing is turned on are not remembered, so the first ramp starts at 0 instead
of the value 10 the parameter has. -/
theorem C32_first_ramp_violated :
    (run .init [.set (some 10), .smoothLinear 4 false, .set (some 20), .block 2]).2 =
      [some (some 10), none, none, some (some 0)] := by decide +kernel

/-- C32 is violated: with a ramp time below one frame the unit generator receives a value that is not a number, and never the
value set. -/
theorem C32_zero_time_violated (n bs : Nat) :
    (run .init (.smoothLinear 0 false :: .set (some 1) :: .block bs :: List.replicate n (.block bs))).2 =
      none :: none :: some none :: List.replicate n none := by
  have key : ∀ n, (run (.linear (some 0) (some 1) 0 0 false true) (List.replicate n (.block bs))).2 = List.replicate n none := by
    intro n
    induction n with
    | zero => rfl
    | succ n ih =>
      rw [List.replicate_succ, List.replicate_succ, run]
      have e : step (.linear (some 0) (some 1) 0 0 false true) (.block bs) =
        (.linear (some 0) (some 1) 0 0 false true, none) := by simp [step, next]
      rw [e, ih]
  simp only [run, St.init, step, smoothLinear, set, next, if_true, bne_self_eq_false, Bool.and_false, Bool.false_eq_true,
    if_false]
  rw [key]
  rfl

/-- C32 is violated: changing the ramp time while a ramp is under way ends the ramp; the target is never reached. -/
theorem C32_change_stops_violated (n : Nat) :
    (run .init (.smoothLinear 4 false :: .set (some 8) :: .block 2 :: .smoothLinear 6 false ::
      List.replicate n (.block 2))).2 = none :: none :: some (some 0) :: none :: List.replicate n none := by
  have key : ∀ n, (run (.linear (some 4) (some 8) 6 2 false true) (List.replicate n (.block 2))).2 = List.replicate n none := by
    intro n
    induction n with
    | zero => rfl
    | succ n ih =>
      rw [List.replicate_succ, List.replicate_succ, run]
      have e : step (.linear (some 4) (some 8) 6 2 false true) (.block 2) =
        (.linear (some 4) (some 8) 6 2 false true, none) := by simp [step, next]
      rw [e, ih]
  have e1 : run .init [.smoothLinear 4 false, .set (some 8), .block 2, .smoothLinear 6 false] =
    (.linear (some 4) (some 8) 6 2 false true, [none, none, some (some 0), none]) := by decide +kernel
  have app : ∀ (xs ys : List Op) (s : St), (run s (xs ++ ys)).2 = (run s xs).2 ++ (run (run s xs).1 ys).2 := by
    intro xs
    induction xs with
    | nil => intro ys s; rfl
    | cons x xs ih => intro ys s; simp [run, ih]
  have := app [.smoothLinear 4 false, .set (some 8), .block 2, .smoothLinear 6 false] (List.replicate n (.block 2)) .init
  rw [e1, key] at this
  exact this

/-- C32 is violated: after such a change, turning smoothing off and on again makes the next ramp start at 12, above every
value ever set. -/
theorem C32_change_jumps_violated :
    (run .init [.smoothLinear 8 false, .set (some 8), .block 4, .smoothLinear 2 false, .smoothNone,
      .smoothLinear 2 false, .set (some 0), .block 4]).2 =
      [none, none, some (some 0), none, none, none, none, some (some 12)] := by decide +kernel

/-- C32 is violated: smoothing at audio rate moves one frame per block, so after the ramp time of 4 frames the value is 1/4 of
the way. -/
theorem C32_audio_rate_violated :
    (run .init [.smoothLinear 4 true, .set (some 8), .block 4, .block 4]).2 =
      [none, none, some (some 0), some (some 2)] := by decide +kernel

/-- The values sent when `next` is asked at each frame of a list, as the frame-by-frame branch does (smooth_params.rs
163–168). -/
def askedAt (bs : Nat) : St → List Nat → St × List F
  | s, [] => (s, [])
  | s, f :: fs => ((askedAt bs (next bs f s).1 fs).1, (next bs f s).2.toList ++ (askedAt bs (next bs f s).1 fs).2)

theorem askedAt_later (bs : Nat) (a b : F) (dur el : Nat) (done : Bool) (fs : List Nat) (h : 0 ∉ fs) :
    askedAt bs (.linear a b dur el false done) fs = (.linear a b dur el false done, []) := by
  induction fs with
  | nil => rfl
  | cons f fs ih =>
    have hf : f ≠ 0 := fun e => h (by simp [e])
    have e : next bs f (.linear a b dur el false done) = (.linear a b dur el false done, Option.none) := by
      simp [next, hf]
    rw [askedAt, e]
    simp [ih (fun m => h (by simp [m]))]

/-- C32, within a block: however many frames of a block a block-rate parameter is asked at, it moves and sends once, at the
first frame, and what it sends is what a whole block sends. -/
theorem C32_once (bs : Nat) (a b : F) (dur el : Nat) (done : Bool) (fs : List Nat) (h : 0 ∉ fs) :
    (askedAt bs (.linear a b dur el false done) (0 :: fs)).1 = (step (.linear a b dur el false done) (.block bs)).1 ∧
      (askedAt bs (.linear a b dur el false done) (0 :: fs)).2 =
        (step (.linear a b dur el false done) (.block bs)).2.toList ∧
      (askedAt bs (.linear a b dur el false done) (0 :: fs)).2.length ≤ 1 := by
  have e : ∃ el' done', (next bs 0 (.linear a b dur el false done)).1 = .linear a b dur el' false done' := by
    simp only [next]
    split
    · exact ⟨el, done, rfl⟩
    · split
      · exact ⟨el, done, rfl⟩
      · split
        · exact ⟨el, true, rfl⟩
        · simp
  obtain ⟨el', done', e⟩ := e
  rw [askedAt, e, askedAt_later bs a b dur el' done' fs h]
  refine ⟨by simp [step, e], by simp [step], ?_⟩
  cases (next bs 0 (.linear a b dur el false done)).2 <;> simp

/-- C32, within a block: an audio-rate ramp sends one value per frame it is asked at, the points of the straight line one
frame apart, whatever the numbers of the frames. -/
theorem C32_each_frame (bs : Nat) {dur : Nat} (hd : 0 < dur) (a b : Rat) (fs : List Nat) :
    ∀ el, el + fs.length ≤ dur →
      (askedAt bs (.linear (some a) (some b) dur el true false) fs).2 =
        (List.range' el fs.length).map fun f => some (line a b dur f) := by
  induction fs with
  | nil => intro el _; rfl
  | cons f fs ih =>
    intro el h
    have hl : el ≠ dur := by simp at h; omega
    have e : next bs f (.linear (some a) (some b) dur el true false) =
        (.linear (some a) (some b) dur (el + 1) true false, some (ramp (some a) (some b) dur el)) := by
      simp [next, hl]
    rw [askedAt, e]
    simp only [Option.toList_some, List.length_cons, List.range'_succ, List.map_cons]
    rw [ih (el + 1) (by simp at h; omega), ramp_line hd]
    rfl

/-- A ramp over four frames asked at the four frames of a block: at block rate one value, at audio rate four. -/
example : (askedAt 4 (.linear (some 0) (some 8) 4 0 false false) [0, 1, 2, 3]).2 = [some 0] ∧
    (askedAt 4 (.linear (some 0) (some 8) 4 0 true false) [0, 1, 2, 3]).2 = [some 0, some 2, some 4, some 6] := by
  decide +kernel

end Verif.Sm
