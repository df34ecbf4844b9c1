import Verif.Lemmas.Events

/-!
# C18–C24: scheduled parameter changes and the clock

Specification vocabulary (independent of the queue): the frame at which a change is due
(`EventSpec.target`), whether its node and token are available in a block (`EventSpec.Available`),
and the number of changes received recently (`EventSpec.received`).
-/

namespace Verif
open TimeSpec EventSpec

namespace EventSpec
variable {V S : Type}

/-- The absolute frame at which a change received in block `k` is due: "at once" changes are due at
the start of the block, absolute times at ⌊t·rate⌋, relative times ⌊t·rate⌋ frames after the start
of the block in which they are received. -/
def target (c : GenCfg) (k : Nat) (e : Event V S) : Nat :=
  match e.time with
  | none => k * c.bs
  | some ⟨s, true⟩ => samplesOf c.sr s
  | some ⟨s, false⟩ => k * c.bs + samplesOf c.sr s

/-- The sample rate divides the tick rate (true for all common rates), or the time is not relative. -/
def ExactTime (c : GenCfg) (e : Event V S) : Prop :=
  c.sr ∣ 282240000 ∨ ∀ t, e.time = some t → t.absolute = true

/-- In block `b` the node of the change is running and its token, if any, is activated. -/
def Available (ins : Nat → BlockIn V S) (b : Nat) (ch : Change V S) : Prop :=
  ch.key ∈ (ins b).keys ∧ ∀ t, ch.token = some t → (ins b).active t = true

/-- Number of changes received in the `n` blocks before block `b`. -/
def received (ins : Nat → BlockIn V S) (b : Nat) : Nat → Nat
  | 0 => 0
  | n + 1 => received ins b n + (if n < b then (ins (b - 1 - n)).new.length else 0)

/-- The waiting queue can not overflow in block `k`: all changes received in the retention window
fit. -/
def Room (c : GenCfg) (ins : Nat → BlockIn V S) (k : Nat) : Prop :=
  received ins k (c.keep + 2) + (ins k).new.length ≤ c.cap

/-- Change `ch` is applied in block `b` with the given delay within the block. -/
def AppliedIn (c : GenCfg) (ins : Nat → BlockIn V S) (b : Nat) (ch : Change V S) (delay : Nat) :
    Prop :=
  ∃ out, outAt c ins b = .ok out ∧ ∃ a ∈ out, a.change = ch ∧ a.delay = delay

end EventSpec

section
variable {V S : Type} {c : GenCfg} {ins : Nat → BlockIn V S}

theorem mul_blockTicks (hd : c.sr ∣ 282240000) :
    blockTicks c * c.sr = c.bs * 282240000 := by
  unfold blockTicks
  exact Nat.div_mul_cancel (Dvd.dvd.mul_left hd _)

theorem samples_after (hd : c.sr ∣ 282240000) (n j : Nat) :
    (n - j * blockTicks c) * c.sr / 282240000 = n * c.sr / 282240000 - j * c.bs := by
  rw [Nat.sub_mul, Nat.mul_assoc, mul_blockTicks hd, ← Nat.mul_assoc,
    Nat.mul_comm (j * c.bs), Nat.sub_mul_div]

theorem seen_time_abs {e : Event V S} {s : Seconds} (h : e.time = some ⟨s, true⟩) (j : Nat) :
    (seen c e j).time = some ⟨s, true⟩ := by
  induction j with
  | zero => exact h
  | succ j ih => rw [seen_succ]; simp [nextE, ih, nextT]

theorem seen_time_none {e : Event V S} (h : e.time = none) (j : Nat) :
    (seen c e j).time = none := by
  induction j with
  | zero => exact h
  | succ j ih => rw [seen_succ]; simp [nextE, ih]

theorem seen_time_rel {e : Event V S} {s : Seconds} (h : e.time = some ⟨s, false⟩)
    (j : Nat) : ∃ s', (seen c e j).time = some ⟨s', false⟩ ∧
      ticks s' = ticks s - j * blockTicks c := by
  induction j with
  | zero => exact ⟨s, h, by simp⟩
  | succ j ih =>
    obtain ⟨s', h', t'⟩ := ih
    refine ⟨fromTicks (ticks s' - blockTicks c), ?_, ?_⟩
    · rw [seen_succ]; simp [nextE, h', nextT]
    · rw [ticks_fromTicks, t', Nat.sub_sub, Nat.add_mul, Nat.one_mul]

/-- The remaining time computed in block `k + j` is the distance to the target frame. -/
theorem due_eq_target {e : Event V S} (hx : ExactTime c e) (k j : Nat) :
    dueE c ((k + j) * c.bs) (seen c e j) = target c k e - (k + j) * c.bs := by
  rcases ht : e.time with _ | ⟨s, ab⟩
  · simp only [dueE, seen_time_none ht, target, ht]
    rw [Nat.add_mul]; omega
  · cases ab
    · obtain ⟨s', h', t'⟩ := seen_time_rel (c := c) ht j
      have hd : c.sr ∣ 282240000 := by
        rcases hx with h | h
        · exact h
        · exact absurd (h _ ht) (by simp)
      simp only [dueE, h', target, ht, dueT, samplesOf, t', samples_after hd]
      rw [Nat.add_mul]; simp only [Bool.false_eq_true, if_false]; omega
    · simp only [dueE, seen_time_abs ht, target, ht, dueT, if_true]

theorem tokenOk_iff (b : Nat) (ch : Change V S) :
    tokenOk ((ins b).env c b) ch = true ↔ ∀ t, ch.token = some t → (ins b).active t = true := by
  unfold tokenOk BlockIn.env
  cases ch.token <;> simp

theorem readyAt_iff (hc : CfgOk c) {e : Event V S} (hx : ExactTime c e) (k j : Nat) :
    readyAt c ins e k j ↔
      Available ins (k + j) e.change ∧ target c k e < (k + j + 1) * c.bs := by
  have hb := hc.bs_pos
  have := due_eq_target hx k j
  simp only [readyAt, readyE, Available, tokenOk_iff, seen_change]
  rw [show ((ins (k + j)).env c (k + j)).clock = (k + j) * c.bs from rfl, this]
  rw [show ((ins (k + j)).env c (k + j)).keys = (ins (k + j)).keys from rfl]
  rw [Nat.add_mul (k + j) 1]
  constructor
  · rintro ⟨h1, h2, h3⟩; exact ⟨⟨h3, h1⟩, by omega⟩
  · rintro ⟨⟨h3, h1⟩, h2⟩; exact ⟨h1, by omega, h3⟩

theorem queue_age_count (b w : Nat) :
    (queueP c ins b).countP (fun x => x.2 = w) ≤
      if w < b then (ins (b - 1 - w)).new.length else 0 := by
  induction b generalizing w with
  | zero => simp [queueP]
  | succ b ih =>
    simp only [queueP, phaseQ, List.countP_append]
    have hnew : (((ins b).new.filterMap (keepN c ((ins b).env c b))).take
        (c.cap - ((queueP c ins b).filterMap (keep1 c ((ins b).env c b))).length)).countP
          (fun x => x.2 = w) ≤ if w = 0 then (ins b).new.length else 0 := by
      split
      · refine le_trans List.countP_le_length ?_
        refine le_trans (List.Sublist.length_le (List.take_sublist _ _)) ?_
        exact List.length_filterMap_le _ _
      · rw [Nat.le_zero, List.countP_eq_zero]
        intro x hx
        have hx := List.mem_of_mem_take hx
        simp only [List.mem_filterMap, keepN] at hx
        obtain ⟨e, _, he⟩ := hx
        split at he
        · simp at he
        · simp only [Option.some.injEq] at he
          subst he
          simp; omega
    cases w with
    | zero =>
      have h0 : ((queueP c ins b).filterMap (keep1 c ((ins b).env c b))).countP
          (fun x => x.2 = 0) = 0 := by
        rw [List.countP_eq_zero]
        intro x hx
        simp only [List.mem_filterMap, keep1] at hx
        obtain ⟨e, _, he⟩ := hx
        split at he
        · simp at he
        · split at he
          · simp at he
          · simp only [Option.some.injEq] at he
            subst he
            simp
      simp only [if_true] at hnew
      simp only [Nat.zero_lt_succ, if_true, Nat.add_sub_cancel, Nat.sub_zero]
      omega
    | succ w =>
      simp only [Nat.succ_ne_zero, if_false] at hnew
      have hold : ((queueP c ins b).filterMap (keep1 c ((ins b).env c b))).countP
          (fun x => x.2 = w + 1) ≤ (queueP c ins b).countP (fun x => x.2 = w) := by
        generalize queueP c ins b = q
        induction q with
        | nil => simp
        | cons x q ihq =>
          rw [List.filterMap_cons, List.countP_cons]
          cases hk : keep1 c ((ins b).env c b) x with
          | none => simp only; split <;> omega
          | some y =>
            have hy : y.2 = x.2 + 1 := by
              simp only [keep1] at hk
              split at hk
              · simp at hk
              · split at hk
                · simp at hk
                · simp only [Option.some.injEq] at hk
                  subst hk; rfl
            simp only [List.countP_cons, hy]
            by_cases hw : x.2 = w
            · simp [hw]; exact ihq
            · have : ¬ (x.2 + 1 = w + 1) := by omega
              simp [hw]; exact ihq
      have := ih w
      have e1 : (w + 1 < b + 1) = (w < b) := by simp
      have e2 : b + 1 - 1 - (w + 1) = b - 1 - w := by omega
      rw [e2]
      simp only [e1]
      omega

theorem length_le_countP {α : Type} (f : α → Nat) (g : Nat → Nat) (tot : Nat → Nat)
    (ht : ∀ n, tot (n + 1) = tot n + g n) :
    ∀ (n : Nat) (l : List α), (∀ x ∈ l, f x < n) →
      (∀ w, l.countP (fun x => decide (f x = w)) ≤ g w) → l.length ≤ tot n := by
  intro n
  induction n with
  | zero =>
    intro l h _
    cases l with
    | nil => simp
    | cons a l => exact absurd (h a (by simp)) (by omega)
  | succ n ih =>
    intro l h hg
    have h1 := ih (l.filter (fun x => decide (f x ≠ n))) (by
        intro x hx
        rw [List.mem_filter] at hx
        have := h x hx.1
        have h2 := hx.2
        simp only [ne_eq, decide_eq_true_eq] at h2
        omega) (by
        intro w
        exact le_trans (List.Sublist.countP_le List.filter_sublist) (hg w))
    have h2 : l.length = (l.filter (fun x => decide (f x ≠ n))).length +
        l.countP (fun x => decide (f x = n)) := by
      clear h1 ih h hg
      induction l with
      | nil => simp
      | cons a l ihl =>
        rw [List.filter_cons, List.countP_cons]
        by_cases ha : f a = n
        · simp [ha] at ihl ⊢; omega
        · simp [ha] at ihl ⊢; omega
    have := hg n
    rw [ht]
    omega

theorem queue_length_le (b : Nat) :
    (queueP c ins b).length ≤ received ins b (c.keep + 2) := by
  refine length_le_countP (fun x : Event V S × Nat => x.2)
    (fun w => if w < b then (ins (b - 1 - w)).new.length else 0) (received ins b)
    (fun n => rfl) (c.keep + 2) _ ?_ (fun w => queue_age_count b w)
  intro x hx
  obtain ⟨_, _, _, _, _, h, _⟩ := queueP_provenance hx
  omega

/-- The event phase never panics. -/
theorem C20_never_panics (hc : CfgOk c) (hi : InsOk ins) (b : Nat) :
    ∃ out, outAt c ins b = .ok out := ⟨_, outAt_eq hc hi b⟩

/-- C18/C19, soundness: whatever is applied in block `b` is a change that was received in some block
`k ≤ b`, is due before the end of block `b`, is applied at exactly its due frame if that lies in the
block (and at the block start if it is late), to the right node, and could not have been
applied in an earlier block. -/
theorem C18_C19_sound (hc : CfgOk c) (hi : InsOk ins)
    (hx : ∀ k, ∀ e ∈ (ins k).new, ExactTime c e) {b : Nat} {out : List (Applied V S)}
    (ho : outAt c ins b = .ok out) {a : Applied V S} (ha : a ∈ out) :
    ∃ k e, k ≤ b ∧ e ∈ (ins k).new ∧ a.change = e.change ∧
      target c k e < (b + 1) * c.bs ∧
      a.delay = target c k e - b * c.bs ∧ a.delay < c.bs ∧
      (ins b).keys[a.task]? = some e.change.key ∧ Available ins b e.change ∧
      ∀ b', k ≤ b' → b' < b →
        ¬ Available ins b' e.change ∨ (b' + 1) * c.bs ≤ target c k e := by
  rw [outAt_eq hc hi] at ho
  simp only [Except.ok.injEq] at ho
  subst ho
  obtain ⟨k, j, e, hkj, he, hj, hae, hr, hnot⟩ := outP_provenance ha
  have hxe := hx k e he
  have hr' := (readyAt_iff hc hxe k j).1 hr
  subst hkj
  have hdel : a.delay = target c k e - (k + j) * c.bs := by
    rw [hae, mkApplied]; exact due_eq_target hxe k j
  have hlt := hr'.2
  have hb := hc.bs_pos
  refine ⟨k, e, by omega, he, by simp [hae, mkApplied], hlt, hdel, ?_, ?_, hr'.1, ?_⟩
  · rw [hdel, Nat.add_mul (k + j) 1] at *
    omega
  · rw [hae]
    simp only [mkApplied, seen_change, BlockIn.env]
    have hmem := hr'.1.1
    rw [List.getElem?_eq_getElem (List.idxOf_lt_length_iff.2 hmem), List.getElem_idxOf]
  · intro b' h1 h2
    obtain ⟨i, rfl⟩ := Nat.exists_eq_add_of_le h1
    have := hnot i (by omega)
    rw [readyAt_iff hc hxe] at this
    by_cases hA : Available ins (k + i) e.change
    · right
      by_contra hcon
      exact this ⟨hA, by omega⟩
    · exact .inl hA

/-- Completeness: a received change is applied, at its due frame or at the start of the block if that
is past, in the first block in which it is due and available, provided this happens within the
retention window and the waiting queue has room when it is received. -/
theorem C20_applied_partial (hc : CfgOk c) (hi : InsOk ins) {k b : Nat} {e : Event V S}
    (he : e ∈ (ins k).new) (hx : ExactTime c e) (hroom : Room c ins k)
    (hkb : k ≤ b) (hwin : b - k ≤ c.keep + 1)
    (hav : Available ins b e.change) (hdue : target c k e < (b + 1) * c.bs)
    (hfirst : ∀ b', k ≤ b' → b' < b →
        ¬ Available ins b' e.change ∨ (b' + 1) * c.bs ≤ target c k e) :
    AppliedIn c ins b e.change (target c k e - b * c.bs) := by
  obtain ⟨j, rfl⟩ := Nat.exists_eq_add_of_le hkb
  have hcap : (queueP c ins k).length + (ins k).new.length ≤ c.cap := by
    have := queue_length_le (c := c) (ins := ins) k
    unfold Room at hroom
    omega
  refine ⟨_, outAt_eq hc hi _, _, outP_complete (j := j) he hcap (by omega)
    ((readyAt_iff hc hx k j).2 ⟨hav, hdue⟩) ?_, by simp [mkApplied], ?_⟩
  · intro i hij hri
    have := (readyAt_iff hc hx k i).1 hri
    rcases hfirst (k + i) (by omega) (by omega) with h | h
    · exact h this.1
    · exact absurd this.2 (by omega)
  · exact due_eq_target hx k j

/-- C18: an absolute-time change for a running node is applied in the block containing its frame `t`,
`t mod block_size` frames into the block; a late one at the start of the block in which it is
received. -/
theorem C18_absolute (hc : CfgOk c) (hi : InsOk ins) {k : Nat} {e : Event V S} {s : Seconds}
    (he : e ∈ (ins k).new) (ht : e.time = some ⟨s, true⟩) (hroom : Room c ins k)
    (hwin : samplesOf c.sr s / c.bs ≤ k + c.keep + 1)
    (hav : Available ins (max k (samplesOf c.sr s / c.bs)) e.change) :
    (k * c.bs ≤ samplesOf c.sr s →
      AppliedIn c ins (samplesOf c.sr s / c.bs) e.change (samplesOf c.sr s % c.bs)) ∧
    (samplesOf c.sr s < k * c.bs → AppliedIn c ins k e.change 0) := by
  have hx : ExactTime c e := .inr (by intro t h; rw [ht] at h; cases h; rfl)
  have hb := hc.bs_pos
  have htar : target c k e = samplesOf c.sr s := by simp [target, ht]
  have hdm := Nat.div_add_mod (samplesOf c.sr s) c.bs
  have hml := Nat.mod_lt (samplesOf c.sr s) hb
  rw [Nat.mul_comm] at hdm
  constructor
  · intro hge
    have hk : k ≤ samplesOf c.sr s / c.bs := (Nat.le_div_iff_mul_le hb).2 hge
    rw [Nat.max_eq_right hk] at hav
    have h := C20_applied_partial hc hi (b := samplesOf c.sr s / c.bs) he hx hroom hk (by omega) hav
      (by rw [htar, Nat.add_mul]; omega)
      (by
        intro b' _ h2
        right
        rw [htar]
        have := Nat.mul_le_mul_right c.bs (Nat.succ_le_of_lt h2)
        simp only [Nat.succ_eq_add_one] at this
        omega)
    rw [htar] at h
    have e : samplesOf c.sr s - samplesOf c.sr s / c.bs * c.bs = samplesOf c.sr s % c.bs := by omega
    rwa [e] at h
  · intro hlt
    have hk : samplesOf c.sr s / c.bs ≤ k :=
      le_of_lt ((Nat.div_lt_iff_lt_mul hb).2 hlt)
    rw [Nat.max_eq_left hk] at hav
    have h := C20_applied_partial hc hi (b := k) he hx hroom (Nat.le_refl _) (by omega) hav
      (by rw [htar, Nat.add_mul]; omega)
      (by intro b' _ h2; omega)
    rw [htar] at h
    have e : samplesOf c.sr s - k * c.bs = 0 := by omega
    rwa [e] at h

/-- C19: a relative-time change is applied exactly ⌊d·rate⌋ frames after the start of the block
in which it is received, for every rate dividing the tick rate. -/
theorem C19_relative (hc : CfgOk c) (hi : InsOk ins) (hd : c.sr ∣ 282240000) {k : Nat}
    {e : Event V S} {s : Seconds} (he : e ∈ (ins k).new) (ht : e.time = some ⟨s, false⟩)
    (hroom : Room c ins k) (hwin : samplesOf c.sr s / c.bs ≤ c.keep + 1)
    (hav : Available ins (k + samplesOf c.sr s / c.bs) e.change) :
    AppliedIn c ins (k + samplesOf c.sr s / c.bs) e.change (samplesOf c.sr s % c.bs) := by
  have hb := hc.bs_pos
  have htar : target c k e = k * c.bs + samplesOf c.sr s := by simp [target, ht]
  have hdm := Nat.div_add_mod (samplesOf c.sr s) c.bs
  have hml := Nat.mod_lt (samplesOf c.sr s) hb
  rw [Nat.mul_comm] at hdm
  have h := C20_applied_partial hc hi (b := k + samplesOf c.sr s / c.bs) he (.inl hd) hroom
    (Nat.le_add_right _ _) (by rw [Nat.add_sub_cancel_left]; exact hwin) hav
    (by rw [htar, Nat.add_mul, Nat.add_mul]; omega)
    (by
      intro b' h1 h2
      right
      rw [htar]
      obtain ⟨i, rfl⟩ := Nat.exists_eq_add_of_le h1
      have hi : i + 1 ≤ samplesOf c.sr s / c.bs := by omega
      have := Nat.mul_le_mul_right c.bs hi
      rw [Nat.add_assoc, Nat.add_mul k]
      omega)
  rw [htar] at h
  have e : k * c.bs + samplesOf c.sr s - (k + samplesOf c.sr s / c.bs) * c.bs
      = samplesOf c.sr s % c.bs := by rw [Nat.add_mul]; omega
  rwa [e] at h

/-- C19 for any sample rate: a relative-time change is never applied early; in block `k + j` the
remaining time is at least the exact one. -/
theorem C19_never_early {e : Event V S} {s : Seconds}
    (ht : e.time = some ⟨s, false⟩) (k j : Nat) :
    target c k e - (k + j) * c.bs ≤ dueE c ((k + j) * c.bs) (seen c e j) := by
  obtain ⟨s', h', t'⟩ := seen_time_rel (c := c) ht j
  simp only [dueE, h', target, ht, dueT, samplesOf, t', Bool.false_eq_true, if_false]
  have h1 : j * blockTicks c * c.sr ≤ j * c.bs * 282240000 := by
    have : blockTicks c * c.sr ≤ c.bs * 282240000 := Nat.div_mul_le_self _ _
    calc j * blockTicks c * c.sr = j * (blockTicks c * c.sr) := by ring
      _ ≤ j * (c.bs * 282240000) := Nat.mul_le_mul_left _ this
      _ = _ := by ring
  have h2 : (ticks s * c.sr - j * c.bs * 282240000) / 282240000 ≤
      (ticks s - j * blockTicks c) * c.sr / 282240000 := by
    apply Nat.div_le_div_right
    rw [Nat.sub_mul]
    omega
  rw [Nat.mul_comm (j * c.bs), Nat.sub_mul_div] at h2
  rw [Nat.add_mul]
  omega

/-- C19 for any sample rate: `j` blocks later the remaining time is at most `j` ticks more than the
exact remaining time, i.e. the error is below one sample as long as `j · rate ≤ ticks per second`. -/
theorem C19_drift (hc : CfgOk c) {e : Event V S} {s : Seconds}
    (ht : e.time = some ⟨s, false⟩) (k j : Nat) (hj : j * c.sr ≤ 282240000) :
    dueE c ((k + j) * c.bs) (seen c e j) ≤ target c k e - (k + j) * c.bs + 1 := by
  obtain ⟨s', h', t'⟩ := seen_time_rel (c := c) ht j
  simp only [dueE, h', target, ht, dueT, samplesOf, t', Bool.false_eq_true, if_false]
  have hlt : c.bs * 282240000 < blockTicks c * c.sr + c.sr := by
    have := Nat.div_add_mod (c.bs * 282240000) c.sr
    have h2 := Nat.mod_lt (c.bs * 282240000) hc.sr_pos
    unfold blockTicks
    rw [Nat.mul_comm] at this
    omega
  have h1 : j * c.bs * 282240000 ≤ j * blockTicks c * c.sr + 282240000 := by
    calc j * c.bs * 282240000 = j * (c.bs * 282240000) := by ring
      _ ≤ j * (blockTicks c * c.sr + c.sr) := Nat.mul_le_mul_left _ (le_of_lt hlt)
      _ = j * blockTicks c * c.sr + j * c.sr := by ring
      _ ≤ _ := by omega
  have h2 : (ticks s - j * blockTicks c) * c.sr / 282240000 ≤
      (ticks s * c.sr + 282240000 - j * c.bs * 282240000) / 282240000 := by
    apply Nat.div_le_div_right
    rw [Nat.sub_mul]
    omega
  rw [Nat.mul_comm (j * c.bs), Nat.sub_mul_div, Nat.add_div_right _ (by decide)] at h2
  rw [Nat.add_mul]
  omega

/-- C20, at most once: no change is applied more often than it was sent. -/
theorem C20_at_most_once [DecidableEq V] [DecidableEq S] (ch : Change V S) (b : Nat) :
    appliedBefore c ins ch b ≤ sentBefore ins ch b := by
  have := count_run (c := c) (ins := ins) ch b
  omega

/-- `appliedBefore` counts what the model applies. -/
theorem C20_appliedBefore_eq [DecidableEq V] [DecidableEq S] (hc : CfgOk c) (hi : InsOk ins)
    (ch : Change V S) (b : Nat) : ∃ out, outAt c ins b = .ok out ∧
    appliedBefore c ins ch (b + 1) =
      appliedBefore c ins ch b + out.countP (fun a => a.change = ch) :=
  ⟨_, outAt_eq hc hi b, rfl⟩

/-- C20 is violated by the code: a change due more than `keep + 1 = ⌊rate/block⌋ + 1` blocks after
its reception is never applied, for any configuration and input stream. -/
theorem C20_violated_expiry (hc : CfgOk c) (hi : InsOk ins)
    (hx : ∀ k, ∀ e ∈ (ins k).new, ExactTime c e) {ch : Change V S}
    (hfar : ∀ k, ∀ e ∈ (ins k).new, e.change = ch → (k + c.keep + 2) * c.bs ≤ target c k e) :
    ∀ b d, ¬ AppliedIn c ins b ch d := by
  rintro b d ⟨out, ho, a, ha, rfl, rfl⟩
  rw [outAt_eq hc hi] at ho
  simp only [Except.ok.injEq] at ho
  subst ho
  obtain ⟨k, j, e, hkj, he, hj, hae, hr, hnot⟩ := outP_provenance ha
  have := ((readyAt_iff hc (hx k e he) k j).1 hr).2
  have h2 := hfar k e he (by simp [hae, mkApplied])
  have h3 := Nat.mul_le_mul_right c.bs (show k + j + 1 ≤ k + c.keep + 2 by omega)
  omega

/-- C21: the changes applied in a block are applied in the order in which they were sent. -/
theorem C21_in_block_order (hc : CfgOk c) (hi : InsOk ins) {b : Nat}
    {out : List (Applied V S)} (ho : outAt c ins b = .ok out) :
    (out.map (·.change)).Sublist ((receivedBefore ins (b + 1)).map (·.change)) := by
  rw [outAt_eq hc hi] at ho
  simp only [Except.ok.injEq] at ho
  subst ho
  exact outP_sublist b

/-- C21, across blocks: of two "at once" changes to the same node (with the same token, if any), the one
sent later is never applied in an earlier block. -/
theorem C21_across_blocks (hc : CfgOk c) (hi : InsOk ins) {k₁ k₂ b₁ b₂ d₁ d₂ : Nat}
    {e₁ e₂ : Event V S}
    (u₁ : ∀ k, ∀ e ∈ (ins k).new, e.change = e₁.change → k = k₁ ∧ e = e₁)
    (u₂ : ∀ k, ∀ e ∈ (ins k).new, e.change = e₂.change → k = k₂ ∧ e = e₂)
    (n₁ : e₁.time = none) (hk : k₁ ≤ k₂)
    (key : e₁.change.key = e₂.change.key) (tok : e₁.change.token = e₂.change.token)
    (a₁ : AppliedIn c ins b₁ e₁.change d₁) (a₂ : AppliedIn c ins b₂ e₂.change d₂) : b₁ ≤ b₂ := by
  obtain ⟨o₁, ho₁, x₁, hx₁, hc₁, -⟩ := a₁
  obtain ⟨o₂, ho₂, x₂, hx₂, hc₂, -⟩ := a₂
  rw [outAt_eq hc hi, Except.ok.injEq] at ho₁ ho₂
  subst ho₁ ho₂
  obtain ⟨k, j, e, hkj, he, hj, hae, hr, hnot⟩ := outP_provenance hx₁
  obtain ⟨k', j', e', hkj', he', hj', hae', hr', hnot'⟩ := outP_provenance hx₂
  obtain ⟨rfl, rfl⟩ := u₁ k e he (by rw [← hc₁, hae]; simp [mkApplied])
  obtain ⟨rfl, rfl⟩ := u₂ k' e' he' (by rw [← hc₂, hae']; simp [mkApplied])
  subst hkj hkj'
  by_contra hlt
  have := hnot (k' + j' - k) (by omega)
  apply this
  have hb := hc.bs_pos
  have hadd : k + (k' + j' - k) = k' + j' := by omega
  simp only [readyAt, readyE, seen_change, dueE, seen_time_none n₁] at hr' ⊢
  rw [hadd]
  refine ⟨?_, hb, ?_⟩
  · have := hr'.1
    simp only [tokenOk] at this ⊢
    rw [tok]; exact this
  · rw [key]; exact hr'.2.2

/-- C22, gate: a change carrying a token is not applied in a block in which the token is not
activated. -/
theorem C22_gate (hc : CfgOk c) (hi : InsOk ins) {b t d : Nat} {ch : Change V S}
    (ht : ch.token = some t) (hn : (ins b).active t = false) : ¬ AppliedIn c ins b ch d := by
  rintro ⟨out, ho, a, ha, rfl, rfl⟩
  rw [outAt_eq hc hi, Except.ok.injEq] at ho
  subst ho
  obtain ⟨k, j, e, rfl, he, hj, hae, hr, hnot⟩ := outP_provenance ha
  have h1 : a.change = e.change := by simp [hae, mkApplied]
  have := (tokenOk_iff (c := c) (ins := ins) (k + j) e.change).1 (by simpa using hr.1) t
    (by rw [← h1]; exact ht)
  rw [hn] at this
  exact absurd this (by decide)

/-- C22, together: when a token is activated between blocks `b - 1` and `b`, all "at once" changes
carrying it that are waiting (or arrive in block `b`) for running nodes are applied in block `b`
(within the retention window). -/
theorem C22_together (hc : CfgOk c) (hi : InsOk ins) {b t : Nat}
    (hoff : ∀ b' < b, (ins b').active t = false) (hon : (ins b).active t = true)
    {k : Nat} {e : Event V S} (he : e ∈ (ins k).new) (hk : k ≤ b) (hwin : b - k ≤ c.keep + 1)
    (htok : e.change.token = some t) (hun : e.time = none) (hroom : Room c ins k)
    (hkey : e.change.key ∈ (ins b).keys) : AppliedIn c ins b e.change 0 := by
  have htar : target c k e = k * c.bs := by simp [target, hun]
  have hmul := Nat.mul_le_mul_right c.bs hk
  have hb := hc.bs_pos
  have h := C20_applied_partial hc hi (b := b) he (.inr (by simp [hun])) hroom hk hwin
    ⟨hkey, by intro t' h'; rw [htok] at h'; cases h'; exact hon⟩
    (by rw [htar, Nat.add_mul]; omega)
    (by
      intro b' _ h2
      left
      intro hA
      have := hA.2 t htok
      rw [hoff b' h2] at this
      exact absurd this (by decide))
  rw [htar] at h
  have e0 : k * c.bs - b * c.bs = 0 := by omega
  rwa [e0] at h

/-- C23: a change sent before the schedule containing its node has reached the audio thread is applied
in the first block in which the node runs (the event phase precedes all processing of the block),
within the retention window. -/
theorem C23_before_commit (hc : CfgOk c) (hi : InsOk ins) {k b : Nat} {e : Event V S}
    (he : e ∈ (ins k).new) (hk : k ≤ b) (hwin : b - k ≤ c.keep + 1) (hroom : Room c ins k)
    (hun : e.time = none) (htok : e.change.token = none)
    (habs : ∀ b', k ≤ b' → b' < b → e.change.key ∉ (ins b').keys)
    (hkey : e.change.key ∈ (ins b).keys) : AppliedIn c ins b e.change 0 := by
  have htar : target c k e = k * c.bs := by simp [target, hun]
  have hmul := Nat.mul_le_mul_right c.bs hk
  have hb := hc.bs_pos
  have h := C20_applied_partial hc hi (b := b) he (.inr (by simp [hun])) hroom hk hwin
    ⟨hkey, by intro t' h'; rw [htok] at h'; cases h'⟩
    (by rw [htar, Nat.add_mul]; omega)
    (fun b' h1 h2 => .inl (fun hA => habs b' h1 h2 hA.1))
  rw [htar] at h
  have e0 : k * c.bs - b * c.bs = 0 := by omega
  rwa [e0] at h

/-- The calls made on the UGen for an applied change: the delay (exact for blocks of up to 65536
frames), then the smoothing setting, then the value. -/
theorem C18_calls {a : Applied V S} (hb : a.delay < c.bs) (hu : c.bs ≤ 65536) :
    a.calls = (if a.delay = 0 then [] else [.setDelay a.task a.change.param a.delay]) ++
      (a.change.smoothing.toList.map (.smoothing a.task a.change.param)) ++
      (a.change.value.toList.map (.value a.task a.change.param)) := by
  have h1 : a.delay % 65536 = a.delay := Nat.mod_eq_of_lt (by omega)
  have h2 : (a.delay > 0) = ¬ (a.delay = 0) := by simp; omega
  unfold Applied.calls
  rw [h1]
  congr 1
  · congr 1
    · by_cases h : a.delay = 0
      · simp [h]
      · simp only [h, if_false]; rw [if_pos (by omega)]
    · cases a.change.smoothing <;> rfl
  · cases a.change.value <;> rfl

/-- With blocks longer than 65536 frames the delay handed to the UGen is truncated (`as u16`,
graph_gen.rs:277). -/
theorem C18_long_block_violated :
    (Applied.calls (V := Unit) (S := Unit) ⟨⟨0, 0, some (), none, none⟩, 0, 65536⟩) =
      [.setDelay 0 0 0, .value 0 0 ()] := by decide

end

/-! ## Concrete configurations (non-vacuity and violation witnesses) -/

/-- 48 kHz, blocks of 16 frames, ring buffers of 4 events. -/
def exCfg : GenCfg := ⟨16, 48000, 4, 3000⟩
example : GenCfg.ofOptions 16 48000 4 = .ok exCfg := by decide
theorem exCfg_ok : CfgOk exCfg := ⟨by decide, by decide, by decide, by decide, by decide⟩

/-- One absolute change at sample 37, one relative change after 20 samples, sent before block 1. -/
def exIns : Nat → BlockIn Nat Nat := fun b =>
  ⟨if b = 1 then [⟨⟨7, 0, some 1, none, none⟩, some ⟨⟨0, 37 * 5880⟩, true⟩⟩,
      ⟨⟨7, 0, some 2, none, none⟩, some ⟨⟨0, 20 * 5880⟩, false⟩⟩] else [], [3, 7], fun _ => false⟩

theorem exIns_ok : InsOk exIns := by
  intro b e he
  unfold exIns at he
  simp only at he
  split at he
  · simp only [List.mem_cons, List.not_mem_nil, or_false] at he
    rcases he with rfl | rfl <;> (intro t ht; cases ht; decide)
  · simp at he

/-- Non-vacuity of `C18_absolute`: the hypotheses hold for a change at frame 37 = 2·16 + 5. -/
example : AppliedIn exCfg exIns 2 ⟨7, 0, some 1, none, none⟩ 5 := by
  have h := (C18_absolute (k := 1) (e := ⟨⟨7, 0, some 1, none, none⟩, some ⟨⟨0, 37 * 5880⟩, true⟩⟩)
    exCfg_ok exIns_ok (by simp [exIns]) rfl
    (by
      have h : ∀ n, received exIns 1 n ≤ 0 := by
        intro n
        induction n with
        | zero => simp [received]
        | succ n ih =>
          simp only [received]
          by_cases h : n < 1
          · have : n = 0 := by omega
            subst this
            simp [received, exIns]
          · simp [h]; omega
      have := h (exCfg.keep + 2)
      simp only [Room]
      have e : (exIns 1).new.length = 2 := rfl
      rw [e]
      have : exCfg.cap = 4 := rfl
      omega)
    (by decide) ⟨by decide, by intro t h; cases h⟩).1 (by decide)
  have e1 : samplesOf exCfg.sr ⟨0, 37 * 5880⟩ / exCfg.bs = 2 := by decide
  have e2 : samplesOf exCfg.sr ⟨0, 37 * 5880⟩ % exCfg.bs = 5 := by decide
  rwa [e1, e2] at h

/-- … and the relative one is applied at frame 16 + 20 = 2·16 + 4. -/
example : outAt exCfg exIns 2 = .ok [⟨⟨7, 0, some 1, none, none⟩, 1, 5⟩,
    ⟨⟨7, 0, some 2, none, none⟩, 1, 4⟩] := by decide

/-- A change scheduled 3 seconds ahead. -/
def farIns : Nat → BlockIn Nat Nat := fun b =>
  ⟨if b = 0 then [⟨⟨7, 0, some 1, none, none⟩, some ⟨⟨3, 0⟩, true⟩⟩] else [], [7], fun _ => true⟩

/-- C20 witness: at 44.1 kHz with blocks of 44100 frames, a change scheduled 3 s ahead is accepted and
its node runs all the time, but it is dropped: it is not applied in block 3 nor in any other block. -/
theorem C20_violated : ∀ b d, ¬ AppliedIn ⟨44100, 44100, 1000, 1⟩ farIns b
    ⟨7, 0, some 1, none, none⟩ d := by
  have h1 : ∀ k, ∀ e ∈ (farIns k).new, k = 0 ∧
      e = ⟨⟨7, 0, some 1, none, none⟩, some ⟨⟨3, 0⟩, true⟩⟩ := by
    intro k e he
    unfold farIns at he
    simp only at he
    split at he
    · simp only [List.mem_cons, List.not_mem_nil, or_false] at he
      exact ⟨by assumption, he⟩
    · simp at he
  apply C20_violated_expiry
  · exact ⟨by decide, by decide, by decide, by decide, by decide⟩
  · intro b e he
    obtain ⟨-, rfl⟩ := h1 b e he
    intro t ht; cases ht; decide
  · intro k e he
    obtain ⟨-, rfl⟩ := h1 k e he
    exact .inr (by intro t ht; cases ht; rfl)
  · intro k e he _
    obtain ⟨rfl, rfl⟩ := h1 k e he
    decide

example : GenCfg.ofOptions 44100 44100 1000 = .ok ⟨44100, 44100, 1000, 1⟩ := by decide

/-- Two changes with room for only one waiting change. -/
def fullIns : Nat → BlockIn Nat Nat := fun b =>
  ⟨if b = 0 then [⟨⟨7, 0, some 1, none, none⟩, some ⟨⟨0, 16 * 5880⟩, true⟩⟩,
    ⟨⟨7, 0, some 2, none, none⟩, some ⟨⟨0, 16 * 5880⟩, true⟩⟩] else [], [7], fun _ => true⟩

/-- C20 witness: an accepted change is also dropped when the waiting queue is full, although its
due time is only one block away. -/
theorem C20_violated_capacity :
    outAt ⟨16, 48000, 1, 3000⟩ fullIns 0 = .ok [] ∧
    outAt ⟨16, 48000, 1, 3000⟩ fullIns 1 = .ok [⟨⟨7, 0, some 1, none, none⟩, 0, 0⟩] ∧
    queueAt ⟨16, 48000, 1, 3000⟩ fullIns 2 = .ok [] := by decide

/-- A sample rate that does not divide the tick rate makes relative times drift: at 47999 Hz, one block
of 8 frames after its reception a change that was due in 16 samples is due in 9, not 8. -/
theorem C19_drift_witness :
    dueE (V := Unit) (S := Unit) ⟨8, 47999, 10, 5999⟩ 0
      ⟨⟨0, 0, none, none, none⟩, some ⟨⟨0, 99962⟩, false⟩⟩ = 16 ∧
    dueE (V := Unit) (S := Unit) ⟨8, 47999, 10, 5999⟩ 8
      (seen ⟨8, 47999, 10, 5999⟩ ⟨⟨0, 0, none, none, none⟩, some ⟨⟨0, 99962⟩, false⟩⟩ 1) = 9 := by
  decide

/-- The retention window of a `GraphGen` built by `Graph::new` covers at least one second. -/
theorem C20_window {bs sr ring : Nat} {c : GenCfg} (h : GenCfg.ofOptions bs sr ring = .ok c)
    (hbs : bs < 4294967296) : 0 < c.bs ∧ c.bs = bs ∧ c.sr = sr ∧ c.cap = ring ∧
      c.sr < (c.keep + 1) * c.bs := by
  simp only [GenCfg.ofOptions, divC, Nat.mod_eq_of_lt hbs] at h
  by_cases hz : bs = 0
  · simp [hz] at h
  · simp only [hz, if_false, bind_ok, pure_ok, Except.ok.injEq] at h
    subst h
    refine ⟨by simp; omega, rfl, rfl, rfl, ?_⟩
    simp only
    have h1 := Nat.div_add_mod sr bs
    have h2 := Nat.mod_lt sr (show 0 < bs by omega)
    rw [Nat.add_mul, Nat.one_mul, Nat.mul_comm]
    omega

/-- C20 within the retention window, in terms of the options only: a change for a node that keeps
running, without token, due at most one second after the block in which it is received, is applied
at its due frame, if the changes received in the retention window fit into the ring buffer size. -/
theorem C20_within_a_second_partial {V S : Type} {c : GenCfg} {ins : Nat → BlockIn V S}
    {bs sr ring : Nat} (ho : GenCfg.ofOptions bs sr ring = .ok c) (hc : CfgOk c)
    (hi : InsOk ins) {k : Nat} {e : Event V S} (he : e ∈ (ins k).new) (hx : ExactTime c e)
    (hroom : Room c ins k) (htok : e.change.token = none)
    (hkey : ∀ b, k ≤ b → e.change.key ∈ (ins b).keys)
    (hsec : target c k e ≤ k * bs + sr) :
    ∃ b, k ≤ b ∧ target c k e < (b + 1) * bs ∧ (b = k ∨ b * bs ≤ target c k e) ∧
      AppliedIn c ins b e.change (target c k e - b * bs) := by
  obtain ⟨hpos, rfl, rfl, -, hw⟩ := C20_window ho (by
    have := hc.bs_lt
    by_cases hz : bs % 4294967296 = 0
    · simp [GenCfg.ofOptions, divC, hz] at ho
    · simp only [GenCfg.ofOptions, divC, hz, if_false, bind_ok, pure_ok, Except.ok.injEq] at ho
      subst ho
      exact this)
  have hav : ∀ b, k ≤ b → Available ins b e.change := fun b hb =>
    ⟨hkey b hb, by intro t h; rw [htok] at h; cases h⟩
  have hdm := Nat.div_add_mod (target c k e) c.bs
  have hml := Nat.mod_lt (target c k e) hpos
  rw [Nat.mul_comm] at hdm
  by_cases hlt : target c k e < k * c.bs
  · refine ⟨k, Nat.le_refl _, by rw [Nat.add_mul]; omega, .inl rfl, ?_⟩
    exact C20_applied_partial hc hi he hx hroom (Nat.le_refl _) (by omega) (hav k (Nat.le_refl _))
      (by rw [Nat.add_mul]; omega) (by intro b' _ _; omega)
  · have hk : k ≤ target c k e / c.bs := (Nat.le_div_iff_mul_le hpos).2 (by omega)
    have hlt' : target c k e / c.bs < k + (c.keep + 1) := by
      rw [Nat.div_lt_iff_lt_mul hpos, Nat.add_mul]
      omega
    generalize target c k e / c.bs = q at *
    refine ⟨q, hk, by rw [Nat.add_mul]; omega, .inr (by omega), ?_⟩
    refine C20_applied_partial hc hi he hx hroom hk (by omega) (hav _ hk)
      (by rw [Nat.add_mul]; omega) ?_
    intro b' _ h2
    right
    have := Nat.mul_le_mul_right c.bs (Nat.succ_le_of_lt h2)
    simp only [Nat.succ_eq_add_one] at this
    omega

/-- Non-vacuity of C21–C23: change 1 carries token 5, activated before block 2; change 2 (no token) and
change 3 (token 5) arrive in block 1 for node 9, which runs from block 2 on. -/
def tokIns : Nat → BlockIn Nat Nat := fun b =>
  ⟨if b = 0 then [⟨⟨7, 0, some 1, none, some 5⟩, none⟩]
    else if b = 1 then [⟨⟨9, 0, some 2, none, none⟩, none⟩, ⟨⟨9, 0, some 3, none, some 5⟩, none⟩]
    else [], if b < 2 then [7] else [7, 9], fun t => t == 5 && decide (2 ≤ b)⟩

example : outAt exCfg tokIns 0 = .ok [] ∧ outAt exCfg tokIns 1 = .ok [] ∧
    outAt exCfg tokIns 2 = .ok [⟨⟨7, 0, some 1, none, some 5⟩, 0, 0⟩,
      ⟨⟨9, 0, some 2, none, none⟩, 1, 0⟩, ⟨⟨9, 0, some 3, none, some 5⟩, 1, 0⟩] ∧
    outAt exCfg tokIns 3 = .ok [] := by decide

example : (∀ b' < 2, (tokIns b').active 5 = false) ∧ (tokIns 2).active 5 = true ∧
    9 ∉ (tokIns 1).keys ∧ 9 ∈ (tokIns 2).keys ∧ 2 - 0 ≤ exCfg.keep + 1 := by decide

/-! ## C24: the clock -/

/-- C24: after `n` blocks the frame counter is `n·block_size` and the shared clock holds exactly this
number of samples: reading it and converting back gives `n·block_size` (for the rates dividing the
tick rate). -/
theorem C24_clock {bs sr n : Nat} (hsr : sr ∣ 282240000) (hn : n * bs < 4294967296 * sr) :
    ∃ p, ProcClock.runN bs sr n = .ok p ∧ p.frameClock = n * bs ∧ Normal p.get ∧
      p.get.toSamples sr = .ok (n * bs) := by
  have hpos : 0 < sr := Nat.pos_of_dvd_of_pos hsr (by decide)
  have hle : sr ≤ 282240000 := Nat.le_of_dvd (by decide) hsr
  induction n with
  | zero =>
    refine ⟨_, rfl, by simp [ProcClock.init], by decide, ?_⟩
    rw [toSamples_eq (by decide) (by omega)]
    simp [ProcClock.get, ProcClock.init, unpackSeconds]
  | succ n ih =>
    rw [Nat.add_mul, Nat.one_mul] at hn
    obtain ⟨p, hp, hf, -, -⟩ := ih (by omega)
    obtain ⟨s, hs, ns⟩ := C27_roundtrip hsr hn
    have hg : unpackSeconds (packSeconds s) = s := by
      obtain ⟨x, y⟩ := s
      have := ns.1.2
      simp only [unpackSeconds, packSeconds, Seconds.mk.injEq] at this ⊢
      omega
    have hu : 4294967296 * sr ≤ 4294967296 * 282240000 := Nat.mul_le_mul_left _ hle
    have h1 : addC U64 p.frameClock bs = .ok (n * bs + bs) := by
      rw [addC, hf, if_pos (by omega)]
    refine ⟨⟨n * bs + bs, packSeconds s⟩, ?_, by rw [Nat.add_mul, Nat.one_mul], ?_, ?_⟩
    · simp only [ProcClock.runN, hp, bind_ok, ProcClock.run, h1, hs, pure_ok]
    · rw [ProcClock.get, hg]; exact ns.1
    · rw [Nat.add_mul, Nat.one_mul, ProcClock.get, hg]; exact ns.2

/-- C24: the shared clock never goes backwards (any rate). -/
theorem C24_monotone {bs sr m n : Nat} (h0 : 0 < sr) (hU : sr ≤ 4294967296) (hmn : m ≤ n)
    (hn : n * bs < 4294967296 * sr) :
    ∃ p q, ProcClock.runN bs sr m = .ok p ∧ ProcClock.runN bs sr n = .ok q ∧
      ticks p.get ≤ ticks q.get ∧ p.get.le q.get = true := by
  have key : ∀ n, n * bs < 4294967296 * sr → ∃ p, ProcClock.runN bs sr n = .ok p ∧
      p.frameClock = n * bs ∧ Seconds.fromSamples (n * bs) sr = .ok p.get ∧ Normal p.get := by
    intro n hn
    induction n with
    | zero =>
      refine ⟨_, rfl, by simp [ProcClock.init], ?_, by decide⟩
      rw [fromSamples_eq h0 hU hn]
      simp [ProcClock.get, ProcClock.init, unpackSeconds]
    | succ n ih =>
      rw [Nat.add_mul, Nat.one_mul] at hn
      obtain ⟨p, hp, hf, -, -⟩ := ih (by omega)
      have hs := fromSamples_eq h0 hU hn
      have ns := fromSamples_normal h0 hn
      generalize (⟨(n * bs + bs) / sr, (n * bs + bs) % sr * 282240000 / sr⟩ : Seconds) = s at hs ns
      have hg : unpackSeconds (packSeconds s) = s := by
        obtain ⟨x, y⟩ := s
        have := ns.2
        simp only [unpackSeconds, packSeconds, Seconds.mk.injEq] at this ⊢
        omega
      have hu : 4294967296 * sr ≤ 4294967296 * 4294967296 := Nat.mul_le_mul_left _ hU
      have h1 : addC U64 p.frameClock bs = .ok (n * bs + bs) := by
        rw [addC, hf, if_pos (by omega)]
      refine ⟨⟨n * bs + bs, packSeconds s⟩, ?_, by rw [Nat.add_mul, Nat.one_mul], ?_, ?_⟩
      · simp only [ProcClock.runN, hp, bind_ok, ProcClock.run, h1, hs, pure_ok]
      · rw [Nat.add_mul, Nat.one_mul, hs, ProcClock.get, hg]
      · rw [ProcClock.get, hg]; exact ns
  have hle : m * bs ≤ n * bs := Nat.mul_le_mul_right _ hmn
  obtain ⟨p, hp, -, sp, np⟩ := key m (by omega)
  obtain ⟨q, hq, -, sq, nq⟩ := key n hn
  obtain ⟨s, t, hs, ht, hst⟩ := C27_monotone h0 hU hle hn
  rw [sp, Except.ok.injEq] at hs
  rw [sq, Except.ok.injEq] at ht
  subst hs ht
  exact ⟨p, q, hp, hq, (C25_le_iff np nq).1 hst, hst⟩

/-- Non-vacuity: one second of 64-frame blocks at 48 kHz. -/
example : (48000 : Nat) ∣ 282240000 ∧ 750 * 64 < 4294967296 * 48000 := by decide

end Verif
