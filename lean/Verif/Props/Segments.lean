import Verif.Model.Envelope
import Mathlib.Tactic.Linarith
import Mathlib.Tactic.FieldSimp
import Mathlib.Tactic.Ring
import Mathlib.Tactic.Positivity
import Mathlib.Algebra.Order.Archimedean.Basic
import Mathlib.Data.Rat.Floor

/-!
# C43: segment envelopes
-/

namespace Verif.Env

open Verif.Sm (F)

/-- What can happen to the envelope. -/
inductive SegOp where
  | timeScale (x : Rat)
  | jump (k : Nat)
  | restart
  | stop
  | frame
  deriving DecidableEq

/-- One operation: the new state and the output if there is one. -/
def Seq.step (e : Seq) : SegOp → R (Seq × Option F)
  | .timeScale x => .ok (e.setTimeScale x, none)
  | .jump k => match e.jump k with
    | .error p => .error p
    | .ok e => .ok (e, none)
  | .restart => .ok (e.restart, none)
  | .stop => match e.stop with
    | .error p => .error p
    | .ok e => .ok (e, none)
  | .frame => match e.next with
    | .error p => .error p
    | .ok r => .ok (r.1, some r.2.1)

/-- Several operations: the final state and the outputs. -/
def Seq.run (e : Seq) : List SegOp → R (Seq × List F)
  | [] => .ok (e, [])
  | op :: ops => match e.step op with
    | .error p => .error p
    | .ok r => match Seq.run r.1 ops with
      | .error p => .error p
      | .ok r' => .ok (r'.1, r.2.toList ++ r'.2)

/-- The envelope is past the end of the segment it is in (and will move on at the next frame). -/
def Seq.late (e : Seq) : Prop :=
  match e.state with
  | .stopped => False
  | .running k t => ∃ s, e.segs[k]? = some s ∧ s.dur < t

/-- A history without negative time scales in which the envelope is not stopped while it is past the end of a segment. -/
def SegCalm : Seq → List SegOp → Prop
  | _, [] => True
  | e, op :: ops =>
    (match op with
      | .timeScale x => 0 ≤ x
      | .stop => ¬ e.late
      | _ => True) ∧ ∀ r, e.step op = .ok r → SegCalm r.1 ops

/-- The invariant. -/
structure SegGood (lo hi : Rat) (e : Seq) : Prop where
  segs : ∀ s ∈ e.segs, 0 < s.dur ∧ lo ≤ s.value ∧ s.value ≤ hi
  ne : e.segs ≠ []
  start : lo ≤ e.start ∧ e.start ≤ hi
  from_ : ∃ x, e.from_ = some x ∧ lo ≤ x ∧ x ≤ hi
  time : 0 ≤ e.timeScale ∧ 0 ≤ e.baseScale
  running : ∀ k t, e.state = .running k t → k < e.segs.length ∧ 0 ≤ t

theorem interp_eq {s : Seg} (hd : 0 < s.dur) (x t : Rat) :
    interp (some x) t s = some (x + t / s.dur * (s.value - x)) := by
  have : s.dur ≠ 0 := ne_of_gt hd
  simp only [interp, Seg.recip, if_neg this, Sm.F.mul, Sm.F.sub, Sm.F.add, Option.some.injEq]
  ring

theorem interp_range {lo hi : Rat} {s : Seg} (hd : 0 < s.dur) (hs : lo ≤ s.value ∧ s.value ≤ hi) {x t : Rat}
    (hx : lo ≤ x ∧ x ≤ hi) (ht : 0 ≤ t ∧ t ≤ s.dur) :
    ∃ y, interp (some x) t s = some y ∧ lo ≤ y ∧ y ≤ hi := by
  refine ⟨_, interp_eq hd x t, ?_⟩
  have h0 : 0 ≤ t / s.dur := div_nonneg ht.1 hd.le
  have h1 : t / s.dur ≤ 1 := (div_le_one hd).2 ht.2
  generalize t / s.dur = m at h0 h1
  constructor
  · nlinarith [mul_nonneg h0 (sub_nonneg.2 hs.1), mul_nonneg (sub_nonneg.2 h1) (sub_nonneg.2 hx.1)]
  · nlinarith [mul_nonneg h0 (sub_nonneg.2 hs.2), mul_nonneg (sub_nonneg.2 h1) (sub_nonneg.2 hx.2)]

theorem next_good {lo hi : Rat} {e : Seq} (h : SegGood lo hi e) :
    ∃ r, e.next = .ok r ∧ SegGood lo hi r.1 ∧ ∃ x, r.2.1 = some x ∧ lo ≤ x ∧ x ≤ hi := by
  obtain ⟨hsegs, hne, hstart, ⟨x, hx, hxr⟩, htime, hrun⟩ := h
  rw [Seq.next]
  cases hst : e.state with
  | stopped =>
    refine ⟨_, rfl, ⟨hsegs, hne, hstart, ⟨x, hx, hxr⟩, htime, ?_⟩, x, hx, hxr⟩
    intro k t h
    rw [hst] at h
    simp at h
  | running k t =>
    obtain ⟨hk, ht⟩ := hrun k t hst
    simp only [List.getElem?_eq_getElem hk]
    have hmem := hsegs e.segs[k] (List.getElem_mem hk)
    generalize e.segs[k] = s at hmem
    have hstep : 0 ≤ e.timeScale * e.baseScale := mul_nonneg htime.1 htime.2
    by_cases h1 : t < s.dur
    · rw [if_pos h1, hx]
      refine ⟨_, rfl, ⟨hsegs, hne, hstart, ⟨x, by simp, hxr⟩, htime, ?_⟩, ?_⟩
      · intro k' t' h
        simp only [State.running.injEq] at h
        exact ⟨h.1 ▸ hk, by rw [← h.2]; linarith⟩
      · exact interp_range hmem.1 hmem.2 hxr ⟨ht, h1.le⟩
    · rw [if_neg h1]
      by_cases h2 : k + 1 < e.segs.length
      · rw [if_pos h2]
        refine ⟨_, rfl, ⟨hsegs, hne, hstart, ⟨s.value, rfl, hmem.2⟩, htime, ?_⟩, ?_⟩
        · intro k' t' h
          simp only [State.running.injEq] at h
          exact ⟨h.1 ▸ h2, by rw [← h.2]; linarith⟩
        · refine ⟨s.value, ?_, hmem.2⟩
          simp only [interp_eq hmem.1]
          simp
      · rw [if_neg h2]
        split
        · refine ⟨_, rfl, ⟨hsegs, hne, hstart, ⟨s.value, rfl, hmem.2⟩, htime, ?_⟩, s.value, rfl, hmem.2⟩
          intro k' t' h
          simp only [State.running.injEq] at h
          exact ⟨by rw [← h.1]; exact List.length_pos_of_ne_nil hne, by rw [← h.2]⟩
        · refine ⟨_, rfl, ⟨hsegs, hne, hstart, ⟨s.value, rfl, hmem.2⟩, htime, ?_⟩, s.value, rfl, hmem.2⟩
          intro k' t' h
          simp at h

theorem seg_step_good {lo hi : Rat} {e : Seq} (h : SegGood lo hi e) (op : SegOp) (ops : List SegOp)
    (hc : SegCalm e (op :: ops)) :
    ∃ r, e.step op = .ok r ∧ SegGood lo hi r.1 ∧ ∀ v, r.2 = some v → ∃ x, v = some x ∧ lo ≤ x ∧ x ≤ hi := by
  obtain ⟨hsegs, hne, hstart, ⟨x, hx, hxr⟩, htime, hrun⟩ := h
  have hlen : 0 < e.segs.length := List.length_pos_of_ne_nil hne
  cases op with
  | timeScale y => exact ⟨_, rfl, ⟨hsegs, hne, hstart, ⟨x, hx, hxr⟩, ⟨hc.1, htime.2⟩, hrun⟩, fun v hv => by simp at hv⟩
  | jump k =>
    simp only [Seq.step, Seq.jump]
    by_cases h1 : e.segs.length ≤ k
    · rw [if_pos h1, if_neg (by omega)]
      refine ⟨_, rfl, ⟨hsegs, hne, hstart, ⟨x, hx, hxr⟩, htime, ?_⟩, fun v hv => by simp at hv⟩
      intro k' t' h
      simp only [State.running.injEq] at h
      exact ⟨by rw [← h.1]; simp only; omega, by rw [← h.2]⟩
    · rw [if_neg h1]
      refine ⟨_, rfl, ⟨hsegs, hne, hstart, ⟨x, hx, hxr⟩, htime, ?_⟩, fun v hv => by simp at hv⟩
      intro k' t' h
      simp only [State.running.injEq] at h
      exact ⟨by rw [← h.1]; simp only; omega, by rw [← h.2]⟩
  | restart =>
    refine ⟨_, rfl, ⟨hsegs, hne, hstart, ⟨e.start, rfl, hstart⟩, htime, ?_⟩, fun v hv => by simp at hv⟩
    intro k' t' h
    simp only [Seq.restart, State.running.injEq] at h
    exact ⟨by rw [← h.1]; exact hlen, by rw [← h.2]⟩
  | stop =>
    simp only [Seq.step, Seq.stop]
    cases hst : e.state with
    | stopped =>
      refine ⟨_, rfl, ⟨hsegs, hne, hstart, ⟨x, hx, hxr⟩, htime, hrun⟩, fun v hv => by simp at hv⟩
    | running k t =>
      obtain ⟨hk, ht⟩ := hrun k t hst
      have hlate : ¬ e.segs[k].dur < t := by
        intro hlt
        apply hc.1
        rw [Seq.late, hst]
        exact ⟨e.segs[k], List.getElem?_eq_getElem hk, hlt⟩
      simp only [List.getElem?_eq_getElem hk]
      have hmem := hsegs e.segs[k] (List.getElem_mem hk)
      refine ⟨_, rfl, ⟨hsegs, hne, hstart, ?_, htime, ?_⟩, fun v hv => by simp at hv⟩
      · simp only [hx]
        exact interp_range hmem.1 hmem.2 hxr ⟨ht, not_lt.1 hlate⟩
      · intro k' t' h
        simp at h
  | frame =>
    obtain ⟨r, hr, hg, y, hy⟩ := next_good ⟨hsegs, hne, hstart, ⟨x, hx, hxr⟩, htime, hrun⟩
    refine ⟨(r.1, some r.2.1), ?_, hg, ?_⟩
    · simp only [Seq.step, hr]
    · intro v hv
      simp only [Option.some.injEq] at hv
      exact ⟨y, hv ▸ hy.1, hy.2⟩

/-- C43: an envelope with at least one segment, positive durations, and time scales that are not negative never panics, and its
output is always a number in every range that contains the start value and the segment values, in every history in which
`t_stop` does not come while the time is past the end of a segment.

Missing: such a stop, durations of zero and envelopes without segments, for which it is false (`C43_stop_violated`,
`C43_zero_violated`, `C43_empty_violated`). -/
theorem C43_range_partial {lo hi : Rat} (start : Rat) (segs : List Seg) (ts : Rat) (looping : Bool) (sr : Nat)
    (hsegs : ∀ s ∈ segs, 0 < s.dur ∧ lo ≤ s.value ∧ s.value ≤ hi) (hne : segs ≠ []) (hstart : lo ≤ start ∧ start ≤ hi)
    (hts : 0 ≤ ts) (ops : List SegOp) (hc : SegCalm ((Seq.new start segs ts looping).init sr) ops) :
    ∃ r, Seq.run ((Seq.new start segs ts looping).init sr) ops = .ok r ∧
      ∀ v ∈ r.2, ∃ x, v = some x ∧ lo ≤ x ∧ x ≤ hi := by
  have key : ∀ (ops : List SegOp) (e : Seq), SegGood lo hi e → SegCalm e ops →
      ∃ r, Seq.run e ops = .ok r ∧ ∀ v ∈ r.2, ∃ x, v = some x ∧ lo ≤ x ∧ x ≤ hi := by
    intro ops
    induction ops with
    | nil => intro e _ _; exact ⟨_, rfl, fun v hv => by simp at hv⟩
    | cons op ops ih =>
      intro e hg hc
      obtain ⟨r, hr, hg', hv⟩ := seg_step_good hg op ops hc
      obtain ⟨r', hr', hv'⟩ := ih r.1 hg' (hc.2 r hr)
      refine ⟨(r'.1, r.2.toList ++ r'.2), by rw [Seq.run, hr]; simp only [hr'], ?_⟩
      intro v hm
      rcases List.mem_append.1 hm with hm | hm
      · exact hv v (by simpa using hm)
      · exact hv' v hm
  refine key ops _ ⟨hsegs, hne, hstart, ⟨start, rfl, hstart⟩, ⟨hts, ?_⟩, ?_⟩ hc
  · simp only [Seq.init]
    positivity
  · intro k t h
    simp [Seq.init, Seq.new] at h

/-- `n` frames: the final state and the outputs. -/
def Seq.frames (e : Seq) (n : Nat) : R (Seq × List F) := Seq.run e (List.replicate n .frame)

theorem frames_succ (e : Seq) (n : Nat) : e.frames (n + 1) = (match e.next with
    | .error p => .error p
    | .ok r => match r.1.frames n with
      | .error p => .error p
      | .ok r' => .ok (r'.1, r.2.1 :: r'.2)) := by
  rw [Seq.frames, List.replicate_succ, Seq.run, Seq.step]
  cases e.next with
  | error p => rfl
  | ok r => rfl

theorem stopped_frames {e : Seq} (hs : e.state = .stopped) : ∀ n, e.frames n = .ok (e, List.replicate n e.from_) := by
  intro n
  induction n with
  | zero => rfl
  | succ n ih =>
    have : e.next = .ok (e, e.from_, false) := by rw [Seq.next, hs]
    rw [frames_succ, this]
    simp only [ih]
    rfl

/-- Staying in a segment. -/
theorem segment_frames {e : Seq} {k : Nat} {s : Seg} (hk : e.segs[k]? = some s) : ∀ (n : Nat) (t : Rat), e.state = .running k t →
    (∀ m : Nat, m < n → t + m * (e.timeScale * e.baseScale) < s.dur) →
    ∃ os, e.frames n = .ok ({ e with state := .running k (t + n * (e.timeScale * e.baseScale)) }, os) := by
  intro n
  induction n generalizing e with
  | zero =>
    intro t hst _
    refine ⟨[], ?_⟩
    have : e = { e with state := .running k (t + (0 : Nat) * (e.timeScale * e.baseScale)) } := by
      cases e
      simp only [Seq.mk.injEq, and_true] at hst ⊢
      rw [hst]
      simp
    rw [← this]
    rfl
  | succ n ih =>
    intro t hst hlt
    have h0 := hlt 0 (by omega)
    simp only [Nat.cast_zero, zero_mul, add_zero] at h0
    have hnext : e.next = .ok ({ e with state := .running k (t + e.timeScale * e.baseScale) }, interp e.from_ t s, false) := by
      rw [Seq.next, hst]
      simp only [hk, if_pos h0]
    obtain ⟨os, hos⟩ := ih (e := { e with state := .running k (t + e.timeScale * e.baseScale) }) hk
      (t + e.timeScale * e.baseScale) rfl (fun m hm => by
        have := hlt (m + 1) (by omega)
        push_cast at this
        simp only
        linarith)
    refine ⟨interp e.from_ t s :: os, ?_⟩
    rw [frames_succ, hnext]
    simp only [hos]
    have : t + e.timeScale * e.baseScale + n * (e.timeScale * e.baseScale) =
      t + (n + 1 : Nat) * (e.timeScale * e.baseScale) := by push_cast; ring
    rw [this]

theorem frames_append {e : Seq} : ∀ (m n : Nat) {e' e'' : Seq} {os os'}, e.frames m = .ok (e', os) →
    e'.frames n = .ok (e'', os') → e.frames (m + n) = .ok (e'', os ++ os') := by
  intro m
  induction m generalizing e with
  | zero =>
    intro n e' e'' os os' h1 h2
    simp only [Seq.frames, List.replicate_zero, Seq.run, Except.ok.injEq, Prod.mk.injEq] at h1
    rw [h1.1, Nat.zero_add, h2, ← h1.2]
    rfl
  | succ m ih =>
    intro n e' e'' os os' h1 h2
    rw [show m + 1 + n = (m + n) + 1 by omega, frames_succ]
    rw [frames_succ] at h1
    cases hn : e.next with
    | error p => rw [hn] at h1; simp at h1
    | ok r =>
      rw [hn] at h1
      simp only at h1 ⊢
      cases hr : r.1.frames m with
      | error p => rw [hr] at h1; simp at h1
      | ok r' =>
        rw [hr] at h1
        simp only [Except.ok.injEq, Prod.mk.injEq] at h1
        have := ih n (e' := r'.1) (os := r'.2) hr (by rw [h1.1]; exact h2)
        rw [this]
        simp only [← h1.2, List.cons_append]

/-- C43: an envelope that is not looping and moves on reaches the last segment value, reports being done, and stays exactly
there. -/
theorem C43_ends {e : Seq} (hl : e.looping = false) (hstep : 0 < e.timeScale * e.baseScale) {k : Nat} {t : Rat}
    (hst : e.state = .running k t) (hk : k < e.segs.length) :
    ∃ n e' os, e.frames n = .ok (e', os) ∧ e'.state = .stopped ∧ e'.from_ = e.segs.getLast?.map Seg.value ∧
      ∀ m, e'.frames m = .ok (e', List.replicate m (e.segs.getLast?.map Seg.value)) := by
  obtain ⟨d, hd⟩ : ∃ d, d = e.segs.length - k := ⟨_, rfl⟩
  induction d generalizing e k t with
  | zero => omega
  | succ d ih =>
    -- the frames in segment `k`
    have hget := List.getElem?_eq_getElem hk
    generalize hs : e.segs[k] = s at hget
    obtain ⟨N, hN⟩ := exists_nat_gt ((s.dur - t) / (e.timeScale * e.baseScale))
    have hN' : s.dur - t < N * (e.timeScale * e.baseScale) := by rwa [div_lt_iff₀ hstep] at hN
    have hex : ∃ n : Nat, s.dur ≤ t + n * (e.timeScale * e.baseScale) := ⟨N, by linarith⟩
    obtain ⟨j, hj, hmin⟩ : ∃ j : Nat, s.dur ≤ t + j * (e.timeScale * e.baseScale) ∧
        ∀ m < j, t + m * (e.timeScale * e.baseScale) < s.dur := by
      classical
      exact ⟨Nat.find hex, Nat.find_spec hex, fun m hm => not_le.1 (Nat.find_min hex hm)⟩
    obtain ⟨os, hos⟩ := segment_frames hget j t hst hmin
    by_cases hlast : k + 1 < e.segs.length
    · have hnext : Seq.next { e with state := .running k (t + j * (e.timeScale * e.baseScale)) } =
          .ok ({ e with from_ := some s.value, state := .running (k + 1) (t + j * (e.timeScale * e.baseScale) - s.dur + e.timeScale * e.baseScale) },
            interp (some s.value) (t + j * (e.timeScale * e.baseScale)) s, false) := by
        rw [Seq.next]
        simp only [hget, if_neg (not_lt.2 hj), if_pos hlast]
      obtain ⟨n, e', os', h1, h2, h3, h4⟩ := ih (e := { e with from_ := some s.value, state := .running (k + 1) (t + j * (e.timeScale * e.baseScale) - s.dur + e.timeScale * e.baseScale) })
        hl hstep rfl hlast (by simp only; omega)
      have h5 : Seq.frames { e with state := .running k (t + j * (e.timeScale * e.baseScale)) } (n + 1) =
          .ok (e', interp (some s.value) (t + j * (e.timeScale * e.baseScale)) s :: os') := by
        rw [frames_succ, hnext]
        simp only [h1]
      exact ⟨j + (n + 1), e', _, frames_append j (n + 1) hos h5, h2, h3, h4⟩
    · have hnext : Seq.next { e with state := .running k (t + j * (e.timeScale * e.baseScale)) } =
          .ok ({ e with from_ := some s.value, state := .stopped }, some s.value, true) := by
        rw [Seq.next]
        simp only [hget, if_neg (not_lt.2 hj), if_neg hlast, hl]
        simp
      have hlastv : e.segs.getLast?.map Seg.value = some s.value := by
        rw [List.getLast?_eq_getElem?, show e.segs.length - 1 = k by omega, hget]
        rfl
      have h5 : Seq.frames { e with state := .running k (t + j * (e.timeScale * e.baseScale)) } 1 =
          .ok ({ e with from_ := some s.value, state := .stopped }, [some s.value]) := by
        rw [frames_succ, hnext]
        rfl
      refine ⟨j + 1, _, _, frames_append j 1 hos h5, rfl, hlastv.symm, ?_⟩
      intro m
      rw [stopped_frames rfl m, hlastv]

-- two segments, in steps of half a second
example : (Seq.run ((Seq.new 0 [⟨1, 4⟩, ⟨1, 2⟩] 1 false).init 2)
    [.restart, .frame, .frame, .frame, .frame, .frame, .frame]).map (·.2) =
    .ok [some 0, some 2, some 4, some 3, some 2, some 2] := by decide +kernel

-- a history as in `C43_range_partial`, with a stop
example : SegCalm ((Seq.new 0 [⟨1, 4⟩] 1 false).init 2) [.restart, .stop, .jump 0, .frame] := by
  refine ⟨trivial, fun r hr => ⟨?_, fun _ _ => ⟨trivial, fun _ _ => ⟨trivial, fun _ _ => trivial⟩⟩⟩⟩
  simp only [Seq.step, Except.ok.injEq] at hr
  rw [← hr]
  simp only [Seq.late, Seq.restart]
  rintro ⟨s, h1, h2⟩
  simp only [Seq.init, Seq.new, List.getElem?_cons_zero, Option.some.injEq] at h1
  rw [← h1] at h2
  exact absurd h2 (by norm_num)

/-- C43 is violated: a stop while the time is past the end of the segment moves the value beyond the segment value, here to 6 in
an envelope from 0 to 4. -/
theorem C43_stop_violated :
    (Seq.run ((Seq.new 0 [⟨1, 4⟩] 3 false).init 4) [.restart, .frame, .frame, .stop, .frame]).map (·.2) =
      .ok [some 0, some 3, some 6] := by decide +kernel

/-- C43 is violated: a segment of duration zero gives an output that is not a number. -/
theorem C43_zero_violated :
    (Seq.run ((Seq.new 0 [⟨0, 4⟩, ⟨1, 2⟩] 1 false).init 2) [.restart, .frame]).map (·.2) = .ok [none] := by decide +kernel

/-- C43: an envelope without segments panics when it is started or told to jump. -/
theorem C43_empty_violated :
    (Seq.run ((Seq.new 0 [] 1 false).init 2) [.restart, .frame]).map (·.2) = .error .index ∧
    (Seq.run ((Seq.new 0 [] 1 false).init 2) [.jump 0]).map (·.2) = .error .overflow := by decide +kernel

end Verif.Env
