import Verif.Lemmas.Tasks

/-!
# C15–C17: schedules, unit generators and storage across the two threads
-/

namespace Verif.T

open Verif.G (Key)

/-- All executions with the list of what ran in each block so far, oldest first. -/
inductive Hist : S → List (List (Key × UG)) → Prop
  | init {cap n order s} : OrderOk (List.range n) order → init cap n order = .ok s → Hist s []
  | push {s hs} : Hist s hs → Hist (push s) hs
  | free {s hs} (k : Key) : Hist s hs → Hist (free s k) hs
  | touch {s hs} : Hist s hs → Hist (touch s) hs
  | commit {s s' hs order} : Hist s hs → OrderOk s.live order →
      commit s order = .ok (s', Option.none) → Hist s' hs
  | block {s s' hs log} : Hist s hs → block s = .ok (s', log) → Hist s' (hs ++ [log])

theorem Hist.reach {s hs} (h : Hist s hs) : Reach s := by
  induction h with
  | init ho hi => exact .init ho hi
  | push _ ih => exact .push ih
  | free k _ ih => exact .free k ih
  | touch _ ih => exact .touch ih
  | commit _ ho hc ih => exact .commit ih ho hc
  | block _ hb ih => exact .block ih hb

/-- In how many of these blocks node `k` ran. -/
def blocksOf (k : Key) (hs : List (List (Key × UG))) : Nat :=
  (hs.filter fun log => k ∈ log.map Prod.fst).length

theorem commit_ran {s s' : S} {order : List Key} {e : Option Panic} (h : commit s order = .ok (s', e)) :
    s'.ran = s.ran := by
  rw [commit] at h
  split at h
  · change (makeTasks 0 order (dropOld s).ug >>= _) = _ at h
    cases hm : makeTasks 0 order (dropOld s).ug with
    | error e => rw [hm] at h; simp [bind_error] at h
    | ok x =>
      rw [hm] at h
      simp only [bind_ok] at h
      split at h <;>
      · simp only [Except.ok.injEq, Prod.mk.injEq] at h
        rw [← h.1]
        rfl
  · simp only [Except.ok.injEq, Prod.mk.injEq] at h
    rw [← h.1]
    rfl

theorem init_ran {cap n : Nat} {order : List Key} {s : S} (h : init cap n order = .ok s) (k : Key) :
    s.ran k = 0 := by
  rw [init] at h
  revert h
  generalize hs0 : (S.mk (fun k => if k < n then some (.loc (.own k 0)) else Option.none) n (List.range n)
    [] 1 (0 < n) (fun _ => false) [] cap ⟨[], 0⟩ (fun _ => 0) : S) = s0
  intro h
  cases hc : commit s0 order with
  | error e => rw [hc] at h; simp [bind_error] at h
  | ok x =>
    obtain ⟨s1, e⟩ := x
    rw [hc] at h
    simp only [bind_ok] at h
    cases e with
    | some e => simp at h
    | none =>
      simp only at h
      change (makeTasks 0 _ s1.ug >>= _) = _ at h
      cases hm : makeTasks 0 (if 0 < n then order else []) s1.ug with
      | error e => rw [hm] at h; simp [bind_error] at h
      | ok y =>
        rw [hm] at h
        simp only [bind_ok, Except.ok.injEq] at h
        subst h
        simp only
        rw [commit_ran hc, ← hs0]

/-- The counter of the model counts the blocks in which the node ran. -/
theorem ran_eq {s hs} (h : Hist s hs) (k : Key) : s.ran k = blocksOf k hs := by
  induction h with
  | init _ hi => exact init_ran hi k
  | push _ ih => exact ih
  | free k' _ ih =>
    rw [free]
    split <;> exact ih
  | touch _ ih => exact ih
  | commit _ _ hc ih => rw [commit_ran hc]; exact ih
  | block h0 hb ih =>
    rename_i s s' hs log
    obtain ⟨s2, log2, e1, -, e2, -⟩ := block_spec h0.reach.inv
    rw [block] at hb
    cases ha : applyAll s.cur s.ring with
    | error e => rw [ha] at hb; simp [bind_error] at hb
    | ok c =>
      rw [ha] at hb
      simp only [bind_ok] at hb
      cases hr : runAll c.tasks with
      | error e => rw [hr] at hb; simp [bind_error] at hb
      | ok ts =>
        rw [hr] at hb
        simp only [bind_ok, Except.ok.injEq, Prod.mk.injEq] at hb
        obtain ⟨rfl, rfl⟩ := hb
        simp only [blocksOf, List.filter_append, List.length_append, TD.keys]
        rw [ih, blocksOf]
        by_cases hk : k ∈ c.tasks.map Prod.fst
        · simp only [hk, if_true]
          rw [List.filter_cons_of_pos (by simpa using hk)]
          rfl
        · simp only [hk, if_false]
          rw [List.filter_cons_of_neg (by simpa using hk)]
          rfl

/-- C15: in every interleaving of edits, commits and blocks in which no commit panics, a block never
panics, no node runs twice in it, and each node runs the unit generator that was pushed for it, in the
state it has after exactly the blocks in which this node ran so far.

Missing: executions that go on after a commit has panicked because the ring buffer was full; for those
the property is false (`C15_full_ring_violated`). -/
theorem C15_owned_partial {s : S} {hs : List (List (Key × UG))} (h : Hist s hs) :
    ∃ s' log, block s = .ok (s', log) ∧ (log.map Prod.fst).Nodup ∧
      ∀ p ∈ log, p.2 = .own p.1 (blocksOf p.1 hs) := by
  have hi := h.reach.inv
  obtain ⟨s', log, h1, -, h2, h3, -⟩ := block_spec hi
  refine ⟨s', log, h1, ?_, ?_⟩
  · rw [h2]; exact hi.nodup _ getLast_mem
  · intro p hp
    rw [h3 p hp, ran_eq h]

/-! ### The full ring buffer -/

/-- Node 0 and 1 are pushed and committed; another edit is committed while the ring buffer is full, with
the order of the two nodes exchanged; then the audio thread runs a block, and the next edit is
committed. -/
def fullRing : R S := do
  let s ← init 1 0 []
  let s := push (push s)
  let (s, _) ← commit s [0, 1]
  let (s, _) ← commit (touch s) [1, 0]
  let (s, _) ← block s
  let (s, _) ← commit (touch s) [0, 1]
  .ok s

/-- C15 is violated when a commit is refused because the ring buffer is full: the nodes already refer to
the schedule that was dropped.  If the panic of the edit is caught, the next block runs the unit generator
of node 1 for node 0 and the other way round. -/
theorem C15_full_ring_violated :
    (do let s ← fullRing; let (_, log) ← block s; .ok log : R (List (Key × UG)))
      = .ok [(0, .own 1 1), (1, .own 0 1)] := by decide

/-- The refused commit. -/
theorem C15_full_ring_panics :
    (do let s ← init 1 0 []
        let (s, e) ← commit (push (push s)) [0, 1]
        let (_, e') ← commit (touch s) [1, 0]
        .ok (e, e') : R (Option Panic × Option Panic)) = .ok (Option.none, some .unwrap) := by decide

/-- A node that is pushed before the refused commit is lost: the block after the next commit panics. -/
theorem C15_full_ring_lost :
    (do let s ← init 1 0 []
        let (s, _) ← commit (push s) [0]
        let (s, _) ← commit (push s) [0, 1]
        let (s, _) ← block s
        let (s, _) ← commit (touch s) [0, 1]
        let (_, log) ← block s
        .ok log : R (List (Key × UG))) = .error .index := by decide

/-- An example of a history: a node that is committed twice before the first block and then again. -/
example : (do let s ← init 10 0 []
              let (s, _) ← commit (push s) [0]
              let (s, _) ← commit (push s) [1, 0]
              let (s, a) ← block s
              let (s, _) ← commit (push s) [0, 2, 1]
              let (_, b) ← block s
              .ok (a, b) : R (List (Key × UG) × List (Key × UG)))
    = .ok ([(1, .own 1 0), (0, .own 0 0)], [(0, .own 0 1), (2, .own 2 0), (1, .own 1 1)]) := by decide

/-! ### C16: dropping storage -/

/-- C16, safety: a commit only drops the storage of a node that is neither in the schedule in use nor in
one waiting in the ring buffer. -/
theorem C16_safe {s s' : S} {order : List Key} {e : Option Panic} (h : Reach s)
    (hc : commit s order = .ok (s', e)) (ho : OrderOk s.live order) (k : Key)
    (h1 : (s.ug k).isSome) (h2 : s'.ug k = Option.none) :
    k ∉ s.cur.keys ∧ (∀ t ∈ s.ring, k ∉ t.keys) ∧ k ∉ s.live := by
  have hi := h.inv
  have hd : (dropOld s).ug k = Option.none := by
    have hs := (inv_dropOld hi).some
    rw [commit] at hc
    split at hc
    · obtain ⟨ts, ug', m1, m2, m3, m4, m5⟩ := makeTasks_spec order 0 (dropOld s).ug ho.1
        (fun k hk => hs k ((ho.2 k).1 hk))
      rw [m1] at hc
      simp only [bind_ok] at hc
      have hu : s'.ug = ug' := by
        split at hc <;>
        · simp only [Except.ok.injEq, Prod.mk.injEq] at hc
          rw [← hc.1]
      rw [hu] at h2
      by_cases hk : k ∈ order
      · obtain ⟨j, hj⟩ := List.mem_iff_getElem?.1 hk
        rw [m4 j k hj] at h2
        simp at h2
      · rw [m3 k hk] at h2
        exact h2
    · simp only [Except.ok.injEq, Prod.mk.injEq] at hc
      rw [← hc.1] at h2
      exact h2
  simp only [dropOld] at hd
  split at hd
  · rename_i hp
    rw [dropped_iff] at hp
    obtain ⟨p, hp, rfl, ha⟩ := hp
    obtain ⟨-, -, q1, -, q2⟩ := hi.pend p hp
    have := (hi.applied p.2).1 ha
    refine ⟨q2 s.cur (by simp) this.2, ?_, q1⟩
    intro t ht
    refine q2 t (List.mem_cons_of_mem _ ht) (Nat.le_trans this.2 (hi.flag_ge t (List.mem_cons_of_mem _ ht)))
  · rw [hd] at h1
    simp at h1

/-- Steps of both threads other than commits. -/
inductive Quiet : S → S → Prop
  | refl (s) : Quiet s s
  | push {s s'} : Quiet s s' → Quiet s (push s')
  | free {s s'} (k : Key) : Quiet s s' → Quiet s (free s' k)
  | touch {s s'} : Quiet s s' → Quiet s (touch s')
  | block {s s' s'' log} : Quiet s s' → block s' = .ok (s'', log) → Quiet s s''

/-- Steps of the control thread other than commits. -/
inductive Edits : S → S → Prop
  | refl (s) : Edits s s
  | push {s s'} : Edits s s' → Edits s (push s')
  | free {s s'} (k : Key) : Edits s s' → Edits s (free s' k)
  | touch {s s'} : Edits s s' → Edits s (touch s')

theorem Quiet.trans {a b c : S} (h1 : Quiet a b) (h2 : Quiet b c) : Quiet a c := by
  induction h2 with
  | refl => exact h1
  | push _ ih => exact .push ih
  | free k _ ih => exact .free k ih
  | touch _ ih => exact .touch ih
  | block _ hb ih => exact .block ih hb

theorem Edits.quiet {a b : S} (h : Edits a b) : Quiet a b := by
  induction h with
  | refl => exact .refl _
  | push _ ih => exact .push ih
  | free k _ ih => exact .free k ih
  | touch _ ih => exact .touch ih

theorem Quiet.reach {s s' : S} (h : Quiet s s') (hr : Reach s) : Reach s' := by
  induction h with
  | refl => exact hr
  | push _ ih => exact .push ih
  | free k _ ih => exact .free k ih
  | touch _ ih => exact .touch ih
  | block _ hb ih => exact .block ih hb

theorem block_frame {s s' : S} {log} (h : block s = .ok (s', log)) :
    s'.pending = s.pending ∧ s'.flag = s.flag ∧ s'.ug = s.ug ∧ s'.live = s.live ∧ s'.recalc = s.recalc := by
  rw [block] at h
  cases ha : applyAll s.cur s.ring with
  | error e => rw [ha] at h; simp [bind_error] at h
  | ok c =>
    rw [ha] at h
    simp only [bind_ok] at h
    cases hr : runAll c.tasks with
    | error e => rw [hr] at h; simp [bind_error] at h
    | ok ts =>
      rw [hr] at h
      simp only [bind_ok, Except.ok.injEq, Prod.mk.injEq] at h
      obtain ⟨rfl, rfl⟩ := h
      exact ⟨rfl, rfl, rfl, rfl, rfl⟩

theorem quiet_pending {s s' : S} (h : Quiet s s') : s'.flag = s.flag ∧ ∀ p ∈ s.pending, p ∈ s'.pending := by
  induction h with
  | refl => exact ⟨rfl, fun p hp => hp⟩
  | push _ ih => exact ih
  | free k _ ih =>
    rw [free]
    split
    · exact ⟨ih.1, fun p hp => List.mem_append_left _ (ih.2 p hp)⟩
    · exact ih
  | touch _ ih => exact ih
  | block _ hb ih =>
    obtain ⟨h1, h2, -⟩ := block_frame hb
    rw [h1, h2]
    exact ih

theorem commit_frame {s s' : S} {order : List Key} {e : Option Panic} (hr : s.recalc = true)
    (h : commit s order = .ok (s', e)) :
    s'.pending = s.pending.filter (fun p => !s.applied p.2) ∧ s'.flag = s.flag + 1 ∧
    s'.live = s.live ∧ s'.applied = s.applied ∧ s'.cur = s.cur ∧ s'.next = s.next ∧
    ∀ k, k ∉ order → s'.ug k = (dropOld s).ug k := by
  have hr' : (dropOld s).recalc = true := hr
  rw [commit] at h
  simp only [hr', if_true] at h
  cases hm : makeTasks 0 order (dropOld s).ug with
  | error e => rw [hm] at h; simp [bind_error] at h
  | ok x =>
    obtain ⟨ts, ug'⟩ := x
    have hu : ∀ (order : List Key) (i : Nat) ug ts ug', makeTasks i order ug = .ok (ts, ug') →
        ∀ k, k ∉ order → ug' k = ug k := by
      intro order
      induction order with
      | nil =>
        intro i ug ts ug' h k _
        simp only [makeTasks, Except.ok.injEq, Prod.mk.injEq] at h
        rw [h.2]
      | cons a order ih =>
        intro i ug ts ug' h k hk
        simp only [List.mem_cons, not_or] at hk
        rw [makeTasks] at h
        cases ha : ug a with
        | none => rw [ha] at h; simp at h
        | some nu =>
          rw [ha] at h
          simp only at h
          cases hm : makeTasks (i + 1) order (fun k' => if k' = a then some (.live i) else ug k') with
          | error e => rw [hm] at h; simp [bind_error] at h
          | ok y =>
            rw [hm] at h
            simp only [bind_ok, Except.ok.injEq, Prod.mk.injEq] at h
            obtain ⟨-, rfl⟩ := h
            rw [ih _ _ y.1 y.2 hm k hk.2]
            simp [hk.1]
    rw [hm] at h
    simp only [bind_ok] at h
    split at h <;>
    · simp only [Except.ok.injEq, Prod.mk.injEq] at h
      obtain ⟨rfl, -⟩ := h
      exact ⟨rfl, rfl, rfl, rfl, rfl, rfl, fun k hk => hu order 0 _ ts ug' hm k hk⟩

/-- C16, progress: a node is freed and the change is committed (`s₂`).  As soon as a block has run after
that commit (whatever else happens before and after the block, as long as there is no other commit), the
next commit drops the storage of the node, and the audio thread does not have it any more. -/
theorem C16_dropped {s s₁ s₂ s₃ s₄ s₅ s₆ : S} {log : List (Key × UG)} {o o' : List Key} {e : Option Panic}
    (h : Reach s) (k : Key) (hk : k ∈ s.live) (hq : Edits (free s k) s₁) (ho : OrderOk s₁.live o)
    (hc : commit s₁ o = .ok (s₂, Option.none)) (hq2 : Quiet s₂ s₃) (hb : block s₃ = .ok (s₄, log))
    (hq3 : Quiet s₄ s₅) (ho' : OrderOk s₅.live o') (hc' : commit s₅ o' = .ok (s₆, e)) :
    s₆.ug k = Option.none ∧ k ∉ s₅.cur.keys ∧ ∀ t ∈ s₅.ring, k ∉ t.keys := by
  have hr1 : Reach s₁ := hq.quiet.reach (.free k h)
  have hr2 : Reach s₂ := .commit hr1 ho hc
  have hr3 : Reach s₃ := hq2.reach hr2
  have hr4 : Reach s₄ := .block hr3 hb
  have hr5 : Reach s₅ := hq3.reach hr4
  have hp0 : (k, s.flag) ∈ (free s k).pending := by simp [free, hk]
  have hf0 : (free s k).flag = s.flag := by simp [free, hk]
  obtain ⟨hf1, hp1⟩ := quiet_pending hq.quiet
  have hrec : s₁.recalc = true := by
    clear hc hq2 hr2 hr1 ho hf1 hp1
    induction hq with
    | refl => simp [free, hk]
    | push _ ih => exact rfl
    | free k' _ ih =>
      rw [free]
      split
      · rfl
      · exact ih
    | touch _ ih => exact rfl
  obtain ⟨f1, f2, -, -, -⟩ := commit_frame hrec hc
  have hnap : s₁.applied s.flag = false := by
    cases hx : s₁.applied s.flag with
    | false => rfl
    | true =>
      have h1 := (hr1.inv.applied s.flag).1 hx
      have h2 := hr1.inv.flag_lt s₁.cur (by simp)
      rw [hf1, hf0] at h2
      omega
  have hp2 : (k, s.flag) ∈ s₂.pending := by
    rw [f1]
    exact List.mem_filter.2 ⟨hp1 _ hp0, by simp [hnap]⟩
  obtain ⟨hf3, hp3⟩ := quiet_pending hq2
  have hfl3 : s₃.flag = s.flag + 1 := by rw [hf3, f2, hf1, hf0]
  obtain ⟨s4', log', b1, b2, b3, b4, b5, b6, b7, b8⟩ := block_spec hr3.inv
  rw [b1] at hb
  simp only [Except.ok.injEq, Prod.mk.injEq] at hb
  obtain ⟨rfl, rfl⟩ := hb
  obtain ⟨g1, g2, -⟩ := block_frame b1
  obtain ⟨hf5, hp5⟩ := quiet_pending hq3
  have hp5' : (k, s.flag) ∈ s₅.pending := hp5 _ (by rw [g1]; exact hp3 _ hp2)
  have hcur : s.flag ≤ s₅.cur.flag := by
    have hge : ∀ {a b : S}, Reach a → Quiet a b → a.cur.flag ≤ b.cur.flag := by
      intro a b hra hab
      induction hab with
      | refl => exact Nat.le_refl _
      | push _ ih => exact ih
      | free k' _ ih =>
        rw [free]
        split <;> exact ih
      | touch _ ih => exact ih
      | block h1 hb ih =>
        rename_i sx sy lg
        obtain ⟨s', l', c1, -, -, -, -, -, -, c2⟩ := block_spec (h1.reach hra).inv
        rw [c1] at hb
        simp only [Except.ok.injEq, Prod.mk.injEq] at hb
        obtain ⟨rfl, rfl⟩ := hb
        have := (h1.reach hra).inv.flag_lt sx.cur (by simp)
        omega
    have := hge hr4 hq3
    omega
  have hap : s₅.applied s.flag = true := by
    rw [hr5.inv.applied]
    exact ⟨(hr5.inv.pend _ hp5').1, hcur⟩
  obtain ⟨-, -, q1, -, q2⟩ := hr5.inv.pend _ hp5'
  have hdrop : (dropOld s₅).ug k = Option.none := by
    simp only [dropOld]
    rw [if_pos]
    rw [dropped_iff]
    exact ⟨_, hp5', rfl, hap⟩
  refine ⟨?_, q2 s₅.cur (by simp) hcur, ?_⟩
  · have hko : k ∉ o' := fun hm => q1 ((ho'.2 k).1 hm)
    cases hrec5 : s₅.recalc with
    | true =>
      rw [(commit_frame hrec5 hc').2.2.2.2.2.2 k hko]
      exact hdrop
    | false =>
      rw [commit] at hc'
      have : (dropOld s₅).recalc = false := hrec5
      simp only [this, Bool.false_eq_true, if_false, Except.ok.injEq, Prod.mk.injEq] at hc'
      rw [← hc'.1]
      exact hdrop
  · intro t ht
    exact q2 t (List.mem_cons_of_mem _ ht)
      (Nat.le_trans hcur (hr5.inv.flag_ge t (List.mem_cons_of_mem _ ht)))

/-- The storage is still there right after the node was freed and committed. -/
example : (do let s ← init 10 0 []
              let (s, _) ← commit (push (push s)) [0, 1]
              let (s, _) ← block s
              let (s, _) ← commit (free s 0) [1]
              let a := s.ug 0
              let (s, _) ← commit s [1]
              let b := s.ug 0
              let (s, _) ← block s
              let (s, _) ← commit s [1]
              .ok (a.isSome, b.isSome, (s.ug 0).isSome, (s.ug 1).isSome) : R (Bool × Bool × Bool × Bool))
    = .ok (true, true, false, true) := by decide

/-! ### C17: versions -/

theorem quiet_last {s s' : S} (hr : Reach s) (h : Quiet s s') :
    (s'.ring.getLast?.getD s'.cur).keys = (s.ring.getLast?.getD s.cur).keys := by
  induction h with
  | refl => rfl
  | push _ ih => exact ih
  | free k _ ih =>
    rw [free]
    split <;> exact ih
  | touch _ ih => exact ih
  | block h1 hb ih =>
    obtain ⟨s2, log2, c1, -, -, -, c3, c4, -⟩ := block_spec (h1.reach hr).inv
    rw [c1] at hb
    simp only [Except.ok.injEq, Prod.mk.injEq] at hb
    obtain ⟨rfl, rfl⟩ := hb
    rw [c3]
    simp only [List.getLast?_nil, Option.getD_none]
    rw [c4, ih]

/-- C17: after a commit of the order `order`, every block runs exactly the tasks of `order`, in this
order, until the next commit that changes something — whatever edits are made and however many blocks
run in between.  So a block never mixes two versions, the newest version is used from the next block on,
and an edit that is not committed has no effect. -/
theorem C17_newest {s s₁ s₂ s₃ : S} {order : List Key} {log : List (Key × UG)} (h : Reach s)
    (ho : OrderOk s.live order) (hrec : s.recalc = true) (hc : commit s order = .ok (s₁, Option.none))
    (hq : Quiet s₁ s₂) (hb : block s₂ = .ok (s₃, log)) : log.map Prod.fst = order := by
  obtain ⟨-, hx⟩ := inv_commit h.inv ho hc
  rcases hx with ⟨hr, -⟩ | ⟨-, t, h1, h2, -, -⟩
  · rw [hr] at hrec; simp at hrec
  · have hr1 : Reach s₁ := .commit h ho hc
    obtain ⟨s', log', c1, -, c2, -⟩ := block_spec (hq.reach hr1).inv
    rw [c1] at hb
    simp only [Except.ok.injEq, Prod.mk.injEq] at hb
    obtain ⟨rfl, rfl⟩ := hb
    rw [c2, quiet_last hr1 hq, h1]
    simp [h2]

/-- A commit without changes keeps the version in use. -/
theorem C17_unchanged {s s₁ s₂ s₃ s₄ : S} {order : List Key} {log log' : List (Key × UG)} (h : Reach s)
    (ho : OrderOk s.live order) (hrec : s.recalc = false) (hc : commit s order = .ok (s₁, Option.none))
    (hb : block s = .ok (s₂, log)) (hq : Quiet s₁ s₃) (hb' : block s₃ = .ok (s₄, log')) :
    log'.map Prod.fst = log.map Prod.fst := by
  obtain ⟨-, hx⟩ := inv_commit h.inv ho hc
  rcases hx with ⟨-, rfl⟩ | ⟨hr, -⟩
  · have hr1 : Reach (dropOld s) := .commit h ho hc
    obtain ⟨s', l1, c1, -, c2, -⟩ := block_spec (hq.reach hr1).inv
    rw [c1] at hb'
    simp only [Except.ok.injEq, Prod.mk.injEq] at hb'
    obtain ⟨rfl, rfl⟩ := hb'
    obtain ⟨s'', l2, d1, -, d2, -⟩ := block_spec h.inv
    rw [d1] at hb
    simp only [Except.ok.injEq, Prod.mk.injEq] at hb
    obtain ⟨rfl, rfl⟩ := hb
    rw [c2, quiet_last hr1 hq, d2]
    rfl
  · rw [hr] at hrec; simp at hrec

end Verif.T
