import Verif.Props.System

/-!
# C67, the start: `Graph::new` with a callback

`Graph::new` runs the callback, whose edit is committed, and then generates task data a second time for the
audio thread to start with (graph.rs 263–265).  Those tasks hold no unit generators.  It does not matter.
-/

namespace Verif.Sys

open Verif.G
open Verif.T (NU TD UG)

section
variable {S St : Type}

/-- Generating the tasks a second time leaves the nodes as they are. -/
theorem makeTasks_again : ∀ (order : List Key) (i : Nat) (ug : Key → Option NU),
    (∀ j k, order[j]? = some k → ug k = some (.live (i + j))) →
    ∃ ts, T.makeTasks i order ug = .ok (ts, ug) := by
  intro order
  induction order with
  | nil => intro i ug _; exact ⟨[], rfl⟩
  | cons k ks ih =>
    intro i ug h
    have hk : ug k = some (.live i) := by simpa using h 0 k rfl
    have he : (fun k' => if k' = k then some (NU.live i) else ug k') = ug := by
      funext k'
      split
      · next e => rw [e, hk]
      · rfl
    obtain ⟨ts, h1⟩ := ih (i + 1) ug (fun j k' hj => by
      rw [h (j + 1) k' (by simpa using hj)]
      congr 2
      omega)
    exact ⟨(k, .take i) :: ts, by simp only [T.makeTasks, hk, he, h1, bind_ok]⟩

/-- The second task data for the order of the commit. -/
theorem renew_ok {y : Y S St} {order : List Key} {ug0 : Key → Option NU} {ts0} (hn : order.Nodup)
    (h0 : ∀ k ∈ order, (ug0 k).isSome) (h : T.makeTasks 0 order ug0 = .ok (ts0, y.ug)) (sch : Schedule) :
    ∃ ts, y.renew order sch = .ok { y with cur := (sch, ⟨ts, 0⟩) } := by
  obtain ⟨ts', ug', h1, -, -, h2, -⟩ := T.makeTasks_spec order 0 ug0 hn h0
  rw [h] at h1
  simp only [Except.ok.injEq, Prod.mk.injEq] at h1
  obtain ⟨ts, h3⟩ := makeTasks_again order 0 y.ug (by rw [h1.2]; exact h2)
  exact ⟨ts, by simp only [Y.renew, h3, bind_ok]⟩

/-- The first waiting schedule brings its own unit generators. -/
def Fresh (y : Y S St) : Prop := ∃ t r, y.ring = t :: r ∧ ∀ p ∈ t.2.tasks, ∃ k n, p.2 = .own k n

theorem applyTasks_own : ∀ (ts old : List (Key × UG)), (∀ p ∈ ts, ∃ k n, p.2 = .own k n) →
    T.applyTasks ts old = .ok ts := by
  intro ts
  induction ts with
  | nil => intro old _; rfl
  | cons p ts ih =>
    intro old h
    obtain ⟨k, u⟩ := p
    obtain ⟨k', n, he⟩ := h (k, u) (by simp)
    simp only at he
    subst he
    simp only [T.applyTasks, ih old (fun p hp => h p (List.mem_cons_of_mem _ hp)), bind_ok]

/-- The schedule in use makes no difference to edits. -/
theorem edit_cur {sl} (y : Y S St) (c) (op : Op) :
    edit sl { y with cur := c } op = (edit sl y op).map fun p => ({ p.1 with cur := c }, p.2) := by
  simp only [edit]
  cases op.run sl y.g with
  | error e => rfl
  | ok p => rfl

/-- The schedule in use makes no difference to commits. -/
theorem commit_cur {bs} (y : Y S St) (c) (rm : Key → Bool) :
    commit bs { y with cur := c } rm = (commit bs y rm).map fun y' => { y' with cur := c } := by
  simp only [commit]
  cases commitFull rm (fun f => y.applied (f + 1)) (decide (y.ring.length < y.cap)) bs y.g y.a with
  | error e => rfl
  | ok p =>
    obtain ⟨g, a, sch⟩ := p
    simp only [bind_ok]
    cases sch with
    | none => rfl
    | some sch =>
      simp only
      cases T.makeTasks 0 (sch.tasks.map Task.key) (fun k => if (g.get k).isSome then y.ug k else none) with
      | error e => rfl
      | ok p => rfl

/-- The schedule in use makes no difference to the next block if a fresh one is waiting. -/
theorem block_cur [Zero S] {bs} {y : Y S St} (hf : Fresh y) (c) (proc : Proc S St) (inp : Nat → Nat → S) :
    block bs { y with cur := c } proc inp = block bs y proc inp := by
  obtain ⟨t, r, hr, ho⟩ := hf
  have h1 : ∀ cur : TD, T.applyAll cur (y.ring.map Prod.snd) =
      T.applyAll { t.2 with tasks := t.2.tasks } (r.map Prod.snd) := by
    intro cur
    rw [hr, List.map_cons, T.applyAll, applyTasks_own t.2.tasks cur.tasks ho]
    rfl
  have h2 : ({ y with cur := c } : Y S St).newest = y.newest := by
    simp only [Y.newest, hr]
    rw [List.getLast?_cons]
    rfl
  simp only [block, h1, h2]

/-- Edits and commits keep the first waiting schedule. -/
theorem fresh_edit {sl} {y y' : Y S St} {op r} (hf : Fresh y) (h : edit sl y op = .ok (y', r)) : Fresh y' := by
  simp only [edit] at h
  obtain ⟨p, -, h⟩ := bind_inv h
  simp only [Except.ok.injEq, Prod.mk.injEq] at h
  obtain ⟨rfl, -⟩ := h
  exact hf

theorem fresh_commit {bs} {y y' : Y S St} {rm} (hf : Fresh y) (h : commit bs y rm = .ok y') : Fresh y' := by
  obtain ⟨t, r, hr, ho⟩ := hf
  simp only [commit] at h
  obtain ⟨⟨g, a, sch⟩, -, h⟩ := bind_inv h
  cases sch with
  | none =>
    simp only [Except.ok.injEq] at h
    subst h
    exact ⟨t, r, hr, ho⟩
  | some sch =>
    obtain ⟨⟨ts, ug⟩, -, h⟩ := bind_inv h
    simp only [Except.ok.injEq] at h
    subst h
    exact ⟨t, r ++ [(sch, ⟨ts, g.flag⟩)], by simp only [hr, List.cons_append], ho⟩

/-- No unit generator has been sent. -/
def Unsent (y : Y S St) : Prop := y.ring = [] ∧ ∀ k nu, y.ug k = some nu → nu = .loc (.own k 0)

theorem unsent_init [Zero S] (id numIn numOut bs cap : Nat) (heap : Key → St) :
    Unsent (Y.init id numIn numOut bs cap heap : Y S St) := ⟨rfl, by simp [Y.init]⟩

theorem unsent_edit {sl} {y y' : Y S St} {op r} (hu : Unsent y) (h : edit sl y op = .ok (y', r)) : Unsent y' := by
  simp only [edit] at h
  obtain ⟨p, -, h⟩ := bind_inv h
  simp only [Except.ok.injEq, Prod.mk.injEq] at h
  obtain ⟨rfl, -⟩ := h
  refine ⟨hu.1, fun k nu hk => ?_⟩
  simp only at hk
  split at hk
  · simp only [Option.some.injEq] at hk; exact hk.symm
  · exact hu.2 k nu hk

theorem makeTasks_isSome : ∀ (order : List Key) (i : Nat) (ug : Key → Option NU) {ts ug'}, order.Nodup →
    T.makeTasks i order ug = .ok (ts, ug') → ∀ k ∈ order, (ug k).isSome := by
  intro order
  induction order with
  | nil => intro i ug ts ug' _ _; simp
  | cons k ks ih =>
    intro i ug ts ug' hn h j hj
    simp only [List.nodup_cons] at hn
    simp only [T.makeTasks] at h
    split at h
    · simp at h
    · next nu hk =>
      obtain ⟨⟨ts1, ug1⟩, h1, -⟩ := bind_inv h
      rcases List.mem_cons.1 hj with rfl | hj
      · simp [hk]
      · have := ih (i + 1) _ hn.2 h1 j hj
        have hne : j ≠ k := fun e => hn.1 (e ▸ hj)
        simpa [hne] using this

/-- The commit of the callback, if it makes a schedule, brings all unit generators, and generating the tasks a
second time changes only the schedule in use. -/
theorem fresh_first {bs} {y y' : Y S St} {rm} (hw : WF y.g) (hu : Unsent y) (h : commit bs y rm = .ok y')
    (hr : y'.ring ≠ []) : Fresh y' ∧ ∃ order, (∀ t ∈ y'.ring, t.2.tasks.map Prod.fst = order) ∧
      ∀ sch, ∃ ts, y'.renew order sch = .ok { y' with cur := (sch, ⟨ts, 0⟩) } := by
  simp only [commit] at h
  obtain ⟨⟨g, a, sch⟩, hcf, h⟩ := bind_inv h
  cases sch with
  | none =>
    simp only [Except.ok.injEq] at h
    subst h
    exact absurd hu.1 hr
  | some sch =>
    obtain ⟨⟨ts, ug⟩, hm, h⟩ := bind_inv h
    simp only [Except.ok.injEq] at h
    subst h
    have hn : (sch.tasks.map Task.key).Nodup := by
      rw [commitFull] at hcf
      obtain ⟨g1, hfo, hcf⟩ := bind_inv hcf
      split at hcf
      · obtain ⟨⟨a2, sch2⟩, hms, hcf⟩ := bind_inv hcf
        simp only at hcf
        split at hcf
        · simp only [Except.ok.injEq, Prod.mk.injEq, Option.some.injEq] at hcf
          obtain ⟨-, -, rfl⟩ := hcf
          obtain ⟨rem, hord⟩ := makeSchedule_keys hms
          exact (order_nodup_mem (wf_freeOld hw hfo) hord).1
        · simp at hcf
      · simp at hcf
    have hs := makeTasks_isSome _ _ _ hn hm
    obtain ⟨ts', ug', h1, h2, -, -, h3⟩ := T.makeTasks_spec _ 0 _ hn hs
    rw [hm] at h1
    simp only [Except.ok.injEq, Prod.mk.injEq] at h1
    obtain ⟨rfl, rfl⟩ := h1
    refine ⟨⟨(sch, ⟨ts, g.flag⟩), [], by simp only [hu.1, List.nil_append], ?_⟩, sch.tasks.map Task.key, ?_, ?_⟩
    · intro p hp
      obtain ⟨nu, h4, h5⟩ := h3 p hp
      simp only at h4
      split at h4
      · rw [hu.2 _ _ h4] at h5
        exact ⟨p.1, 0, h5⟩
      · simp at h4
    · intro t ht
      simp only [hu.1, List.nil_append, List.mem_singleton] at ht
      subst ht
      exact h2
    · intro sch0
      exact renew_ok hn hs hm sch0

/-- The edits and commits before the first block. -/
inductive Pre where
  | edit (op : Op)
  | commit (rm : Key → Bool)

def Pre.run (sl : Key → Nat) (bs : Nat) (y : Y S St) : Pre → R (Y S St)
  | .edit op => do let (y, _) ← Sys.edit sl y op; .ok y
  | .commit rm => Sys.commit bs y rm

def runPre (sl : Key → Nat) (bs : Nat) : Y S St → List Pre → R (Y S St)
  | y, [] => .ok y
  | y, p :: ps => do runPre sl bs (← p.run sl bs y) ps

theorem pre_cur [Zero S] {sl} {bs : Nat} (proc : Proc S St) (inp : Nat → Nat → S) (c : Schedule × TD) :
    ∀ (ps : List Pre) {y : Y S St}, Fresh y →
    ((runPre sl bs { y with cur := c } ps) >>= fun y' => block bs y' proc inp) =
      ((runPre sl bs y ps) >>= fun y' => block bs y' proc inp) := by
  intro ps
  induction ps with
  | nil => intro y hf; exact block_cur hf c proc inp
  | cons p ps ih =>
    intro y hf
    simp only [runPre, bind_assoc]
    cases p with
    | edit op =>
      simp only [Pre.run, edit_cur]
      cases h : edit sl y op with
      | error e => rfl
      | ok q =>
        obtain ⟨y1, r⟩ := q
        exact ih (fresh_edit hf h)
    | commit rm =>
      simp only [Pre.run, commit_cur]
      cases h : commit bs y rm with
      | error e => rfl
      | ok y1 => exact ih (fresh_commit hf h)

/-- The edits of the callback. -/
inductive Callback [Zero S] (sl : Key → Nat) (bs : Nat) (heap : Key → St) : Y S St → Prop
  | init (id numIn numOut cap : Nat) : Callback sl bs heap (.init id numIn numOut bs cap heap)
  | edit {y y' : Y S St} {op r} : Callback sl bs heap y → isCommit op = false → edit sl y op = .ok (y', r) →
      Callback sl bs heap y'

theorem Callback.ok [Zero S] {sl bs} {heap : Key → St} {y : Y S St} (h : Callback sl bs heap y) :
    WF y.g ∧ Unsent y ∧ ∃ t, Sim y t := by
  induction h with
  | init id a b cap => exact ⟨wf_init .., unsent_init .., sim_init ..⟩
  | edit _ hop he ih =>
    obtain ⟨hw, hu, t, hs⟩ := ih
    obtain ⟨h1, h2, -⟩ := sim_edit hs hw hop he
    exact ⟨h2, unsent_edit hu he, h1⟩

/-- **C67, the start.**  `Graph::new` whose callback had something to commit never fails after the commit, and
the new graph starts like an empty graph with the callback as its first edit: whatever is edited and committed
before the first block, that block gives the same outputs and leaves the same state, so all later blocks do. -/
theorem C67_new [Zero S] {sl} {bs : Nat} {heap : Key → St} {y y1 : Y S St} {rm} (h : Callback sl bs heap y)
    (hc : commit bs y rm = .ok y1) (hr : y1.ring ≠ []) :
    ∃ order, (∀ t ∈ y1.ring, t.2.tasks.map Prod.fst = order) ∧ ∀ sch, ∃ y2, y1.renew order sch = .ok y2 ∧
      ∀ (ps : List Pre) (proc : Proc S St) (inp : Nat → Nat → S),
        ((runPre sl bs y2 ps) >>= fun y' => block bs y' proc inp) =
          ((runPre sl bs y1 ps) >>= fun y' => block bs y' proc inp) := by
  obtain ⟨hw, hu, -⟩ := h.ok
  obtain ⟨hf, order, h1, h2⟩ := fresh_first hw hu hc hr
  refine ⟨order, h1, fun sch => ?_⟩
  obtain ⟨ts, h3⟩ := h2 sch
  exact ⟨_, h3, fun ps proc inp => pre_cur proc inp _ ps hf⟩

/-- The hypotheses hold for a callback that pushes a node and connects it to an output. -/
example : ∃ y y1 : Y Int Unit, Callback id 2 (fun _ => ()) y ∧ commit 2 y (fun _ => false) = .ok y1 ∧ y1.ring ≠ [] := by
  have h1 : ∃ y r, edit id (.init 0 0 1 2 4 (fun _ => ()) : Y Int Unit) (.push 0 1 []) = .ok (y, r) := ⟨_, _, rfl⟩
  obtain ⟨y, r, h1⟩ := h1
  have h2 : ∃ y2 r2, edit id y (.connect (.node ⟨0, 0⟩) 0 0 .graph true false) = .ok (y2, r2) := by
    simp only [edit, Op.run, bind_ok, Except.ok.injEq, Prod.mk.injEq] at h1
    obtain ⟨rfl, -⟩ := h1
    exact ⟨_, _, rfl⟩
  obtain ⟨y2, r2, h2⟩ := h2
  have h3 : ∃ y3, commit 2 y2 (fun _ => false) = .ok y3 ∧ y3.ring ≠ [] := by
    simp only [edit, Op.run, bind_ok, Except.ok.injEq, Prod.mk.injEq] at h1
    obtain ⟨rfl, -⟩ := h1
    simp only [edit] at h2
    obtain ⟨p, hp, h2⟩ := bind_inv h2
    have : p = ({ id := 0, nodes := [(0, { inputs := 0, outputs := 1, ins := some [], pars := some [] })], nextKey := 1, outs := [some ⟨.node 0, 0, false⟩], numIn := 0, recalc := true }, .ok ()) := by
      have hq : Op.run id (pushNode id (Y.init 0 0 1 2 4 (fun _ => ()) : Y Int Unit).g (userNode 0 1 [])) (.connect (.node ⟨0, 0⟩) 0 0 .graph true false) = .ok ({ id := 0, nodes := [(0, { inputs := 0, outputs := 1, ins := some [], pars := some [] })], nextKey := 1, outs := [some ⟨.node 0, 0, false⟩], numIn := 0, recalc := true }, .ok ()) := by rfl
      rw [hq] at hp
      simpa using hp.symm
    subst this
    simp only [Except.ok.injEq, Prod.mk.injEq] at h2
    obtain ⟨rfl, -⟩ := h2
    refine ⟨_, rfl, ?_⟩
    simp
  obtain ⟨y3, h3, h4⟩ := h3
  exact ⟨y2, y3, .edit (.edit (.init 0 0 1 4) rfl h1) rfl h2, h3, h4⟩

end

end Verif.Sys
