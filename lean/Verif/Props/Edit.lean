import Verif.Model.Edit
import Verif.Lemmas.GraphOps

/-!
# C70: an edit is applied as a whole, once
-/

namespace Verif.Ed

open Verif.G

/-- The calls of a closure that comes to its end, one after the other: a separate account that knows nothing
of locks.  A subgraph counts as the node it is in the outer graph, its callback leaves the outer edit alone. -/
inductive Calls (sl : Key → Nat) : Prog → Graph → Graph → Prop
  | done (g : Graph) : Calls sl .done g g
  | call {op : Op} {next} {g g1 g' : Graph} {r} : op.run sl g = .ok (g1, r) → Calls sl (next r) g1 g' →
      Calls sl (.call op next) g g'
  | subgraph {i o : Nat} {next} {g g' : Graph} : Calls sl next (pushNode sl g (userNode i o [])) g' →
      Calls sl (.subgraph i o .done next) g g'

theorem run_ok_iff {sl b} : ∀ (p : Prog) (g g' : Graph), run sl b p g = .ok g' ↔ Calls sl p g g' := by
  intro p
  induction p with
  | done =>
    intro g g'
    simp only [run, Except.ok.injEq]
    constructor
    · rintro rfl; exact .done _
    · rintro ⟨⟩; rfl
  | call op next ih =>
    intro g g'
    simp only [run]
    constructor
    · intro h
      split at h
      · simp at h
      · next g1 r h1 => exact .call h1 ((ih r g1 g').1 h)
    · rintro ⟨⟩
      next g1 r h1 h2 =>
        simp only [h1]
        exact (ih r g1 g').2 h2
  | panic =>
    intro g g'
    simp only [run, reduceCtorEq, false_iff]
    rintro ⟨⟩
  | subgraph i o inner next _ ih =>
    intro g g'
    simp only [run]
    constructor
    · intro h
      cases inner with
      | done => exact .subgraph ((ih _ g').1 (by simpa [runHeld] using h))
      | call op next => simp [runHeld] at h
      | panic => simp [runHeld] at h
      | subgraph => simp [runHeld] at h
    · rintro ⟨⟩
      next h => simpa [runHeld] using (ih _ g').2 h

/-- **C70.**  An edit finishes exactly if its calls can be made one after the other without a panic and the one
commit at the end succeeds, and then its effect is that of the calls followed by one commit. -/
theorem C70_partial (sl : Key → Nat) (b : Bool) (commit : Graph → R Graph) (p : Prog) (g g' : Graph) :
    edit sl b commit p g = .finished g' ↔ ∃ g1, Calls sl p g g1 ∧ commit g1 = .ok g' := by
  simp only [edit]
  constructor
  · intro h
    split at h
    · next g1 h1 =>
      split at h
      · next g2 h2 =>
        simp only [Out.finished.injEq] at h
        subst h
        exact ⟨g1, (run_ok_iff p g g1).1 h1, h2⟩
      · simp at h
    · split at h <;> simp at h
    · simp at h
    · simp at h
  · rintro ⟨g1, h1, h2⟩
    simp only [(run_ok_iff p g g1).2 h1, h2]

/-- A closure that reaches a panic of its own after some calls. -/
inductive Breaks (sl : Key → Nat) : Prog → Graph → Graph → Prop
  | panic (g : Graph) : Breaks sl .panic g g
  | call {op : Op} {next} {g g1 g' : Graph} {r} : op.run sl g = .ok (g1, r) → Breaks sl (next r) g1 g' →
      Breaks sl (.call op next) g g'
  | subgraph {i o : Nat} {next} {g g' : Graph} : Breaks sl next (pushNode sl g (userNode i o [])) g' →
      Breaks sl (.subgraph i o .done next) g g'

theorem run_free {sl b} {p : Prog} {g g1 : Graph} (h : Breaks sl p g g1) : run sl b p g = .error (.free g1) := by
  induction h with
  | panic g => rfl
  | call h1 _ ih => simp only [run, h1]; exact ih
  | subgraph _ ih => simpa [run, runHeld] using ih

/-- **C70 is violated**: a closure that panics half way through leaves the half of the edit committed. -/
theorem C70_half_violated {sl b} {commit : Graph → R Graph} {p : Prog} {g g1 g' : Graph} (h : Breaks sl p g g1)
    (hc : commit g1 = .ok g') : edit sl b commit p g = .panicked (some g') := by
  simp only [edit, run_free h, hc]

/-- The hypotheses of `C70_half_violated` hold: one node is pushed, the second push and the connection never
happen; the graph is left with one node, committed. -/
example : Breaks id (.call (.push 0 1 []) fun _ => .panic) (Graph.init 3 0 1)
      (pushNode id (Graph.init 3 0 1) (userNode 0 1 [])) ∧
    edit id true (commitEdits (fun _ => false) (fun _ => false))
      (.call (.push 0 1 []) fun _ => .panic) (Graph.init 3 0 1) =
      .panicked (some { pushNode id (Graph.init 3 0 1) (userNode 0 1 []) with flag := 1, recalc := false }) :=
  ⟨.call rfl (.panic _), by decide +kernel⟩

/-- The hypotheses of `C70_partial` hold in a case with two nodes, a subgraph and a connection. -/
example : ∃ g', Calls id (.call (.push 1 1 []) fun _ => .subgraph 0 1 .done
    (.call (.connect (.node ⟨1, 3⟩) 0 0 (.node ⟨0, 3⟩) true false) fun _ => .done)) (Graph.init 3 0 1) g' ∧
    g'.edge 0 0 = some ⟨.node 1, 0, false⟩ :=
  ⟨_, .call rfl (.subgraph (.call rfl (.done _))), by decide +kernel⟩

/-- A closure that reaches a call that panics. -/
inductive CallPanics (sl : Key → Nat) : Prog → Graph → Prop
  | here {op : Op} {next} {g : Graph} {e} : op.run sl g = .error e → CallPanics sl (.call op next) g
  | call {op : Op} {next} {g g1 : Graph} {r} : op.run sl g = .ok (g1, r) → CallPanics sl (next r) g1 →
      CallPanics sl (.call op next) g
  | subgraph {i o : Nat} {next} {g : Graph} : CallPanics sl next (pushNode sl g (userNode i o [])) →
      CallPanics sl (.subgraph i o .done next) g

/-- **C70 is violated**: a panic inside any editing call, which could be caught, aborts the whole process,
since the destructor of the `GraphEdit` unwraps the poisoned lock. -/
theorem C70_abort_violated {sl b} (commit : Graph → R Graph) {p : Prog} {g : Graph} (h : CallPanics sl p g) :
    edit sl b commit p g = .aborted := by
  have : run sl b p g = .error .held := by
    induction h with
    | here h1 => simp only [run, h1]
    | call h1 _ ih => simp only [run, h1]; exact ih
    | subgraph _ ih => simpa [run, runHeld] using ih
  simp only [edit, this]

/-- The hypothesis of `C70_abort_violated` holds: disconnecting an input of a node that was freed in the same
edit indexes a missing entry. -/
example : CallPanics id (.call (.push 1 1 []) fun _ => .call (.free ⟨0, 3⟩) fun _ =>
    .call (.disconnectSink 0 (.node ⟨0, 3⟩)) fun _ => .done) (Graph.init 3 0 1) :=
  .call rfl (.call rfl (.here (e := .index) (by decide +kernel)))

/-- **C70 is violated**: a callback of `subgraph` that uses the outer edit or panics never lets the edit finish,
whatever comes before and after it. -/
theorem C70_subgraph_violated {sl b} (commit : Graph → R Graph) {i o : Nat} {inner next : Prog} {g : Graph}
    (h : inner ≠ .done) : edit sl b commit (.subgraph i o inner next) g = .stuck ∨
      edit sl b commit (.subgraph i o inner next) g = .aborted := by
  cases inner with
  | done => exact absurd rfl h
  | call op n => cases b <;> simp [edit, run, runHeld]
  | panic => exact .inr (by simp [edit, run, runHeld])
  | subgraph => cases b <;> simp [edit, run, runHeld]

/-- `C70_subgraph_violated` for a callback that pushes a node to the outer graph. -/
example : edit id true (commitEdits (fun _ => false) (fun _ => false))
    (.subgraph 0 1 (.call (.push 0 1 []) fun _ => .done) .done) (Graph.init 3 0 1) = .stuck := by
  simp [edit, run, runHeld]

/-- An edit finishes, or its commit panicked, or its closure did not come to its end. -/
theorem C70_ways {sl b} (commit : Graph → R Graph) (p : Prog) (g : Graph) :
    (∃ g', edit sl b commit p g = .finished g') ∨ (∃ g1, Calls sl p g g1 ∧ ∃ e, commit g1 = .error e) ∨
      ∀ g1, ¬ Calls sl p g g1 := by
  by_cases h : ∃ g1, Calls sl p g g1
  · obtain ⟨g1, h1⟩ := h
    cases hc : commit g1 with
    | ok g' => exact .inl ⟨g', (C70_partial sl b commit p g g').2 ⟨g1, h1, hc⟩⟩
    | error e => exact .inr (.inl ⟨g1, h1, e, hc⟩)
  · exact .inr (.inr fun g1 h1 => h ⟨g1, h1⟩)

end Verif.Ed
