import Verif.Model.Feedback
import Verif.Props.Dataflow

/-!
# C10: feedback connections
-/

namespace Verif.Fb

variable {B : Type}

/-- The input `d` blocks ago, silence before the first block. -/
def delayed (zero : B) (d : Nat) (x : Nat → B) (n : Nat) : B := if n < d then zero else x (n - d)

theorem run_sinkFirst (zero : B) (x : Nat → B) : ∀ n,
    (run sinkFirst (.init zero) x n).one = decide (n % 2 = 1) ∧
    (run sinkFirst (.init zero) x n).get (decide (n % 2 = 0)) = delayed zero 1 x n := by
  intro n
  induction n with
  | zero => exact ⟨rfl, rfl⟩
  | succ n ih =>
    obtain ⟨h1, -⟩ := ih
    have hd : delayed zero 1 x (n + 1) = x n := by simp [delayed]
    rw [hd]
    generalize hs : run sinkFirst (.init zero) x n = s at *
    simp only [run, hs]
    obtain ⟨b0, b1, o⟩ := s
    simp only at h1
    subst h1
    rcases Nat.mod_two_eq_zero_or_one n with h | h
    · have h' : (n + 1) % 2 = 1 := by omega
      simp [sinkFirst, source, sink, St.get, h, h']
    · have h' : (n + 1) % 2 = 0 := by omega
      simp [sinkFirst, source, sink, St.get, h, h']

/-- C10 for the pair of feedback unit generators as they are meant to be used, when the sink comes
before the source in the processing order: the source puts out what the sink received one block earlier,
and silence in the first block.

Missing: the sink after the source, where the delay is two blocks (`C10_source_first`,
`C10_source_first_violated`); and the graph does not even use this pair (`C10_graph_violated`). -/
theorem C10_sink_first_partial (zero : B) (x : Nat → B) (n : Nat) :
    out sinkFirst (.init zero) x n = delayed zero 1 x n := by
  obtain ⟨h1, h2⟩ := run_sinkFirst zero x n
  rw [← h2]
  simp only [out]
  generalize run sinkFirst (.init zero) x n = s at *
  obtain ⟨b0, b1, o⟩ := s
  simp only at h1
  subst h1
  rcases Nat.mod_two_eq_zero_or_one n with h | h <;> simp [sinkFirst, source, sink, St.get, h]

theorem run_sourceFirst (zero : B) (x : Nat → B) : ∀ n,
    (run sourceFirst (.init zero) x n).one = decide (n % 2 = 1) ∧
    (run sourceFirst (.init zero) x n).get (decide (n % 2 = 1)) = delayed zero 1 x n ∧
    (run sourceFirst (.init zero) x n).get (decide (n % 2 = 0)) = delayed zero 2 x n := by
  intro n
  induction n with
  | zero => exact ⟨rfl, rfl, rfl⟩
  | succ n ih =>
    obtain ⟨h1, h2, h3⟩ := ih
    have hd : delayed zero 1 x (n + 1) = x n := by simp [delayed]
    have hd2 : delayed zero 2 x (n + 1) = delayed zero 1 x n := by
      by_cases hn : n < 1
      · have : n + 1 < 2 := by omega
        simp only [delayed, hn, this, if_true]
      · have : ¬ n + 1 < 2 := by omega
        simp only [delayed, hn, this, if_false]
        congr 1
    rw [hd, hd2, ← h2]
    generalize hs : run sourceFirst (.init zero) x n = s at *
    simp only [run, hs]
    obtain ⟨b0, b1, o⟩ := s
    simp only at h1
    subst h1
    rcases Nat.mod_two_eq_zero_or_one n with h | h
    · have h' : (n + 1) % 2 = 1 := by omega
      simp [sourceFirst, source, sink, St.get, h, h']
    · have h' : (n + 1) % 2 = 0 := by omega
      simp [sourceFirst, source, sink, St.get, h, h']

/-- When the source comes before the sink, the delay is two blocks. -/
theorem C10_source_first (zero : B) (x : Nat → B) (n : Nat) :
    out sourceFirst (.init zero) x n = delayed zero 2 x n := by
  obtain ⟨h1, -, h3⟩ := run_sourceFirst zero x n
  rw [← h3]
  simp only [out]
  generalize run sourceFirst (.init zero) x n = s at *
  obtain ⟨b0, b1, o⟩ := s
  simp only at h1
  subst h1
  rcases Nat.mod_two_eq_zero_or_one n with h | h <;> simp [sourceFirst, source, St.get, h]

/-- C10 is violated by the pair when the source comes first: block 1 should carry the signal of
block 0. -/
theorem C10_source_first_violated : ∃ x : Nat → Nat,
    out sourceFirst (.init 0) x 1 ≠ delayed 0 1 x 1 := ⟨fun n => n + 1, by decide⟩

-- both orders on a concrete signal
example : (List.range 4).map (out sinkFirst (.init 0) fun n => n + 1) = [0, 1, 2, 3] := by decide
example : (List.range 4).map (out sourceFirst (.init 0) fun n => n + 1) = [0, 0, 1, 2] := by decide

end Verif.Fb

namespace Verif.G

/-- Unit generators for the example: node 4 puts out 7, the other ones the sum of their inputs, or 1 if
they have none. -/
def fbProc : Proc Int Unit := fun k _ ins _ => ((), fun _ i =>
  if k = 4 then 7 else if ins.isEmpty then 1 else (ins.map fun c => c.getD i 0).sum)

/-- The outputs of the first two blocks. -/
def fbOuts (g : Graph) (bs : Nat) : R (List (List Int) × List (List Int)) := do
  let (_, sch) ← makeSchedule g bs (.init bs)
  let m1 := (runTasks fbProc bs (fun _ _ => 0) sch.ar (fun _ _ => 0) (fun _ => ()) sch.tasks).1
  let m2 := (runTasks fbProc bs (fun _ _ => 0) sch.ar m1 (fun _ => ()) sch.tasks).1
  .ok (readOuts bs (fun _ _ => 0) m1 sch.outs, readOuts bs (fun _ _ => 0) m2 sch.outs)

/-- C10 is violated by the graph: `new_feedback_nodes` creates two sinks, so the node at the start of the
feedback connection has no output, and node 1 reads whatever node happens to use that memory.  Here node
0 is connected to node 1 with feedback and puts out 1, but in the second block node 1 gets 7 from node 4,
which is not connected to anything. -/
theorem C10_graph_violated : ∃ g : Graph, Reach id g ∧
    g.edge 1 0 = some ⟨.node 3, 0, true⟩ ∧ g.edge 2 0 = some ⟨.node 0, 0, true⟩ ∧
    g.out 0 = some ⟨.node 1, 0, false⟩ ∧ fbOuts g 1 = .ok ([[0]], [[7]]) := by
  refine ⟨_, reach_runOps [.push 0 1 [], .push 1 1 [],
    .connect (.node (nd 0)) 0 0 (.node (nd 1)) true true,
    .connect (.node (nd 1)) 0 0 .graph true false, .push 0 1 [], .push 1 1 [],
    .connect (.node (nd 0)) 0 0 (.node (nd 5)) true false] (Reach.init 0 0 1)
    (rs := [.ok (), .ok (), .ok (), .ok (), .ok (), .ok (), .ok ()]) rfl, ?_, ?_, ?_, ?_⟩ <;> decide

end Verif.G
