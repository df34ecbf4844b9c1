import Verif.Props.Dataflow

/-!
# Committing (C04)

Leaving a graph edit calls `commit_changes` and unwraps the result.  The graphs below are reached by
calls that all returned `Ok`, yet committing them panics.
-/

namespace Verif.G

/-- The panic of a computation. -/
def panicOf {α} : R α → Option Panic
  | .error e => some e
  | .ok _ => none

theorem eq_error {α} {x : R α} {e : Panic} (h : panicOf x = some e) : x = .error e := by
  cases x with
  | error e' => simp only [panicOf, Option.some.injEq] at h; rw [h]
  | ok y => simp [panicOf] at h

/-- Committing panics when a summing node inserted by the graph has lost one input and some graph
output is unconnected: nodes 0 and 1 are added up at node 2, then node 0 is freed. -/
theorem C04_sum_violated : ∃ g : Graph, Reach id g ∧ ∀ room,
    commitFull (fun _ => false) (fun _ => false) room 4 g (.init 4) = .error .unwrap := by
  refine ⟨_, reach_runOps [.push 1 1 [], .push 1 1 [], .push 1 1 [],
    .connect (.node (nd 0)) 0 0 (.node (nd 2)) true false,
    .connect (.node (nd 1)) 0 0 (.node (nd 2)) true false,
    .free (nd 0)] (Reach.init 0 0 1)
    (rs := [.ok (), .ok (), .ok (), .ok (), .ok (), .ok ()]) rfl, fun room => eq_error ?_⟩
  cases room <;> decide

/-- Committing panics (subtraction overflow) when a node without outputs is processed before another
node gets its buffer: both have the same start offset, and returning the buffer of node 1 finds the
block of node 0, which nobody borrowed. -/
theorem C04_no_outputs_violated : ∃ g : Graph, Reach id g ∧ ∀ room,
    commitFull (fun _ => false) (fun _ => false) room 4 g (.init 4) = .error .overflow := by
  refine ⟨_, reach_runOps [.push 1 0 [], .push 1 1 [], .push 1 1 [],
    .connect (.node (nd 1)) 0 0 (.node (nd 2)) true false] (Reach.init 0 0 1)
    (rs := [.ok (), .ok (), .ok (), .ok ()]) rfl, fun room => eq_error ?_⟩
  cases room <;> decide

/-- Committing panics when a node without outputs is processed last and the buffer is filled exactly:
the address of its (empty) output is outside the buffer. -/
theorem C04_end_of_buffer_violated : ∃ g : Graph, Reach id g ∧ ∀ room,
    commitFull (fun _ => false) (fun _ => false) room 4 g (.init 4) = .error .unwrap := by
  refine ⟨_, reach_runOps [.push 0 1 [], .push 0 1 [], .push 0 1 [], .push 1 0 []] (Reach.init 0 0 1)
    (rs := [.ok (), .ok (), .ok (), .ok ()]) rfl, fun room => eq_error ?_⟩
  cases room <;> decide

/-- Committing panics when the source of a parameter connection was freed. -/
theorem C04_param_violated : ∃ g : Graph, Reach id g ∧ ∀ room,
    commitFull (fun _ => false) (fun _ => false) room 4 g (.init 4) = .error .index := by
  refine ⟨_, reach_runOps [.push 1 1 [0], .push 1 1 [],
    .param (nd 1) 0 (.index 0) (nd 0) true, .connect (.node (nd 0)) 0 0 .graph true false,
    .free (nd 1)] (Reach.init 0 0 1)
    (rs := [.ok (), .ok (), .ok (), .ok (), .ok ()]) rfl, fun room => eq_error ?_⟩
  cases room <;> decide

/-- Committing panics when a node that was freed earlier is used as a source before it is dropped
(compare `C03_pending_violated`). -/
theorem C04_pending_violated : ∃ g : Graph, Reach id g ∧ ∀ room,
    commitFull (fun _ => false) (fun _ => false) room 4 g (.init 4) = .error .unwrap := by
  refine ⟨_, reach_runOps [.push 1 1 [], .push 1 1 [], .free (nd 0),
    .connect (.node (nd 0)) 0 0 (.node (nd 1)) true false] (Reach.init 0 0 1)
    (rs := [.ok (), .ok (), .ok (), .ok ()]) rfl, fun room => eq_error ?_⟩
  cases room <;> decide

/-- Every commit that has something to send panics while the audio thread has not made room for it. -/
theorem C04_ring_violated (rm fs bs) (g : Graph) (s : AState) :
    (∃ r, commitFull rm fs false bs g s = .ok r) →
    ∃ g1, freeOld rm fs g = .ok g1 ∧ g1.recalc = false := by
  rintro ⟨r, h⟩
  unfold commitFull at h
  cases hf : freeOld rm fs g with
  | error e => simp [hf] at h
  | ok g1 =>
    refine ⟨g1, rfl, ?_⟩
    simp only [hf, bind_ok] at h
    cases hr : g1.recalc with
    | false => rfl
    | true =>
      simp only [hr, if_true] at h
      cases hm : makeSchedule g1 bs s with
      | error e => simp [hm] at h
      | ok x => obtain ⟨s', sch⟩ := x; simp [hm] at h

/-- Nothing is left to clean up: no feedback nodes, and the summing nodes have all their inputs. -/
def Settled (g : Graph) : Prop :=
  ∀ k n, g.get k = some n → n.autoFree = false ∧
    (n.autoMath = true → ∀ es, n.ins = some es → ∀ e ∈ es, e ≠ none)

theorem evalNode_settled {g : Graph} (hg : WF g) (hs : Settled g) {k : Key} {n : NodeRec}
    (hk : g.get k = some n) : evalNode g k = .ok g := by
  obtain ⟨h1, h2⟩ := hs k n hk
  have hm : evalMath g k = .ok g := by
    unfold evalMath
    simp only [hk]
    cases ha : n.autoMath with
    | false => simp
    | true =>
      obtain ⟨h3, h4⟩ := hg.math k n hk ha
      simp only [if_true, h3, h4, ne_eq, not_true_eq_false, if_false]
      cases hi : n.ins with
      | none => rfl
      | some es =>
        have hl := hg.len k n es hk hi
        rw [h3] at hl
        match es, hl with
        | [e0, e1], _ =>
          have h5 := h2 ha _ hi e0 (by simp)
          have h6 := h2 ha _ hi e1 (by simp)
          match e0, e1, h5, h6 with
          | some _, some _, _, _ => rfl
  unfold evalNode
  rw [hm]
  simp only [bind_ok]
  unfold evalFree
  simp [hk, h1]

theorem evalMany_settled {g : Graph} (hg : WF g) (hs : Settled g) : ∀ (ks : List Key),
    (∀ k ∈ ks, (g.get k).isSome) → evalMany g ks = .ok g := by
  intro ks
  induction ks with
  | nil => intro _; rfl
  | cons k ks ih =>
    intro hk
    obtain ⟨n, hn⟩ := Option.isSome_iff_exists.1 (hk k (by simp))
    rw [evalMany, evalNode_settled hg hs hn]
    simp only [bind_ok]
    exact ih (fun k' hk' => hk k' (List.mem_cons_of_mem _ hk'))

/-- C04 for graphs that are settled and sound (see `sound_of` for what that takes), with room for the
new schedule.  Missing for the full claim: everything the negations above show. -/
theorem C04_partial {sl} {g : Graph} (hr : Reach sl g) (rm : Key → Bool) (fs : Nat → Bool)
    (hs : Settled (freeMany g ((g.nodes.map Prod.fst).filter rm)))
    (hso : ∃ order, Sound (dropFlagged fs (freeMany g ((g.nodes.map Prod.fst).filter rm))) order)
    {bs : Nat} (hbs : 0 < bs) (s : AState) : ∃ r, commitFull rm fs true bs g s = .ok r := by
  have hf : freeOld rm fs g = .ok (dropFlagged fs (freeMany g ((g.nodes.map Prod.fst).filter rm))) := by
    unfold freeOld
    simp only
    rw [evalMany_settled (wf_freeMany hr.wf _) hs]
    · rfl
    · intro k hk; exact (get_isSome _ k).2 hk
  unfold commitFull
  rw [hf]
  simp only [bind_ok]
  generalize dropFlagged fs (freeMany g ((g.nodes.map Prod.fst).filter rm)) = g1 at *
  cases hrc : g1.recalc with
  | false => exact ⟨_, rfl⟩
  | true =>
    obtain ⟨order, ho⟩ := hso
    obtain ⟨s', sch, off, hm, -⟩ := makeSchedule_spec ho hbs s
    rw [if_pos rfl, hm]
    exact ⟨_, rfl⟩

example : Reach id chainGraph ∧ Settled (freeMany chainGraph ((chainGraph.nodes.map Prod.fst).filter fun _ => false)) ∧
    (∃ order, Sound (dropFlagged (fun _ => false)
      (freeMany chainGraph ((chainGraph.nodes.map Prod.fst).filter fun _ => false))) order) ∧
    chainGraph.recalc = true := by
  refine ⟨chainGraph_reach, ?_, chainGraph_sound, rfl⟩
  intro k n hk
  have : k = 0 ∨ k = 1 := by
    have := (get_isSome chainGraph k).1 (by rw [show chainGraph.get k = some n from hk]; rfl)
    simpa [chainGraph] using this
  rcases this with rfl | rfl
  · cases hk; decide
  · cases hk; decide

end Verif.G
