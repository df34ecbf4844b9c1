import Verif.Model.NodeHandles
import Verif.Props.Inspect
import Verif.Props.OwnNodes

/-!
# C108: the handles of an inspection

Asking an inspection for handles gives one handle for each node the user has put into the graph and not freed, and what
is done with such a handle is done to that node.
-/

namespace Verif.In

open Verif.G

/-- What the handles of a graph have to be: one for each node of the graph, none for anything else, with its numbers of
channels. -/
structure Handles (g : Graph) (hs : List AnyH) : Prop where
  which : ∀ id : NodeId, (∃ h ∈ hs, h.node = id) ↔ id.graph = g.id ∧ Live g id.key
  once : (hs.map AnyH.node).Nodup
  size : ∀ h ∈ hs, ∃ r, g.get h.node.key = some r ∧ h.inputs = r.inputs ∧ h.outputs = r.outputs

/-- **C108.**  When nothing waits to be committed, the inspection gives exactly one handle for each node of the graph.
Missing for the full claim: edits that were not committed (`C108_waiting_violated`), and that the nodes are the user's
(`C108_own_violated`). -/
theorem C108_partial {sl bs} {s : IS} (h : Reaches sl bs s) (hr : s.g.recalc = false) (hs : Small s.g) :
    ∃ v, inspect s.g s.order s.disc = .ok v ∧ Handles s.g (nodeHandles v) := by
  obtain ⟨v, hv, sh⟩ := C69_partial h hr hs
  have hid : v.id = s.g.id := by
    obtain ⟨ns, h1, -⟩ := inspectNodes_ok (disc := s.disc) s.order h.inv.here
    simp only [inspect, h1, bind_ok, Except.ok.injEq] at hv
    rw [← hv]
  refine ⟨v, hv, ?_, ?_, ?_⟩
  · rintro ⟨k, gr⟩
    simp only [nodeHandles, List.mem_map, exists_exists_and_eq_and, NodeId.mk.injEq, hid]
    constructor
    · rintro ⟨n, hn, rfl, rfl⟩
      exact ⟨rfl, (sh.nodes _).1 ⟨n, hn, rfl⟩⟩
    · rintro ⟨rfl, hl⟩
      obtain ⟨n, hn, rfl⟩ := (sh.nodes k).2 hl
      exact ⟨n, hn, rfl, rfl⟩
  · have : (nodeHandles v).map AnyH.node = (v.nodes.map NodeI.key).map fun k => ⟨k, v.id⟩ := by
      simp [nodeHandles, Function.comp_def]
    rw [this]
    exact sh.once.map fun a b e => by simpa using e
  · intro x hx
    simp only [nodeHandles, List.mem_map] at hx
    obtain ⟨n, hn, rfl⟩ := hx
    exact sh.size n hn

/-- **C108.**  Freeing a node through such a handle is accepted exactly if the node was not made immortal, and then the
node is gone. -/
theorem C108_free_partial {sl bs} {s : IS} (h : Reaches sl bs s) (hr : s.g.recalc = false) (hs : Small s.g) {v : Insp}
    (hv : inspect s.g s.order s.disc = .ok v) {x : AnyH} (hx : x ∈ nodeHandles v) :
    ∃ n g' r, s.g.get x.node.key = some n ∧ editFree s.g x.node = .ok (g', r) ∧
      (if n.mortal then r = .ok () ∧ ¬ Live g' x.node.key else r = .error .immortal ∧ g' = s.g) := by
  obtain ⟨v', hv', hh⟩ := C108_partial h hr hs
  rw [hv] at hv'
  cases hv'
  obtain ⟨n, hn, -⟩ := hh.size x hx
  obtain ⟨hg, hl⟩ := (hh.which x.node).1 ⟨x, hx, rfl⟩
  refine ⟨n, (freeNode s.g x.node.key).1, (freeNode s.g x.node.key).2, hn, ?_, ?_⟩
  · have hf : foreign x.node.graph s.g.id = false := by
      simp only [foreign, hg, beq_eq_false_iff_ne]
      omega
    simp only [editFree, hf]
    rfl
  cases hm : n.mortal with
  | true =>
    refine ⟨?_, Own.freeNode_dead hn hm⟩
    rw [freeNode, freeLoop_succ, hn]
    simp only [hm, Bool.not_true, Bool.false_eq_true, if_false, hl.2]
    split <;> rfl
  | false =>
    rw [freeNode, freeLoop_succ, hn]
    simp [hm]

/-- The hypotheses hold in a concrete case with four nodes. -/
example : Reaches id 4 (after (demo ++ [commitS])) ∧ (after (demo ++ [commitS])).g.recalc = false ∧
    ∃ v, inspect (after (demo ++ [commitS])).g (after (demo ++ [commitS])).order (after (demo ++ [commitS])).disc = .ok v ∧
      nodeHandles v = [⟨⟨1, 3⟩, 0, 1⟩, ⟨⟨2, 3⟩, 0, 1⟩, ⟨⟨3, 3⟩, 2, 1⟩, ⟨⟨0, 3⟩, 1, 1⟩] :=
  ⟨reach_after demo_legal (by decide +kernel), by decide +kernel,
    ⟨[⟨1, 0, 1, [], false⟩, ⟨2, 0, 1, [], false⟩, ⟨3, 2, 1, [⟨.node 1, 0, 0, false⟩, ⟨.node 2, 0, 1, false⟩], false⟩,
      ⟨0, 1, 1, [⟨.node 3, 0, 0, false⟩], false⟩], [⟨.node 0, 0, 0, false⟩, ⟨.node 0, 0, 1, false⟩], 1, 2, 3⟩,
    by decide +kernel, by decide +kernel⟩

/-- **C108 is violated**: before the commit a new node has no handle and a freed one still has. -/
theorem C108_waiting_violated : ∃ s : IS, Reaches id 4 s ∧ Live s.g 1 ∧ ¬ Live s.g 0 ∧
    ∃ v, inspect s.g s.order s.disc = .ok v ∧ nodeHandles v = [⟨⟨0, 3⟩, 1, 1⟩] := by
  refine ⟨after [pushS 1 1, outS 0 0, commitS, pushS 0 1, .edit (.free ⟨0, 3⟩)],
    reach_after (by simp [commitS, pushS, outS, Step.legal]) (by decide +kernel), ⟨by decide +kernel, by decide +kernel⟩,
    fun h => absurd h.2 (by decide +kernel), ⟨[⟨0, 1, 1, [], false⟩], [], 1, 2, 3⟩, by decide +kernel, by decide +kernel⟩

/-- **C108 is violated**: three nodes were pushed, but there is a fourth handle, for the node that adds two of them up, and
freeing it through the handle cuts both connections, which nobody asked for. -/
theorem C108_own_violated : ∃ s : IS, Reaches id 4 s ∧ s.g.recalc = false ∧
    (∃ v, inspect s.g s.order s.disc = .ok v ∧
      nodeHandles v = [⟨⟨1, 3⟩, 0, 1⟩, ⟨⟨2, 3⟩, 0, 1⟩, ⟨⟨3, 3⟩, 2, 1⟩, ⟨⟨0, 3⟩, 1, 1⟩]) ∧
    s.g.edge 0 0 = some ⟨.node 3, 0, false⟩ ∧
    ∃ g', editFree s.g ⟨3, 3⟩ = .ok (g', .ok ()) ∧ Live g' 0 ∧ Live g' 1 ∧ Live g' 2 ∧ g'.edge 0 0 = none := by
  refine ⟨after (demo ++ [commitS]), reach_after demo_legal (by decide +kernel), by decide +kernel,
    ⟨⟨[⟨1, 0, 1, [], false⟩, ⟨2, 0, 1, [], false⟩, ⟨3, 2, 1, [⟨.node 1, 0, 0, false⟩, ⟨.node 2, 0, 1, false⟩], false⟩,
      ⟨0, 1, 1, [⟨.node 3, 0, 0, false⟩], false⟩], [⟨.node 0, 0, 0, false⟩, ⟨.node 0, 0, 1, false⟩], 1, 2, 3⟩,
    by decide +kernel, by decide +kernel⟩, by decide +kernel, (freeNode (after (demo ++ [commitS])).g 3).1, ?_⟩
  have h1 : (after (demo ++ [commitS])).g.id = 3 := by decide +kernel
  have h2 : (freeNode (after (demo ++ [commitS])).g 3).2 = .ok () := by decide +kernel
  refine ⟨?_, ⟨by decide +kernel, by decide +kernel⟩, ⟨by decide +kernel, by decide +kernel⟩,
    ⟨by decide +kernel, by decide +kernel⟩, by decide +kernel⟩
  simp only [editFree, foreign, h1]
  rw [← h2]
  rfl

end Verif.In
