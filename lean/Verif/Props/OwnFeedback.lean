import Verif.Props.OwnNodes

/-!
# C105 for the nodes of feedback connections

A feedback connection puts two nodes into the graph, one that stores the signal and one that plays it a block later.
-/

namespace Verif.Own

open Verif.G Verif.Sys

/-- Freed, or a feedback node without any connection. -/
def Idle (k : Key) (g : Graph) : Prop := ¬ Live g k ∨
  ((∃ n, g.get k = some n ∧ n.autoFree = true ∧ n.autoMath = false ∧ n.mortal = true) ∧
    (∀ i, g.edge k i = none) ∧ ∀ j i e, g.edge j i = some e → e.source ≠ .node k)

theorem idle_free1 {g : Graph} {k j : Key} (h : Idle k g) : Idle k (free1 g j) := by
  rcases h with h | ⟨⟨n, h1, h2, h3, h4⟩, h5, h6⟩
  · exact .inl (dead_free1 h)
  · by_cases hj : k = j
    · subst hj
      left
      intro hl
      have := hl.2
      simp [Graph.isPending] at this
    · refine .inr ⟨⟨{ n with ins := n.ins.map (·.map (dropFrom j)) }, ?_, h2, h3, h4⟩, ?_, ?_⟩
      · rw [get_free1, if_neg hj, h1]
        rfl
      · intro i
        rw [edge_free1, if_neg hj, h5]
        rfl
      · intro a i e he
        rw [edge_free1] at he
        split at he
        · simp at he
        · cases hc : g.edge a i with
          | none => simp [hc, dropFrom] at he
          | some e' =>
            rw [hc] at he
            simp only [dropFrom] at he
            split at he
            · simp at he
            · simp only [Option.some.injEq] at he
              subst he
              exact h6 _ _ _ hc

theorem idle_bypass {g : Graph} {k j : Key} {e : Edge} (h : Idle k g)
    (he : (g.edge j 0 = none ∧ g.edge j 1 = some e) ∨ (g.edge j 0 = some e ∧ g.edge j 1 = none)) :
    Idle k (bypass g j e) := by
  rcases h with h | ⟨⟨n, h1, h2, h3, h4⟩, h5, h6⟩
  · exact .inl (dead_bypass h)
  · have hs : e.source ≠ .node k := by
      rcases he with he | he
      · exact h6 _ _ _ he.2
      · exact h6 _ _ _ he.1
    refine .inr ⟨⟨{ n with ins := n.ins.map (·.map (redirect j e)) }, ?_, h2, h3, h4⟩, ?_, ?_⟩
    · rw [get_bypass, h1]
      rfl
    · intro i
      rw [edge_bypass, h5]
      rfl
    · intro a i e' he'
      rw [edge_bypass] at he'
      cases hc : g.edge a i with
      | none => simp [hc, redirect] at he'
      | some e0 =>
        rw [hc] at he'
        simp only [redirect] at he'
        split at he'
        · simp only [Option.some.injEq] at he'
          subst he'
          exact hs
        · simp only [Option.some.injEq] at he'
          subst he'
          exact h6 _ _ _ hc

theorem evalNode_idle {g g' : Graph} {k : Key} (hw : WF g) (hi : Idle k g) (h : evalNode g k = .ok g') : ¬ Live g' k := by
  rcases hi with hd | ⟨⟨n, h1, h2, h3, h4⟩, h5, h6⟩
  · exact evalNode_ind (P := fun g => ¬ Live g k) (fun _ _ _ hg _ _ _ => dead_free1 hg)
      (fun _ _ _ _ hg _ _ _ => dead_bypass hg) hd h
  · have hm : evalMath g k = .ok g := by simp [evalMath, h1, h3]
    have he : (n.ins.getD []).any (·.isSome) = false := by
      cases hc : n.ins with
      | none => rfl
      | some es =>
        have hins : g.ins k = some es := by rw [ins_eq, h1]; exact hc
        simp only [Option.getD_some, List.any_eq_false]
        intro x hx hsome
        obtain ⟨i, hi⟩ := List.getElem?_of_mem hx
        have := h5 i
        rw [edge_of_ins hins, hi] at this
        simp only [Option.join_some] at this
        rw [this] at hsome
        simp at hsome
    have ha : g.nodes.any (fun p => anyFrom k (p.2.ins.getD [])) = false := by
      simp only [List.any_eq_false, anyFrom]
      rintro ⟨j, m⟩ hp hany
      simp only [List.any_eq_true] at hany
      obtain ⟨x, hx, hx2⟩ := hany
      cases x with
      | none => simp at hx2
      | some e =>
        cases hc : m.ins with
        | none => simp [hc] at hx
        | some es =>
          rw [hc] at hx
          obtain ⟨i, hi⟩ := List.getElem?_of_mem hx
          have hg : g.get j = some m := get_of_mem hw.nodup hp
          have hins : g.ins j = some es := by rw [ins_eq, hg]; exact hc
          refine h6 j i e ?_ (by simpa using hx2)
          rw [edge_of_ins hins]
          simp only [Option.getD_some] at hi
          rw [hi]
          rfl
    simp only [evalNode, hm, bind_ok, evalFree, h1, h2, he, ha] at h
    simp only [if_true, Bool.false_eq_true, if_false, Except.ok.injEq] at h
    rw [← h]
    exact freeNode_dead h1 h4

theorem evalMany_idle {k : Key} : ∀ (ks : List Key) {g g' : Graph}, WF g → Idle k g → k ∈ ks →
    evalMany g ks = .ok g' → ¬ Live g' k := by
  intro ks
  induction ks with
  | nil => intro g g' _ _ h; simp at h
  | cons j ks ih =>
    intro g g' hw hl hm h
    rw [evalMany] at h
    obtain ⟨g1, h1, h2⟩ := bind_inv h
    by_cases hj : j = k
    · subst hj
      exact evalMany_ind (P := fun g => ¬ Live g j) (fun _ _ _ hg _ _ _ => dead_free1 hg)
        (fun _ _ _ _ hg _ _ _ => dead_bypass hg) ks (evalNode_idle hw hl h1) h2
    · refine ih (wf_evalNode hw h1) ?_ (by simpa [Ne.symm hj] using hm) h2
      exact evalNode_ind (P := Idle k) (fun _ _ _ hg _ _ _ => idle_free1 hg)
        (fun _ _ _ _ hg _ _ he => idle_bypass hg he) hl h1

/-- **C105.**  A node of a feedback connection that is left without any connection is taken away by the next commit that
works. -/
theorem C105_feedback_partial {sl} {g g' : Graph} (hr : Reach sl g) {k : Key} {n : NodeRec} (hk : g.get k = some n)
    (ha : n.autoFree = true) (hm : n.autoMath = false) (ht : n.mortal = true) (hi : ∀ i, g.edge k i = none)
    (ho : ∀ j i e, g.edge j i = some e → e.source ≠ .node k)
    {rm : Key → Bool} {fs : Nat → Bool} {r} (hc : (Op.commit rm fs).run sl g = .ok (g', r)) : ¬ Live g' k := by
  simp only [Op.run, commitEdits] at hc
  obtain ⟨g2, h1, h2⟩ := bind_inv hc
  obtain ⟨g3, h3, h4⟩ := bind_inv h1
  simp only [pure_ok, Except.ok.injEq] at h4
  simp only [Except.ok.injEq, Prod.mk.injEq] at h2
  obtain ⟨rfl, -⟩ := h2
  obtain ⟨g4, h5, rfl⟩ := freeOld_ok h3
  have hw := wf_freeMany hr.wf ((g.nodes.map Prod.fst).filter rm)
  have hl : Idle k (freeMany g ((g.nodes.map Prod.fst).filter rm)) :=
    freeMany_ind (P := Idle k) (fun _ _ _ hg _ _ _ => idle_free1 hg) _ _ (.inr ⟨⟨n, hk, ha, hm, ht⟩, hi, ho⟩)
  have hmem : k ∈ (freeMany g ((g.nodes.map Prod.fst).filter rm)).nodes.map Prod.fst := by
    refine freeMany_ind (P := fun g => k ∈ g.nodes.map Prod.fst) (fun _ _ _ hg _ _ _ => by simpa using hg) _ _ ?_
    exact (get_isSome g k).1 (by rw [hk]; rfl)
  have hd := evalMany_idle _ hw hl hmem h5
  have hw4 : WF g4 := wf_evalMany hw h5
  have hd2 : ¬ Live (dropFlagged fs g4) k := fun h => hd (((sameWiring_dropFlagged fs hw4).1 k).2 h)
  intro h
  apply hd2
  rw [← h4] at h
  split at h
  · exact h
  · exact h

/-- A feedback connection from node 0 to node 1, which was then replaced by a plain one. -/
def replaced : List Op :=
  [.push 0 1 [], .push 1 1 [], .connect (.node (nd 1)) 0 0 .graph true false,
   .connect (.node (nd 0)) 0 0 (.node (nd 1)) true true, .connect (.node (nd 0)) 0 0 (.node (nd 1)) false false]

/-- The hypotheses hold there for node 3, which played the signal; the commit takes both nodes away. -/
example : ∃ g rs, runOps id (Graph.init 0 0 1) replaced = .ok (g, rs) ∧ (g.get 3).isSome ∧ g.edge 3 0 = none ∧
    g.edge 1 0 = some ⟨.node 0, 0, false⟩ ∧ g.edge 2 0 = some ⟨.node 0, 0, true⟩ ∧
    ∃ g', (Op.commit (fun _ => false) (fun _ => false)).run id g = .ok (g', .ok ()) ∧
      g'.isPending 2 = true ∧ g'.isPending 3 = true :=
  ⟨_, _, rfl, by decide, by decide, by decide, by decide, _, rfl, by decide, by decide⟩

/-! ### The two nodes of a feedback connection go together -/

/-- Node `k` is in the graph and can be freed, and so can the node `d` it takes along. -/
def Takes (k d : Key) (g : Graph) : Prop :=
  ∃ n m, g.get k = some n ∧ n.mortal = true ∧ n.dep = some d ∧ g.get d = some m ∧ m.mortal = true ∧ g.isPending k = false

theorem takes_setEdge {g g' : Graph} {k d j : Key} {i e} (h : Takes k d g) (hs : setEdge g j i e = .ok g') :
    Takes k d g' := by
  obtain ⟨n, m, h1, h2, h3, h4, h5, h6⟩ := h
  obtain ⟨es, -, -, rfl⟩ := setEdge_ok hs
  have hg : ∀ a x, g.get a = some x → ∃ x', (g.modify j fun n => { n with ins := some (es.set i e) }).get a = some x' ∧
      x'.mortal = x.mortal ∧ x'.dep = x.dep := by
    intro a x hx
    rw [get_modify]
    by_cases ha : a = j
    · subst ha
      rw [if_pos rfl, hx]
      exact ⟨_, rfl, rfl, rfl⟩
    · rw [if_neg ha, hx]
      exact ⟨_, rfl, rfl, rfl⟩
  obtain ⟨n', a1, a2, a3⟩ := hg k n h1
  obtain ⟨m', b1, b2, -⟩ := hg d m h4
  exact ⟨n', m', a1, a2.trans h2, a3.trans h3, b1, b2.trans h5, h6⟩

theorem takes_push {sl} {g : Graph} {k d : Key} {r : NodeRec} (hf : g.get g.nextKey = none) (h : Takes k d g) :
    Takes k d (pushNode sl g r) := by
  obtain ⟨n, m, h1, h2, h3, h4, h5, h6⟩ := h
  have hk : k ≠ g.nextKey := by rintro rfl; rw [hf] at h1; simp at h1
  have hd : d ≠ g.nextKey := by rintro rfl; rw [hf] at h4; simp at h4
  exact ⟨n, m, by rw [get_pushNode sl g r k hf, if_neg hk, h1], h2, h3, by rw [get_pushNode sl g r d hf, if_neg hd, h4], h5, h6⟩

theorem free_takes {g : Graph} {k d : Key} (h : Takes k d g) :
    ¬ Live (freeNode g k).1 k ∧ ¬ Live (freeNode g k).1 d := by
  obtain ⟨n, m, h1, h2, h3, h4, h5, h6⟩ := h
  refine ⟨freeNode_dead h1 h2, ?_⟩
  have hlen : ∃ f, g.nodes.length = f + 1 := by
    have := (get_isSome g k).1 (by rw [h1]; rfl)
    cases hc : g.nodes with
    | nil => simp [hc] at this
    | cons a as => exact ⟨as.length, rfl⟩
  obtain ⟨f, hf⟩ := hlen
  rw [freeNode, freeLoop_succ, h1]
  simp only [h2, Bool.not_true, Bool.false_eq_true, if_false, h6, h3]
  rw [hf, freeLoop_succ]
  have hm : ∃ m', (free1 g k).get d = some m' ∧ m'.mortal = true := by
    rw [get_free1]
    split
    · next hdk => rw [← hdk, h4]; exact ⟨_, rfl, h5⟩
    · rw [h4]; exact ⟨_, rfl, h5⟩
  obtain ⟨m', e1, e2⟩ := hm
  rw [e1]
  simp only [e2, Bool.not_true, Bool.false_eq_true, if_false]
  split
  · next hp => intro hl; rw [hl.2] at hp; simp at hp
  · have hd : ¬ Live (free1 (free1 g k) d) d := by
      intro hl
      have := hl.2
      simp [Graph.isPending] at this
    split
    · exact freeLoop_ind (P := fun g => ¬ Live g d) (fun _ _ _ hg _ _ _ => dead_free1 hg) _ _ _ hd
    · exact hd

/-- A new node of a feedback connection. -/
def storing (d : Key) : NodeRec :=
  { inputs := 1, outputs := 0, autoFree := true, dep := some d, ins := some [none], pars := some [], mortal := true }

/-- **C105.**  The two nodes of a new feedback connection go together: freeing either takes away both. -/
theorem C105_pair_partial {sl} {g g' : Graph} (hr : Reach sl g) {s k : NodeId} {so si : Nat} {add : Bool}
    (h : (Op.connect (.node s) so si (.node k) add true).run sl g = .ok (g', .ok ())) {x y : Key}
    (hx : x = g.nextKey ∨ x = g.nextKey + 1) (hy : y = g.nextKey ∨ y = g.nextKey + 1) :
    Live g' x ∧ ¬ Live (freeNode g' x).1 y := by
  have hw := hr.wf
  simp only [Op.run, connect2] at h
  rcases connectNodes_ok h with ⟨-, e, he⟩ | ⟨-, ns, nk, -, -, -, -, -, hc⟩
  · simp at he
  simp only [connectToNode, if_true] at hc
  obtain ⟨g1, h1, h2⟩ := bind_inv hc
  let g0 : Graph := { g with recalc := true }
  have f0 : g0.get g0.nextKey = none := hw.fresh
  have f1 : g.get (g.nextKey + 1) = none := by
    cases hg : g.get (g.nextKey + 1) with
    | none => rfl
    | some n => exact absurd (hw.lt _ n hg) (Nat.not_lt.2 (Nat.le_succ _))
  have f2 : g.get (g.nextKey + 2) = none := by
    cases hg : g.get (g.nextKey + 2) with
    | none => rfl
    | some n => exact absurd (hw.lt _ n hg) (Nat.not_lt.2 (Nat.le_add_right _ 2))
  have hp : ∀ j, g.nextKey ≤ j → g.isPending j = false := by
    intro j hj
    cases hpj : g.isPending j with
    | false => rfl
    | true =>
      obtain ⟨n, hn⟩ := Option.isSome_iff_exists.1 (hw.pend j hpj)
      exact absurd (hw.lt j n hn) (Nat.not_lt.2 hj)
  let ga0 := pushNode sl g0 { inputs := 1, outputs := 0, autoFree := true, dep := some (g.nextKey + 1) }
  have e1 : ∀ j, ga0.get j = if j = g.nextKey then some (storing (g.nextKey + 1)) else g.get j :=
    fun j => get_pushNode sl g0 { inputs := 1, outputs := 0, autoFree := true, dep := some (g.nextKey + 1) } j f0
  have fa : ga0.get ga0.nextKey = none := by
    refine (e1 (g.nextKey + 1)).trans ?_
    rw [if_neg (Nat.succ_ne_self _)]
    exact f1
  have e2 : ∀ j, (newFeedback sl g0).get j = if j = g.nextKey + 1 then some (storing g.nextKey) else ga0.get j :=
    fun j => get_pushNode sl ga0 { inputs := 1, outputs := 0, autoFree := true, dep := some g.nextKey } j fa
  have n1 : g.nextKey ≠ g.nextKey + 1 := Ne.symm (Nat.succ_ne_self _)
  have n2 : g.nextKey + 2 ≠ g.nextKey + 1 := Nat.succ_ne_self _
  have n3 : g.nextKey + 2 ≠ g.nextKey := Nat.ne_of_gt (Nat.lt_add_of_pos_right (Nat.succ_pos 1))
  have ga : (newFeedback sl g0).get g.nextKey = some (storing (g.nextKey + 1)) := by
    rw [e2, if_neg n1, e1, if_pos rfl]
  have gb : (newFeedback sl g0).get (g.nextKey + 1) = some (storing g.nextKey) := by
    rw [e2, if_pos rfl]
  have fb : (newFeedback sl g0).get (newFeedback sl g0).nextKey = none := by
    refine (e2 (g.nextKey + 2)).trans ?_
    rw [if_neg n2, e1, if_neg n3]
    exact f2
  have both : ∀ (a b : Key), Takes a b (newFeedback sl g0) → Takes a b g' := by
    intro a b hab
    have t1 := takes_setEdge hab h1
    have n1 : g1.get g1.nextKey = none := by
      obtain ⟨es, hes, -, rfl⟩ := setEdge_ok h1
      rw [get_modify]
      split
      · next hh => exact absurd hh (Nat.ne_of_gt (Nat.lt_add_of_pos_right (Nat.succ_pos 1)))
      · exact fb
    unfold connectTail at h2
    split at h2
    · exact takes_setEdge t1 h2
    · obtain ⟨e, -, h2⟩ := bind_inv h2
      split at h2
      · obtain ⟨g2, h3, h2⟩ := bind_inv h2
        obtain ⟨g3, h4, h2⟩ := bind_inv h2
        exact takes_setEdge (takes_setEdge (takes_setEdge (takes_push n1 t1) h3) h4) h2
      · exact takes_setEdge t1 h2
  have tab := both g.nextKey (g.nextKey + 1) ⟨_, _, ga, rfl, rfl, gb, rfl, hp _ (Nat.le_refl _)⟩
  have tba := both (g.nextKey + 1) g.nextKey ⟨_, _, gb, rfl, rfl, ga, rfl, hp _ (Nat.le_succ _)⟩
  have live : ∀ a b, Takes a b g' → Live g' a := fun a b ⟨_, _, q1, _, _, _, _, q6⟩ => ⟨by rw [q1]; rfl, q6⟩
  rcases hx with rfl | rfl <;> rcases hy with rfl | rfl
  · exact ⟨live _ _ tab, (free_takes tab).1⟩
  · exact ⟨live _ _ tab, (free_takes tab).2⟩
  · exact ⟨live _ _ tba, (free_takes tba).2⟩
  · exact ⟨live _ _ tba, (free_takes tba).1⟩

/-- The fourth call of `replaced` is such a connection. -/
example : ∃ g g' rs, runOps id (Graph.init 0 0 1) (replaced.take 3) = .ok (g, rs) ∧ g.nextKey = 2 ∧
    (Op.connect (.node (nd 0)) 0 0 (.node (nd 1)) true true).run id g = .ok (g', .ok ()) := ⟨_, _, _, rfl, rfl, rfl⟩

end Verif.Own
