import Verif.Props.SystemWiring
import Verif.Props.Commit
import Mathlib.Data.List.Perm.Subperm

/-!
# C105: the graph does not collect nodes of its own

When a connection is added to one that is already there, the graph puts in a node that adds the two up.  The
user has no handle of it, so the graph has to take it away again.
-/

namespace Verif.Own

open Verif.G Verif.Sys

/-- A node that nobody listens to: no input, no parameter and no graph output is connected to it. -/
def Orphan (g : Graph) (k : Key) : Prop := (∀ j, ¬ Needs g k j) ∧ ¬ OutNode g k

/-! ### A summing node that has lost an input goes away -/

/-- Freed, or waiting to be taken away. -/
def Lost (k : Key) (g : Graph) : Prop := ¬ Live g k ∨
  ∃ n, g.get k = some n ∧ n.autoMath = true ∧ n.mortal = true ∧ (g.edge k 0 = none ∨ g.edge k 1 = none)

theorem dead_free1 {g : Graph} {k j : Key} (h : ¬ Live g k) : ¬ Live (free1 g j) k := by
  intro hl
  apply h
  refine ⟨?_, ?_⟩
  · have := hl.1
    rw [get_isSome, free1_keys] at this
    exact (get_isSome g k).2 this
  · have := hl.2
    simp only [Graph.isPending, free1_pending, List.any_append, Bool.or_eq_false_iff] at this
    exact this.1

theorem dead_bypass {g : Graph} {k j : Key} {e : Edge} (h : ¬ Live g k) : ¬ Live (bypass g j e) k := by
  intro hl
  apply h
  refine ⟨?_, hl.2⟩
  have := hl.1
  rw [get_isSome, bypass_keys] at this
  exact (get_isSome g k).2 this

theorem lost_free1 {g : Graph} {k j : Key} (h : Lost k g) : Lost k (free1 g j) := by
  rcases h with h | ⟨n, h1, h2, h3, h4⟩
  · exact .inl (dead_free1 h)
  · by_cases hj : k = j
    · subst hj
      left
      intro hl
      have := hl.2
      simp [Graph.isPending] at this
    · right
      refine ⟨{ n with ins := n.ins.map (·.map (dropFrom j)) }, ?_, h2, h3, ?_⟩
      · rw [get_free1, if_neg hj, h1]
        rfl
      · rw [edge_free1, edge_free1, if_neg hj, if_neg hj]
        rcases h4 with h4 | h4 <;> simp [h4, dropFrom]

theorem lost_bypass {g : Graph} {k j : Key} {e : Edge} (h : Lost k g) : Lost k (bypass g j e) := by
  rcases h with h | ⟨n, h1, h2, h3, h4⟩
  · exact .inl (dead_bypass h)
  · right
    refine ⟨{ n with ins := n.ins.map (·.map (redirect j e)) }, ?_, h2, h3, ?_⟩
    · rw [get_bypass, h1]
      rfl
    · rw [edge_bypass, edge_bypass]
      rcases h4 with h4 | h4 <;> simp [h4, redirect]

theorem freeNode_dead {g : Graph} {k : Key} {n : NodeRec} (hk : g.get k = some n) (hm : n.mortal = true) :
    ¬ Live (freeNode g k).1 k := by
  rw [freeNode, freeLoop_succ, hk]
  simp only [hm, Bool.not_true, Bool.false_eq_true, if_false]
  split
  · next hp => intro hl; rw [hl.2] at hp; simp at hp
  · have h1 : ¬ Live (free1 g k) k := by
      intro hl
      have := hl.2
      simp [Graph.isPending] at this
    split
    · exact freeLoop_ind (P := fun g => ¬ Live g k) (fun _ _ _ hg _ _ _ => dead_free1 hg) _ _ _ h1
    · exact h1

theorem evalNode_dead {g g' : Graph} {k : Key} (hw : WF g) (hl : Lost k g) (h : evalNode g k = .ok g') :
    ¬ Live g' k := by
  by_cases hlive : Live g k
  · rcases hl with hl | ⟨n, h1, h2, h3, h4⟩
    · exact absurd hlive hl
    · unfold evalNode at h
      obtain ⟨gm, hem, h5⟩ := bind_inv h
      have hgm : ¬ Live gm k := by
        rcases evalMath_ok hem with rfl | ⟨n', hn, ha, -, -, ⟨-, -, rfl⟩ | ⟨e, he, -, rfl⟩⟩
        · -- nothing was done: impossible
          exfalso
          have hp := hlive.2
          cases hi : n.ins with
          | none => rw [(hw.live k n h1).1 hi] at hp; simp at hp
          | some es =>
            have hlen := hw.len k n es h1 hi
            obtain ⟨q1, q2⟩ := hw.math k n h1 h2
            rw [q1] at hlen
            have hins : gm.ins k = some es := by rw [ins_eq, h1]; exact hi
            match es, hlen with
            | [e0, e1], _ =>
              have e0' : gm.edge k 0 = e0 := by rw [edge_of_ins hins]; rfl
              have e1' : gm.edge k 1 = e1 := by rw [edge_of_ins hins]; rfl
              rw [e0', e1'] at h4
              have hd : ∀ {g'' : Graph}, (freeNode g'' k).1 = gm → (∃ n', g''.get k = some n' ∧ n'.mortal = true) → False := by
                rintro g'' rfl ⟨n', a, b⟩
                exact freeNode_dead a b hlive
              simp only [evalMath, h1, h2, if_true, q1, q2, ne_eq, not_true_eq_false, if_false, hi,
                List.getElem?_cons_zero, List.getElem?_cons_succ] at hem
              match e0, e1, h4 with
              | none, none, _ =>
                simp only [Except.ok.injEq] at hem
                exact hd hem ⟨n, h1, h3⟩
              | none, some e, _ =>
                simp only at hem
                split at hem
                · simp at hem
                · simp only [Except.ok.injEq] at hem
                  refine hd hem ⟨{ n with ins := n.ins.map (·.map (redirect k e)) }, ?_, h3⟩
                  exact (get_bypass gm k e k).trans (by rw [h1]; rfl)
              | some e, none, _ =>
                simp only at hem
                split at hem
                · simp at hem
                · simp only [Except.ok.injEq] at hem
                  refine hd hem ⟨{ n with ins := n.ins.map (·.map (redirect k e)) }, ?_, h3⟩
                  exact (get_bypass gm k e k).trans (by rw [h1]; rfl)
              | some _, some _, h4 => simp at h4
        · exact freeNode_dead h1 h3
        · exact freeNode_dead (n := { n with ins := n.ins.map (·.map (redirect k e)) })
            (by rw [get_bypass, h1]; rfl) h3
      rcases evalFree_ok h5 with rfl | ⟨n', -, -, -, -, rfl⟩
      · exact hgm
      · exact freeNode_ind (P := fun g => ¬ Live g k) (fun _ _ _ hg _ _ _ => dead_free1 hg) _ _ hgm
  · exact evalNode_ind (P := fun g => ¬ Live g k) (fun _ _ _ hg _ _ _ => dead_free1 hg)
      (fun _ _ _ _ hg _ _ _ => dead_bypass hg) hlive h

theorem evalMany_dead {k : Key} : ∀ (ks : List Key) {g g' : Graph}, WF g → Lost k g → k ∈ ks →
    evalMany g ks = .ok g' → ¬ Live g' k := by
  intro ks
  induction ks with
  | nil => intro g g' _ _ h; simp at h
  | cons j ks ih =>
    intro g g' hw hl hm h
    rw [evalMany] at h
    obtain ⟨g1, h1, h2⟩ := bind_inv h
    by_cases hj : j = k
    · subst hj
      exact evalMany_ind (P := fun g => ¬ Live g j) (fun _ _ _ hg _ _ _ => dead_free1 hg)
        (fun _ _ _ _ hg _ _ _ => dead_bypass hg) ks (evalNode_dead hw hl h1) h2
    · refine ih (wf_evalNode hw h1) ?_ (by simpa [Ne.symm hj] using hm) h2
      exact evalNode_ind (P := Lost k) (fun _ _ _ hg _ _ _ => lost_free1 hg)
        (fun _ _ _ _ hg _ _ _ => lost_bypass hg) hl h1

/-- **C105.**  A summing node that has lost one of its inputs is taken away by the next commit that works. -/
theorem C105_lost_partial {sl} {g g' : Graph} (hr : Reach sl g) {k : Key} {n : NodeRec} (hk : g.get k = some n)
    (ha : n.autoMath = true) (hm : n.mortal = true) (he : g.edge k 0 = none ∨ g.edge k 1 = none)
    {rm : Key → Bool} {fs : Nat → Bool} {r} (hc : (Op.commit rm fs).run sl g = .ok (g', r)) : ¬ Live g' k := by
  simp only [Op.run, commitEdits] at hc
  obtain ⟨g2, h1, h2⟩ := bind_inv hc
  obtain ⟨g3, h3, h4⟩ := bind_inv h1
  simp only [pure_ok, Except.ok.injEq] at h4
  simp only [Except.ok.injEq, Prod.mk.injEq] at h2
  obtain ⟨rfl, -⟩ := h2
  obtain ⟨g4, h5, rfl⟩ := freeOld_ok h3
  have hw := wf_freeMany hr.wf ((g.nodes.map Prod.fst).filter rm)
  have hl : Lost k (freeMany g ((g.nodes.map Prod.fst).filter rm)) :=
    freeMany_ind (P := Lost k) (fun _ _ _ hg _ _ _ => lost_free1 hg) _ _ (.inr ⟨n, hk, ha, hm, he⟩)
  have hmem : k ∈ (freeMany g ((g.nodes.map Prod.fst).filter rm)).nodes.map Prod.fst := by
    refine freeMany_ind (P := fun g => k ∈ g.nodes.map Prod.fst) (fun _ _ _ hg _ _ _ => by simpa using hg) _ _ ?_
    exact (get_isSome g k).1 (by rw [hk]; rfl)
  have hd := evalMany_dead _ hw hl hmem h5
  have hw4 : WF g4 := wf_evalMany hw h5
  have hd2 : ¬ Live (dropFlagged fs g4) k := fun h => hd (((sameWiring_dropFlagged fs hw4).1 k).2 h)
  intro h
  apply hd2
  rw [← h4] at h
  split at h
  · exact h
  · exact h

/-- A summing node with a missing input: the second of the two sources of an input was disconnected. -/
def halved : Graph :=
  { id := 0, outs := [some ⟨.node 2, 0, false⟩], numIn := 0, nextKey := 3, recalc := true, nodes :=
      [(0, { inputs := 0, outputs := 1, ins := some [], pars := some [] }),
       (1, { inputs := 0, outputs := 1, ins := some [], pars := some [] }),
       (2, { inputs := 2, outputs := 1, autoMath := true, ins := some [some ⟨.node 0, 0, false⟩, none], pars := some [] })] }

/-- The hypotheses of `C105_lost_partial` hold there, and the commit works. -/
example : Reach id halved ∧ Live halved 2 ∧ halved.edge 2 1 = none ∧
    ∃ g', (Op.commit (fun _ => false) (fun _ => false)).run id halved = .ok (g', .ok ()) ∧
      g'.out 0 = some ⟨.node 0, 0, false⟩ ∧ g'.isPending 2 = true := by
  refine ⟨?_, by constructor <;> decide, by decide, _, rfl, by decide, by decide⟩
  exact reach_runOps [.push 0 1 [], .push 0 1 [], .connect (.node (nd 0)) 0 0 .graph true false,
    .connect (.node (nd 1)) 0 0 .graph true false, .disconnectSource (.node (nd 1)) 0] (Reach.init 0 0 1)
    (rs := [.ok (), .ok (), .ok (), .ok (), .ok ()]) (by decide)

/-! ### A summing node that nobody listens to any more stays -/

/-- Connecting the node to the graph output a second time, then once more in place of what is there, then a commit. -/
def round : List Op :=
  [.connect (.node (nd 0)) 0 0 .graph true false, .connect (.node (nd 0)) 0 0 .graph false false,
   .commit (fun _ => false) (fun _ => true)]

/-- A round repeated. -/
def rounds : Nat → List Op
  | 0 => []
  | n + 1 => round ++ rounds n

/-- One node is pushed and connected to the output of the graph; then the rounds. -/
def history (n : Nat) : List Op := .push 0 1 [] :: .connect (.node (nd 0)) 0 0 .graph true false :: rounds n

def wire : Edge := ⟨.node 0, 0, false⟩

def src : NodeRec := { inputs := 0, outputs := 1, ins := some [], pars := some [] }

def summing : NodeRec :=
  { inputs := 2, outputs := 1, autoMath := true, ins := some [some wire, some wire], pars := some [] }

/-- The graph after `n` rounds; the output is connected to `e`. -/
structure After (sl : Key → Nat) (e : Edge) (n : Nat) (g : Graph) : Prop where
  reach : Reach sl g
  id : g.id = 0
  next : g.nextKey = n + 1
  pending : g.pending = []
  outs : g.outs = [some e]
  get : ∀ k, g.get k = if k = 0 then some src else if k < n + 1 then some summing else none

theorem foreign_zero : foreign 0 0 = false := by decide

theorem run_replace {sl n g a} (h : After sl a n g) : ∃ g',
    (Op.connect (.node (nd 0)) 0 0 .graph false false).run sl g = .ok (g', .ok ()) ∧ After sl wire n g' := by
  have h0 : g.get 0 = some src := (h.get 0).trans (by simp)
  have hr : (Op.connect (.node (nd 0)) 0 0 .graph false false).run sl g =
      .ok ({ g with outs := [some wire], recalc := true }, .ok ()) := by
    simp only [Op.run, connect2, connectNodeToOutput]
    rw [show foreign 0 g.id = false by rw [h.id]; exact foreign_zero, h0]
    simp [h.outs, src, connectToOut, setOut, wire]
  exact ⟨_, hr, .step _ h.reach hr, h.id, h.next, h.pending, rfl, h.get⟩

theorem setEdge_new {g : Graph} {k : Key} {i : Nat} {e} {n : NodeRec} {es} (h : g.get k = some n) (hi : n.ins = some es)
    (hl : i < es.length) : setEdge g k i e = .ok (g.modify k fun n => { n with ins := some (es.set i e) }) := by
  have : g.ins k = some es := by rw [ins_eq, h]; exact hi
  simp [setEdge, this, hl]

theorem run_add {sl n g} (h : After sl wire n g) : ∃ g',
    (Op.connect (.node (nd 0)) 0 0 .graph true false).run sl g = .ok (g', .ok ()) ∧
      After sl ⟨.node (n + 1), 0, false⟩ (n + 1) g' := by
  have h0 : g.get 0 = some src := (h.get 0).trans (by simp)
  have hf : g.get g.nextKey = none := h.reach.wf.fresh
  let g0 : Graph := { g with recalc := true }
  have gn : ∀ j, (newAdd sl g0).get j = if j = n + 1 then
      some { inputs := 2, outputs := 1, autoMath := true, ins := some [none, none], pars := some [], mortal := true }
      else g.get j := by
    intro j
    have := get_pushNode sl g0 { inputs := 2, outputs := 1, autoMath := true } j hf
    rw [show g0.nextKey = n + 1 from h.next] at this
    exact this
  let g1 := (newAdd sl g0).modify (n + 1) fun n => { n with ins := some [some wire, none] }
  have g1n : ∀ j, g1.get j = if j = n + 1 then
      some { inputs := 2, outputs := 1, autoMath := true, ins := some [some wire, none], pars := some [], mortal := true }
      else g.get j := by
    intro j
    rw [get_modify, gn, gn]
    by_cases hj : j = n + 1 <;> simp [hj]
  let g2 := g1.modify (n + 1) fun n => { n with ins := some [some wire, some wire] }
  have g2n : ∀ j, g2.get j = if j = n + 1 then some summing else g.get j := by
    intro j
    rw [get_modify, g1n, g1n]
    by_cases hj : j = n + 1 <;> simp [hj, summing]
  have s1 : setEdge (newAdd sl g0) (n + 1) 0 (some wire) = .ok g1 :=
    setEdge_new ((gn _).trans (if_pos rfl)) rfl (by simp)
  have s2 : setEdge g1 (n + 1) 1 (some ⟨.node 0, 0, false⟩) = .ok g2 :=
    setEdge_new ((g1n _).trans (if_pos rfl)) rfl (by simp)
  have ho : getOut g0 0 = .ok (some wire) := by
    simp only [getOut]
    rw [show g0.outs = [some wire] from h.outs]
    rfl
  have hc : connectToOut sl g (.node 0) 0 0 true = .ok { g2 with outs := [some ⟨.node (n + 1), 0, false⟩] } := by
    have e2 : g2.outs = [some wire] := h.outs
    have hk : g0.nextKey = n + 1 := h.next
    change (do
      match ← getOut g0 0 with
      | some existing =>
        let g ← setEdge (newAdd sl g0) g0.nextKey 0 (some existing)
        let g ← setEdge g g0.nextKey 1 (some ⟨.node 0, 0, false⟩)
        setOut g 0 (some ⟨.node g0.nextKey, 0, false⟩)
      | none => setOut g0 0 (some ⟨.node 0, 0, false⟩)) = _
    rw [ho]
    simp only [bind_ok, hk]
    rw [s1]
    simp only [bind_ok]
    rw [s2]
    simp only [bind_ok, setOut]
    rw [e2]
    simp
  have hr : (Op.connect (.node (nd 0)) 0 0 .graph true false).run sl g =
      .ok ({ g2 with outs := [some ⟨.node (n + 1), 0, false⟩] }, .ok ()) := by
    simp only [Op.run, connect2, connectNodeToOutput]
    rw [show foreign 0 g.id = false by rw [h.id]; exact foreign_zero, h0, hc]
    simp [h.outs, src]
  refine ⟨_, hr, .step _ h.reach hr, h.id, ?_, h.pending, rfl, ?_⟩
  · change g.nextKey + 1 = _
    rw [h.next]
  · intro k
    refine (g2n k).trans ?_
    rw [h.get]
    by_cases h1 : k = n + 1
    · subst h1; simp
    · by_cases h2 : k = 0
      · subst h2; simp
      · have : k < n + 1 ↔ k < n + 1 + 1 := by
          constructor
          · intro h; exact Nat.lt_succ_of_lt h
          · intro h; exact Nat.lt_of_le_of_ne (Nat.le_of_lt_succ h) h1
        simp [h1, h2, this]

theorem After.settled {sl e n g} (h : After sl e n g) : Settled g := by
  intro k m hk
  rw [h.get] at hk
  split at hk
  · simp only [Option.some.injEq] at hk
    subst hk
    exact ⟨rfl, by simp [src]⟩
  · split at hk
    · simp only [Option.some.injEq] at hk
      subst hk
      refine ⟨rfl, fun _ es he => ?_⟩
      simp only [summing, Option.some.injEq] at he
      subst he
      simp
    · simp at hk

theorem run_commit {sl e n g} (h : After sl e n g) (fs : Nat → Bool) : ∃ g',
    (Op.commit (fun _ => false) fs).run sl g = .ok (g', .ok ()) ∧ After sl e n g' := by
  have hfm : freeMany g ((g.nodes.map Prod.fst).filter fun _ => false) = g := by simp [freeMany]
  have hdf : dropFlagged fs g = g := by
    have hp := h.pending
    cases g
    simp only at hp
    subst hp
    simp [dropFlagged]
  have hfo : freeOld (fun _ => false) fs g = .ok g := by
    simp only [freeOld]
    rw [hfm, evalMany_settled h.reach.wf h.settled _ (fun k hk => (get_isSome g k).2 hk)]
    simp only [bind_ok, pure_ok, hdf]
  have hr : (Op.commit (fun _ => false) fs).run sl g =
      .ok (if g.recalc then { g with flag := g.flag + 1, recalc := false } else g, .ok ()) := by
    simp only [Op.run, commitEdits, hfo, bind_ok, pure_ok]
  have hr' := Reach.step _ h.reach hr
  refine ⟨_, hr, ?_⟩
  revert hr'
  split
  · exact fun hr' => ⟨hr', h.id, h.next, h.pending, h.outs, h.get⟩
  · exact fun hr' => ⟨hr', h.id, h.next, h.pending, h.outs, h.get⟩

theorem run_rounds {sl} : ∀ (n : Nat) {m g}, After sl wire m g →
    ∃ g' rs, runOps sl g (rounds n) = .ok (g', rs) ∧ (∀ r ∈ rs, r = .ok ()) ∧ After sl wire (m + n) g' := by
  intro n
  induction n with
  | zero => intro m g h; exact ⟨g, [], rfl, by simp, h⟩
  | succ n ih =>
    intro m g h
    obtain ⟨g1, r1, h1⟩ := run_add h
    obtain ⟨g2, r2, h2⟩ := run_replace h1
    obtain ⟨g3, r3, h3⟩ := run_commit h2 (fun _ => true)
    obtain ⟨g4, rs, r4, ha, h4⟩ := ih h3
    refine ⟨g4, .ok () :: .ok () :: .ok () :: rs, ?_, by simpa using ha, ?_⟩
    · simp only [rounds, round, List.cons_append, List.nil_append, runOps, r1, r2, r3, r4]
    · rw [Nat.add_right_comm] at h4
      exact h4

theorem After.edge {sl n g} (h : After sl wire n g) {k : Key} {i : Nat} {e : Edge} (he : g.edge k i = some e) :
    e = wire := by
  rw [edge_eq, ins_eq, h.get] at he
  by_cases h1 : k = 0
  · simp [h1, src] at he
  · by_cases h2 : k < n + 1
    · simp only [h1, h2, if_false, if_true, Option.bind_some, summing] at he
      match i, he with
      | 0, he => simpa using he.symm
      | 1, he => simpa using he.symm
      | i + 2, he => simp at he
    · simp [h1, h2] at he

theorem After.out {sl n g} (h : After sl wire n g) {i : Nat} {e : Edge} (he : g.out i = some e) : e = wire := by
  simp only [Graph.out, h.outs] at he
  match i, he with
  | 0, he => simpa using he.symm
  | i + 1, he => simp at he

theorem After.pars {sl n g} (h : After sl wire n g) {k : Key} {es} (he : g.pars k = some es) : es = [] := by
  simp only [Graph.pars, h.get] at he
  by_cases h1 : k = 0
  · simpa [h1, src] using he.symm
  · by_cases h2 : k < n + 1
    · simpa [h1, h2, summing] using he.symm
    · simp [h1, h2] at he

theorem After.live {sl n g} (h : After sl wire n g) {k : Key} (hk : k < n + 1) : Live g k := by
  refine ⟨?_, by simp [Graph.isPending, h.pending]⟩
  rw [h.get]
  by_cases h1 : k = 0 <;> simp [h1, hk]

theorem After.orphan {sl n g} (h : After sl wire n g) {k : Key} (hk : 1 ≤ k) : Orphan g k := by
  have hw : ∀ e : Edge, e = wire → e.source ≠ .node k := by
    rintro e rfl he
    simp only [wire, Src.node.injEq] at he
    subst he
    exact absurd hk (by decide)
  refine ⟨?_, ?_⟩
  · rintro j (⟨i, e, h1, h2⟩ | ⟨es, pe, h1, h2, -⟩)
    · exact hw e (h.edge h1) h2
    · rw [h.pars h1] at h2
      simp at h2
  · rintro ⟨i, e, h1, h2⟩
    exact hw e (h.out h1) h2

theorem After.order {sl n g} (h : After sl wire n g) : ∃ order rem, calcOrder g = .ok (order, rem) := by
  have hs : ∀ e, e = wire → SrcOk g e := by
    rintro e rfl
    refine ⟨fun a ha => ?_, fun ha => by simp [wire] at ha⟩
    simp only [wire, Src.node.injEq] at ha
    subst ha
    exact ⟨src, (h.get 0).trans (by simp), by simp [Graph.isPending, h.pending], by simp [wire, src]⟩
  refine calcOrder_total h.reach.wf h.reach.acyclic ⟨fun _ _ e he => hs e (h.edge he), fun _ e he => hs e (h.out he)⟩ ?_
  intro b es pe h1 h2
  rw [h.pars h1] at h2
  simp at h2

theorem run_start (sl : Key → Nat) : ∃ g rs, runOps sl (Graph.init 0 0 1) ((history 0)) = .ok (g, rs) ∧
    rs = [.ok (), .ok ()] ∧ After sl wire 0 g := by
  have h : runOps sl (Graph.init 0 0 1) (history 0) = .ok
      ({ id := 0, outs := [some wire], numIn := 0, nextKey := 1, recalc := true, nodes := [(0, src)] }, [.ok (), .ok ()]) := by
    have hp : pushNode sl (Graph.init 0 0 1) (userNode 0 1 []) =
        { id := 0, outs := [none], numIn := 0, nextKey := 1, recalc := true, nodes := [(0, src)] } := by
      simp [pushNode, Graph.init, userNode, src]
    simp only [history, rounds, runOps, Op.run, hp]
    rfl
  refine ⟨_, _, h, rfl, reach_runOps _ (Reach.init 0 0 1) h, rfl, rfl, rfl, rfl, ?_⟩
  intro k
  by_cases hk : k = 0
  · subst hk; rfl
  · have : ¬ k < 0 + 1 := fun h => hk (Nat.lt_one_iff.1 h)
    have h0 : (0 == k) = false := by simpa using Ne.symm hk
    simp [Graph.get, hk, h0]

/-- **C105 is violated.**  With a single node of the user, a single connection, and everything the graph was asked
to do done, there can be any number of summing nodes that nobody listens to.  They are not on the way out, they
are computed in every block, and further commits leave all of them. -/
theorem C105_violated (sl : Key → Nat) (n : Nat) : ∃ g rs, runOps sl (Graph.init 0 0 1) (history n) = .ok (g, rs) ∧
    (∀ r ∈ rs, r = .ok ()) ∧ g.out 0 = some ⟨.node 0, 0, false⟩ ∧ g.pending = [] ∧
    (∃ order rem, calcOrder g = .ok (order, rem)) ∧
    ∀ k, 1 ≤ k → k ≤ n → Live g k ∧ Orphan g k ∧ (∀ order rem, calcOrder g = .ok (order, rem) → k ∈ order) ∧
      ∀ fs, ∃ g', (Op.commit (fun _ => false) fs).run sl g = .ok (g', .ok ()) ∧ Live g' k ∧ Orphan g' k := by
  obtain ⟨g0, rs0, r0, rfl, h0⟩ := run_start sl
  obtain ⟨g, rs, r, ha, h⟩ := run_rounds n h0
  rw [Nat.zero_add] at h
  refine ⟨g, .ok () :: .ok () :: rs, ?_, by simpa using ha, ?_, h.pending, h.order, ?_⟩
  · simp only [history, rounds, runOps] at r0 ⊢
    split at r0
    · simp at r0
    · next g1 r1 e1 =>
      split at r0
      · simp at r0
      · next g2 rs2 e2 =>
        split at e2
        · simp at e2
        · next g3 r3 e3 =>
          simp only [Except.ok.injEq, Prod.mk.injEq] at e2 r0
          obtain ⟨rfl, rfl⟩ := e2
          obtain ⟨rfl, hrs⟩ := r0
          simp only [List.cons.injEq, and_true] at hrs
          obtain ⟨rfl, rfl⟩ := hrs
          simp only [r]
  · simp [Graph.out, h.outs, wire]
  · intro k h1 h2
    have hl := h.live (Nat.lt_succ_of_le h2)
    refine ⟨hl, h.orphan h1, fun order rem ho => ((C11_once h.reach ho).2 k).2 hl, fun fs => ?_⟩
    obtain ⟨g', hc, h'⟩ := run_commit h fs
    exact ⟨g', hc, h'.live (Nat.lt_succ_of_le h2), h'.orphan h1⟩

/-! ### How many there can be -/

/-- The most nodes one call adds: the pushed one, a summing node, and two nodes for a feedback connection. -/
def most : Op → Nat
  | .push _ _ _ => 1
  | .connect _ _ _ _ add fb => (if add then 1 else 0) + (if fb then 2 else 0)
  | .param _ _ _ _ add => if add then 1 else 0
  | _ => 0

theorem next_setOut {g g' : Graph} {i e} (h : setOut g i e = .ok g') : g'.nextKey = g.nextKey := by
  simp only [setOut] at h
  split at h
  · simp only [Except.ok.injEq] at h
    rw [← h]
  · simp at h

theorem next_tail {sl} {g g' : Graph} {source sink so si add fb} (h : connectTail sl g source sink so si add fb = .ok g') :
    g'.nextKey ≤ g.nextKey + (if add then 1 else 0) := by
  simp only [connectTail] at h
  cases add with
  | false => simp only [Bool.not_false, if_true] at h; exact Nat.le_of_eq (nextKey_setEdge h)
  | true =>
    simp only [Bool.not_true, Bool.false_eq_true, if_false] at h
    obtain ⟨e, -, h⟩ := bind_inv h
    cases e with
    | none => exact Nat.le_trans (Nat.le_of_eq (nextKey_setEdge h)) (Nat.le_add_right _ _)
    | some ex =>
      simp only at h
      obtain ⟨g2, h2, h⟩ := bind_inv h
      obtain ⟨g3, h3, h⟩ := bind_inv h
      rw [nextKey_setEdge h, nextKey_setEdge h3, nextKey_setEdge h2]
      exact Nat.le_refl _

theorem next_connectToNode {sl} {g g' : Graph} {source sink so si add fb}
    (h : connectToNode sl g source sink so si add fb = .ok g') :
    g'.nextKey ≤ g.nextKey + ((if add then 1 else 0) + (if fb then 2 else 0)) := by
  simp only [connectToNode] at h
  cases fb with
  | false => simp only [Bool.false_eq_true, if_false] at h; have := next_tail h; exact this
  | true =>
    simp only [if_true] at h
    obtain ⟨g1, h1, h⟩ := bind_inv h
    have := next_tail h
    rw [nextKey_setEdge h1, newFeedback_nextKey] at this
    simp only [if_true]
    refine Nat.le_trans this (Nat.le_of_eq ?_)
    change g.nextKey + 1 + 1 + _ = _
    rw [Nat.add_assoc, Nat.add_assoc, Nat.add_comm (if add = true then 1 else 0) 2, ← Nat.add_assoc 1 1]

theorem next_connectToOut {sl} {g g' : Graph} {source so si add} (h : connectToOut sl g source so si add = .ok g') :
    g'.nextKey ≤ g.nextKey + (if add then 1 else 0) := by
  simp only [connectToOut] at h
  cases add with
  | false => simp only [Bool.not_false, if_true] at h; have := next_setOut h; exact Nat.le_of_eq this
  | true =>
    simp only [Bool.not_true, Bool.false_eq_true, if_false] at h
    obtain ⟨e, -, h⟩ := bind_inv h
    cases e with
    | none => exact Nat.le_trans (Nat.le_of_eq (next_setOut h)) (Nat.le_add_right _ _)
    | some ex =>
      simp only at h
      obtain ⟨g2, h2, h⟩ := bind_inv h
      obtain ⟨g3, h3, h⟩ := bind_inv h
      rw [next_setOut h, nextKey_setEdge h3, nextKey_setEdge h2]
      exact Nat.le_refl _

theorem next_evalNode {g g' : Graph} {k : Key} (h : evalNode g k = .ok g') : g'.nextKey = g.nextKey :=
  evalNode_ind (P := fun g' => g'.nextKey = g.nextKey) (fun _ _ _ hg _ _ _ => hg) (fun _ _ _ _ hg _ _ _ => hg) rfl h

theorem next_freeNode (g : Graph) (k : Key) : (freeNode g k).1.nextKey = g.nextKey :=
  freeNode_ind (P := fun g' => g'.nextKey = g.nextKey) (fun _ _ _ hg _ _ _ => hg) g k rfl

theorem next_takeOut {g g' : Graph} {ch e} (h : takeOut g ch e = .ok g') : g'.nextKey = g.nextKey := by
  cases e with
  | none => simp only [takeOut, pure_ok, Except.ok.injEq] at h; rw [h]
  | some ed =>
    simp only [takeOut] at h
    obtain ⟨g1, h1, h⟩ := bind_inv h
    rw [← next_setOut h1]
    split at h
    · exact next_evalNode h
    · simp only [pure_ok, Except.ok.injEq] at h; rw [h]

theorem next_takeIn {g g' : Graph} {k ch e} (h : takeIn g k ch e = .ok g') : g'.nextKey = g.nextKey := by
  cases e with
  | none => simp only [takeIn, pure_ok, Except.ok.injEq] at h; rw [h]
  | some ed =>
    simp only [takeIn] at h
    obtain ⟨g1, h1, h⟩ := bind_inv h
    obtain ⟨g2, h2, h⟩ := bind_inv h
    rw [← nextKey_setEdge h1, ← next_evalNode h2]
    split at h
    · exact next_evalNode h
    · simp only [pure_ok, Except.ok.injEq] at h; rw [h]

theorem next_param {sl} {g g' : Graph} {s so p k add r} (h : connectParam sl g s so p k add = .ok (g', r)) :
    g'.nextKey ≤ g.nextKey + (if add then 1 else 0) := by
  have same : ∀ {x : Graph} {y : Except GErr Unit}, Except.ok (ε := Panic) (x, y) = .ok (g', r) → x.nextKey = g.nextKey →
      g'.nextKey ≤ g.nextKey + (if add then 1 else 0) := by
    intro x y hx hn
    simp only [Except.ok.injEq, Prod.mk.injEq] at hx
    rw [← hx.1, hn]
    exact Nat.le_add_right _ _
  simp only [connectParam] at h
  repeat' split at h
  all_goals first
    | exact same h rfl
    | (simp at h; done)
    | skip
  obtain ⟨g2, h2, h⟩ := bind_inv h
  obtain ⟨g3, h3, h⟩ := bind_inv h
  simp only [Except.ok.injEq, Prod.mk.injEq] at h
  rw [← h.1, modify_nextKey, nextKey_setEdge h3, nextKey_setEdge h2]
  simp_all

theorem next_step {sl} {g g' : Graph} {op : Op} {r} (h : op.run sl g = .ok (g', r)) :
    g'.nextKey ≤ g.nextKey + most op := by
  cases op with
  | push i o d =>
    simp only [Op.run, Except.ok.injEq, Prod.mk.injEq] at h
    rw [← h.1]
    exact Nat.le_refl _
  | connect s so si k a f =>
    simp only [Op.run, connect2] at h
    have hle : (if a then 1 else 0) ≤ most (.connect s so si k a f) := Nat.le_add_right _ _
    split at h
    · rcases connectInputToNode_ok h with ⟨rfl, -⟩ | ⟨-, nk, -, -, -, h1⟩
      · exact Nat.le_add_right _ _
      · exact Nat.le_trans (next_connectToNode h1) (Nat.add_le_add_left (by simpa using hle) _)
    · rcases connectNodes_ok h with ⟨rfl, -⟩ | ⟨-, ns, nk, hns, -, -, -, -, h1⟩
      · exact Nat.le_add_right _ _
      · exact next_connectToNode h1
    · rcases connectNodeToOutput_ok h with ⟨rfl, -⟩ | ⟨-, ns, hns, -, -, h1⟩
      · exact Nat.le_add_right _ _
      · exact Nat.le_trans (next_connectToOut h1) (Nat.add_le_add_left hle _)
    · rcases connectInputToOutput_ok h with ⟨rfl, -⟩ | ⟨-, -, -, h1⟩
      · exact Nat.le_add_right _ _
      · exact Nat.le_trans (next_connectToOut h1) (Nat.add_le_add_left hle _)
  | param s so p k a => exact next_param h
  | disconnectSource s c =>
    simp only [Op.run] at h
    rcases disconnectSource_ok h with ⟨rfl, -⟩ | ⟨-, ⟨n, rec, -, -, -, -, rfl⟩ | ⟨g1, -, -, h1, -, rfl⟩⟩
    · exact Nat.le_refl _
    · exact Nat.le_refl _
    · have := next_takeOut h1
      exact Nat.le_of_eq this
  | disconnectSink c k =>
    simp only [Op.run] at h
    rcases disconnectSink_ok h with ⟨rfl, -⟩ |
      ⟨-, ⟨n, rec, es, g1, -, -, -, -, -, h1, rfl⟩ | ⟨-, -, h1⟩⟩
    · exact Nat.le_refl _
    · have := next_takeIn h1
      exact Nat.le_of_eq this
    · exact Nat.le_of_eq (next_takeOut h1)
  | free n =>
    simp only [Op.run, editFree] at h
    split at h
    · simp only [Except.ok.injEq, Prod.mk.injEq] at h; rw [h.1]; exact Nat.le_refl _
    · simp only [Except.ok.injEq] at h
      have : g' = (freeNode g n.key).1 := by rw [h]
      rw [this, next_freeNode]
      exact Nat.le_refl _
  | mortality n m st =>
    simp only [Op.run, Except.ok.injEq] at h
    have hg' : g' = (setMortality g n m st).1 := by rw [h]
    rw [hg']
    unfold setMortality
    split <;> exact Nat.le_refl _
  | commit rm fs =>
    simp only [Op.run, commitEdits] at h
    obtain ⟨g2, h1, h2⟩ := bind_inv h
    obtain ⟨g3, h3, h4⟩ := bind_inv h1
    simp only [pure_ok, Except.ok.injEq] at h4
    simp only [Except.ok.injEq, Prod.mk.injEq] at h2
    obtain ⟨rfl, -⟩ := h2
    obtain ⟨g4, h5, rfl⟩ := freeOld_ok h3
    have e : (dropFlagged fs g4).nextKey = g.nextKey := by
      rw [dropFlagged_nextKey, nextKey_evalMany h5, nextKey_freeMany]
    rw [← h4]
    split <;> exact Nat.le_of_eq e

theorem next_run {sl} : ∀ (ops : List Op) {g g' : Graph} {rs}, runOps sl g ops = .ok (g', rs) →
    g'.nextKey ≤ g.nextKey + (ops.map most).sum := by
  intro ops
  induction ops with
  | nil =>
    intro g g' rs h
    simp only [runOps, Except.ok.injEq, Prod.mk.injEq] at h
    rw [h.1]
    exact Nat.le_refl _
  | cons op ops ih =>
    intro g g' rs h
    simp only [runOps] at h
    split at h
    · simp at h
    · next g1 r1 e1 =>
      split at h
      · simp at h
      · next g2 rs2 e2 =>
        simp only [Except.ok.injEq, Prod.mk.injEq] at h
        rw [← h.1, List.map_cons, List.sum_cons, ← Nat.add_assoc]
        exact Nat.le_trans (ih e2) (Nat.add_le_add_right (next_step e1) _)

/-- **C105.**  There are never more nodes than the calls made so far can have added: one for a pushed node, one for
an added connection, two for a feedback connection.  Missing: a bound by what is connected now. -/
theorem C105_count_partial {sl} {id a b : Nat} {ops : List Op} {g : Graph} {rs}
    (h : runOps sl (Graph.init id a b) ops = .ok (g, rs)) : g.nodes.length ≤ (ops.map most).sum := by
  have hw := (reach_runOps ops (Reach.init id a b) h).wf
  have h1 : g.nodes.length ≤ g.nextKey := by
    have := (List.subperm_of_subset hw.nodup (l₂ := List.range g.nextKey) (fun k hk => by
      obtain ⟨n, hn⟩ := Option.isSome_iff_exists.1 ((get_isSome g k).2 hk)
      exact List.mem_range.2 (hw.lt k n hn))).length_le
    simpa using this
  have h2 := next_run ops h
  rw [show (Graph.init id a b).nextKey = 0 from rfl, Nat.zero_add] at h2
  exact Nat.le_trans h1 h2

/-- After two rounds there are three nodes, and the calls could have added four: the first connection to an output needs no
summing node. -/
example : ∃ g rs, runOps id (Graph.init 0 0 1) (history 2) = .ok (g, rs) ∧ g.nodes.length = 3 ∧
    ((history 2).map most).sum = 4 := ⟨_, _, rfl, by decide, by decide⟩

end Verif.Own
