import Verif.Lemmas.GraphPath

/-!
# Properties of graph edits: C01, C02, C03, C07, C08, C09
-/

namespace Verif.G

open Relation

/-! ### Running a list of calls (for the concrete witnesses) -/

/-- All calls must return; collects what they returned. -/
def runOps (sl : Key → Nat) (g : Graph) : List Op → R (Graph × List (Except GErr Unit))
  | [] => .ok (g, [])
  | op :: ops => match op.run sl g with
    | .error e => .error e
    | .ok (g, r) => match runOps sl g ops with
      | .error e => .error e
      | .ok (g, rs) => .ok (g, r :: rs)

theorem reach_runOps {sl} : ∀ (ops : List Op) {g g' : Graph} {rs}, Reach sl g →
    runOps sl g ops = .ok (g', rs) → Reach sl g'
  | [], g, g', rs, hr, h => by
    simp only [runOps, Except.ok.injEq, Prod.mk.injEq] at h
    exact h.1 ▸ hr
  | op :: ops, g, g', rs, hr, h => by
    simp only [runOps] at h
    split at h
    · simp at h
    next g1 r h1 =>
    split at h
    · simp at h
    next g2 rs2 h2 =>
    simp only [Except.ok.injEq, Prod.mk.injEq] at h
    rw [← h.1]
    exact reach_runOps ops (hr.step op h1) h2

/-- The node with key `k` of a graph with id 0. -/
abbrev nd (k : Key) : NodeId := ⟨k, 0⟩

/-! ### C01 -/

/-- C01, first part: after any history of calls, no chain of audio connections leads from a node back
to itself.  Feedback connections are included: they start at a separate node. -/
theorem C01_acyclic {sl} {g : Graph} (h : Reach sl g) (k : Key) : ¬ TransGen (Feeds g) k k :=
  h.acyclic k

/-- Non-vacuity: a reachable graph with a chain of three nodes, a sum and a feedback connection. -/
def exampleOps : List Op :=
  [.push 1 1 [], .push 1 1 [], .push 1 1 [], .connect (.node (nd 0)) 0 0 (.node (nd 1)) true false,
   .connect (.node (nd 1)) 0 0 (.node (nd 2)) true false,
   .connect (.node (nd 0)) 0 0 (.node (nd 2)) true false,
   .connect (.node (nd 2)) 0 0 (.node (nd 0)) true true]

example : ∃ g rs, runOps id (Graph.init 0 0 1) exampleOps = .ok (g, rs) ∧ (∀ r ∈ rs, r = .ok ()) ∧
    g.nodes.length = 6 ∧ g.edge 1 0 = some ⟨.node 0, 0, false⟩ ∧
    g.edge 2 0 = some ⟨.node 3, 0, false⟩ := by
  refine ⟨_, _, rfl, by decide, by decide, by decide, by decide⟩

/-- C01, second part: a request to connect two nodes of the graph without feedback, with valid
channels, is refused with `CircularConnection` exactly when the sink already feeds the source through
any number of connections (or is the source). -/
theorem C01_refused_iff (sl : Key → Nat) (g : Graph) (s k : NodeId) (so si : Nat) (add : Bool)
    (ns nk : NodeRec) (hs : g.get s.key = some ns) (hk : g.get k.key = some nk)
    (hso : so < ns.outputs) (hsi : si < nk.inputs) (hid : g.id < U64)
    (hsg : s.graph = g.id) (hkg : k.graph = g.id) :
    (∃ g', (Op.connect (.node s) so si (.node k) add false).run sl g = .ok (g', .error .circular)) ↔
      ReflTransGen (Feeds g) k.key s.key := by
  have hf : ∀ x, x = g.id → foreign x g.id = false := by
    rintro x rfl
    simp only [foreign, beq_eq_false_iff_ne, ne_eq]
    omega
  rw [← hasPath_iff]
  simp only [Op.run, connect2, connectNodes, hf _ hsg, hf _ hkg, hs, hk, Bool.false_eq_true,
    if_false, Nat.not_le.2 hso, Nat.not_le.2 hsi, Bool.not_false, Bool.true_and]
  cases hp : hasPath g k.key s.key with
  | true => simp
  | false =>
    simp only [Bool.false_eq_true, if_false, iff_false, not_exists]
    intro g' h
    obtain ⟨a, -, ha⟩ := bindOk h
    simp at ha

/-- The hypotheses of `C01_refused_iff` hold in a graph where the connection closes a cycle. -/
example : ∃ g rs, runOps id (Graph.init 0 0 1) (exampleOps.take 5) = .ok (g, rs) ∧
    (∀ r ∈ rs, r = .ok ()) ∧ (g.get 0).isSome ∧ (g.get 2).isSome ∧
    (Op.connect (.node (nd 2)) 0 0 (.node (nd 0)) true false).run id g = .ok (g, .error .circular) := by
  refine ⟨_, _, rfl, by decide, by decide, by decide, by decide⟩

/-! ### C02 -/

/-- Within one block `b` needs the result of `a`: `a` feeds an input or a parameter of `b`. -/
def Needs (g : Graph) (a b : Key) : Prop :=
  Feeds g a b ∨ ∃ es pe, g.pars b = some es ∧ pe ∈ es ∧ pe.source = a

/-- C02 is violated: connecting the output of node 1 to a parameter of node 0 is accepted although
node 0 feeds node 1, and afterwards node 0 depends on itself. -/
theorem C02_violated : ∃ (g g' : Graph), Reach id g ∧
    (Op.param (nd 1) 0 (.index 0) (nd 0) true).run id g = .ok (g', .ok ()) ∧
    Needs g 0 1 ∧ TransGen (Needs g') 0 0 := by
  refine ⟨{ id := 0, outs := [none], numIn := 0, nextKey := 2, recalc := true, nodes :=
      [(0, { inputs := 1, outputs := 1, ins := some [none], pars := some [] }),
       (1, { inputs := 1, outputs := 1, ins := some [some ⟨.node 0, 0, false⟩], pars := some [] })] },
    _, ?_, rfl, ?_, ?_⟩
  · exact reach_runOps [.push 1 1 [], .push 1 1 [],
      .connect (.node (nd 0)) 0 0 (.node (nd 1)) true false] (Reach.init 0 0 1) (rs := [.ok (), .ok (), .ok ()]) (by decide)
  · exact .inl ⟨0, ⟨.node 0, 0, false⟩, by decide, rfl⟩
  · refine .tail (b := 1) (.single ?_) ?_
    · exact .inl ⟨0, ⟨.node 0, 0, false⟩, by decide, rfl⟩
    · exact .inr ⟨[⟨1, 0, 0⟩], ⟨1, 0, 0⟩, by decide, by decide, rfl⟩

/-- What is true of C02: if the caller only connects parameters whose node does not already reach the
source, the dependencies stay acyclic.  The check itself is missing in the code. -/
theorem C02_guarded_partial {sl} {g g' : Graph} (hr : Reach sl g) (hac : Acyclic (Needs g))
    {s k : NodeId} {so : Nat} {p : Param} {add : Bool} {r}
    (hguard : ¬ ReflTransGen (Needs g) k.key s.key)
    (h : (Op.param s so p k add).run sl g = .ok (g', r)) : Acyclic (Needs g') := by
  have hg := hr.wf
  have hmodE : ∀ (g : Graph) k (f : NodeRec → NodeRec), (∀ n, (f n).ins = n.ins) →
      ∀ j i, (g.modify k f).edge j i = g.edge j i := by
    intro g k f hf j i
    rw [edge_eq, edge_eq, ins_eq, ins_eq, get_modify]
    split
    · next e => subst e; cases g.get j <;> simp [hf]
    · rfl
  have hmodP : ∀ (g : Graph) k (f : NodeRec → NodeRec), ∀ j,
      (g.modify k f).pars j = if j = k then (g.get k).bind (fun n => (f n).pars) else g.pars j := by
    intro g k f j
    rw [pars_eq, get_modify]
    split
    · next e => subst e; cases g.get j <;> simp
    · rfl
  rcases connectParam_ok h with ⟨rfl, -⟩ | ⟨-, ns, nk, idx, es, hns, hso, hnk, hidx, hes, h⟩
  · exact hac
  have hp : g.pars k.key = some es := by simp [pars_eq, hnk, hes]
  rcases h with ⟨-, rfl⟩ | ⟨-, -, rfl⟩ | ⟨-, pos, ex, g2, g3, hpos, hex, h2, h3, rfl⟩
  · refine hac.add (s := s.key) (t := k.key) hguard ?_
    rintro a b (⟨i, e, h1, h2⟩ | ⟨es', pe, h1, h2, h3⟩)
    · refine .inl (.inl ⟨i, e, ?_, h2⟩)
      rw [hmodE g] at h1
      · exact h1
      · intro _; rfl
    · rw [hmodP] at h1
      split at h1
      · next hb =>
        subst hb
        simp only [hnk, Option.bind_some, Option.some.injEq] at h1
        subst h1
        rcases List.mem_append.1 h2 with h2 | h2
        · exact .inl (.inr ⟨es, pe, hp, List.mem_of_mem_filter h2, h3⟩)
        · simp only [List.mem_singleton] at h2
          subst h2
          exact .inr ⟨h3.symm, rfl⟩
      · exact .inl (.inr ⟨es', pe, h1, h2, h3⟩)
  · refine hac.add (s := s.key) (t := k.key) hguard ?_
    rintro a b (⟨i, e, h1, h2⟩ | ⟨es', pe, h1, h2, h3⟩)
    · refine .inl (.inl ⟨i, e, ?_, h2⟩)
      rw [hmodE g] at h1
      · exact h1
      · intro _; rfl
    · rw [hmodP] at h1
      split at h1
      · next hb =>
        subst hb
        simp only [hnk, Option.bind_some, Option.some.injEq] at h1
        subst h1
        rcases List.mem_append.1 h2 with h2 | h2
        · exact .inl (.inr ⟨es, pe, hp, h2, h3⟩)
        · simp only [List.mem_singleton] at h2
          subst h2
          exact .inr ⟨h3.symm, rfl⟩
      · exact .inl (.inr ⟨es', pe, h1, h2, h3⟩)
  · have hkl := hg.lt _ _ hnk
    have hsl := hg.lt _ _ hns
    have hexlt : ex.source < g.nextKey := hg.parLt _ _ _ hp (List.mem_of_getElem? hex)
    have w1 : WF (g.modify k.key fun n => { n with pars := some (swapRemove es pos) }) := by
      refine wf_modify hg _ (fun _ => rfl) (fun _ => ⟨rfl, rfl, rfl⟩) ?_ ?_
      · intro n hn; rw [hnk] at hn; simp only [Option.some.injEq] at hn; subst hn; simp [hes]
      · intro n es' pe _ h1 h2
        simp only [Option.some.injEq] at h1
        subst h1
        exact hg.parLt _ _ _ hp (mem_swapRemove h2)
    have hed : ∀ k i, g3.edge k i =
        if k = g.nextKey ∧ i = 1 then some ⟨.node s.key, so, false⟩
        else if k = g.nextKey ∧ i = 0 then some ⟨.node ex.source, ex.chan, false⟩
        else g.edge k i := by
      intro k i
      rw [edge_setEdge h3, edge_setEdge h2, edge_newAdd w1, hmodE g]
      intro _; rfl
    have hpar : ∀ b, g3.pars b = if b = g.nextKey then some [] else
        if b = k.key then some (swapRemove es pos) else g.pars b := by
      intro b
      have e1 : ∀ {g g' : Graph} {k i e}, setEdge g k i e = .ok g' → g'.pars b = g.pars b := by
        intro g g' k i e h
        obtain ⟨es, -, -, rfl⟩ := setEdge_ok h
        rw [hmodP, pars_eq]
        split
        · next e => subst e; rfl
        · rfl
      rw [e1 h3, e1 h2]
      have e2 := get_pushNode sl (g.modify k.key fun n => { n with pars := some (swapRemove es pos) })
        { inputs := 2, outputs := 1, autoMath := true } b w1.fresh
      unfold newAdd
      rw [pars_eq, e2]
      have hnx : (g.modify k.key fun n => { n with pars := some (swapRemove es pos) }).nextKey =
        g.nextKey := rfl
      rw [hnx]
      split
      · rfl
      · rw [← pars_eq, hmodP, hnk]; rfl
    have hn1 : ∀ a, ¬ Needs g g.nextKey a := by
      rintro a (⟨i, e, h1, h2⟩ | ⟨es, pe, h1, h2, h3⟩)
      · exact Nat.lt_irrefl _ (hg.srcLt a i e _ h1 h2)
      · have := hg.parLt _ _ _ h1 h2
        rw [h3] at this
        exact Nat.lt_irrefl _ this
    have hn2 : ∀ a, ¬ Needs g a g.nextKey := by
      rintro a (h1 | ⟨es, pe, h1, h2, h3⟩)
      · exact not_feeds_of_none (by rw [ins_eq, hg.fresh]; rfl) _ h1
      · rw [pars_eq, hg.fresh] at h1; simp at h1
    refine hac.insert (s := s.key) (t := k.key) (n := g.nextKey) hguard (Nat.ne_of_gt hkl)
      (Nat.ne_of_gt hsl) hn1 hn2 ?_
    rintro a b (⟨i, e, h1, h2⟩ | ⟨es', pe, h1, h2, h3⟩)
    · rw [hmodE g3] at h1
      swap
      · intro _; rfl
      rw [hed] at h1
      split at h1
      · next hc =>
        simp only [Option.some.injEq] at h1; subst h1
        simp only [Src.node.injEq] at h2
        exact .inr (.inl ⟨hc.1, .inr h2.symm⟩)
      split at h1
      · next hc =>
        simp only [Option.some.injEq] at h1; subst h1
        simp only [Src.node.injEq] at h2
        exact .inr (.inl ⟨hc.1, .inl (.inr ⟨es, ex, hp, List.mem_of_getElem? hex, h2⟩)⟩)
      · exact .inl (.inl ⟨i, e, h1, h2⟩)
    · have h4 : (g3.modify k.key fun n =>
          { n with pars := n.pars.map (· ++ [⟨g.nextKey, 0, idx⟩]) }).pars b =
          if b = k.key then (g3.pars k.key).map (· ++ [⟨g.nextKey, 0, idx⟩]) else g3.pars b := by
        rw [hmodP]
        split
        · rw [pars_eq]; cases g3.get k.key <;> simp
        · rfl
      rw [h4] at h1
      split at h1
      · next hb =>
        rw [hpar, if_neg (Nat.ne_of_lt hkl), if_pos rfl] at h1
        simp only [Option.map_some, Option.some.injEq] at h1
        subst h1
        rcases List.mem_append.1 h2 with h2 | h2
        · exact .inl (.inr ⟨es, pe, hb ▸ hp, mem_swapRemove h2, h3⟩)
        · simp only [List.mem_singleton] at h2
          subst h2
          exact .inr (.inr ⟨h3.symm, hb⟩)
      · next hb =>
        rw [hpar] at h1
        split at h1
        · simp only [Option.some.injEq] at h1; subst h1; simp at h2
        · exact .inl (.inr ⟨es', pe, h1, h2, h3⟩)

/-- Two nodes without connections. -/
def twoNodes : Graph :=
  { id := 0, outs := [none], numIn := 0, nextKey := 2, recalc := true, nodes :=
      [(0, { inputs := 1, outputs := 1, ins := some [none], pars := some [] }),
       (1, { inputs := 1, outputs := 1, ins := some [none], pars := some [] })] }

/-- The hypotheses of `C02_guarded_partial` hold when node 0 of a graph without connections is to
control a parameter of node 1. -/
example : Reach id twoNodes ∧ Acyclic (Needs twoNodes) ∧ ¬ ReflTransGen (Needs twoNodes) 1 0 ∧
    ∃ g', (Op.param (nd 0) 0 (.index 0) (nd 1) true).run id twoNodes = .ok (g', .ok ()) ∧
      Needs g' 0 1 := by
  have hno : ∀ a b, ¬ Needs twoNodes a b := by
    rintro a b (⟨i, e, h1, -⟩ | ⟨es, pe, h1, h2, -⟩)
    · rcases b with _ | _ | b
      · rcases i with _ | i <;> simp [edge_eq, ins_eq, get_eq, twoNodes] at h1
      · rcases i with _ | i <;> simp [edge_eq, ins_eq, get_eq, twoNodes] at h1
      · simp [edge_eq, ins_eq, get_eq, twoNodes] at h1
    · rcases b with _ | _ | b
      · simp [pars_eq, get_eq, twoNodes] at h1; subst h1; simp at h2
      · simp [pars_eq, get_eq, twoNodes] at h1; subst h1; simp at h2
      · simp [pars_eq, get_eq, twoNodes] at h1
  refine ⟨reach_runOps [.push 1 1 [], .push 1 1 []] (Reach.init 0 0 1) (rs := [.ok (), .ok ()])
    (by decide), ?_, ?_, _, rfl, ?_⟩
  · intro k hk
    obtain ⟨c, hc, -⟩ := TransGen.head'_iff.1 hk
    exact hno _ _ hc
  · intro h
    rcases ReflTransGen.cases_head h with h | ⟨c, hc, -⟩
    · simp at h
    · exact hno _ _ hc
  · exact .inr ⟨_, _, rfl, List.mem_singleton.2 rfl, rfl⟩

/-! ### C08 -/

/-- The node ids named by a call. -/
def Op.ids : Op → List NodeId
  | .push _ _ _ => []
  | .connect s _ _ k _ _ => (match s with | .node n => [n] | .graph => []) ++
      (match k with | .node n => [n] | .graph => [])
  | .param s _ _ k _ => [s, k]
  | .disconnectSource s _ => match s with | .node n => [n] | .graph => []
  | .disconnectSink _ k => match k with | .node n => [n] | .graph => []
  | .free n => [n]
  | .mortality n _ _ => [n]
  | .commit _ _ => []

/-- C08 is violated: with a node id of graph 1, graph 0 accepts a connection to its own node 1,
a parameter connection and a free, and changes. -/
theorem C08_violated : ∃ g : Graph, Reach id g ∧ g.id = 0 ∧
    (∃ op g', (⟨1, 1⟩ : NodeId) ∈ Op.ids op ∧ (∃ s so si k a f, op = .connect s so si k a f) ∧
      op.run id g = .ok (g', .ok ()) ∧ g' ≠ g) ∧
    (∃ op g', (⟨1, 1⟩ : NodeId) ∈ Op.ids op ∧ (∃ s so p k a, op = .param s so p k a) ∧
      op.run id g = .ok (g', .ok ()) ∧ g' ≠ g) ∧
    (∃ g', (Op.free ⟨1, 1⟩).run id g = .ok (g', .ok ()) ∧ g' ≠ g) ∧
    (∃ g', (Op.mortality ⟨1, 1⟩ false false).run id g = .ok (g', .ok ()) ∧ g' ≠ g) := by
  refine ⟨_, reach_runOps [.push 1 1 [], .push 1 1 []] (Reach.init 0 0 1) (rs := [.ok (), .ok ()]) rfl,
    rfl, ?_, ?_, ?_, ?_⟩
  · exact ⟨.connect (.node (nd 0)) 0 0 (.node ⟨1, 1⟩) true false, _, by decide,
      ⟨_, _, _, _, _, _, rfl⟩, rfl, by decide⟩
  · exact ⟨.param (nd 0) 0 (.index 0) ⟨1, 1⟩ true, _, by decide, ⟨_, _, _, _, _, rfl⟩, rfl,
      by decide⟩
  · exact ⟨_, rfl, by decide⟩
  · exact ⟨_, rfl, by decide⟩

/-- What is true of C08: the two disconnect calls refuse every node of another graph and change
nothing.  (The other calls compare with the bitwise complement of the id, see `C08_violated`.) -/
theorem C08_disconnect_partial (sl : Key → Nat) (g : Graph) (n : NodeId) (ch : Nat)
    (hn : n.graph ≠ g.id) :
    (Op.disconnectSource (.node n) ch).run sl g = .ok (g, .error .wrongSinkGraph) ∧
    (Op.disconnectSink ch (.node n)).run sl g = .ok (g, .error .wrongSinkGraph) := by
  simp [Op.run, disconnectSource, disconnectSink, hn]

example : (⟨1, 1⟩ : NodeId).graph ≠ (Graph.init 0 0 1).id := by decide

/-! ### C09 -/

/-- C09: a call that returns an error leaves the graph exactly as it was. -/
theorem C09_refused (sl : Key → Nat) (g g' : Graph) (op : Op) (e : GErr)
    (h : op.run sl g = .ok (g', .error e)) : g' = g := by
  cases op with
  | push i o d => simp [Op.run] at h
  | connect s so si k a f =>
    simp only [Op.run, connect2] at h
    split at h
    · rcases connectInputToNode_ok h with ⟨h, -⟩ | ⟨h, -⟩
      · exact h
      · simp at h
    · rcases connectNodes_ok h with ⟨h, -⟩ | ⟨h, -⟩
      · exact h
      · simp at h
    · rcases connectNodeToOutput_ok h with ⟨h, -⟩ | ⟨h, -⟩
      · exact h
      · simp at h
    · rcases connectInputToOutput_ok h with ⟨h, -⟩ | ⟨h, -⟩
      · exact h
      · simp at h
  | param s so p k a =>
    rcases connectParam_ok h with ⟨h, -⟩ | ⟨h, -⟩
    · exact h
    · simp at h
  | disconnectSource s c =>
    rcases disconnectSource_ok h with ⟨h, -⟩ | ⟨h, -⟩
    · exact h
    · simp at h
  | disconnectSink c k =>
    rcases disconnectSink_ok h with ⟨h, -⟩ | ⟨h, -⟩
    · exact h
    · simp at h
  | free n =>
    simp only [Op.run, editFree] at h
    split at h
    · simp only [Except.ok.injEq, Prod.mk.injEq] at h
      exact h.1.symm
    · simp only [Except.ok.injEq] at h
      rcases freeNode_ok h with ⟨h, -⟩ | ⟨h, -⟩
      · exact h
      · simp at h
  | mortality n m st =>
    simp only [Op.run, Except.ok.injEq, setMortality] at h
    split at h
    · simp only [Prod.mk.injEq] at h; exact h.1.symm
    · simp at h
  | commit rm fs =>
    simp only [Op.run] at h
    obtain ⟨a, -, ha⟩ := bindOk h
    simp at ha

/-- Every kind of call that can be refused is refused in some reachable graph. -/
example : ∃ g : Graph, Reach id g ∧
    (Op.connect (.node (nd 0)) 0 0 (.node (nd 0)) true false).run id g = .ok (g, .error .circular) ∧
    (Op.connect (.node (nd 0)) 0 7 .graph true false).run id g = .ok (g, .error .graphOutputOOB) ∧
    (Op.param (nd 0) 3 (.index 0) (nd 0) true).run id g = .ok (g, .error .outputOOB) ∧
    (Op.disconnectSource (.node (nd 0)) 3).run id g = .ok (g, .error .outputOOB) ∧
    (Op.disconnectSink 3 (.node (nd 0))).run id g = .ok (g, .error .inputOOB) ∧
    (Op.free (nd 5)).run id g = .ok (g, .error .freeNotFound) := by
  refine ⟨_, reach_runOps [.push 1 1 []] (Reach.init 0 0 1) (rs := [.ok ()]) rfl, ?_⟩
  decide

/-! ### C07 -/

/-- The connection is neither into nor out of `k`. -/
def keepIf (k : Key) (sink : Key) (e : Option Edge) : Option Edge :=
  if sink = k ∨ (∃ ed, e = some ed ∧ ed.source = .node k) then none else e

/-- C07 (audio connections): freeing a live mortal node succeeds; it removes every audio connection
into and out of the node and no other, and leaves every other node as it is.  `dep = none`: every node
except the two halves of a feedback connection, which are freed together.
What is missing: connections from the node to parameters stay, see `C07_param_violated`. -/
theorem C07_free_partial (sl : Key → Nat) (g : Graph) (k : NodeId) (n : NodeRec)
    (hid : foreign k.graph g.id = false) (hk : g.get k.key = some n) (hm : n.mortal = true)
    (hp : g.isPending k.key = false) (hd : n.dep = none) :
    ∃ g', (Op.free k).run sl g = .ok (g', .ok ()) ∧
      (∀ j i, g'.edge j i = keepIf k.key j (g.edge j i)) ∧
      (∀ i, g'.out i = if ∃ ed, g.out i = some ed ∧ ed.source = .node k.key then none else g.out i) ∧
      g'.pars k.key = none ∧ (∀ j, j ≠ k.key → g'.pars j = g.pars j) ∧
      (∀ j, (g'.get j).map (fun n => (n.inputs, n.outputs, n.mortal)) =
        (g.get j).map (fun n => (n.inputs, n.outputs, n.mortal))) := by
  have hrun : (Op.free k).run sl g = .ok (free1 g k.key, .ok ()) := by
    simp only [Op.run, editFree, hid, Bool.false_eq_true, if_false, freeNode]
    rw [freeLoop_succ, hk]
    simp [hm, hp, hd]
  refine ⟨_, hrun, ?_, ?_, ?_, ?_, ?_⟩
  · intro j i
    rw [edge_free1, keepIf]
    by_cases hj : j = k.key
    · simp [hj]
    · simp only [hj, if_false, false_or]
      cases he : g.edge j i with
      | none => simp [dropFrom]
      | some ed => simp [dropFrom]
  · intro i
    rw [out_free1]
    cases he : g.out i with
    | none => simp [dropFrom]
    | some ed => simp [dropFrom]
  · rw [pars_eq, get_free1, if_pos rfl, hk]; rfl
  · intro j hj
    rw [pars_eq, get_free1, if_neg hj, pars_eq]
    cases g.get j <;> simp
  · intro j
    rw [get_free1]
    split
    · next e => subst e; cases g.get k.key <;> simp
    · cases g.get j <;> simp

/-- The hypotheses hold for a node in the middle of a chain. -/
example : ∃ g rs n, runOps id (Graph.init 0 0 1) (exampleOps.take 5) = .ok (g, rs) ∧
    g.get 1 = some n ∧ n.mortal = true ∧ g.isPending 1 = false ∧ n.dep = none ∧
    foreign 0 g.id = false ∧ (g.edge 1 0).isSome ∧ (g.edge 2 0).isSome := by
  refine ⟨_, _, _, rfl, rfl, ?_⟩
  decide

/-- C07: freeing a node twice returns Ok and the second call changes nothing. -/
theorem C07_twice (sl : Key → Nat) (g g' : Graph) (k : NodeId)
    (h : (Op.free k).run sl g = .ok (g', .ok ())) :
    (Op.free k).run sl g' = .ok (g', .ok ()) := by
  simp only [Op.run, editFree] at h ⊢
  split at h
  · simp at h
  next hid =>
  simp only [Except.ok.injEq] at h
  rcases freeNode_ok h with ⟨-, e, he⟩ | ⟨-, n, hk, hm, hcase⟩
  · simp at he
  have key : ∀ g1 : Graph, g1.id = g.id → (∃ n', g1.get k.key = some n' ∧ n'.mortal = true) →
      g1.isPending k.key = true →
      (if foreign k.graph g1.id = true then (.ok (g1, .error .wrongSinkGraph) : Res)
        else .ok (freeNode g1 k.key)) = .ok (g1, .ok ()) := by
    rintro g1 h1 ⟨n', h2, h3⟩ h4
    rw [if_neg (by rw [h1]; exact hid), freeNode, freeLoop_succ, h2]
    simp [h3, h4]
  have hP : ∀ g1 : Graph, (g1.id = g.id ∧ (∃ n', g1.get k.key = some n' ∧ n'.mortal = true) ∧
      g1.isPending k.key = true) → ∀ d nn, g1.get d = some nn → nn.mortal = true →
      g1.isPending d = false → ((free1 g1 d).id = g.id ∧
        (∃ n', (free1 g1 d).get k.key = some n' ∧ n'.mortal = true) ∧
        (free1 g1 d).isPending k.key = true) := by
    rintro g1 ⟨h1, ⟨n', h2, h3⟩, h4⟩ d nn hd _ _
    refine ⟨h1, ?_, ?_⟩
    · rw [get_free1]
      split
      · next e => rw [← e, h2]; exact ⟨_, rfl, h3⟩
      · rw [h2]; exact ⟨_, rfl, h3⟩
    · rw [isPending_eq, free1_pending, List.any_append, ← isPending_eq, h4]; rfl
  rcases hcase with ⟨hp, rfl⟩ | ⟨hp, rfl⟩
  · exact key _ rfl ⟨n, hk, hm⟩ hp
  · have h0 : (free1 g k.key).id = g.id ∧
        (∃ n', (free1 g k.key).get k.key = some n' ∧ n'.mortal = true) ∧
        (free1 g k.key).isPending k.key = true := by
      refine ⟨rfl, ?_, ?_⟩
      · rw [get_free1, if_pos rfl, hk]; exact ⟨_, rfl, hm⟩
      · rw [isPending_eq, free1_pending, List.any_append]; simp
    cases hdep : n.dep with
    | none => exact key _ h0.1 h0.2.1 h0.2.2
    | some d =>
      simp only
      have := freeLoop_ind (P := fun g1 : Graph => g1.id = g.id ∧
        (∃ n', g1.get k.key = some n' ∧ n'.mortal = true) ∧ g1.isPending k.key = true)
        (fun g1 d nn h1 h2 h3 h4 => hP g1 h1 d nn h2 h3 h4) g.nodes.length (free1 g k.key) d h0
      exact key _ this.1 this.2.1 this.2.2

/-- C07: an immortal node is refused and nothing changes; so is a node that is not in the graph. -/
theorem C07_refused (sl : Key → Nat) (g : Graph) (k : NodeId) (hid : foreign k.graph g.id = false) :
    (∀ n, g.get k.key = some n → n.mortal = false →
      (Op.free k).run sl g = .ok (g, .error .immortal)) ∧
    (g.get k.key = none → (Op.free k).run sl g = .ok (g, .error .freeNotFound)) := by
  constructor
  · intro n hn hm
    simp only [Op.run, editFree, hid, Bool.false_eq_true, if_false, freeNode]
    rw [freeLoop_succ, hn]
    simp [hm]
  · intro hn
    simp only [Op.run, editFree, hid, Bool.false_eq_true, if_false, freeNode]
    rw [freeLoop_succ, hn]

/-- Both cases of `C07_refused` occur. -/
example : ∃ g : Graph, Reach id g ∧ (∃ n, g.get 0 = some n ∧ n.mortal = false) ∧ g.get 1 = none := by
  refine ⟨_, reach_runOps [.push 1 1 [], .mortality (nd 0) false false] (Reach.init 0 0 1)
    (rs := [.ok (), .ok ()]) rfl, ⟨_, rfl, ?_⟩, ?_⟩ <;> decide

/-- C07 is violated for parameter connections: after freeing node 0 and committing (with the audio
thread having switched), node 1 still lists node 0 as the source of its parameter. -/
theorem C07_param_violated : ∃ g g' : Graph, Reach id g ∧
    (Op.free (nd 0)).run id g = .ok (g', .ok ()) ∧
    g'.pars 1 = some [⟨0, 0, 0⟩] := by
  refine ⟨_, _, reach_runOps [.push 1 1 [], .push 1 1 [], .param (nd 0) 0 (.index 0) (nd 1) true]
    (Reach.init 0 0 1) (rs := [.ok (), .ok (), .ok ()]) rfl, rfl, ?_⟩
  decide

/-! ### C03 -/

/-- C03 is violated for parameter connections: the source of a stored parameter connection is no longer
in the graph. -/
theorem C03_param_violated : ∃ g : Graph, Reach id g ∧ g.pars 1 = some [⟨0, 0, 0⟩] ∧
    g.get 0 = none := by
  refine ⟨_, reach_runOps [.push 1 1 [], .push 1 1 [], .param (nd 0) 0 (.index 0) (nd 1) true,
    .free (nd 0), .commit (fun _ => false) (fun _ => true)]
    (Reach.init 0 0 1) (rs := [.ok (), .ok (), .ok (), .ok (), .ok ()]) rfl, ?_⟩
  decide

/-- C03 is violated for audio connections made from a node that has been freed and is still waiting
to be dropped: the request is accepted, and the connection outlives the node. -/
theorem C03_pending_violated : ∃ g : Graph, Reach id g ∧
    g.edge 1 0 = some ⟨.node 0, 0, false⟩ ∧ g.get 0 = none := by
  refine ⟨_, reach_runOps [.push 1 1 [], .push 1 1 [], .free (nd 0),
    .connect (.node (nd 0)) 0 0 (.node (nd 1)) true false,
    .commit (fun _ => false) (fun _ => true)]
    (Reach.init 0 0 1) (rs := [.ok (), .ok (), .ok (), .ok (), .ok ()]) rfl, ?_⟩
  decide

/-- C03 is violated for feedback connections: the connection refers to output channel 0 of a node
that has no outputs. -/
theorem C03_feedback_violated : ∃ (g : Graph) (n : NodeRec), Reach id g ∧
    g.edge 0 0 = some ⟨.node 2, 0, true⟩ ∧ g.get 2 = some n ∧ n.outputs = 0 := by
  refine ⟨_, _, reach_runOps [.push 1 1 [], .connect (.node (nd 0)) 0 0 (.node (nd 0)) true true]
    (Reach.init 0 0 1) (rs := [.ok (), .ok ()]) rfl, ?_, rfl, ?_⟩ <;> decide

/-- Calls that avoid the two situations above: no audio connection starts at a node waiting to be
dropped, and no feedback connection is requested. -/
def Op.careful (g : Graph) : Op → Prop
  | .connect s _ _ _ _ f => f = false ∧ ∀ n, s = .node n → g.isPending n.key = false
  | .param s _ _ k _ => g.isPending s.key = false ∧
      ∀ es pe, g.pars k.key = some es → pe ∈ es → g.isPending pe.source = false ∧
        ∃ n, g.get pe.source = some n ∧ pe.chan < n.outputs
  | _ => True

/-- Histories of careful calls. -/
inductive CReach (sl : Key → Nat) : Graph → Prop
  | init (id numIn numOut : Nat) : CReach sl (Graph.init id numIn numOut)
  | step {g g' : Graph} {r : Except GErr Unit} (op : Op) :
      CReach sl g → op.careful g → op.run sl g = .ok (g', r) → CReach sl g'

/-- The connection starts at a node of the graph that has not been freed, at a channel it has. -/
def SrcOk (g : Graph) (e : Edge) : Prop :=
  (∀ a, e.source = .node a → ∃ n, g.get a = some n ∧ g.isPending a = false ∧ e.chan < n.outputs) ∧
  (e.source = .graph → e.chan < g.numIn)

/-- All audio and output connections are `SrcOk`. -/
def NoDangle (g : Graph) : Prop :=
  (∀ k i e, g.edge k i = some e → SrcOk g e) ∧ ∀ i e, g.out i = some e → SrcOk g e

theorem SrcOk.mono {g g' : Graph} {e : Edge} (h : SrcOk g e) (hn : g'.numIn = g.numIn)
    (hk : ∀ a n, e.source = .node a → g.get a = some n → g.isPending a = false →
      ∃ n', g'.get a = some n' ∧ g'.isPending a = false ∧ n'.outputs = n.outputs) : SrcOk g' e := by
  refine ⟨fun a ha => ?_, fun hs => hn ▸ h.2 hs⟩
  obtain ⟨n, h1, h2, h3⟩ := h.1 a ha
  obtain ⟨n', h4, h5, h6⟩ := hk a n ha h1 h2
  exact ⟨n', h4, h5, h6 ▸ h3⟩

theorem NoDangle.free1 {g : Graph} (h : NoDangle g) (k : Key) : NoDangle (free1 g k) := by
  have key : ∀ e, SrcOk g e → e.source ≠ .node k → SrcOk (Verif.G.free1 g k) e := by
    intro e he hne
    refine he.mono rfl ?_
    intro a n ha hn hp
    have hak : a ≠ k := fun e => hne (e ▸ ha)
    rw [get_free1, if_neg hak, hn]
    refine ⟨_, rfl, ?_, rfl⟩
    rw [isPending_eq, free1_pending, List.any_append, ← isPending_eq, hp]
    simpa using fun e => hak e.symm
  constructor
  · intro j i e he
    rw [edge_free1] at he
    split at he
    · simp at he
    · obtain ⟨h1, h2⟩ := dropFrom_some he
      exact key e (h.1 _ _ _ h1) h2
  · intro i e he
    rw [out_free1] at he
    obtain ⟨h1, h2⟩ := dropFrom_some he
    exact key e (h.2 _ _ h1) h2

theorem NoDangle.bypass {g : Graph} (h : NoDangle g) {k : Key} {e : Edge} {i}
    (he : g.edge k i = some e) : NoDangle (bypass g k e) := by
  have key : ∀ e', SrcOk g e' → SrcOk (Verif.G.bypass g k e) e' := by
    intro e' he'
    refine he'.mono rfl ?_
    intro a n ha hn hp
    rw [get_bypass, hn]
    exact ⟨_, rfl, hp, rfl⟩
  constructor
  · intro j i' e' h1
    rw [edge_bypass] at h1
    rcases redirect_some h1 with ⟨h3, -⟩ | ⟨rfl, -⟩
    · exact key _ (h.1 _ _ _ h3)
    · exact key _ (h.1 _ _ _ he)
  · intro i' e' h1
    rw [out_bypass] at h1
    rcases redirect_some h1 with ⟨h3, -⟩ | ⟨rfl, -⟩
    · exact key _ (h.2 _ _ h3)
    · exact key _ (h.1 _ _ _ he)

theorem NoDangle.of_sub {g g' : Graph} (h : NoDangle g) (hn : g'.numIn = g.numIn)
    (hget : ∀ a n, g.get a = some n → g.isPending a = false →
      ∃ n', g'.get a = some n' ∧ g'.isPending a = false ∧ n'.outputs = n.outputs)
    (he : ∀ k i e, g'.edge k i = some e → SrcOk g' e ∨ (∃ k i, g.edge k i = some e) ∨
      ∃ i, g.out i = some e)
    (ho : ∀ i e, g'.out i = some e → SrcOk g' e ∨ (∃ i, g.out i = some e)) : NoDangle g' := by
  constructor
  · intro k i e h1
    rcases he k i e h1 with h2 | ⟨_, _, h2⟩ | ⟨_, h2⟩
    · exact h2
    · exact (h.1 _ _ _ h2).mono hn (fun a n _ => hget a n)
    · exact (h.2 _ _ h2).mono hn (fun a n _ => hget a n)
  · intro i e h1
    rcases ho i e h1 with h2 | ⟨_, h2⟩
    · exact h2
    · exact (h.2 _ _ h2).mono hn (fun a n _ => hget a n)

theorem get_outputs_setEdge {g g' : Graph} {k i e} (h : setEdge g k i e = .ok g') (a : Key)
    (n : NodeRec) (hn : g.get a = some n) : ∃ n', g'.get a = some n' ∧ n'.outputs = n.outputs := by
  obtain ⟨es, -, -, rfl⟩ := setEdge_ok h
  rw [get_modify]
  split
  · next e => subst e; rw [hn]; exact ⟨_, rfl, rfl⟩
  · exact ⟨n, hn, rfl⟩

theorem numIn_setEdge {g g' : Graph} {k i e} (h : setEdge g k i e = .ok g') : g'.numIn = g.numIn := by
  obtain ⟨es, -, -, rfl⟩ := setEdge_ok h; rfl

theorem pending_setEdge {g g' : Graph} {k i e} (h : setEdge g k i e = .ok g') :
    g'.pending = g.pending := by
  obtain ⟨es, -, -, rfl⟩ := setEdge_ok h; rfl

theorem not_pending_next {g : Graph} (h : WF g) : g.isPending g.nextKey = false := by
  cases hp : g.isPending g.nextKey with
  | false => rfl
  | true =>
    have := h.pend _ hp
    rw [h.fresh] at this
    simp at this

/-- The node inserted by an additive connection, after its two inputs were set. -/
theorem noDangle_add {sl} {g g2 g3 : Graph} (hw : WF g) {e0 e1 : Option Edge}
    (h2 : setEdge (newAdd sl g) g.nextKey 0 e0 = .ok g2) (h3 : setEdge g2 g.nextKey 1 e1 = .ok g3) :
    g3.numIn = g.numIn ∧ g3.pending = g.pending ∧ g3.outs = g.outs ∧
    (∀ a n, g.get a = some n → ∃ n', g3.get a = some n' ∧ n'.outputs = n.outputs) ∧
    (∃ n, g3.get g.nextKey = some n ∧ n.outputs = 1) ∧
    (∀ k i, g3.edge k i = if k = g.nextKey ∧ i = 1 then e1 else if k = g.nextKey ∧ i = 0 then e0
      else g.edge k i) := by
  refine ⟨?_, ?_, ?_, ?_, ?_, ?_⟩
  · rw [numIn_setEdge h3, numIn_setEdge h2]; rfl
  · rw [pending_setEdge h3, pending_setEdge h2]; rfl
  · rw [outs_setEdge h3, outs_setEdge h2]; rfl
  · intro a n hn
    have hne : a ≠ g.nextKey := by
      intro e; rw [e, hw.fresh] at hn; simp at hn
    have h1 : (newAdd sl g).get a = some n := by
      unfold newAdd; rw [get_pushNode sl g _ a hw.fresh, if_neg hne]; exact hn
    obtain ⟨n1, h4, h5⟩ := get_outputs_setEdge h2 a n h1
    obtain ⟨n2, h6, h7⟩ := get_outputs_setEdge h3 a n1 h4
    exact ⟨n2, h6, h7.trans h5⟩
  · obtain ⟨n0, h1, h0⟩ : ∃ n, (newAdd sl g).get g.nextKey = some n ∧ n.outputs = 1 := by
      unfold newAdd; rw [get_pushNode sl g _ _ hw.fresh, if_pos rfl]; exact ⟨_, rfl, rfl⟩
    obtain ⟨n1, h4, h5⟩ := get_outputs_setEdge h2 _ _ h1
    obtain ⟨n2, h6, h7⟩ := get_outputs_setEdge h3 _ n1 h4
    exact ⟨n2, h6, by rw [h7, h5, h0]⟩
  · intro k i
    rw [edge_setEdge h3, edge_setEdge h2, edge_newAdd hw]

theorem noDangle_tail {sl} {g g' : Graph} (hw : WF g) (h : NoDangle g) {source sink so si add}
    (he : connectTail sl g source sink so si add false = .ok g') (hs : SrcOk g ⟨source, so, false⟩) :
    NoDangle g' := by
  unfold connectTail at he
  have one : ∀ {g'}, setEdge g sink si (some ⟨source, so, false⟩) = .ok g' → NoDangle g' := by
    intro g' he
    have hget : ∀ a n, g.get a = some n → g.isPending a = false →
        ∃ n', g'.get a = some n' ∧ g'.isPending a = false ∧ n'.outputs = n.outputs := by
      intro a n hn hp
      obtain ⟨n', h1, h2⟩ := get_outputs_setEdge he a n hn
      exact ⟨n', h1, by rw [isPending_eq, pending_setEdge he]; exact hp, h2⟩
    refine h.of_sub (numIn_setEdge he) hget ?_ ?_
    · intro k i e h1
      rw [edge_setEdge he] at h1
      split at h1
      · simp only [Option.some.injEq] at h1; subst h1
        exact .inl (hs.mono (numIn_setEdge he) (fun a n _ => hget a n))
      · exact .inr (.inl ⟨k, i, h1⟩)
    · intro i e h1
      simp only [Graph.out, outs_setEdge he] at h1
      exact .inr ⟨i, h1⟩
  split at he
  · exact one he
  cases h1 : getEdge g sink si with
  | error e => simp [h1] at he
  | ok o =>
    simp only [h1, bind_ok] at he
    have hex := getEdge_ok h1
    cases o with
    | none => exact one he
    | some ex =>
      simp only at he
      cases h2 : setEdge (newAdd sl g) g.nextKey 0 (some ex) with
      | error e => simp [h2] at he
      | ok g2 =>
        simp only [h2, bind_ok] at he
        cases h3 : setEdge g2 g.nextKey 1 (some ⟨source, so, false⟩) with
        | error e => simp [h3] at he
        | ok g3 =>
          simp only [h3, bind_ok] at he
          obtain ⟨i1, i2, i3, i4, ⟨na, i5, i5'⟩, i6⟩ := noDangle_add hw h2 h3
          have hnum : g'.numIn = g.numIn := (numIn_setEdge he).trans i1
          have hpe : ∀ a, g'.isPending a = g.isPending a := by
            intro a; rw [isPending_eq, pending_setEdge he, i2, isPending_eq]
          have hget : ∀ a n, g.get a = some n → g.isPending a = false →
              ∃ n', g'.get a = some n' ∧ g'.isPending a = false ∧ n'.outputs = n.outputs := by
            intro a n hn hp
            obtain ⟨n1, h4, h5⟩ := i4 a n hn
            obtain ⟨n2, h6, h7⟩ := get_outputs_setEdge he a n1 h4
            exact ⟨n2, h6, by rw [hpe]; exact hp, h7.trans h5⟩
          refine h.of_sub hnum hget ?_ ?_
          · intro k i e h4
            rw [edge_setEdge he] at h4
            split at h4
            · simp only [Option.some.injEq] at h4; subst h4
              refine .inl ⟨fun a ha => ?_, fun ha => by simp at ha⟩
              simp only [Src.node.injEq] at ha
              subst ha
              obtain ⟨n2, h6, h7⟩ := get_outputs_setEdge he _ _ i5
              exact ⟨n2, h6, by rw [hpe]; exact not_pending_next hw, by rw [h7, i5']; exact Nat.one_pos⟩
            · rw [i6] at h4
              split at h4
              · simp only [Option.some.injEq] at h4; subst h4
                exact .inl (hs.mono hnum (fun a n _ => hget a n))
              split at h4
              · simp only [Option.some.injEq] at h4; subst h4
                exact .inr (.inl ⟨_, _, hex⟩)
              · exact .inr (.inl ⟨_, _, h4⟩)
          · intro i e h4
            simp only [Graph.out, outs_setEdge he, i3] at h4
            exact .inr ⟨i, h4⟩

theorem noDangle_connectToOut {sl} {g g' : Graph} (hw : WF g) (h : NoDangle g) {source so si add}
    (he : connectToOut sl g source so si add = .ok g') (hs : SrcOk g ⟨source, so, false⟩) :
    NoDangle g' := by
  unfold connectToOut at he
  have h0 : WF { g with recalc := true } := hw.congr rfl rfl rfl rfl
  dsimp only at he
  have one : ∀ {g'}, setOut { g with recalc := true } si (some ⟨source, so, false⟩) = .ok g' →
      NoDangle g' := by
    intro g' he
    have ho := fun i => out_setOut he i
    obtain ⟨-, rfl⟩ := setOut_ok he
    refine h.of_sub rfl (fun a n hn hp => ⟨n, hn, hp, rfl⟩) (fun k i e h1 => .inr (.inl ⟨k, i, h1⟩)) ?_
    intro i e h1
    rw [ho] at h1
    split at h1
    · simp only [Option.some.injEq] at h1; subst h1
      exact .inl hs
    · exact .inr ⟨i, h1⟩
  split at he
  · exact one he
  · cases h1 : getOut { g with recalc := true } si with
    | error e => simp [h1] at he
    | ok o =>
      simp only [h1, bind_ok] at he
      cases o with
      | none => exact one he
      | some ex =>
        have hex := getOut_ok h1
        simp only at he
        cases h2 : setEdge (newAdd sl { g with recalc := true }) g.nextKey 0 (some ex) with
        | error e => simp [h2] at he
        | ok g2 =>
          simp only [h2, bind_ok] at he
          cases h3 : setEdge g2 g.nextKey 1 (some ⟨source, so, false⟩) with
          | error e => simp [h3] at he
          | ok g3 =>
            simp only [h3, bind_ok] at he
            obtain ⟨i1, i2, i3, i4, ⟨na, i5, i5'⟩, i6⟩ := noDangle_add h0 h2 h3
            have ho := fun i => out_setOut he i
            obtain ⟨-, rfl⟩ := setOut_ok he
            have hpe : ∀ a, g3.isPending a = g.isPending a := by
              intro a; rw [isPending_eq, i2, isPending_eq]
            have hget : ∀ a n, g.get a = some n → g.isPending a = false →
                ∃ n', g3.get a = some n' ∧ g3.isPending a = false ∧ n'.outputs = n.outputs := by
              intro a n hn hp
              obtain ⟨n1, h4, h5⟩ := i4 a n hn
              exact ⟨n1, h4, by rw [hpe]; exact hp, h5⟩
            refine h.of_sub i1 hget ?_ ?_
            · intro k i e h4
              change g3.edge k i = some e at h4
              rw [i6] at h4
              split at h4
              · simp only [Option.some.injEq] at h4; subst h4
                exact .inl (hs.mono i1 (fun a n _ => hget a n))
              split at h4
              · simp only [Option.some.injEq] at h4; subst h4
                exact .inr (.inr ⟨_, hex⟩)
              · exact .inr (.inl ⟨_, _, h4⟩)
            · intro i e h4
              rw [ho] at h4
              split at h4
              · simp only [Option.some.injEq] at h4; subst h4
                refine .inl ⟨fun a ha => ?_, fun ha => by simp at ha⟩
                simp only [Src.node.injEq] at ha
                subst ha
                exact ⟨na, i5, (hpe _).trans (not_pending_next hw), by rw [i5']; exact Nat.one_pos⟩
              · simp only [Graph.out, i3] at h4
                exact .inr ⟨i, h4⟩

theorem noDangle_step {sl} {g g' : Graph} {op : Op} {r} (hg : WF g) (hnd : NoDangle g)
    (hc : op.careful g) (h : op.run sl g = .ok (g', r)) : NoDangle g' := by
  have hF : ∀ g k n, NoDangle g → g.get k = some n → n.mortal = true →
      g.isPending k = false → NoDangle (Verif.G.free1 g k) := fun g k _ h _ _ _ => h.free1 k
  have hB : ∀ g k n e, NoDangle g → g.get k = some n → n.autoMath = true →
      ((g.edge k 0 = none ∧ g.edge k 1 = some e) ∨ (g.edge k 0 = some e ∧ g.edge k 1 = none)) →
      NoDangle (Verif.G.bypass g k e) := by
    intro g k n e h _ _ he
    rcases he with ⟨-, h1⟩ | ⟨h1, -⟩ <;> exact h.bypass h1
  have hO : ∀ g g' i, NoDangle g → setOut g i none = .ok g' → NoDangle g' := by
    intro g g' i h hs
    have ho := fun i => out_setOut hs i
    obtain ⟨-, rfl⟩ := setOut_ok hs
    refine h.of_sub rfl (fun a n hn hp => ⟨n, hn, hp, rfl⟩) (fun k i e h1 => .inr (.inl ⟨k, i, h1⟩)) ?_
    intro i e h1
    rw [ho] at h1
    split at h1
    · simp at h1
    · exact .inr ⟨i, h1⟩
  have hE : ∀ g g' k i, NoDangle g → setEdge g k i none = .ok g' → NoDangle g' := by
    intro g g' k i h hs
    refine h.of_sub (numIn_setEdge hs) ?_ ?_ ?_
    · intro a n hn hp
      obtain ⟨n', h1, h2⟩ := get_outputs_setEdge hs a n hn
      exact ⟨n', h1, by rw [isPending_eq, pending_setEdge hs]; exact hp, h2⟩
    · intro k i e h1
      rw [edge_setEdge hs] at h1
      split at h1
      · simp at h1
      · exact .inr (.inl ⟨k, i, h1⟩)
    · intro i e h1
      simp only [Graph.out, outs_setEdge hs] at h1
      exact .inr ⟨i, h1⟩
  have hD : ∀ g s c, NoDangle g → NoDangle (dropAll g s c) := by
    intro g s c h
    refine h.of_sub rfl ?_ ?_ ?_
    · intro a n hn hp
      rw [dropAll_get, hn]
      exact ⟨_, rfl, hp, rfl⟩
    · intro k i e h1
      rw [dropAll_edge] at h1
      exact .inr (.inl ⟨k, i, dropExact_some h1⟩)
    · intro i e h1
      rw [dropAll_out] at h1
      exact .inr ⟨i, dropExact_some h1⟩
  have hw0 : WF { g with recalc := true } := hg.congr rfl rfl rfl rfl
  have hnd0 : NoDangle { g with recalc := true } := hnd
  cases op with
  | push i o d =>
    simp only [Op.run, Except.ok.injEq, Prod.mk.injEq] at h
    rw [← h.1]
    refine hnd.of_sub rfl ?_ ?_ ?_
    · intro a n hn hp
      have hne : a ≠ g.nextKey := by
        intro e; rw [e, hg.fresh] at hn; simp at hn
      exact ⟨n, by rw [get_pushNode sl g _ a hg.fresh, if_neg hne]; exact hn, hp, rfl⟩
    · intro k i e h1
      rw [edge_pushNode sl g _ k i hg.fresh] at h1
      exact .inr (.inl ⟨k, i, h1⟩)
    · intro i e h1
      exact .inr ⟨i, h1⟩
  | connect s so si k a f =>
    obtain ⟨hf, hp⟩ := hc
    subst hf
    simp only [Op.run, connect2] at h
    split at h
    · rcases connectInputToNode_ok h with ⟨rfl, -⟩ | ⟨-, nk, hso, hk, -, h1⟩
      · exact hnd
      · refine noDangle_tail hw0 hnd0 h1 ⟨fun _ h => by simp at h, fun _ => hso⟩
    · next n1 n2 =>
      rcases connectNodes_ok h with ⟨rfl, -⟩ | ⟨-, ns, nk, hns, hso, hk, -, -, h1⟩
      · exact hnd
      · refine noDangle_tail hw0 hnd0 h1 ⟨fun b hb => ?_, fun h => by simp at h⟩
        simp only [Src.node.injEq] at hb
        subst hb
        exact ⟨ns, hns, hp _ rfl, hso⟩
    · rcases connectNodeToOutput_ok h with ⟨rfl, -⟩ | ⟨-, ns, hns, hso, -, h1⟩
      · exact hnd
      · refine noDangle_connectToOut hg hnd h1 ⟨fun b hb => ?_, fun h => by simp at h⟩
        simp only [Src.node.injEq] at hb
        subst hb
        exact ⟨ns, hns, hp _ rfl, hso⟩
    · rcases connectInputToOutput_ok h with ⟨rfl, -⟩ | ⟨-, hso, -, h1⟩
      · exact hnd
      · exact noDangle_connectToOut hg hnd h1 ⟨fun _ h => by simp at h, fun _ => hso⟩
  | param s so p k a =>
    have hmod : ∀ {g : Graph} (k) (f : NodeRec → NodeRec), NoDangle g →
        (∀ n, (f n).ins = n.ins ∧ (f n).outputs = n.outputs) → NoDangle (g.modify k f) := by
      intro g k f h hf
      refine h.of_sub rfl ?_ ?_ ?_
      · intro a n hn hp
        rw [get_modify]
        split
        · next e => subst e; rw [hn]; exact ⟨_, rfl, hp, (hf n).2⟩
        · exact ⟨n, hn, hp, rfl⟩
      · intro j i e h1
        refine .inr (.inl ⟨j, i, ?_⟩)
        rw [← h1, edge_eq, edge_eq, ins_eq, ins_eq, get_modify]
        split
        · next e => subst e; cases g.get j <;> simp [hf]
        · rfl
      · intro i e h1
        exact .inr ⟨i, h1⟩
    rcases connectParam_ok h with ⟨rfl, -⟩ | ⟨-, ns, nk, idx, es, hns, hso, hnk, hidx, hes, h⟩
    · exact hnd
    have hp : g.pars k.key = some es := by simp [pars_eq, hnk, hes]
    rcases h with ⟨-, rfl⟩ | ⟨-, -, rfl⟩ | ⟨-, pos, ex, g2, g3, hpos, hex, h2, h3, rfl⟩
    · exact hmod _ _ hnd (fun _ => ⟨rfl, rfl⟩)
    · exact hmod _ _ hnd (fun _ => ⟨rfl, rfl⟩)
    · have w1 : WF (g.modify k.key fun n => { n with pars := some (swapRemove es pos) }) := by
        refine wf_modify hg _ (fun _ => rfl) (fun _ => ⟨rfl, rfl, rfl⟩) ?_ ?_
        · intro n hn; rw [hnk] at hn; simp only [Option.some.injEq] at hn; subst hn; simp [hes]
        · intro n es' pe _ h1 h2
          simp only [Option.some.injEq] at h1
          subst h1
          exact hg.parLt _ _ _ hp (mem_swapRemove h2)
      have hnd1 : NoDangle (g.modify k.key fun n => { n with pars := some (swapRemove es pos) }) :=
        hmod _ _ hnd (fun _ => ⟨rfl, rfl⟩)
      obtain ⟨hps, hpe⟩ := hc
      obtain ⟨hxp, nx, hx1, hx2⟩ := hpe es ex hp (List.mem_of_getElem? hex)
      refine hmod _ _ ?_ (fun _ => ⟨rfl, rfl⟩)
      have h2' : setEdge (newAdd sl (g.modify k.key fun n => { n with pars := some (swapRemove es pos) }))
        (g.modify k.key fun n => { n with pars := some (swapRemove es pos) }).nextKey 0
        (some ⟨.node ex.source, ex.chan, false⟩) = .ok g2 := h2
      have h3' : setEdge g2 (g.modify k.key fun n =>
        { n with pars := some (swapRemove es pos) }).nextKey 1
        (some ⟨.node s.key, so, false⟩) = .ok g3 := h3
      obtain ⟨i1, i2, i3, i4, -, i6⟩ := noDangle_add w1 h2' h3'
      have hpen : ∀ a, g3.isPending a = g.isPending a := by
        intro a; rw [isPending_eq, i2]; rfl
      have hgm : ∀ a n, g.get a = some n → ∃ n', (g.modify k.key fun n =>
          { n with pars := some (swapRemove es pos) }).get a = some n' ∧ n'.outputs = n.outputs := by
        intro a n hn
        rw [get_modify]
        split
        · next e => subst e; rw [hn]; exact ⟨_, rfl, rfl⟩
        · exact ⟨n, hn, rfl⟩
      have hget : ∀ a n, g.get a = some n → g.isPending a = false →
          ∃ n', g3.get a = some n' ∧ g3.isPending a = false ∧ n'.outputs = n.outputs := by
        intro a n hn hp
        obtain ⟨n0, h4, h5⟩ := hgm a n hn
        obtain ⟨n1, h6, h7⟩ := i4 a n0 h4
        exact ⟨n1, h6, by rw [hpen]; exact hp, h7.trans h5⟩
      refine hnd1.of_sub i1 ?_ ?_ ?_
      · intro a n hn hp
        obtain ⟨n1, h6, h7⟩ := i4 a n hn
        exact ⟨n1, h6, by rw [hpen]; exact hp, h7⟩
      · intro j i e h4
        rw [i6] at h4
        split at h4
        · simp only [Option.some.injEq] at h4; subst h4
          refine .inl ⟨fun b hb => ?_, fun h => by simp at h⟩
          simp only [Src.node.injEq] at hb
          subst hb
          obtain ⟨n', h5, h6, h7⟩ := hget _ _ hns hps
          exact ⟨n', h5, h6, h7 ▸ hso⟩
        split at h4
        · simp only [Option.some.injEq] at h4; subst h4
          refine .inl ⟨fun b hb => ?_, fun h => by simp at h⟩
          simp only [Src.node.injEq] at hb
          subst hb
          obtain ⟨n', h5, h6, h7⟩ := hget _ _ hx1 hxp
          exact ⟨n', h5, h6, h7 ▸ hx2⟩
        · exact .inr (.inl ⟨_, _, h4⟩)
      · intro i e h4
        simp only [Graph.out, i3] at h4
        exact .inr ⟨i, h4⟩
  | disconnectSource s c =>
    rcases disconnectSource_ok h with ⟨rfl, -⟩ | ⟨-, ⟨n, rec, -, -, -, -, rfl⟩ | ⟨g1, -, -, h1, -, rfl⟩⟩
    · exact hnd
    · exact hD _ _ _ hnd
    · exact hD _ _ _ (takeOut_ind hF hB hO hnd h1)
  | disconnectSink c k =>
    rcases disconnectSink_ok h with ⟨rfl, -⟩ |
      ⟨-, ⟨n, rec, es, g1, -, -, -, -, -, h1, rfl⟩ | ⟨-, -, h1⟩⟩
    · exact hnd
    · exact (takeIn_ind hF hB hE hnd h1 : NoDangle g1)
    · exact takeOut_ind hF hB hO hnd h1
  | free n =>
    simp only [Op.run, editFree] at h
    split at h
    · simp only [Except.ok.injEq, Prod.mk.injEq] at h; exact h.1 ▸ hnd
    · simp only [Except.ok.injEq] at h
      have : g' = (freeNode g n.key).1 := by rw [h]
      rw [this]
      exact freeNode_ind hF _ _ hnd
  | mortality n m st =>
    simp only [Op.run, Except.ok.injEq] at h
    have hg' : g' = (setMortality g n m st).1 := by rw [h]
    rw [hg']
    unfold setMortality
    split
    · exact hnd
    · refine hnd.of_sub rfl ?_ ?_ ?_
      · intro a r hr hp
        rw [get_modify]
        split
        · next e => subst e; rw [hr]; exact ⟨_, rfl, hp, rfl⟩
        · exact ⟨r, hr, hp, rfl⟩
      · intro j i e h1
        refine .inr (.inl ⟨j, i, ?_⟩)
        rw [← h1, edge_eq, edge_eq, ins_eq, ins_eq, get_modify]
        split
        · next e => subst e; cases g.get n.key <;> simp
        · rfl
      · intro i e h1
        exact .inr ⟨i, h1⟩
  | commit rm fs =>
    simp only [Op.run] at h
    cases h1 : commitEdits rm fs g with
    | error e => simp [h1] at h
    | ok g1 =>
      simp only [h1, bind_ok, Except.ok.injEq, Prod.mk.injEq] at h
      rw [← h.1]
      unfold commitEdits at h1
      cases h2 : freeOld rm fs g with
      | error e => simp [h2] at h1
      | ok g2 =>
        have hac2 : NoDangle g2 := by
          obtain ⟨g3, h3, rfl⟩ := freeOld_ok h2
          have hn3 := evalMany_ind hF hB _ (freeMany_ind hF _ _ hnd) h3
          refine hn3.of_sub rfl ?_ ?_ ?_
          · intro a n hn hp
            have hgone : a ∉ goneKeys fs g3 := by
              intro hm
              have : a ∈ g3.pending.map Prod.fst := by
                unfold goneKeys at hm
                rw [List.mem_map] at hm ⊢
                obtain ⟨x, hx, rfl⟩ := hm
                exact ⟨x, List.mem_of_mem_filter hx, rfl⟩
              rw [(isPending_iff _ _).2 this] at hp
              simp at hp
            refine ⟨n, by rw [get_dropFlagged, if_neg hgone]; exact hn, ?_, rfl⟩
            rw [Bool.eq_false_iff] at hp ⊢
            intro hc
            apply hp
            rw [isPending_iff] at hc ⊢
            rw [List.mem_map] at hc ⊢
            obtain ⟨x, hx, rfl⟩ := hc
            exact ⟨x, List.mem_of_mem_filter hx, rfl⟩
          · intro k i e h1
            rw [edge_dropFlagged] at h1
            split at h1
            · simp at h1
            · exact .inr (.inl ⟨k, i, h1⟩)
          · intro i e h1
            exact .inr ⟨i, h1⟩
        simp only [h2, bind_ok, pure_ok, Except.ok.injEq] at h1
        split at h1 <;> subst h1 <;> exact hac2

theorem CReach.reach {sl} {g : Graph} (h : CReach sl g) : Reach sl g := by
  induction h with
  | init a b c => exact .init a b c
  | step op _ _ hs ih => exact ih.step op hs

/-- C03 (audio and graph output connections): after any history of careful calls, every stored audio
or output connection starts at a node that is in the graph and not freed, at a channel that node has
(or at an existing graph input).
What is missing: parameter connections, connections from nodes waiting to be dropped, and feedback
connections, for which the property fails. -/
theorem C03_audio_partial {sl} {g : Graph} (h : CReach sl g) : NoDangle g := by
  induction h with
  | init id a b =>
    constructor
    · intro k i e h1
      simp [Graph.init, edge_eq, ins_eq, get_eq] at h1
    · intro i e h1
      simp only [Graph.out, Graph.init, List.getElem?_replicate] at h1
      split at h1 <;> simp at h1
  | step op hr hc hs ih => exact noDangle_step hr.reach.wf ih hc hs

/-- A careful history that connects, sums, frees and commits. -/
example : ∃ g, CReach id g ∧ g.edge 2 0 = some ⟨.node 1, 0, false⟩ ∧ g.get 0 = none := by
  have h0 := CReach.init (sl := id) 0 0 0
  have h1 := h0.step (.push 1 1 []) trivial rfl
  have h2 := h1.step (.push 1 1 []) trivial rfl
  have h3 := h2.step (.push 1 1 []) trivial rfl
  have h4 := h3.step (.connect (.node (nd 0)) 0 0 (.node (nd 2)) true false)
    ⟨rfl, by intro n _; rfl⟩ rfl
  have h5 := h4.step (.connect (.node (nd 1)) 0 0 (.node (nd 2)) true false)
    ⟨rfl, by intro n _; rfl⟩ rfl
  have h6 := h5.step (.free (nd 0)) trivial rfl
  have h7 := h6.step (.commit (fun _ => false) (fun _ => true)) trivial rfl
  exact ⟨_, h7, by decide, by decide⟩

end Verif.G
