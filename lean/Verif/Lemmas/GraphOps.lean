import Verif.Lemmas.GraphWF

/-!
# What a returning edit call did
-/

namespace Verif.G

theorem bindOk {α : Type} {x : R α} {f : α → Graph × Except GErr Unit} {y}
    (h : (do let a ← x; .ok (f a)) = Except.ok (ε := Panic) y) : ∃ a, x = .ok a ∧ y = f a := by
  cases x with
  | error e => simp at h
  | ok a => exact ⟨a, rfl, by simpa using h.symm⟩

theorem connectNodes_ok {sl} {g g' : Graph} {source sink so si add fb r}
    (h : connectNodes sl g source sink so si add fb = .ok (g', r)) :
    (g' = g ∧ ∃ e, r = .error e) ∨
    (r = .ok () ∧ ∃ ns nk, g.get source.key = some ns ∧ so < ns.outputs ∧
      g.get sink.key = some nk ∧ si < nk.inputs ∧
      (fb = true ∨ hasPath g sink.key source.key = false) ∧
      connectToNode sl g (.node source.key) sink.key so si add fb = .ok g') := by
  unfold connectNodes at h
  split at h
  · simp only [Except.ok.injEq, Prod.mk.injEq] at h; exact .inl ⟨h.1.symm, _, h.2.symm⟩
  split at h
  · simp only [Except.ok.injEq, Prod.mk.injEq] at h; exact .inl ⟨h.1.symm, _, h.2.symm⟩
  split at h
  · simp only [Except.ok.injEq, Prod.mk.injEq] at h; exact .inl ⟨h.1.symm, _, h.2.symm⟩
  next ns hns =>
  split at h
  · simp only [Except.ok.injEq, Prod.mk.injEq] at h; exact .inl ⟨h.1.symm, _, h.2.symm⟩
  next hso =>
  split at h
  · simp only [Except.ok.injEq, Prod.mk.injEq] at h; exact .inl ⟨h.1.symm, _, h.2.symm⟩
  next nk hnk =>
  split at h
  · simp only [Except.ok.injEq, Prod.mk.injEq] at h; exact .inl ⟨h.1.symm, _, h.2.symm⟩
  next hsi =>
  split at h
  · simp only [Except.ok.injEq, Prod.mk.injEq] at h; exact .inl ⟨h.1.symm, _, h.2.symm⟩
  next hp =>
  obtain ⟨g1, h1, h2⟩ := bindOk (f := fun a => (a, .ok ())) h
  simp only [Prod.mk.injEq] at h2
  refine .inr ⟨h2.2, ns, nk, hns, by omega, hnk, by omega, ?_, by rw [h1, h2.1]⟩
  cases fb <;> simp_all

theorem connectInputToOutput_ok {sl} {g g' : Graph} {so si add r}
    (h : connectInputToOutput sl g so si add = .ok (g', r)) :
    (g' = g ∧ ∃ e, r = .error e) ∨
    (r = .ok () ∧ so < g.numIn ∧ si < g.outs.length ∧
      connectToOut sl g .graph so si add = .ok g') := by
  unfold connectInputToOutput at h
  split at h
  · simp only [Except.ok.injEq, Prod.mk.injEq] at h; exact .inl ⟨h.1.symm, _, h.2.symm⟩
  split at h
  · simp only [Except.ok.injEq, Prod.mk.injEq] at h; exact .inl ⟨h.1.symm, _, h.2.symm⟩
  obtain ⟨g1, h1, h2⟩ := bindOk (f := fun a => (a, .ok ())) h
  simp only [Prod.mk.injEq] at h2
  exact .inr ⟨h2.2, by omega, by omega, by rw [h1, h2.1]⟩

theorem connectNodeToOutput_ok {sl} {g g' : Graph} {source so si add r}
    (h : connectNodeToOutput sl g source so si add = .ok (g', r)) :
    (g' = g ∧ ∃ e, r = .error e) ∨
    (r = .ok () ∧ ∃ ns, g.get source.key = some ns ∧ so < ns.outputs ∧ si < g.outs.length ∧
      connectToOut sl g (.node source.key) so si add = .ok g') := by
  unfold connectNodeToOutput at h
  split at h
  · simp only [Except.ok.injEq, Prod.mk.injEq] at h; exact .inl ⟨h.1.symm, _, h.2.symm⟩
  split at h
  · simp only [Except.ok.injEq, Prod.mk.injEq] at h; exact .inl ⟨h.1.symm, _, h.2.symm⟩
  split at h
  · simp only [Except.ok.injEq, Prod.mk.injEq] at h; exact .inl ⟨h.1.symm, _, h.2.symm⟩
  next ns hns =>
  split at h
  · simp only [Except.ok.injEq, Prod.mk.injEq] at h; exact .inl ⟨h.1.symm, _, h.2.symm⟩
  obtain ⟨g1, h1, h2⟩ := bindOk (f := fun a => (a, .ok ())) h
  simp only [Prod.mk.injEq] at h2
  exact .inr ⟨h2.2, ns, hns, by omega, by omega, by rw [h1, h2.1]⟩

theorem connectInputToNode_ok {sl} {g g' : Graph} {sink so si add r}
    (h : connectInputToNode sl g sink so si add = .ok (g', r)) :
    (g' = g ∧ ∃ e, r = .error e) ∨
    (r = .ok () ∧ ∃ nk, so < g.numIn ∧ g.get sink.key = some nk ∧ si < nk.inputs ∧
      connectToNode sl g .graph sink.key so si add false = .ok g') := by
  unfold connectInputToNode at h
  split at h
  · simp only [Except.ok.injEq, Prod.mk.injEq] at h; exact .inl ⟨h.1.symm, _, h.2.symm⟩
  split at h
  · simp only [Except.ok.injEq, Prod.mk.injEq] at h; exact .inl ⟨h.1.symm, _, h.2.symm⟩
  split at h
  · simp only [Except.ok.injEq, Prod.mk.injEq] at h; exact .inl ⟨h.1.symm, _, h.2.symm⟩
  next nk hnk =>
  split at h
  · simp only [Except.ok.injEq, Prod.mk.injEq] at h; exact .inl ⟨h.1.symm, _, h.2.symm⟩
  obtain ⟨g1, h1, h2⟩ := bindOk (f := fun a => (a, .ok ())) h
  simp only [Prod.mk.injEq] at h2
  exact .inr ⟨h2.2, nk, by omega, hnk, by omega, by rw [h1, h2.1]⟩

/-- The channel a successful `connectParam` addresses. -/
def paramIndex (n : NodeRec) : Param → Option Nat
  | .index i => some (i % 65536)
  | .desc d => (position (· == d) n.descs).map (· % 65536)

theorem connectParam_ok {sl} {g g' : Graph} {source so p sink add r}
    (h : connectParam sl g source so p sink add = .ok (g', r)) :
    (g' = g ∧ ∃ e, r = .error e) ∨
    (r = .ok () ∧ ∃ ns nk idx es, g.get source.key = some ns ∧ so < ns.outputs ∧
      g.get sink.key = some nk ∧ paramIndex nk p = some idx ∧ nk.pars = some es ∧
      ((add = false ∧ g' = g.modify sink.key fun n =>
          { n with pars := some (es.filter (fun pe => pe.param != idx) ++
            [⟨source.key, so, idx⟩]) }) ∨
       (add = true ∧ position (fun pe => pe.param == idx) es = none ∧
          g' = g.modify sink.key fun n =>
            { n with pars := some (es ++ [⟨source.key, so, idx⟩]) }) ∨
       (add = true ∧ ∃ pos ex g2 g3, position (fun pe => pe.param == idx) es = some pos ∧
          es[pos]? = some ex ∧
          setEdge (newAdd sl (g.modify sink.key fun n => { n with pars := some (swapRemove es pos) }))
            g.nextKey 0 (some ⟨.node ex.source, ex.chan, false⟩) = .ok g2 ∧
          setEdge g2 g.nextKey 1 (some ⟨.node source.key, so, false⟩) = .ok g3 ∧
          g' = g3.modify sink.key fun n =>
            { n with pars := n.pars.map (· ++ [⟨g.nextKey, 0, idx⟩]) }))) := by
  unfold connectParam at h
  split at h
  · simp only [Except.ok.injEq, Prod.mk.injEq] at h; exact .inl ⟨h.1.symm, _, h.2.symm⟩
  split at h
  · simp only [Except.ok.injEq, Prod.mk.injEq] at h; exact .inl ⟨h.1.symm, _, h.2.symm⟩
  split at h
  · simp at h
  next nk hnk =>
  dsimp only at h
  change (match paramIndex nk p with | none => _ | some idx => _) = _ at h
  split at h
  · simp only [Except.ok.injEq, Prod.mk.injEq] at h; exact .inl ⟨h.1.symm, _, h.2.symm⟩
  next idx hidx =>
  split at h
  · simp only [Except.ok.injEq, Prod.mk.injEq] at h; exact .inl ⟨h.1.symm, _, h.2.symm⟩
  next ns hns =>
  split at h
  · simp only [Except.ok.injEq, Prod.mk.injEq] at h; exact .inl ⟨h.1.symm, _, h.2.symm⟩
  next hso =>
  split at h
  · simp at h
  next es hes =>
  have hpars : nk.pars = some es := by simpa [pars_eq, hnk] using hes
  right
  split at h
  · next hadd =>
    split at h
    · next pos hpos =>
      split at h
      · simp at h
      · next ex hex =>
        cases h2 : setEdge (newAdd sl (g.modify sink.key fun n =>
            { n with pars := some (swapRemove es pos) })) g.nextKey 0
            (some ⟨.node ex.source, ex.chan, false⟩) with
        | error e => simp [h2] at h
        | ok g2 =>
          simp only [modify_nextKey, h2, bind_ok] at h
          cases h3 : setEdge g2 g.nextKey 1 (some ⟨.node source.key, so, false⟩) with
          | error e => simp [h3] at h
          | ok g3 =>
            simp only [h3, bind_ok, Except.ok.injEq, Prod.mk.injEq] at h
            exact ⟨h.2.symm, ns, nk, idx, es, hns, by omega, hnk, hidx, hpars,
              .inr (.inr ⟨hadd, pos, ex, g2, g3, hpos, hex, h2, h3, h.1.symm⟩)⟩
    · next hpos =>
      simp only [Except.ok.injEq, Prod.mk.injEq] at h
      exact ⟨h.2.symm, ns, nk, idx, es, hns, by omega, hnk, hidx, hpars,
        .inr (.inl ⟨hadd, hpos, h.1.symm⟩)⟩
  · next hadd =>
    simp only [Except.ok.injEq, Prod.mk.injEq] at h
    exact ⟨h.2.symm, ns, nk, idx, es, hns, by omega, hnk, hidx, hpars,
      .inl ⟨by simpa using hadd, h.1.symm⟩⟩

theorem freeNode_ok {g g' : Graph} {k r} (h : freeNode g k = (g', r)) :
    (g' = g ∧ ∃ e, r = .error e) ∨
    (r = .ok () ∧ ∃ n, g.get k = some n ∧ n.mortal = true ∧
      ((g.isPending k = true ∧ g' = g) ∨
       (g.isPending k = false ∧
        g' = match n.dep with
          | some d => (freeLoop g.nodes.length (free1 g k) d).1
          | none => free1 g k))) := by
  unfold freeNode at h
  rw [freeLoop_succ] at h
  split at h
  · simp only [Prod.mk.injEq] at h; exact .inl ⟨h.1.symm, _, h.2.symm⟩
  next n hn =>
  split at h
  · simp only [Prod.mk.injEq] at h; exact .inl ⟨h.1.symm, _, h.2.symm⟩
  next hm =>
  split at h
  · next hp =>
    simp only [Prod.mk.injEq] at h
    exact .inr ⟨h.2.symm, n, hn, by simpa using hm, .inl ⟨hp, h.1.symm⟩⟩
  next hp =>
  have hp' : g.isPending k = false := by simpa using hp
  split at h <;> simp only [Prod.mk.injEq] at h <;>
    exact .inr ⟨h.2.symm, n, hn, by simpa using hm, .inr ⟨hp', by simp_all⟩⟩

theorem disconnectSource_ok {g g' : Graph} {source ch r}
    (h : disconnectSource g source ch = .ok (g', r)) :
    (g' = g ∧ ∃ e, r = .error e) ∨
    (r = .ok () ∧
      ((∃ n rec, source = .node n ∧ n.graph = g.id ∧ g.get n.key = some rec ∧ ch < rec.outputs ∧
          g' = dropAll g (.node n.key) ch) ∨
       (∃ g1, source = .graph ∧ ch < g.numIn ∧ takeOut g ch (g.out ch) = .ok g1 ∧
          ch < g.outs.length ∧ g' = dropAll g1 .graph ch))) := by
  unfold disconnectSource at h
  split at h
  · next n =>
    split at h
    · simp only [Except.ok.injEq, Prod.mk.injEq] at h; exact .inl ⟨h.1.symm, _, h.2.symm⟩
    next hg =>
    split at h
    · simp only [Except.ok.injEq, Prod.mk.injEq] at h; exact .inl ⟨h.1.symm, _, h.2.symm⟩
    next rec hrec =>
    split at h
    · simp only [Except.ok.injEq, Prod.mk.injEq] at h; exact .inl ⟨h.1.symm, _, h.2.symm⟩
    simp only [Except.ok.injEq, Prod.mk.injEq] at h
    exact .inr ⟨h.2.symm, .inl ⟨n, rec, rfl, by simpa using hg, hrec, by omega, h.1.symm⟩⟩
  · split at h
    · simp only [Except.ok.injEq, Prod.mk.injEq] at h; exact .inl ⟨h.1.symm, _, h.2.symm⟩
    next hch =>
    cases h1 : getOut g ch with
    | error e => simp [h1] at h
    | ok e =>
      simp only [h1, bind_ok] at h
      have he := getOut_ok h1
      have hlen : ch < g.outs.length := by
        by_contra hc
        simp only [getOut, List.getElem?_eq_none (Nat.le_of_not_lt hc)] at h1
        simp at h1
      obtain ⟨g1, h2, h3⟩ := bindOk (f := fun a => (dropAll a .graph ch, .ok ())) h
      simp only [Prod.mk.injEq] at h3
      exact .inr ⟨h3.2, .inr ⟨g1, rfl, by omega, by rw [he]; exact h2, hlen, h3.1⟩⟩

theorem disconnectSink_ok {g g' : Graph} {sink ch r}
    (h : disconnectSink g ch sink = .ok (g', r)) :
    (g' = g ∧ ∃ e, r = .error e) ∨
    (r = .ok () ∧
      ((∃ n rec es g1, sink = .node n ∧ n.graph = g.id ∧ g.get n.key = some rec ∧
          rec.ins = some es ∧ ch < es.length ∧ takeIn g n.key ch (g.edge n.key ch) = .ok g1 ∧
          g' = { g1 with recalc := true }) ∨
       (sink = .graph ∧ ch < g.outs.length ∧ takeOut g ch (g.out ch) = .ok g'))) := by
  unfold disconnectSink at h
  split at h
  · next n =>
    split at h
    · simp only [Except.ok.injEq, Prod.mk.injEq] at h; exact .inl ⟨h.1.symm, _, h.2.symm⟩
    next hg =>
    split at h
    · simp only [Except.ok.injEq, Prod.mk.injEq] at h; exact .inl ⟨h.1.symm, _, h.2.symm⟩
    next rec hrec =>
    split at h
    · simp at h
    next es hes =>
    split at h
    · simp only [Except.ok.injEq, Prod.mk.injEq] at h; exact .inl ⟨h.1.symm, _, h.2.symm⟩
    next e he =>
    obtain ⟨g1, h2, h3⟩ :=
      bindOk (f := fun g1 : Graph => ({ g1 with recalc := true }, .ok ())) h
    simp only [Prod.mk.injEq] at h3
    have hins : g.ins n.key = some es := by simp [ins_eq, hrec, hes]
    have hlen : ch < es.length := by
      by_contra hc
      simp [List.getElem?_eq_none (Nat.le_of_not_lt hc)] at he
    refine .inr ⟨h3.2, .inl ⟨n, rec, es, g1, rfl, by simpa using hg, hrec, hes, hlen, ?_, h3.1⟩⟩
    rw [edge_of_ins hins, he]
    exact h2
  · split at h
    · simp only [Except.ok.injEq, Prod.mk.injEq] at h; exact .inl ⟨h.1.symm, _, h.2.symm⟩
    next hch =>
    cases h1 : getOut g ch with
    | error e => simp [h1] at h
    | ok e =>
      simp only [h1, bind_ok] at h
      have he := getOut_ok h1
      obtain ⟨g1, h2, h3⟩ := bindOk (f := fun g1 => (g1, .ok ())) h
      simp only [Prod.mk.injEq] at h3
      exact .inr ⟨h3.2, .inr ⟨rfl, by omega, by rw [he, h2, h3.1]⟩⟩

/-- A property kept by clearing an output, freeing and bypassing is kept by `takeOut`. -/
theorem takeOut_ind {P : Graph → Prop}
    (h1 : ∀ g k n, P g → g.get k = some n → n.mortal = true → g.isPending k = false →
      P (free1 g k))
    (h2 : ∀ g k n e, P g → g.get k = some n → n.autoMath = true →
      ((g.edge k 0 = none ∧ g.edge k 1 = some e) ∨ (g.edge k 0 = some e ∧ g.edge k 1 = none)) →
      P (bypass g k e))
    (h3 : ∀ g g' i, P g → setOut g i none = .ok g' → P g')
    {g g' : Graph} {ch e} (hg : P g) (h : takeOut g ch e = .ok g') : P g' := by
  unfold takeOut at h
  split at h
  · next ed =>
    cases hs : setOut g ch none with
    | error x => simp [hs] at h
    | ok g1 =>
      simp only [hs, bind_ok] at h
      have hg1 := h3 g g1 ch hg hs
      split at h
      · exact evalNode_ind h1 h2 hg1 h
      · simp only [pure_ok, Except.ok.injEq] at h; exact h ▸ hg1
  · simp only [pure_ok, Except.ok.injEq] at h; exact h ▸ hg

theorem takeIn_ind {P : Graph → Prop}
    (h1 : ∀ g k n, P g → g.get k = some n → n.mortal = true → g.isPending k = false →
      P (free1 g k))
    (h2 : ∀ g k n e, P g → g.get k = some n → n.autoMath = true →
      ((g.edge k 0 = none ∧ g.edge k 1 = some e) ∨ (g.edge k 0 = some e ∧ g.edge k 1 = none)) →
      P (bypass g k e))
    (h3 : ∀ g g' k i, P g → setEdge g k i none = .ok g' → P g')
    {g g' : Graph} {k ch e} (hg : P g) (h : takeIn g k ch e = .ok g') : P g' := by
  unfold takeIn at h
  split at h
  · next ed =>
    cases hs : setEdge g k ch none with
    | error x => simp [hs] at h
    | ok g1 =>
      simp only [hs, bind_ok] at h
      have hg1 := h3 g g1 k ch hg hs
      cases hs2 : evalNode g1 k with
      | error x => simp [hs2] at h
      | ok g2 =>
        simp only [hs2, bind_ok] at h
        have hg2 := evalNode_ind h1 h2 hg1 hs2
        split at h
        · exact evalNode_ind h1 h2 hg2 h
        · simp only [pure_ok, Except.ok.injEq] at h; exact h ▸ hg2
  · simp only [pure_ok, Except.ok.injEq] at h; exact h ▸ hg

/-! ### Well-formedness of reachable graphs -/

theorem mem_swapRemove {α} {l : List α} {i : Nat} {x : α} (h : x ∈ swapRemove l i) : x ∈ l := by
  unfold swapRemove at h
  split at h
  · exact h
  · next y hy =>
    have := List.dropLast_subset _ h
    rcases List.mem_or_eq_of_mem_set this with h1 | h1
    · exact h1
    · subst h1; exact List.mem_of_getLast? hy

theorem wf_takeOut {g g' : Graph} {ch e} (hg : WF g) (h : takeOut g ch e = .ok g') : WF g' :=
  takeOut_ind (fun _ _ _ hg hk _ hp => wf_free1 hg hk hp)
    (fun _ _ _ _ hg _ _ he => by rcases he with ⟨-, h1⟩ | ⟨h1, -⟩ <;> exact wf_bypass hg h1)
    (fun _ _ _ hg hs => wf_setOut hg hs (by simp)) hg h

theorem wf_takeIn {g g' : Graph} {k ch e} (hg : WF g) (h : takeIn g k ch e = .ok g') : WF g' :=
  takeIn_ind (fun _ _ _ hg hk _ hp => wf_free1 hg hk hp)
    (fun _ _ _ _ hg _ _ he => by rcases he with ⟨-, h1⟩ | ⟨h1, -⟩ <;> exact wf_bypass hg h1)
    (fun _ _ _ _ hg hs => wf_setEdge hg hs (by simp)) hg h

theorem wf_connectParam {sl} {g g' : Graph} {source so p sink add r} (hg : WF g)
    (h : connectParam sl g source so p sink add = .ok (g', r)) : WF g' := by
  rcases connectParam_ok h with ⟨rfl, -⟩ | ⟨-, ns, nk, idx, es, hns, hso, hnk, hidx, hes, h⟩
  · exact hg
  have hp : g.pars sink.key = some es := by simp [pars_eq, hnk, hes]
  have hsrc := hg.lt _ _ hns
  have hmem : ∀ pe ∈ es, pe.source < g.nextKey := fun pe hpe => hg.parLt _ _ _ hp hpe
  rcases h with ⟨-, rfl⟩ | ⟨-, -, rfl⟩ | ⟨-, pos, ex, g2, g3, hpos, hex, h2, h3, rfl⟩
  · refine wf_modify hg _ (fun _ => rfl) (fun _ => ⟨rfl, rfl, rfl⟩) ?_ ?_
    · intro n hn; rw [hnk] at hn; simp only [Option.some.injEq] at hn; subst hn; simp [hes]
    · intro n es' pe _ h1 h2
      simp only [Option.some.injEq] at h1
      subst h1
      simp only [List.mem_append, List.mem_filter, List.mem_singleton] at h2
      rcases h2 with ⟨h2, -⟩ | rfl
      · exact hmem _ h2
      · exact hsrc
  · refine wf_modify hg _ (fun _ => rfl) (fun _ => ⟨rfl, rfl, rfl⟩) ?_ ?_
    · intro n hn; rw [hnk] at hn; simp only [Option.some.injEq] at hn; subst hn; simp [hes]
    · intro n es' pe _ h1 h2
      simp only [Option.some.injEq] at h1
      subst h1
      simp only [List.mem_append, List.mem_singleton] at h2
      rcases h2 with h2 | rfl
      · exact hmem _ h2
      · exact hsrc
  · have w1 : WF (g.modify sink.key fun n => { n with pars := some (swapRemove es pos) }) := by
      refine wf_modify hg _ (fun _ => rfl) (fun _ => ⟨rfl, rfl, rfl⟩) ?_ ?_
      · intro n hn; rw [hnk] at hn; simp only [Option.some.injEq] at hn; subst hn; simp [hes]
      · intro n es' pe _ h1 h2
        simp only [Option.some.injEq] at h1
        subst h1
        exact hmem _ (mem_swapRemove h2)
    have w2 : WF g2 := wf_setEdge (wf_newAdd w1) h2 (by
      intro ed a e1 e2
      simp only [Option.some.injEq] at e1; subst e1
      simp only [Src.node.injEq] at e2
      subst e2
      exact Nat.lt_succ_of_lt (hmem _ (List.mem_of_getElem? hex)))
    have n2 : g2.nextKey = g.nextKey + 1 := nextKey_setEdge h2
    have w3 : WF g3 := wf_setEdge w2 h3 (by
      intro ed a e1 e2
      simp only [Option.some.injEq] at e1; subst e1
      simp only [Src.node.injEq] at e2
      subst e2
      rw [n2]
      exact Nat.lt_succ_of_lt hsrc)
    have n3 : g3.nextKey = g.nextKey + 1 := (nextKey_setEdge h3).trans n2
    refine wf_modify w3 _ (fun _ => rfl) (fun _ => ⟨rfl, rfl, rfl⟩) ?_ ?_
    · intro n hn; simp
    · intro n es' pe hn h1 h2
      simp only [Option.map_eq_some_iff] at h1
      obtain ⟨es0, h0, rfl⟩ := h1
      simp only [List.mem_append, List.mem_singleton] at h2
      rcases h2 with h2 | rfl
      · exact w3.parLt sink.key es0 pe (by simp [pars_eq, hn, h0]) h2
      · rw [n3]; exact Nat.lt_succ_self _

theorem wf_step {sl} {g g' : Graph} {op : Op} {r} (hg : WF g) (h : op.run sl g = .ok (g', r)) :
    WF g' := by
  cases op with
  | push i o d =>
    simp only [Op.run, Except.ok.injEq, Prod.mk.injEq] at h
    rw [← h.1]
    exact wf_push hg (by simp [userNode])
  | connect s so si k a f =>
    simp only [Op.run, connect2] at h
    split at h
    · rcases connectInputToNode_ok h with ⟨rfl, -⟩ | ⟨-, nk, -, -, -, h1⟩
      · exact hg
      · exact wf_connectToNode hg (by simp) h1
    · rcases connectNodes_ok h with ⟨rfl, -⟩ | ⟨-, ns, nk, hns, -, -, -, -, h1⟩
      · exact hg
      · refine wf_connectToNode hg ?_ h1
        intro b hb
        simp only [Src.node.injEq] at hb
        subst hb
        exact hg.lt _ _ hns
    · rcases connectNodeToOutput_ok h with ⟨rfl, -⟩ | ⟨-, ns, hns, -, -, h1⟩
      · exact hg
      · refine wf_connectToOut hg ?_ h1
        intro b hb
        simp only [Src.node.injEq] at hb
        subst hb
        exact hg.lt _ _ hns
    · rcases connectInputToOutput_ok h with ⟨rfl, -⟩ | ⟨-, -, -, h1⟩
      · exact hg
      · exact wf_connectToOut hg (by simp) h1
  | param s so p k a => exact wf_connectParam hg h
  | disconnectSource s c =>
    rcases disconnectSource_ok h with ⟨rfl, -⟩ | ⟨-, ⟨n, rec, -, -, -, -, rfl⟩ | ⟨g1, -, -, h1, -, rfl⟩⟩
    · exact hg
    · exact wf_dropAll hg _ _
    · exact wf_dropAll (wf_takeOut hg h1) _ _
  | disconnectSink c k =>
    rcases disconnectSink_ok h with ⟨rfl, -⟩ |
      ⟨-, ⟨n, rec, es, g1, -, -, -, -, -, h1, rfl⟩ | ⟨-, -, h1⟩⟩
    · exact hg
    · exact (wf_takeIn hg h1).congr rfl rfl rfl rfl
    · exact wf_takeOut hg h1
  | free n =>
    simp only [Op.run, editFree] at h
    split at h
    · simp only [Except.ok.injEq, Prod.mk.injEq] at h; exact h.1 ▸ hg
    · simp only [Except.ok.injEq] at h
      have : g' = (freeNode g n.key).1 := by rw [h]
      rw [this]
      exact wf_freeNode hg _
  | mortality n m st =>
    simp only [Op.run, Except.ok.injEq] at h
    have hg' : g' = (setMortality g n m st).1 := by rw [h]
    rw [hg']
    unfold setMortality
    split
    · exact hg
    · refine wf_modify hg (fun r => { r with mortal := m }) (fun _ => rfl) (fun _ => ⟨rfl, rfl, rfl⟩) (fun _ _ => Iff.rfl) ?_
      intro n' es pe hn h1 h2
      exact hg.parLt n.key es pe (by simp [pars_eq, hn]; exact h1) h2
  | commit rm fs =>
    simp only [Op.run] at h
    cases h1 : commitEdits rm fs g with
    | error e => simp [h1] at h
    | ok g1 =>
      simp only [h1, bind_ok, Except.ok.injEq, Prod.mk.injEq] at h
      rw [← h.1]
      exact wf_commit hg h1

theorem Reach.wf {sl} {g : Graph} (h : Reach sl g) : WF g := by
  induction h with
  | init id a b => exact wf_init id a b
  | step op _ hs ih => exact wf_step ih hs

end Verif.G
