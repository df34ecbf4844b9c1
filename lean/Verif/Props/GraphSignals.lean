import Verif.Props.GraphEdits
import Mathlib.Algebra.Group.Int.Defs

/-!
# What connecting and disconnecting does to the signals: C05, C06

The graph is read as a system of equations: every connection carries the signal of an output channel,
and a node the graph inserted to add two connections satisfies "output = input 0 + input 1".  Nothing
is assumed about the other nodes.
-/

namespace Verif.G

variable {S : Type*} [AddZeroClass S]

/-- Signals of node outputs (`v`) and graph inputs (`gin`). -/
structure Signals (S : Type*) where
  v : Key → Nat → S
  gin : Nat → S

/-- The signal carried by a source channel. -/
def Signals.src (s : Signals S) : Src → Nat → S
  | .node k, c => s.v k c
  | .graph, c => s.gin c

/-- The signal arriving at a sink; nothing connected means silence. -/
def Signals.at (s : Signals S) : Option Edge → S
  | some e => s.src e.source e.chan
  | none => 0

/-- The connection stored for a sink channel. -/
def Graph.dst (g : Graph) : NG → Nat → Option Edge
  | .node n, i => g.edge n.key i
  | .graph, i => g.out i

/-- The equations of the inserted math nodes. -/
def SumsOk (g : Graph) (s : Signals S) : Prop :=
  ∀ k n, g.get k = some n → n.autoMath = true → g.isPending k = false →
    s.v k 0 = s.at (g.edge k 0) + s.at (g.edge k 1)

/-! ### C05 -/

theorem get_auto_setEdge {g g' : Graph} {k i e} (h : setEdge g k i e = .ok g') (a : Key)
    (n : NodeRec) (hn : g.get a = some n) :
    ∃ n', g'.get a = some n' ∧ n'.autoMath = n.autoMath := by
  obtain ⟨es, -, -, rfl⟩ := setEdge_ok h
  rw [get_modify]
  split
  · next e => subst e; rw [hn]; exact ⟨_, rfl, rfl⟩
  · exact ⟨n, hn, rfl⟩

theorem get_auto_setEdge' {g g' : Graph} {k i e} (h : setEdge g k i e = .ok g') (a : Key)
    (n' : NodeRec) (hn : g'.get a = some n') :
    ∃ n, g.get a = some n ∧ n'.autoMath = n.autoMath := by
  obtain ⟨es, -, -, rfl⟩ := setEdge_ok h
  rw [get_modify] at hn
  split at hn
  · next e =>
    subst e
    cases h1 : g.get a with
    | none => simp [h1] at hn
    | some n =>
      simp only [h1, Option.map_some, Option.some.injEq] at hn
      subst hn
      exact ⟨n, rfl, rfl⟩
  · exact ⟨n', hn, rfl⟩

/-- The inserted node after both its inputs were set. -/
theorem add_auto {sl} {g g2 g3 : Graph} (hw : WF g) {e0 e1 : Option Edge}
    (h2 : setEdge (newAdd sl g) g.nextKey 0 e0 = .ok g2) (h3 : setEdge g2 g.nextKey 1 e1 = .ok g3) :
    (∃ n, g3.get g.nextKey = some n ∧ n.autoMath = true) ∧
    (∀ a n', g3.get a = some n' → a = g.nextKey ∨ ∃ n, g.get a = some n ∧ n'.autoMath = n.autoMath) := by
  constructor
  · obtain ⟨n0, h1, h0⟩ : ∃ n, (newAdd sl g).get g.nextKey = some n ∧ n.autoMath = true := by
      unfold newAdd; rw [get_pushNode sl g _ _ hw.fresh, if_pos rfl]; exact ⟨_, rfl, rfl⟩
    obtain ⟨n1, h4, h5⟩ := get_auto_setEdge h2 _ _ h1
    obtain ⟨n2, h6, h7⟩ := get_auto_setEdge h3 _ n1 h4
    exact ⟨n2, h6, by rw [h7, h5, h0]⟩
  · intro a n' hn
    obtain ⟨n1, h4, h5⟩ := get_auto_setEdge' h3 _ _ hn
    obtain ⟨n2, h6, h7⟩ := get_auto_setEdge' h2 _ _ h4
    unfold newAdd at h6
    rw [get_pushNode sl g _ _ hw.fresh] at h6
    split at h6
    · next e => exact .inl e
    · exact .inr ⟨n2, h6, h5.trans h7⟩

/-- The effect of connecting `⟨source, so⟩` to a sink `d` of the graph: the equation at `d` and the
connections of all other sinks. `old`/`new` are the connections stored for `d`. -/
structure Connected (g g' : Graph) (source : Src) (so : Nat) (sink : NG) (si : Nat) (add : Bool) :
    Prop where
  /-- the signal at the sink, for every assignment of signals -/
  here : ∀ {S : Type} [AddZeroClass S] (s : Signals S), SumsOk g' s →
    s.at (g'.dst sink si) = (if add then s.at (g.dst sink si) else 0) + s.src source so
  /-- every other sink of a node that existed before keeps its connection -/
  other : ∀ (n : NodeId) i, n.key < g.nextKey → (∀ m, sink = .node m → n.key = m.key → i ≠ si) →
    g'.dst (.node n) i = g.dst (.node n) i
  /-- so does every other graph output -/
  otherOut : ∀ i, (sink = .graph → i ≠ si) → g'.dst .graph i = g.dst .graph i
  /-- signals of the graph before stay possible, without changing the output of any existing node -/
  extend : ∀ {S : Type} [AddZeroClass S] (s : Signals S), SumsOk g s →
    (∀ m n, sink = .node m → g.get m.key = some n → n.autoMath = false) →
    ∃ s' : Signals S, SumsOk g' s' ∧ (∀ k, k < g.nextKey → s'.v k = s.v k) ∧ s'.gin = s.gin

theorem connected_tail {sl} {g g' : Graph} (hw : WF g) {source : Src} {sink : NodeId} {so si add}
    (hs : ∀ a, source = .node a → a < g.nextKey)
    (he : connectTail sl g source sink.key so si add false = .ok g') :
    Connected g g' source so (.node sink) si add := by
  have one : ∀ {g'}, setEdge g sink.key si (some ⟨source, so, false⟩) = .ok g' →
      (add = false ∨ g.edge sink.key si = none) →
      Connected g g' source so (.node sink) si add := by
    intro g' he hc
    have hed := edge_setEdge he
    refine ⟨?_, ?_, ?_, ?_⟩
    · intro S _ s _
      have hz : (if add = true then s.at (g.dst (.node sink) si) else 0) = 0 := by
        rcases hc with hc | hc
        · simp [hc]
        · simp [Graph.dst, hc, Signals.at]
      rw [hz, zero_add]
      simp only [Graph.dst]
      rw [hed, if_pos ⟨rfl, rfl⟩]
      rfl
    · intro n i _ hne
      simp only [Graph.dst]
      rw [hed, if_neg]
      rintro ⟨h1, h2⟩
      exact hne sink rfl h1 h2
    · intro i _
      simp only [Graph.dst, Graph.out, outs_setEdge he]
    · intro S _ s hsum hna
      refine ⟨s, ?_, fun _ _ => rfl, rfl⟩
      intro k n hn hm hp
      obtain ⟨n0, h0, h1⟩ := get_auto_setEdge' he k n hn
      have hne : k ≠ sink.key := by
        intro e
        rw [e] at h0
        rw [hna sink n0 rfl h0] at h1
        rw [h1] at hm
        simp at hm
      rw [hed, hed, if_neg (fun h => hne h.1), if_neg (fun h => hne h.1)]
      refine hsum k n0 h0 (h1 ▸ hm) ?_
      rw [isPending_eq, ← pending_setEdge he, ← isPending_eq]; exact hp
  unfold connectTail at he
  split at he
  · next h => exact one he (.inl (by simpa using h))
  next hadd =>
  have hadd : add = true := by simpa using hadd
  cases h1 : getEdge g sink.key si with
  | error e => simp [h1] at he
  | ok o =>
    simp only [h1, bind_ok] at he
    have hex := getEdge_ok h1
    cases o with
    | none => exact one he (.inr hex)
    | some ex =>
      simp only at he
      cases h2 : setEdge (newAdd sl g) g.nextKey 0 (some ex) with
      | error e => simp [h2] at he
      | ok g2 =>
        simp only [h2, bind_ok] at he
        cases h3 : setEdge g2 g.nextKey 1 (some ⟨source, so, false⟩) with
        | error e => simp [h3] at he
        | ok g3 =>
          simp only [h3, bind_ok] at he
          obtain ⟨i1, i2, i3, i4, -, i6⟩ := noDangle_add hw h2 h3
          obtain ⟨⟨na, j1, j2⟩, j3⟩ := add_auto hw h2 h3
          have hlt : sink.key < g.nextKey := by
            cases hg : g.get sink.key with
            | none =>
              have : g.ins sink.key = none := by rw [ins_eq, hg]; rfl
              rw [edge_of_none this] at hex; simp at hex
            | some n => exact hw.lt _ _ hg
          have hne : g.nextKey ≠ sink.key := Nat.ne_of_gt hlt
          have hpe : ∀ a, g'.isPending a = g.isPending a := by
            intro a; rw [isPending_eq, pending_setEdge he, i2, isPending_eq]
          have e0 : g'.edge g.nextKey 0 = some ex := by
            rw [edge_setEdge he, if_neg (fun h => hne h.1), i6]; simp
          have e1 : g'.edge g.nextKey 1 = some ⟨source, so, false⟩ := by
            rw [edge_setEdge he, if_neg (fun h => hne h.1), i6]; simp
          obtain ⟨nb, k1, k2⟩ := get_auto_setEdge he _ _ j1
          have hold : ∀ k i, k < g.nextKey → ¬ (k = sink.key ∧ i = si) → g'.edge k i = g.edge k i := by
            intro k i hk hn
            rw [edge_setEdge he, if_neg hn, i6, if_neg (fun h => absurd h.1 (Nat.ne_of_lt hk)),
              if_neg (fun h => absurd h.1 (Nat.ne_of_lt hk))]
          refine ⟨?_, ?_, ?_, ?_⟩
          · intro S _ s hsum
            have hq := hsum _ _ k1 (k2.trans j2) (by rw [hpe]; exact not_pending_next hw)
            rw [e0, e1] at hq
            simp only [Graph.dst, hex, hadd, if_true]
            rw [edge_setEdge he, if_pos ⟨rfl, rfl⟩]
            exact hq
          · intro n i hn hne
            simp only [Graph.dst]
            exact hold _ _ hn (fun h => hne sink rfl h.1 h.2)
          · intro i _
            simp only [Graph.dst, Graph.out, outs_setEdge he, i3]
          · intro S _ s hsum hna
            refine ⟨⟨fun k c => if k = g.nextKey then s.at (some ex) + s.src source so else s.v k c,
              s.gin⟩, ?_, ?_, rfl⟩
            · have hat : ∀ e : Edge, (∀ a, e.source = .node a → a < g.nextKey) →
                  Signals.at ⟨fun k c => if k = g.nextKey then s.at (some ex) + s.src source so
                    else s.v k c, s.gin⟩ (some e) = s.at (some e) := by
                rintro ⟨src, c, f⟩ hlt
                cases src with
                | graph => rfl
                | node a =>
                  have : a ≠ g.nextKey := Nat.ne_of_lt (hlt a rfl)
                  simp [Signals.at, Signals.src, this]
              have hat' : ∀ k i, Signals.at ⟨fun k c => if k = g.nextKey then
                    s.at (some ex) + s.src source so else s.v k c, s.gin⟩ (g.edge k i) =
                  s.at (g.edge k i) := by
                intro k i
                cases hki : g.edge k i with
                | none => rfl
                | some e => exact hat e (fun a ha => hw.srcLt k i e a hki ha)
              intro k n hn hm hp
              obtain ⟨n1, l1, l2⟩ := get_auto_setEdge' he k n hn
              rcases j3 k n1 l1 with rfl | ⟨n0, l3, l4⟩
              · rw [e0, e1, hat ex (fun a ha => hw.srcLt _ _ _ _ hex ha)]
                simp only [if_true]
                congr 1
                exact (hat ⟨source, so, false⟩ hs).symm
              · have hklt := hw.lt _ _ l3
                have hks : k ≠ sink.key := by
                  intro e
                  rw [e] at l3
                  rw [l2, l4, hna sink n0 rfl l3] at hm
                  simp at hm
                rw [hold k 0 hklt (fun h => hks h.1), hold k 1 hklt (fun h => hks h.1), hat', hat']
                simp only [Nat.ne_of_lt hklt, if_false]
                refine hsum k n0 l3 (by rw [← l4, ← l2]; exact hm) ?_
                rw [← hpe]; exact hp
            · intro k hk
              funext c
              simp [Nat.ne_of_lt hk]

theorem connected_out {sl} {g g' : Graph} (hw : WF g) {source : Src} {so si add}
    (hs : ∀ a, source = .node a → a < g.nextKey)
    (he : connectToOut sl g source so si add = .ok g') :
    Connected g g' source so .graph si add := by
  unfold connectToOut at he
  have h0 : WF { g with recalc := true } := hw.congr rfl rfl rfl rfl
  dsimp only at he
  have one : ∀ {g'}, setOut { g with recalc := true } si (some ⟨source, so, false⟩) = .ok g' →
      (add = false ∨ g.out si = none) → Connected g g' source so .graph si add := by
    intro g' he hc
    have ho := fun i => out_setOut he i
    obtain ⟨-, rfl⟩ := setOut_ok he
    refine ⟨?_, fun _ _ _ _ => rfl, ?_, ?_⟩
    · intro S _ s _
      have hz : (if add = true then s.at (g.dst .graph si) else 0) = 0 := by
        rcases hc with hc | hc
        · simp [hc]
        · simp [Graph.dst, hc, Signals.at]
      rw [hz, zero_add]
      simp only [Graph.dst]
      rw [ho, if_pos rfl]
      rfl
    · intro i hi
      simp only [Graph.dst]
      rw [ho, if_neg (hi rfl)]
      rfl
    · intro S _ s hsum _
      exact ⟨s, hsum, fun _ _ => rfl, rfl⟩
  split at he
  · next h => exact one he (.inl (by simpa using h))
  next hadd =>
  have hadd : add = true := by simpa using hadd
  cases h1 : getOut { g with recalc := true } si with
  | error e => simp [h1] at he
  | ok o =>
    simp only [h1, bind_ok] at he
    have hex : g.out si = o := getOut_ok h1
    cases o with
    | none => exact one he (.inr hex)
    | some ex =>
      simp only at he
      cases h2 : setEdge (newAdd sl { g with recalc := true }) g.nextKey 0 (some ex) with
      | error e => simp [h2] at he
      | ok g2 =>
        simp only [h2, bind_ok] at he
        cases h3 : setEdge g2 g.nextKey 1 (some ⟨source, so, false⟩) with
        | error e => simp [h3] at he
        | ok g3 =>
          simp only [h3, bind_ok] at he
          obtain ⟨i1, i2, i3, i4, -, i6⟩ := noDangle_add h0 h2 h3
          obtain ⟨⟨na, j1, j2⟩, j3⟩ := add_auto h0 h2 h3
          have ho := fun i => out_setOut he i
          have hged : ∀ k i, g'.edge k i = g3.edge k i := by
            obtain ⟨-, rfl⟩ := setOut_ok he; exact fun _ _ => rfl
          have hgget : ∀ k, g'.get k = g3.get k := by
            obtain ⟨-, rfl⟩ := setOut_ok he; exact fun _ => rfl
          have hgp : g'.pending = g3.pending := by
            obtain ⟨-, rfl⟩ := setOut_ok he; rfl
          have hpe : ∀ a, g'.isPending a = g.isPending a := by
            intro a; rw [isPending_eq, hgp, i2, isPending_eq]
          have e0 : g'.edge g.nextKey 0 = some ex := by rw [hged, i6]; simp
          have e1 : g'.edge g.nextKey 1 = some ⟨source, so, false⟩ := by rw [hged, i6]; simp
          have hold : ∀ k i, k < g.nextKey → g'.edge k i = g.edge k i := by
            intro k i hk
            rw [hged, i6, if_neg (fun h => absurd h.1 (Nat.ne_of_lt hk)),
              if_neg (fun h => absurd h.1 (Nat.ne_of_lt hk))]
            rfl
          have hout : ∀ i, g3.out i = g.out i := fun i => by simp only [Graph.out, i3]
          refine ⟨?_, ?_, ?_, ?_⟩
          · intro S _ s hsum
            have hq := hsum g.nextKey na ((hgget _).trans j1) j2 ((hpe _).trans (not_pending_next hw))
            rw [e0, e1] at hq
            simp only [Graph.dst, hex, hadd, if_true]
            rw [ho, if_pos rfl]
            exact hq
          · intro n i hn _
            exact hold _ _ hn
          · intro i hi
            simp only [Graph.dst]
            rw [ho, if_neg (hi rfl), hout]
          · intro S _ s hsum _
            refine ⟨⟨fun k c => if k = g.nextKey then s.at (some ex) + s.src source so else s.v k c,
              s.gin⟩, ?_, ?_, rfl⟩
            · have hat : ∀ e : Edge, (∀ a, e.source = .node a → a < g.nextKey) →
                  Signals.at ⟨fun k c => if k = g.nextKey then s.at (some ex) + s.src source so
                    else s.v k c, s.gin⟩ (some e) = s.at (some e) := by
                rintro ⟨src, c, f⟩ hlt
                cases src with
                | graph => rfl
                | node a =>
                  have : a ≠ g.nextKey := Nat.ne_of_lt (hlt a rfl)
                  simp [Signals.at, Signals.src, this]
              have hat' : ∀ k i, Signals.at ⟨fun k c => if k = g.nextKey then
                    s.at (some ex) + s.src source so else s.v k c, s.gin⟩ (g.edge k i) =
                  s.at (g.edge k i) := by
                intro k i
                cases hki : g.edge k i with
                | none => rfl
                | some e => exact hat e (fun a ha => hw.srcLt k i e a hki ha)
              intro k n hn hm hp
              rw [hgget] at hn
              rcases j3 k n hn with rfl | ⟨n0, l3, l4⟩
              · change _ = Signals.at _ (g'.edge g.nextKey 0) + Signals.at _ (g'.edge g.nextKey 1)
                rw [e0, e1, hat ex (fun a ha => hw.outLt _ _ _ hex ha)]
                simp only [if_true]
                congr 1
                exact (hat ⟨source, so, false⟩ hs).symm
              · have hklt := hw.lt k n0 l3
                rw [hold k 0 hklt, hold k 1 hklt, hat', hat']
                have hkn : k ≠ g.nextKey := Nat.ne_of_lt hklt
                simp only [hkn, if_false]
                refine hsum k n0 l3 (by rw [← l4]; exact hm) ?_
                rw [← hpe]; exact hp
            · intro k hk
              funext c
              simp [Nat.ne_of_lt hk]

/-- C05: after a successful `connect` (`add = true`) or `connect_replace` (`add = false`), the signal at
the addressed sink is the previous signal plus the source, respectively the source alone; all other
sinks keep their connections; and existing node outputs are not disturbed. -/
theorem C05_connect {sl} {g g' : Graph} (hr : Reach sl g) (source : NG) (so si : Nat) (sink : NG)
    (add : Bool) (h : (Op.connect source so si sink add false).run sl g = .ok (g', .ok ())) :
    Connected g g' source.toSrc so sink si add := by
  have hg := hr.wf
  have hw0 : WF { g with recalc := true } := hg.congr rfl rfl rfl rfl
  have lift : ∀ {src : Src} {k : NodeId},
      Connected { g with recalc := true } g' src so (.node k) si add →
      Connected g g' src so (.node k) si add := by
    intro src k h
    exact ⟨h.here, h.other, h.otherOut, h.extend⟩
  simp only [Op.run, connect2] at h
  split at h
  · rcases connectInputToNode_ok h with ⟨-, e, he⟩ | ⟨-, nk, hso, hk, -, h1⟩
    · simp at he
    · exact lift (connected_tail hw0 (by simp [NG.toSrc]) h1)
  · rcases connectNodes_ok h with ⟨-, e, he⟩ | ⟨-, ns, nk, hns, hso, hk, -, -, h1⟩
    · simp at he
    · refine lift (connected_tail hw0 ?_ h1)
      intro a ha
      simp only [NG.toSrc, Src.node.injEq] at ha
      exact ha ▸ hg.lt _ _ hns
  · rcases connectNodeToOutput_ok h with ⟨-, e, he⟩ | ⟨-, ns, hns, hso, -, h1⟩
    · simp at he
    · refine connected_out hg ?_ h1
      intro a ha
      simp only [NG.toSrc, Src.node.injEq] at ha
      exact ha ▸ hg.lt _ _ hns
  · rcases connectInputToOutput_ok h with ⟨-, e, he⟩ | ⟨-, hso, -, h1⟩
    · simp at he
    · exact connected_out hg (by simp [NG.toSrc]) h1

/-- Nodes 0 and 1 added at the input of node 2 through node 3. -/
def sumGraph : Graph :=
  { id := 0, outs := [none], numIn := 0, nextKey := 4, recalc := true, nodes :=
      [(0, { inputs := 1, outputs := 1, ins := some [none], pars := some [] }),
       (1, { inputs := 1, outputs := 1, ins := some [none], pars := some [] }),
       (2, { inputs := 1, outputs := 1, ins := some [some ⟨.node 3, 0, false⟩], pars := some [] }),
       (3, { inputs := 2, outputs := 1, autoMath := true,
             ins := some [some ⟨.node 0, 0, false⟩, some ⟨.node 1, 0, false⟩], pars := some [] })] }

theorem sumGraph_sums (s : Signals S) : SumsOk sumGraph s ↔ s.v 3 0 = s.v 0 0 + s.v 1 0 := by
  constructor
  · intro h; exact h 3 _ rfl rfl rfl
  · intro h k n hn hm _
    rcases k with _ | _ | _ | _ | k
    · exfalso; revert hm; cases hn; decide
    · exfalso; revert hm; cases hn; decide
    · exfalso; revert hm; cases hn; decide
    · exact h
    · exfalso; revert hn; simp [get_eq, sumGraph]

/-- A second connection into the same input: the hypotheses of `C05_connect` hold, and there are
signals satisfying the equations. -/
example : ∃ g : Graph, Reach id g ∧
    (Op.connect (.node (nd 1)) 0 0 (.node (nd 2)) true false).run id g = .ok (sumGraph, .ok ()) ∧
    (g.edge 2 0).isSome ∧ (∃ s : Signals Int, SumsOk sumGraph s ∧ s.v 0 0 = 1 ∧ s.v 1 0 = 2) := by
  refine ⟨_, reach_runOps [.push 1 1 [], .push 1 1 [], .push 1 1 [],
    .connect (.node (nd 0)) 0 0 (.node (nd 2)) true false] (Reach.init 0 0 1)
    (rs := [.ok (), .ok (), .ok (), .ok ()]) rfl, by decide, by decide,
    ⟨fun k _ => if k = 3 then 3 else k + 1, fun _ => 0⟩, (sumGraph_sums _).2 rfl, rfl, rfl⟩

/-! ### C06 -/

/-- All nodes satisfy `p`. -/
def All (p : NodeRec → Prop) (g : Graph) : Prop := ∀ k n, g.get k = some n → p n

/-- The node is not one of the two halves of a feedback connection. -/
def notFb (n : NodeRec) : Prop := n.dep = none ∧ n.autoFree = false

theorem all_setEdge {g g' : Graph} {k i e} (h : All notFb g) (hs : setEdge g k i e = .ok g') :
    All notFb g' := by
  obtain ⟨es, -, -, rfl⟩ := setEdge_ok hs
  intro a n hn
  rw [get_modify] at hn
  split at hn
  · next e =>
    subst e
    cases h1 : g.get a with
    | none => simp [h1] at hn
    | some m =>
      simp only [h1, Option.map_some, Option.some.injEq] at hn
      subst hn
      exact h a m h1
  · exact h a n hn

theorem all_push {sl} {g : Graph} {n : NodeRec} (hw : WF g) (h : All notFb g) (hn : notFb n) :
    All notFb (pushNode sl g n) := by
  intro a m hm
  rw [get_pushNode sl g _ a hw.fresh] at hm
  split at hm
  · simp only [Option.some.injEq] at hm; subst hm; exact hn
  · exact h a m hm

theorem all_mod {g : Graph} {k} {f : NodeRec → NodeRec} (h : All notFb g)
    (hf : ∀ n, (f n).dep = n.dep ∧ (f n).autoFree = n.autoFree) : All notFb (g.modify k f) := by
  intro a n hn
  rw [get_modify] at hn
  split at hn
  · next e =>
    subst e
    cases h1 : g.get a with
    | none => simp [h1] at hn
    | some m =>
      simp only [h1, Option.map_some, Option.some.injEq] at hn
      subst hn
      exact ⟨(hf m).1.trans (h a m h1).1, (hf m).2.trans (h a m h1).2⟩
  · exact h a n hn

theorem all_free1 {g : Graph} (h : All notFb g) (k) : All notFb (free1 g k) := by
  intro a n hn
  rw [get_free1] at hn
  split at hn
  · cases h1 : g.get k with
    | none => simp [h1] at hn
    | some m => simp only [h1, Option.map_some, Option.some.injEq] at hn; subst hn; exact h k m h1
  · cases h1 : g.get a with
    | none => simp [h1] at hn
    | some m => simp only [h1, Option.map_some, Option.some.injEq] at hn; subst hn; exact h a m h1

theorem all_bypass {g : Graph} (h : All notFb g) (k e) : All notFb (bypass g k e) := by
  intro a n hn
  rw [get_bypass] at hn
  cases h1 : g.get a with
  | none => simp [h1] at hn
  | some m => simp only [h1, Option.map_some, Option.some.injEq] at hn; subst hn; exact h a m h1

theorem all_tail {sl} {g g' : Graph} (hw : WF g) (h : All notFb g) {source sink so si add}
    (he : connectTail sl g source sink so si add false = .ok g') : All notFb g' := by
  unfold connectTail at he
  split at he
  · exact all_setEdge h he
  cases h1 : getEdge g sink si with
  | error e => simp [h1] at he
  | ok o =>
    simp only [h1, bind_ok] at he
    cases o with
    | none => exact all_setEdge h he
    | some ex =>
      simp only at he
      cases h2 : setEdge (newAdd sl g) g.nextKey 0 (some ex) with
      | error e => simp [h2] at he
      | ok g2 =>
        simp only [h2, bind_ok] at he
        cases h3 : setEdge g2 g.nextKey 1 (some ⟨source, so, false⟩) with
        | error e => simp [h3] at he
        | ok g3 =>
          simp only [h3, bind_ok] at he
          exact all_setEdge (all_setEdge (all_setEdge (all_push hw h ⟨rfl, rfl⟩) h2) h3) he

theorem all_connectToOut {sl} {g g' : Graph} (hw : WF g) (h : All notFb g) {source so si add}
    (he : connectToOut sl g source so si add = .ok g') : All notFb g' := by
  unfold connectToOut at he
  have h0 : WF { g with recalc := true } := hw.congr rfl rfl rfl rfl
  dsimp only at he
  split at he
  · obtain ⟨-, rfl⟩ := setOut_ok he; exact h
  cases h1 : getOut { g with recalc := true } si with
  | error e => simp [h1] at he
  | ok o =>
    simp only [h1, bind_ok] at he
    cases o with
    | none => obtain ⟨-, rfl⟩ := setOut_ok he; exact h
    | some ex =>
      simp only at he
      cases h2 : setEdge (newAdd sl { g with recalc := true }) g.nextKey 0 (some ex) with
      | error e => simp [h2] at he
      | ok g2 =>
        simp only [h2, bind_ok] at he
        cases h3 : setEdge g2 g.nextKey 1 (some ⟨source, so, false⟩) with
        | error e => simp [h3] at he
        | ok g3 =>
          simp only [h3, bind_ok] at he
          have hq := all_setEdge (all_setEdge (all_push (sl := sl) h0 h ⟨rfl, rfl⟩) h2) h3
          obtain ⟨-, rfl⟩ := setOut_ok he
          exact hq

theorem all_step {sl} {g g' : Graph} {op : Op} {r} (hg : WF g) (ha : All notFb g)
    (hc : op.careful g) (h : op.run sl g = .ok (g', r)) : All notFb g' := by
  have hF : ∀ g k n, All notFb g → g.get k = some n → n.mortal = true →
      g.isPending k = false → All notFb (free1 g k) := fun g k _ h _ _ _ => all_free1 h k
  have hB : ∀ g k n e, All notFb g → g.get k = some n → n.autoMath = true →
      ((g.edge k 0 = none ∧ g.edge k 1 = some e) ∨ (g.edge k 0 = some e ∧ g.edge k 1 = none)) →
      All notFb (bypass g k e) := fun g k _ e h _ _ _ => all_bypass h k e
  have hO : ∀ g g' i, All notFb g → setOut g i none = .ok g' → All notFb g' := by
    intro g g' i h hs
    obtain ⟨-, rfl⟩ := setOut_ok hs
    exact h
  have hE : ∀ g g' k i, All notFb g → setEdge g k i none = .ok g' → All notFb g' :=
    fun g g' k i h hs => all_setEdge h hs
  have hD : ∀ g s c, All notFb g → All notFb (dropAll g s c) := by
    intro g s c h a n hn
    rw [dropAll_get] at hn
    cases h1 : g.get a with
    | none => simp [h1] at hn
    | some m => simp only [h1, Option.map_some, Option.some.injEq] at hn; subst hn; exact h a m h1
  have hw0 : WF { g with recalc := true } := hg.congr rfl rfl rfl rfl
  have ha0 : All notFb { g with recalc := true } := ha
  cases op with
  | push i o d =>
    simp only [Op.run, Except.ok.injEq, Prod.mk.injEq] at h
    rw [← h.1]
    exact all_push hg ha ⟨rfl, rfl⟩
  | connect s so si k a f =>
    obtain ⟨hf, hp⟩ := hc
    subst hf
    simp only [Op.run, connect2] at h
    split at h
    · rcases connectInputToNode_ok h with ⟨rfl, -⟩ | ⟨-, nk, hso, hk, -, h1⟩
      · exact ha
      · exact all_tail hw0 ha0 h1
    · rcases connectNodes_ok h with ⟨rfl, -⟩ | ⟨-, ns, nk, hns, hso, hk, -, -, h1⟩
      · exact ha
      · exact all_tail hw0 ha0 h1
    · rcases connectNodeToOutput_ok h with ⟨rfl, -⟩ | ⟨-, ns, hns, hso, -, h1⟩
      · exact ha
      · exact all_connectToOut hg ha h1
    · rcases connectInputToOutput_ok h with ⟨rfl, -⟩ | ⟨-, hso, -, h1⟩
      · exact ha
      · exact all_connectToOut hg ha h1
  | param s so p k a =>
    rcases connectParam_ok h with ⟨rfl, -⟩ | ⟨-, ns, nk, idx, es, hns, hso, hnk, hidx, hes, h⟩
    · exact ha
    have hp : g.pars k.key = some es := by simp [pars_eq, hnk, hes]
    rcases h with ⟨-, rfl⟩ | ⟨-, -, rfl⟩ | ⟨-, pos, ex, g2, g3, hpos, hex, h2, h3, rfl⟩
    · exact all_mod ha (fun _ => ⟨rfl, rfl⟩)
    · exact all_mod ha (fun _ => ⟨rfl, rfl⟩)
    · have w1 : WF (g.modify k.key fun n => { n with pars := some (swapRemove es pos) }) := by
        refine wf_modify hg _ (fun _ => rfl) (fun _ => ⟨rfl, rfl, rfl⟩) ?_ ?_
        · intro n hn; rw [hnk] at hn; simp only [Option.some.injEq] at hn; subst hn; simp [hes]
        · intro n es' pe _ h1 h2
          simp only [Option.some.injEq] at h1
          subst h1
          exact hg.parLt _ _ _ hp (mem_swapRemove h2)
      refine all_mod (all_setEdge (all_setEdge (all_push (sl := sl) w1 ?_ ⟨rfl, rfl⟩) h2) h3)
        (fun _ => ⟨rfl, rfl⟩)
      exact all_mod ha (fun _ => ⟨rfl, rfl⟩)
  | disconnectSource s c =>
    rcases disconnectSource_ok h with ⟨rfl, -⟩ | ⟨-, ⟨n, rec, -, -, -, -, rfl⟩ | ⟨g1, -, -, h1, -, rfl⟩⟩
    · exact ha
    · exact hD _ _ _ ha
    · exact hD _ _ _ (takeOut_ind hF hB hO ha h1)
  | disconnectSink c k =>
    rcases disconnectSink_ok h with ⟨rfl, -⟩ |
      ⟨-, ⟨n, rec, es, g1, -, -, -, -, -, h1, rfl⟩ | ⟨-, -, h1⟩⟩
    · exact ha
    · exact (takeIn_ind hF hB hE ha h1 : All notFb g1)
    · exact takeOut_ind hF hB hO ha h1
  | free n =>
    simp only [Op.run, editFree] at h
    split at h
    · simp only [Except.ok.injEq, Prod.mk.injEq] at h; exact h.1 ▸ ha
    · simp only [Except.ok.injEq] at h
      have : g' = (freeNode g n.key).1 := by rw [h]
      rw [this]
      exact freeNode_ind hF _ _ ha
  | mortality n m st =>
    simp only [Op.run, Except.ok.injEq] at h
    have hg' : g' = (setMortality g n m st).1 := by rw [h]
    rw [hg']
    unfold setMortality
    split
    · exact ha
    · exact all_mod ha (fun _ => ⟨rfl, rfl⟩)
  | commit rm fs =>
    simp only [Op.run] at h
    cases h1 : commitEdits rm fs g with
    | error e => simp [h1] at h
    | ok g1 =>
      simp only [h1, bind_ok, Except.ok.injEq, Prod.mk.injEq] at h
      rw [← h.1]
      unfold commitEdits at h1
      cases h2 : freeOld rm fs g with
      | error e => simp [h2] at h1
      | ok g2 =>
        have hac2 : All notFb g2 := by
          obtain ⟨g3, h3, rfl⟩ := freeOld_ok h2
          have hn3 := evalMany_ind hF hB _ (freeMany_ind hF _ _ ha) h3
          intro a n hn
          rw [get_dropFlagged] at hn
          split at hn
          · simp at hn
          · exact hn3 a n hn
        simp only [h2, bind_ok, pure_ok, Except.ok.injEq] at h1
        split at h1 <;> subst h1 <;> exact hac2

theorem CReach.notFb {sl} {g : Graph} (h : CReach sl g) : All notFb g := by
  induction h with
  | init a b c => intro k n hn; simp [Graph.init, get_eq] at hn
  | step op hr hc hs ih => exact all_step hr.reach.wf ih hc hs

/-- What is known about a graph built without feedback connections. -/
structure Inv (g : Graph) : Prop where
  wf : WF g
  nd : NoDangle g
  fb : All Verif.G.notFb g
  ac : Acyclic (Feeds g)

theorem CReach.inv {sl} {g : Graph} (h : CReach sl g) : Inv g :=
  ⟨h.reach.wf, C03_audio_partial h, h.notFb, h.reach.acyclic⟩

theorem Inv.chan {g : Graph} (h : Inv g) {e : Edge} (he : SrcOk g e) {k n} (hk : e.source = .node k)
    (hn : g.get k = some n) (hm : n.autoMath = true) : e.chan = 0 ∧ g.isPending k = false := by
  obtain ⟨n', h1, h2, h3⟩ := he.1 k hk
  rw [hn] at h1
  simp only [Option.some.injEq] at h1
  subst h1
  rw [(h.wf.math k n hn hm).2] at h3
  exact ⟨Nat.lt_one_iff.1 h3, h2⟩

/-- `g` carries the same signals as `g0` at every sink of a node that is not freed. -/
structure Same (s : Signals S) (g0 g : Graph) : Prop where
  sums : SumsOk g s
  edge : ∀ k i, g.isPending k = false → s.at (g.edge k i) = s.at (g0.edge k i)
  out : ∀ i, s.at (g.out i) = s.at (g0.out i)
  pend : ∀ k, g.isPending k = false → g0.isPending k = false

theorem Same.refl {s : Signals S} {g : Graph} (h : SumsOk g s) : Same s g g :=
  ⟨h, fun _ _ _ => rfl, fun _ => rfl, fun _ h => h⟩

theorem Same.trans {s : Signals S} {g0 g1 g2 : Graph} (h1 : Same s g0 g1) (h2 : Same s g1 g2) :
    Same s g0 g2 :=
  ⟨h2.sums, fun k i hp => (h2.edge k i hp).trans (h1.edge k i (h2.pend k hp)),
    fun i => (h2.out i).trans (h1.out i), fun k hp => h1.pend k (h2.pend k hp)⟩

theorem same_free1 {s : Signals S} {g : Graph} {k : Key} (h : SumsOk g s)
    (hz : ∀ e : Edge, ((∃ j i, g.edge j i = some e) ∨ ∃ i, g.out i = some e) → e.source = .node k →
      s.at (some e) = 0) : Same s g (free1 g k) := by
  have hpend : ∀ j, (free1 g k).isPending j = false → j ≠ k ∧ g.isPending j = false := by
    intro j hj
    rw [isPending_eq, free1_pending, List.any_append, Bool.or_eq_false_iff, ← isPending_eq] at hj
    refine ⟨fun e => ?_, hj.1⟩
    have := hj.2
    subst e
    simp at this
  have hd : ∀ o : Option Edge, (∀ e, o = some e → e.source = .node k → s.at (some e) = 0) →
      s.at (dropFrom k o) = s.at o := by
    intro o ho
    cases o with
    | none => rfl
    | some e =>
      simp only [dropFrom]
      split
      · next he => exact (ho e rfl he).symm
      · rfl
  have hedge : ∀ j i, j ≠ k → s.at ((free1 g k).edge j i) = s.at (g.edge j i) := by
    intro j i hj
    rw [edge_free1, if_neg hj]
    exact hd _ (fun e he => hz e (.inl ⟨j, i, he⟩))
  refine ⟨?_, fun j i hj => hedge j i (hpend j hj).1, ?_, fun j hj => (hpend j hj).2⟩
  · intro j n hn hm hp
    obtain ⟨hjk, hp'⟩ := hpend j hp
    rw [hedge j 0 hjk, hedge j 1 hjk]
    rw [get_free1, if_neg hjk] at hn
    cases h1 : g.get j with
    | none => simp [h1] at hn
    | some m =>
      simp only [h1, Option.map_some, Option.some.injEq] at hn
      subst hn
      exact h j m h1 hm hp'
  · intro i
    rw [out_free1]
    exact hd _ (fun e he => hz e (.inr ⟨i, he⟩))

theorem same_freeNode {s : Signals S} {g : Graph} {k : Key} {n : NodeRec} (h : SumsOk g s)
    (hn : g.get k = some n) (hd : n.dep = none)
    (hz : g.isPending k = false → ∀ e : Edge, ((∃ j i, g.edge j i = some e) ∨ ∃ i, g.out i = some e) →
      e.source = .node k → s.at (some e) = 0) : Same s g (freeNode g k).1 := by
  rcases hf : freeNode g k with ⟨g', r⟩
  rcases freeNode_ok hf with ⟨rfl, -⟩ | ⟨-, n', hn', -, ⟨-, rfl⟩ | ⟨hp, rfl⟩⟩
  · exact .refl h
  · exact .refl h
  · rw [hn] at hn'
    simp only [Option.some.injEq] at hn'
    subst hn'
    simp only [hd]
    exact same_free1 h (hz hp)

theorem same_evalNode {s : Signals S} {g g' : Graph} {k : Key} (hi : Inv g) (h : SumsOk g s)
    (he : evalNode g k = .ok g') : Same s g g' := by
  unfold evalNode at he
  cases h1 : evalMath g k with
  | error e => simp [h1] at he
  | ok g1 =>
    simp only [h1, bind_ok] at he
    have hF : ∀ g k n, All notFb g → g.get k = some n → n.mortal = true →
      g.isPending k = false → All notFb (free1 g k) := fun g k _ h _ _ _ => all_free1 h k
    have step1 : Same s g g1 ∧ All notFb g1 := by
      rcases evalMath_ok h1 with rfl | ⟨n, hn, hm, -, -, hc⟩
      · exact ⟨.refl h, hi.fb⟩
      · rcases hc with ⟨e0, e1, rfl⟩ | ⟨e, hc, -, rfl⟩
        · refine ⟨same_freeNode h hn (hi.fb k n hn).1 ?_, freeNode_ind hF _ _ hi.fb⟩
          intro hp e hmem hsrc
          have hok : SrcOk g e := by
            rcases hmem with ⟨j, i, hh⟩ | ⟨i, hh⟩
            · exact hi.nd.1 j i e hh
            · exact hi.nd.2 i e hh
          have hch := (hi.chan hok hsrc hn hm).1
          have hs := h k n hn hm hp
          rw [e0, e1] at hs
          simp only [Signals.at, hsrc, Signals.src, hch, hs, add_zero]
        · obtain ⟨i0, hi0⟩ : ∃ i, g.edge k i = some e := by
            rcases hc with ⟨-, h2⟩ | ⟨h2, -⟩
            · exact ⟨_, h2⟩
            · exact ⟨_, h2⟩
          have hself : e.source ≠ .node k := fun hs =>
            hi.ac k (.single ⟨i0, e, hi0, hs⟩)
          have hpk : g.isPending k = false := by
            cases hpp : g.isPending k with
            | false => rfl
            | true =>
              have := (hi.wf.live k n hn).2 hpp
              have h2 : g.ins k = none := by rw [ins_eq, hn]; exact this
              rw [edge_of_none h2] at hi0
              simp at hi0
          have hsum : s.v k 0 = s.at (some e) := by
            have hs := h k n hn hm hpk
            rcases hc with ⟨h2, h3⟩ | ⟨h2, h3⟩ <;> rw [h2, h3] at hs
            · rw [hs]; simp [Signals.at]
            · rw [hs]; simp [Signals.at]
          have hred : ∀ o : Option Edge, (∀ e, o = some e → SrcOk g e) →
              s.at (redirect k e o) = s.at o := by
            intro o ho
            cases o with
            | none => rfl
            | some e' =>
              simp only [redirect]
              split
              · next hs' =>
                have hch := (hi.chan (ho e' rfl) hs' hn hm).1
                rw [← hsum]
                simp [Signals.at, hs', Signals.src, hch]
              · rfl
          have hed : ∀ j i, s.at ((bypass g k e).edge j i) = s.at (g.edge j i) := by
            intro j i
            rw [edge_bypass]
            exact hred _ (fun e' he' => hi.nd.1 j i e' he')
          have hsb : Same s g (bypass g k e) := by
            refine ⟨?_, fun j i _ => hed j i, ?_, fun j hj => hj⟩
            · intro j m hm' ha hp
              rw [hed, hed]
              rw [get_bypass] at hm'
              cases h2 : g.get j with
              | none => simp [h2] at hm'
              | some m' =>
                simp only [h2, Option.map_some, Option.some.injEq] at hm'
                subst hm'
                exact h j m' h2 ha hp
            · intro i
              rw [out_bypass]
              exact hred _ (fun e' he' => hi.nd.2 i e' he')
          have hnb : (bypass g k e).get k = some { n with ins := n.ins.map (·.map (redirect k e)) } := by
            rw [get_bypass, hn]; rfl
          refine ⟨hsb.trans (same_freeNode hsb.sums hnb (hi.fb k n hn).1 ?_),
            freeNode_ind hF _ _ (all_bypass hi.fb _ _)⟩
          intro _ e' hmem hsrc
          exfalso
          have : ∀ o, redirect k e o = some e' → False := by
            intro o ho
            rcases redirect_some ho with ⟨-, h3⟩ | ⟨rfl, -⟩
            · exact h3 hsrc
            · exact hself hsrc
          rcases hmem with ⟨j, i, hh⟩ | ⟨i, hh⟩
          · rw [edge_bypass] at hh; exact this _ hh
          · rw [out_bypass] at hh; exact this _ hh
    rcases evalFree_ok he with rfl | ⟨n, hn, ha, -⟩
    · exact step1.1
    · have := (step1.2 k n hn).2
      rw [this] at ha
      simp at ha

theorem Inv.evalNode {g g' : Graph} {k : Key} (hi : Inv g) (he : Verif.G.evalNode g k = .ok g') :
    Inv g' := by
  refine ⟨wf_evalNode hi.wf he, ?_, ?_, ?_⟩
  · exact evalNode_ind (fun g k _ h _ _ _ => h.free1 k)
      (fun g k n e h _ _ hc => by rcases hc with ⟨-, h1⟩ | ⟨h1, -⟩ <;> exact h.bypass h1) hi.nd he
  · exact evalNode_ind (P := All Verif.G.notFb) (fun g k _ h _ _ _ => all_free1 h k) (fun g k n e h _ _ _ => all_bypass h k e)
      hi.fb he
  · exact evalNode_ind (P := fun g => Acyclic (Feeds g)) (fun g k _ h _ _ _ => acyclic_free1 h k)
      (fun g k n e h _ _ hc => by rcases hc with ⟨-, h1⟩ | ⟨h1, -⟩ <;> exact acyclic_bypass h h1)
      hi.ac he

theorem same_evalMany {s : Signals S} : ∀ (ks : List Key) {g g' : Graph}, Inv g → SumsOk g s →
    evalMany g ks = .ok g' → Inv g' ∧ Same s g g'
  | [], g, g', hi, h, he => by
    simp only [evalMany, Except.ok.injEq] at he
    subst he
    exact ⟨hi, .refl h⟩
  | k :: ks, g, g', hi, h, he => by
    unfold evalMany at he
    cases h1 : evalNode g k with
    | error e => simp [h1] at he
    | ok g1 =>
      simp only [h1, bind_ok] at he
      have h2 := same_evalNode hi h h1
      obtain ⟨h3, h4⟩ := same_evalMany ks (hi.evalNode h1) h2.sums he
      exact ⟨h3, h2.trans h4⟩

/-- The sink is not one of the math nodes the graph inserted (their ids are not given to the user). -/
def userSink (g : Graph) : NG → Prop
  | .node n => ∀ r, g.get n.key = some r → r.autoMath = false
  | .graph => True

/-- C06, disconnecting a sink: the named channel becomes silent, and the signal of every other sink of a
node that is not freed is unchanged.
What is missing: graphs with feedback connections (and the histories excluded by `Op.careful`). -/
theorem C06_sink_partial {sl} {g g' : Graph} (hr : CReach sl g) (ch : Nat) (sink : NG)
    (hu : userSink g sink) (h : (Op.disconnectSink ch sink).run sl g = .ok (g', .ok ()))
    (s : Signals S) (hs : SumsOk g s) :
    SumsOk g' s ∧ s.at (g'.dst sink ch) = 0 ∧
    (∀ (n : NodeId) i, g'.isPending n.key = false →
      (∀ m, sink = .node m → n.key = m.key → i ≠ ch) → s.at (g'.dst (.node n) i) = s.at (g.dst (.node n) i)) ∧
    (∀ i, (sink = .graph → i ≠ ch) → s.at (g'.dst .graph i) = s.at (g.dst .graph i)) := by
  have hi := hr.inv
  rcases disconnectSink_ok h with ⟨-, e, he⟩ |
    ⟨-, ⟨n, rec, es, g1, rfl, -, hrec, hes, hch, h1, rfl⟩ | ⟨rfl, hlen, h1⟩⟩
  · simp at he
  · -- a node input
    have hpn : g.isPending n.key = false := by
      cases hpp : g.isPending n.key with
      | false => rfl
      | true => rw [(hi.wf.live _ _ hrec).2 hpp] at hes; simp at hes
    unfold takeIn at h1
    split at h1
    · next ed hed =>
      cases h2 : setEdge g n.key ch none with
      | error e => simp [h2] at h1
      | ok g2 =>
        simp only [h2, bind_ok] at h1
        have hE := edge_setEdge h2
        have hp2 : ∀ j, g2.isPending j = g.isPending j := by
          intro j; rw [isPending_eq, pending_setEdge h2, isPending_eq]
        have hi2 : Inv g2 := by
          refine ⟨wf_setEdge hi.wf h2 (by simp), ?_, all_setEdge hi.fb h2, ?_⟩
          · refine hi.nd.of_sub (numIn_setEdge h2) ?_ ?_ ?_
            · intro a m hm hp
              obtain ⟨n', l1, l2⟩ := get_outputs_setEdge h2 a m hm
              exact ⟨n', l1, by rw [hp2]; exact hp, l2⟩
            · intro k i e l1
              rw [hE] at l1
              split at l1
              · simp at l1
              · exact .inr (.inl ⟨k, i, l1⟩)
            · intro i e l1
              simp only [Graph.out, outs_setEdge h2] at l1
              exact .inr ⟨i, l1⟩
          · refine hi.ac.mono ?_
            rintro a b ⟨j, e, l1, l2⟩
            rw [hE] at l1
            split at l1
            · simp at l1
            · exact ⟨j, e, l1, l2⟩
        have hs2 : SumsOk g2 s := by
          intro k m hm ha hp
          obtain ⟨m0, l1, l2⟩ := get_auto_setEdge' h2 k m hm
          have hne : k ≠ n.key := by
            intro e
            rw [e] at l1
            rw [l2, hu m0 l1] at ha
            simp at ha
          rw [hE, hE, if_neg (fun h => hne h.1), if_neg (fun h => hne h.1)]
          exact hs k m0 l1 (l2 ▸ ha) (by rw [← hp2]; exact hp)
        have hfin : Same s g2 g1 := by
          cases h3 : evalNode g2 n.key with
          | error e => simp [h3] at h1
          | ok g3 =>
            simp only [h3, bind_ok] at h1
            have hsame := same_evalNode hi2 hs2 h3
            split at h1
            · exact hsame.trans (same_evalNode (hi2.evalNode h3) hsame.sums h1)
            · simp only [pure_ok, Except.ok.injEq] at h1
              exact h1 ▸ hsame
        refine ⟨hfin.sums, ?_, ?_, ?_⟩
        · change s.at (g1.edge n.key ch) = 0
          cases hp1 : g1.isPending n.key with
          | false => rw [hfin.edge _ _ hp1, hE, if_pos ⟨rfl, rfl⟩]; rfl
          | true =>
            have hw1 : WF g1 := by
              refine wf_takeIn hi.wf (k := n.key) (ch := ch) (e := g.edge n.key ch) ?_
              rw [hed]
              unfold takeIn
              simp only [h2, bind_ok]
              exact h1
            obtain ⟨m, hm⟩ := Option.isSome_iff_exists.1 (hw1.pend _ hp1)
            have : g1.ins n.key = none := by rw [ins_eq, hm]; exact (hw1.live _ _ hm).2 hp1
            rw [edge_of_none this]; rfl
        · intro m i hp hne
          change s.at (g1.edge m.key i) = s.at (g.edge m.key i)
          rw [hfin.edge _ _ hp, hE, if_neg (fun h => hne n rfl h.1 h.2)]
        · intro i _
          change s.at (g1.out i) = s.at (g.out i)
          rw [hfin.out]
          simp only [Graph.out, outs_setEdge h2]
    · next hed =>
      simp only [pure_ok, Except.ok.injEq] at h1
      subst h1
      refine ⟨hs, ?_, fun _ _ _ _ => rfl, fun _ _ => rfl⟩
      change s.at (g.edge n.key ch) = 0
      rw [hed]; rfl
  · -- a graph output
    unfold takeOut at h1
    split at h1
    · next ed hed =>
      cases h2 : setOut g ch none with
      | error e => simp [h2] at h1
      | ok g2 =>
        simp only [h2, bind_ok] at h1
        have ho := fun i => out_setOut h2 i
        have hi2 : Inv g2 := by
          obtain ⟨-, rfl⟩ := setOut_ok h2
          refine ⟨wf_setOut hi.wf h2 (by simp), ?_, hi.fb, hi.ac⟩
          refine hi.nd.of_sub rfl (fun a n hn hp => ⟨n, hn, hp, rfl⟩)
            (fun k i e h1 => .inr (.inl ⟨k, i, h1⟩)) ?_
          intro i e l1
          rw [ho] at l1
          split at l1
          · simp at l1
          · exact .inr ⟨i, l1⟩
        have hE : ∀ k i, g2.edge k i = g.edge k i := by
          obtain ⟨-, rfl⟩ := setOut_ok h2; exact fun _ _ => rfl
        have hs2 : SumsOk g2 s := by
          obtain ⟨-, rfl⟩ := setOut_ok h2; exact hs
        have hfin : Same s g2 g' := by
          split at h1
          · exact same_evalNode hi2 hs2 h1
          · simp only [pure_ok, Except.ok.injEq] at h1
            exact h1 ▸ .refl hs2
        refine ⟨hfin.sums, ?_, ?_, ?_⟩
        · change s.at (g'.out ch) = 0
          rw [hfin.out, ho, if_pos rfl]; rfl
        · intro m i hp _
          change s.at (g'.edge m.key i) = s.at (g.edge m.key i)
          rw [hfin.edge _ _ hp, hE]
        · intro i hne
          change s.at (g'.out i) = s.at (g.out i)
          rw [hfin.out, ho, if_neg (hne rfl)]
    · next hed =>
      simp only [pure_ok, Except.ok.injEq] at h1
      subst h1
      refine ⟨hs, ?_, fun _ _ _ _ => rfl, fun _ _ => rfl⟩
      change s.at (g.out ch) = 0
      rw [hed]; rfl

/-- The signals with one output channel silenced. -/
def Signals.mute (s : Signals S) (k : Key) (c : Nat) : Signals S :=
  ⟨fun j d => if j = k ∧ d = c then 0 else s.v j d, s.gin⟩

/-- C06, disconnecting a source channel of a node: every sink afterwards carries the signal it would
carry before if the named channel were silent, so exactly that contribution is gone, also from sums;
and every connection from elsewhere is untouched.
What is missing: the same call for a graph input, see `C06_graph_source_violated`. -/
theorem C06_source_partial {sl} {g g' : Graph} (n : NodeId) (ch : Nat)
    (h : (Op.disconnectSource (.node n) ch).run sl g = .ok (g', .ok ())) :
    (∀ sink i (s : Signals S), s.at (g'.dst sink i) = (s.mute n.key ch).at (g.dst sink i)) ∧
    (∀ sink i e, g.dst sink i = some e → ¬ (e.source = .node n.key ∧ e.chan = ch) →
      g'.dst sink i = some e) ∧
    ((∀ r, g.get n.key = some r → r.autoMath = false) →
      ∀ s : Signals S, SumsOk g' s ↔ SumsOk g (s.mute n.key ch)) := by
  simp only [Op.run] at h
  rcases disconnectSource_ok h with ⟨-, e, he⟩ |
    ⟨-, ⟨m, rec, hm, -, hrec, -, rfl⟩ | ⟨g1, hm, -⟩⟩
  · simp at he
  · cases hm
    have hx : ∀ (s : Signals S) o, s.at (dropExact (.node n.key) ch o) = (s.mute n.key ch).at o := by
      intro s o
      cases o with
      | none => rfl
      | some e =>
        obtain ⟨src, c, f⟩ := e
        cases src with
        | graph => simp [dropExact, Signals.at, Signals.mute, Signals.src]
        | node a =>
          by_cases hc : a = n.key ∧ c = ch
          · obtain ⟨rfl, rfl⟩ := hc
            simp [dropExact, Signals.at, Signals.mute, Signals.src]
          · have hc' : ¬ (c = ch ∧ Src.node n.key = Src.node a) := by
              rintro ⟨h1, h2⟩
              simp only [Src.node.injEq] at h2
              exact hc ⟨h2.symm, h1⟩
            simp only [dropExact, hc', if_false, Signals.at, Signals.src, Signals.mute, hc]
    have hy : ∀ o e, o = some e → ¬ (e.source = .node n.key ∧ e.chan = ch) →
        dropExact (.node n.key) ch o = some e := by
      rintro o e rfl hne
      have : ¬ (e.chan = ch ∧ Src.node n.key = e.source) := fun h => hne ⟨h.2.symm, h.1⟩
      simp [dropExact, this]
    refine ⟨?_, ?_, ?_⟩
    · intro sink i s
      cases sink with
      | node m => simp only [Graph.dst, dropAll_edge]; exact hx s _
      | graph => simp only [Graph.dst, dropAll_out]; exact hx s _
    · intro sink i e he hne
      cases sink with
      | node m => simp only [Graph.dst, dropAll_edge] at he ⊢; exact hy _ _ he hne
      | graph => simp only [Graph.dst, dropAll_out] at he ⊢; exact hy _ _ he hne
    · intro hna s
      have hp : ∀ k, (dropAll g (.node n.key) ch).isPending k = g.isPending k := fun _ => rfl
      have key : ∀ k, (s.mute n.key ch).v k 0 = s.v k 0 ∨ k = n.key := by
        intro k
        by_cases hk : k = n.key
        · exact .inr hk
        · left; simp [Signals.mute, hk]
      constructor
      · intro h k r hr ha hpk
        have hne : k ≠ n.key := by
          rintro rfl
          rw [hna r hr] at ha; simp at ha
        have h1 := h k { r with ins := r.ins.map (·.map (dropExact (.node n.key) ch)) }
          (by rw [dropAll_get, hr]; rfl) ha hpk
        rw [dropAll_edge, dropAll_edge, hx, hx] at h1
        rcases key k with hk | hk
        · rw [hk]; exact h1
        · exact absurd hk hne
      · intro h k r hr ha hpk
        rw [dropAll_get] at hr
        cases h2 : g.get k with
        | none => simp [h2] at hr
        | some r0 =>
          simp only [h2, Option.map_some, Option.some.injEq] at hr
          subst hr
          have hne : k ≠ n.key := by
            rintro rfl
            have hq := hna r0 h2
            simp only at ha
            rw [hq] at ha; simp at ha
          rw [dropAll_edge, dropAll_edge, hx, hx]
          rcases key k with hk | hk
          · rw [← hk]; exact h k r0 h2 ha hpk
          · exact absurd hk hne
  · simp at hm

/-- C06 is violated for graph inputs: disconnecting graph input 0 removes the connection of node 0 to
graph output 0. -/
theorem C06_graph_source_violated : ∃ g g' : Graph, Reach id g ∧
    g.dst .graph 0 = some ⟨.node 0, 0, false⟩ ∧
    (Op.disconnectSource .graph 0).run id g = .ok (g', .ok ()) ∧ g'.dst .graph 0 = none := by
  refine ⟨_, _, reach_runOps [.push 1 1 [], .connect (.node (nd 0)) 0 0 .graph true false]
    (Reach.init 0 1 1) (rs := [.ok (), .ok ()]) rfl, ?_, rfl, ?_⟩ <;> decide

/-- The clean-up at commit (bypassing math nodes that lost an input, dropping freed nodes) keeps the
signal of every sink of a node that stays in the graph. `removeMe` empty: no node asked to be removed. -/
theorem C06_commit_partial {sl} {g g' : Graph} (hr : CReach sl g) (fs : Nat → Bool)
    (h : (Op.commit (fun _ => false) fs).run sl g = .ok (g', .ok ()))
    (s : Signals S) (hs : SumsOk g s) :
    SumsOk g' s ∧
    (∀ k i, (g'.get k).isSome → g'.isPending k = false → s.at (g'.edge k i) = s.at (g.edge k i)) ∧
    (∀ i, s.at (g'.out i) = s.at (g.out i)) := by
  simp only [Op.run] at h
  cases h1 : commitEdits (fun _ => false) fs g with
  | error e => simp [h1] at h
  | ok g1 =>
    simp only [h1, bind_ok, Except.ok.injEq, Prod.mk.injEq, and_true] at h
    subst h
    unfold commitEdits at h1
    cases h2 : freeOld (fun _ => false) fs g with
    | error e => simp [h2] at h1
    | ok g2 =>
      simp only [h2, bind_ok, pure_ok, Except.ok.injEq] at h1
      have goal : SumsOk g2 s ∧
          (∀ k i, (g2.get k).isSome → g2.isPending k = false →
            s.at (g2.edge k i) = s.at (g.edge k i)) ∧
          (∀ i, s.at (g2.out i) = s.at (g.out i)) := by
        obtain ⟨g3, h3, rfl⟩ := freeOld_ok h2
        have hnil : ((g.nodes.map Prod.fst).filter fun _ => false) = [] := by simp
        rw [hnil] at h3
        obtain ⟨hi3, hsame⟩ := same_evalMany _ hr.inv hs h3
        have key : ∀ k n, (dropFlagged fs g3).get k = some n →
            (dropFlagged fs g3).isPending k = false →
            g3.get k = some n ∧ g3.isPending k = false ∧ k ∉ goneKeys fs g3 := by
          intro k n hn hp
          rw [get_dropFlagged] at hn
          split at hn
          · simp at hn
          next hgone =>
          refine ⟨hn, ?_, hgone⟩
          rw [Bool.eq_false_iff] at hp ⊢
          intro hc
          apply hp
          rw [isPending_iff] at hc ⊢
          rw [List.mem_map] at hc ⊢
          obtain ⟨x, hx, rfl⟩ := hc
          refine ⟨x, ?_, rfl⟩
          simp only [dropFlagged, List.mem_filter, hx, true_and]
          by_contra hcc
          apply hgone
          unfold goneKeys
          rw [List.mem_map]
          exact ⟨x, by simp only [List.mem_filter, hx, true_and]; simpa using hcc, rfl⟩
        refine ⟨?_, ?_, fun i => hsame.out i⟩
        · intro k n hn hm hp
          obtain ⟨a, b, c⟩ := key k n hn hp
          rw [edge_dropFlagged, edge_dropFlagged, if_neg c, if_neg c]
          exact hsame.sums k n a hm b
        · intro k i hk hp
          obtain ⟨n, hn⟩ := Option.isSome_iff_exists.1 hk
          obtain ⟨a, b, c⟩ := key k n hn hp
          rw [edge_dropFlagged, if_neg c]
          exact hsame.edge k i b
      split at h1 <;> subst h1 <;> exact goal

/-- The hypotheses of the C06 theorems hold for a sum at the input of node 2: a history building it,
and the three calls on it. -/
example : (∃ g, CReach id g ∧ g = { sumGraph with outs := [] }) ∧ userSink sumGraph (.node (nd 2)) ∧
    (∃ g', (Op.disconnectSink 0 (.node (nd 2))).run id sumGraph = .ok (g', .ok ())) ∧
    (∃ g', (Op.disconnectSource (.node (nd 0)) 0).run id sumGraph = .ok (g', .ok ()) ∧
      g'.edge 3 0 = none ∧ g'.edge 3 1 = some ⟨.node 1, 0, false⟩) ∧
    (∃ g g', (Op.disconnectSource (.node (nd 0)) 0).run id { sumGraph with outs := [] } =
      .ok (g, .ok ()) ∧ (Op.commit (fun _ => false) (fun _ => false)).run id g = .ok (g', .ok ()) ∧
      g'.edge 2 0 = some ⟨.node 1, 0, false⟩) := by
  refine ⟨?_, ?_, ⟨_, rfl⟩, ⟨_, rfl, by decide, by decide⟩, _, _, rfl, rfl, by decide⟩
  · have h0 := CReach.init (sl := id) 0 0 0
    have h1 := h0.step (.push 1 1 []) trivial rfl
    have h2 := h1.step (.push 1 1 []) trivial rfl
    have h3 := h2.step (.push 1 1 []) trivial rfl
    have h4 := h3.step (.connect (.node (nd 0)) 0 0 (.node (nd 2)) true false)
      ⟨rfl, by intro n _; rfl⟩ rfl
    have h5 := h4.step (.connect (.node (nd 1)) 0 0 (.node (nd 2)) true false)
      ⟨rfl, by intro n _; rfl⟩ rfl
    exact ⟨_, h5, by decide⟩
  · intro r hr
    cases hr
    rfl

end Verif.G
