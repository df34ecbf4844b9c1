import Verif.Model.DotPorts
import Verif.Props.Inspect
import Verif.Props.Memory

/-!
# C109: the arrows in the drawing of a graph start and end at ports that are drawn
-/

namespace Verif.In

open Verif.G

/-- The channel of the inspected graph that a port stands for. -/
def Stands (v : Insp) : Port → Prop
  | .graphIn i => i < v.numIn
  | .graphOut i => i < v.numOut
  | .nodeIn j i => ∃ n, v.nodes[j]? = some n ∧ i < n.inputs
  | .nodeOut j i => ∃ n, v.nodes[j]? = some n ∧ i < n.outputs

theorem row {m : Nat} {f : Nat → Port} {p : Port} :
    p ∈ (if 0 < m then (List.range m).map f else []) ↔ ∃ i < m, f i = p := by
  split
  · simp
  · next h =>
    simp only [List.not_mem_nil, false_iff, not_exists, not_and]
    intro i hi
    omega

/-- **C109.**  A port is drawn for every channel of the graph and of its nodes, and for nothing else. -/
theorem C109_ports (v : Insp) (p : Port) : p ∈ dotPorts v ↔ Stands v p := by
  simp only [dotPorts, outBox, inBox, nodeBox, List.mem_append, row, List.mem_flatMap, Prod.exists,
    List.mk_mem_zipIdx_iff_getElem?]
  cases p <;> simp [Stands]

theorem row_nodup {m : Nat} {f : Nat → Port} (hf : ∀ a b, f a = f b → a = b) :
    (if 0 < m then (List.range m).map f else []).Nodup := by
  split
  · exact List.Nodup.map (fun a b h => hf a b h) List.nodup_range
  · exact List.nodup_nil

/-- **C109.**  No port is drawn twice, so that a name of a port means one channel. -/
theorem C109_once (v : Insp) : (dotPorts v).Nodup := by
  have hbox : ∀ p : NodeI × Nat, (nodeBox p).Nodup := by
    intro p
    refine List.nodup_append.2 ⟨row_nodup (by simp), row_nodup (by simp), ?_⟩
    rintro a ha b hb rfl
    obtain ⟨i, -, rfl⟩ := row.1 ha
    obtain ⟨i', -, h⟩ := row.1 hb
    simp at h
  have hin : ∀ (ns : List NodeI) (m : Nat) (p : Port), p ∈ (ns.zipIdx m).flatMap nodeBox →
      ∃ j i, m ≤ j ∧ (p = .nodeIn j i ∨ p = .nodeOut j i) := by
    intro ns m p hp
    obtain ⟨q, hq, hp⟩ := List.mem_flatMap.1 hp
    have := List.le_snd_of_mem_zipIdx hq
    rcases List.mem_append.1 hp with h | h
    · obtain ⟨i, -, rfl⟩ := row.1 h
      exact ⟨_, i, this, .inl rfl⟩
    · obtain ⟨i, -, rfl⟩ := row.1 h
      exact ⟨_, i, this, .inr rfl⟩
  have hnodes : ∀ (ns : List NodeI) (m : Nat), ((ns.zipIdx m).flatMap nodeBox).Nodup := by
    intro ns
    induction ns with
    | nil => simp
    | cons n ns ih =>
      intro m
      rw [List.zipIdx_cons, List.flatMap_cons]
      refine List.nodup_append.2 ⟨hbox _, ih _, ?_⟩
      rintro a ha b hb rfl
      obtain ⟨j, i, hj, h⟩ := hin ns (m + 1) a hb
      rcases List.mem_append.1 ha with h' | h' <;> obtain ⟨i', -, rfl⟩ := row.1 h' <;>
        simp at h <;> omega
  refine List.nodup_append.2 ⟨row_nodup (by simp), List.nodup_append.2 ⟨row_nodup (by simp), hnodes _ _, ?_⟩, ?_⟩
  · rintro a ha b hb rfl
    obtain ⟨i, -, rfl⟩ := row.1 ha
    obtain ⟨j, i', -, h⟩ := hin _ _ _ hb
    simp at h
  · rintro a ha b hb rfl
    obtain ⟨i, -, rfl⟩ := row.1 ha
    rcases List.mem_append.1 hb with hb | hb
    · obtain ⟨i', -, h⟩ := row.1 hb
      simp at h
    · obtain ⟨j, i', -, h⟩ := hin _ _ _ hb
      simp at h

theorem nodeEdges_mem {es : List (Option Edge)} {x : EdgeI} (h : x ∈ nodeEdges es) :
    x.to' < es.length ∧ ∃ (i : Nat) (fb : Bool), es[i]? = some (some (⟨x.source, x.from', fb⟩ : Edge)) := by
  simp only [nodeEdges, List.mem_filterMap, Prod.exists, Option.map_eq_some_iff] at h
  obtain ⟨o, i, hi, e, rfl, rfl⟩ := h
  have h1 := List.mk_mem_zipIdx_iff_getElem?.1 hi
  have h2 : i < es.length := (List.getElem?_eq_some_iff.1 h1).1
  exact ⟨Nat.lt_of_le_of_lt (Nat.mod_le _ _) h2, i, e.fb, h1⟩

theorem outEdges_mem {es : List (Option Edge)} {x : EdgeI} (h : x ∈ outEdges es) :
    x.to' < es.length ∧ ∃ (i : Nat) (fb : Bool), es[i]? = some (some (⟨x.source, x.from', fb⟩ : Edge)) := by
  simp only [outEdges, List.mem_filterMap, Prod.exists, Option.map_eq_some_iff] at h
  obtain ⟨o, i, hi, e, rfl, rfl⟩ := h
  have h1 := List.mk_mem_zipIdx_iff_getElem?.1 hi
  have h2 : i < es.length := (List.getElem?_eq_some_iff.1 h1).1
  exact ⟨Nat.lt_of_le_of_lt (Nat.mod_le _ _) h2, i, e.fb, h1⟩

/-- Where the arrows come from: each is an audio connection of a node that is shown, or of a graph output. -/
theorem arrow_from {sl bs} {s : IS} (h : Reaches sl bs s) {v : Insp} (hv : inspect s.g s.order s.disc = .ok v)
    {a : Port × Port} (ha : a ∈ dotArrows v) : Stands v a.2 ∧
      ∃ d e, a.1 = startPort d e.chan ∧ EndIs v d e.source ∧
        ((∃ k i, s.g.edge k i = some e) ∨ ∃ i, s.g.out i = some e) := by
  obtain ⟨ns, h1, h2, h3⟩ := inspectNodes_ok (disc := s.disc) s.order h.inv.here
  simp only [inspect, h1, bind_ok, Except.ok.injEq] at hv
  subst hv
  have hn : (ns.map NodeI.key).Nodup := h2 ▸ h.inv.nodup
  simp only [dotArrows, dotEdges, List.mem_map, List.mem_append, List.mem_flatMap, List.mem_filterMap,
    Option.map_eq_some_iff, Prod.exists, List.mk_mem_zipIdx_iff_getElem?] at ha
  obtain ⟨d, ch, d', i, hm, rfl⟩ := ha
  rcases hm with ⟨n, j, hj, x, hx, s', hs, he⟩ | ⟨x, hx, s', hs, he⟩
  · simp only [Prod.mk.injEq] at he
    obtain ⟨rfl, rfl, rfl, rfl⟩ := he
    obtain ⟨r, g1, g2, g3, g4, -⟩ := h3 n (List.mem_of_getElem? hj)
    rw [g4] at hx
    obtain ⟨k1, i, fb, k2⟩ := nodeEdges_mem hx
    cases hes : s.g.ins n.key with
    | none => rw [hes] at k1; simp at k1
    | some es =>
      rw [hes] at k1 k2
      have hlen : es.length = r.inputs :=
        h.inv.wf.len n.key r es g1 (by rw [ins_eq, g1] at hes; exact hes)
      refine ⟨⟨n, hj, by rw [g2, ← hlen]; exact k1⟩, s', ⟨x.source, x.from', fb⟩, rfl,
        (dotSource_iff hn).1 hs, .inl ⟨n.key, i, ?_⟩⟩
      rw [edge_of_ins hes]
      exact Option.join_eq_some_iff.2 k2
  · simp only [Prod.mk.injEq] at he
    obtain ⟨rfl, rfl, rfl, rfl⟩ := he
    obtain ⟨k1, i, fb, k2⟩ := outEdges_mem hx
    exact ⟨k1, s', ⟨x.source, x.from', fb⟩, rfl, (dotSource_iff hn).1 hs, .inr ⟨i, Option.join_eq_some_iff.2 k2⟩⟩

/-- **C109.**  Every arrow ends at a port that is drawn, in every state of the graph, also between an edit and
its commit. -/
theorem C109_ends {sl bs} {s : IS} (h : Reaches sl bs s) {v : Insp} (hv : inspect s.g s.order s.disc = .ok v)
    {a : Port × Port} (ha : a ∈ dotArrows v) : a.2 ∈ dotPorts v :=
  (C109_ports v _).2 (arrow_from h hv ha).1

/-- **C109.**  Every arrow starts at a port that is drawn if every connection starts at a channel its source
has.  Missing for the full claim: feedback connections (`C109_feedback_violated`). -/
theorem C109_starts_partial {sl bs} {s : IS} (h : Reaches sl bs s) (hd : NoDangle s.g) {v : Insp}
    (hv : inspect s.g s.order s.disc = .ok v) {a : Port × Port} (ha : a ∈ dotArrows v) : a.1 ∈ dotPorts v := by
  obtain ⟨-, d, e, h1, h2, h3⟩ := arrow_from h hv ha
  have hok : SrcOk s.g e := by
    rcases h3 with ⟨k, i, h⟩ | ⟨i, h⟩
    · exact hd.1 _ _ _ h
    · exact hd.2 _ _ h
  obtain ⟨ns, g1, g2, g3⟩ := inspectNodes_ok (disc := s.disc) s.order h.inv.here
  simp only [inspect, g1, bind_ok, Except.ok.injEq] at hv
  subst hv
  rw [C109_ports, h1]
  cases hs : e.source with
  | graph =>
    rw [hs] at h2
    simp only [EndIs] at h2
    subst h2
    exact hok.2 hs
  | node k =>
    rw [hs] at h2
    obtain ⟨j, n, rfl, hj, hk⟩ := h2
    obtain ⟨r, r1, -, r3⟩ := hok.1 k hs
    obtain ⟨r', q1, -, q3, -⟩ := g3 n (List.mem_of_getElem? hj)
    rw [hk, r1] at q1
    simp only [Option.some.injEq] at q1
    subst q1
    exact ⟨n, hj, by rw [q3]; exact r3⟩

/-- The port is the one of output `ch` of `src`. -/
def OutPort (v : Insp) (src : Src) (ch : Nat) : Port → Prop
  | .graphIn i => src = .graph ∧ i = ch
  | .nodeOut j i => i = ch ∧ ∃ n, v.nodes[j]? = some n ∧ src = .node n.key
  | _ => False

theorem outPort_iff {v : Insp} {src : Src} {ch : Nat} {p : Port} :
    OutPort v src ch p ↔ ∃ d, EndIs v d src ∧ startPort d ch = p := by
  constructor
  · intro h
    cases p with
    | graphIn i => exact ⟨none, by rw [h.1]; rfl, by rw [h.2]; rfl⟩
    | nodeOut j i =>
      obtain ⟨rfl, n, hn, rfl⟩ := h
      exact ⟨some j, ⟨j, n, rfl, hn, rfl⟩, rfl⟩
    | graphOut i => exact h.elim
    | nodeIn j i => exact h.elim
  · rintro ⟨d, hd, rfl⟩
    cases src with
    | graph =>
      simp only [EndIs] at hd
      subst hd
      exact ⟨rfl, rfl⟩
    | node k =>
      obtain ⟨j, n, rfl, hj, rfl⟩ := hd
      exact ⟨rfl, n, hj, rfl⟩

/-- **C109.**  If the inspection shows the graph, the arrows are exactly the audio connections from nodes that
are shown: from the port of the output to the port of the input. -/
theorem C109_arrows {g : Graph} {v : Insp} (h : Shows g v) (p q : Port) : (p, q) ∈ dotArrows v ↔
    ∃ src ch fb i, OutPort v src ch p ∧
      ((∃ j n, q = .nodeIn j i ∧ v.nodes[j]? = some n ∧ g.edge n.key i = some ⟨src, ch, fb⟩) ∨
        (q = .graphOut i ∧ g.out i = some ⟨src, ch, fb⟩)) := by
  simp only [dotArrows, List.mem_map, Prod.exists, Prod.mk.injEq]
  constructor
  · rintro ⟨d, ch, d', i, hm, rfl, rfl⟩
    cases d' with
    | none =>
      obtain ⟨src, fb, h1, h2⟩ := (C69_dot_outs h d ch i).1 hm
      exact ⟨src, ch, fb, i, outPort_iff.2 ⟨d, h2, rfl⟩, .inr ⟨rfl, h1⟩⟩
    | some j =>
      obtain ⟨n, src, fb, h0, h1, h2⟩ := (C69_dot_nodes h d ch j i).1 hm
      exact ⟨src, ch, fb, i, outPort_iff.2 ⟨d, h2, rfl⟩, .inl ⟨j, n, rfl, h0, h1⟩⟩
  · rintro ⟨src, ch, fb, i, hp, hq⟩
    obtain ⟨d, hd, rfl⟩ := outPort_iff.1 hp
    rcases hq with ⟨j, n, rfl, h0, h1⟩ | ⟨rfl, h1⟩
    · exact ⟨d, ch, some j, i, (C69_dot_nodes h d ch j i).2 ⟨n, src, fb, h0, h1, hd⟩, rfl, rfl⟩
    · exact ⟨d, ch, none, i, (C69_dot_outs h d ch i).2 ⟨src, fb, h1, hd⟩, rfl, rfl⟩

/-- `NoDangle` as a test. -/
def noDangle (g : Graph) : Bool :=
  (g.nodes.all fun p => (p.2.ins.getD []).all fun o => o.all (Mm.srcOk g)) && g.outs.all fun o => o.all (Mm.srcOk g)

theorem noDangle_of {g : Graph} (h : noDangle g = true) : NoDangle g := by
  simp only [noDangle, Bool.and_eq_true, List.all_eq_true] at h
  constructor
  · intro k i e he
    rw [edge_eq] at he
    cases hes : g.ins k with
    | none => rw [hes] at he; simp at he
    | some es =>
      rw [hes] at he
      have he' : es[i]? = some (some e) := by simpa [Option.join_eq_some_iff] using he
      rw [ins_eq] at hes
      cases hg : g.get k with
      | none => rw [hg] at hes; simp at hes
      | some n =>
        rw [hg] at hes
        have hes' : n.ins = some es := hes
        have := h.1 (k, n) (mem_of_get hg) (some e) (by rw [hes']; exact List.mem_of_getElem? he')
        exact Mm.srcOk_iff this
  · intro i e he
    have he' : g.outs[i]? = some (some e) := by simpa [Graph.out, Option.join_eq_some_iff] using he
    exact Mm.srcOk_iff (h.2 (some e) (List.mem_of_getElem? he'))

/-- The hypotheses hold for the graph of `demo`, and its drawing has arrows. -/
example : Reaches id 4 (after (demo ++ [commitS])) ∧ NoDangle (after (demo ++ [commitS])).g ∧
    ∃ v, inspect (after (demo ++ [commitS])).g (after (demo ++ [commitS])).order (after (demo ++ [commitS])).disc = .ok v ∧
      dotArrows v = [(.nodeOut 0 0, .nodeIn 2 0), (.nodeOut 1 0, .nodeIn 2 1), (.nodeOut 2 0, .nodeIn 3 0),
        (.nodeOut 3 0, .graphOut 0), (.nodeOut 3 0, .graphOut 1)] := by
  refine ⟨reach_after demo_legal (by decide +kernel), noDangle_of (by decide +kernel), _, rfl, by decide +kernel⟩

/-- **C109 is violated** by feedback connections: the node that writes the feedback has no outputs, so no port
is drawn, and still an arrow starts at its output 0. -/
theorem C109_feedback_violated : ∃ s : IS, Reaches id 4 s ∧ s.g.recalc = false ∧
    ∃ v, inspect s.g s.order s.disc = .ok v ∧ ∃ a ∈ dotArrows v, a.1 = .nodeOut 3 0 ∧ a.1 ∉ dotPorts v := by
  refine ⟨after [pushS 1 1, pushS 0 1, outS 0 0, wireS 1 0 true, commitS],
    reach_after (by simp [commitS, pushS, outS, wireS, Step.legal]) (by decide +kernel), by decide +kernel, ?_⟩
  exact ⟨⟨[⟨0, 1, 1, [⟨.node 3, 0, 0, false⟩], false⟩, ⟨1, 0, 1, [], true⟩, ⟨2, 1, 0, [⟨.node 1, 0, 0, false⟩], true⟩,
    ⟨3, 1, 0, [], true⟩], [⟨.node 0, 0, 0, false⟩], 1, 2, 3⟩, by decide +kernel, (.nodeOut 3 0, .nodeIn 0 0),
    by decide +kernel, rfl, by decide +kernel⟩

end Verif.In
