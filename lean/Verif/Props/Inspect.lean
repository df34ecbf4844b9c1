import Verif.Lemmas.Inspect
import Verif.Props.Dataflow

/-!
# C69: the inspection of a graph shows the graph
-/

namespace Verif.In

open Verif.G
open Relation (ReflTransGen)

/-- The number of channels fits into a `u16`, as the types of the code guarantee. -/
def Small (g : Graph) : Prop := (∀ k r, g.get k = some r → r.inputs ≤ U16) ∧ g.outs.length ≤ U16

/-- What an inspection of the graph `g` has to say: all nodes, each once, with their channels, and all audio
connections. -/
structure Shows (g : Graph) (v : Insp) : Prop where
  nodes : ∀ k, (∃ n ∈ v.nodes, n.key = k) ↔ Live g k
  once : (v.nodes.map NodeI.key).Nodup
  size : ∀ n ∈ v.nodes, ∃ r, g.get n.key = some r ∧ n.inputs = r.inputs ∧ n.outputs = r.outputs
  wires : ∀ n ∈ v.nodes, ∀ (i ch : Nat) (src : Src),
    (∃ fb, (⟨src, ch, i, fb⟩ : EdgeI) ∈ n.edges) ↔ ∃ fb, g.edge n.key i = some ⟨src, ch, fb⟩
  outs : ∀ (i ch : Nat) (src : Src) (fb : Bool),
    (⟨src, ch, i, fb⟩ : EdgeI) ∈ v.outs ↔ g.out i = some ⟨src, ch, fb⟩
  counts : v.numIn = g.numIn ∧ v.numOut = g.outs.length

/-- **C69.**  Asking for an inspection never panics, whatever was edited, committed and dropped before, and
also between an edit and its commit. -/
theorem C69_no_panic {sl bs} {s : IS} (h : Reaches sl bs s) : ∃ v, inspect s.g s.order s.disc = .ok v := by
  obtain ⟨ns, h1, -⟩ := inspectNodes_ok (disc := s.disc) s.order h.inv.here
  exact ⟨_, by simp only [inspect, h1, bind_ok]; rfl⟩

/-- **C69.**  When nothing waits to be committed, the inspection shows exactly the nodes of the graph, each
once, and exactly its audio connections.  Missing for the full claim: connections to parameters, the mark of
feedback connections, the `unconnected` mark (`C69_unconnected_partial`), and edits that were not committed. -/
theorem C69_partial {sl bs} {s : IS} (h : Reaches sl bs s) (hr : s.g.recalc = false) (hs : Small s.g) :
    ∃ v, inspect s.g s.order s.disc = .ok v ∧ Shows s.g v := by
  have hi := h.inv
  obtain ⟨ns, h1, h2, h3⟩ := inspectNodes_ok (disc := s.disc) s.order hi.here
  refine ⟨_, by simp only [inspect, h1, bind_ok]; rfl, ?_⟩
  have hlive : ∀ k, (∃ n ∈ ns, n.key = k) ↔ Live s.g k := by
    intro k
    rw [← hi.exact' hr k, ← h2]
    simp
  refine ⟨hlive, h2 ▸ hi.nodup, ?_, ?_, ?_, rfl, rfl⟩
  · intro n hn
    obtain ⟨r, a, b, c, -⟩ := h3 n hn
    exact ⟨r, a, b, c⟩
  · intro n hn i ch src
    obtain ⟨r, a, b, c, d, -⟩ := h3 n hn
    obtain ⟨es, hes⟩ := Option.isSome_iff_exists.1 ((live_iff_ins hi.wf n.key).1 ((hlive _).1 ⟨n, hn, rfl⟩))
    have hlen : es.length ≤ U16 := by
      rw [hi.wf.len n.key r es a (by rw [ins_eq, a] at hes; exact hes)]
      exact hs.1 _ _ a
    rw [d, hes]
    simp only [Option.getD_some, mem_nodeEdges hlen, edge_of_ins hes]
    constructor
    · rintro ⟨fb, -, fb', h⟩
      exact ⟨fb', by rw [h]; rfl⟩
    · rintro ⟨fb, h⟩
      exact ⟨false, rfl, fb, Option.join_eq_some_iff.1 h⟩
  · intro i ch src fb
    rw [mem_outEdges hs.2]
    simp only [Graph.out]
    exact Option.join_eq_some_iff.symm

/-- Right after a commit nothing waits. -/
theorem C69_after_commit {sl bs} {s s' : IS} {rm room} (h : Reaches sl bs s)
    (hc : (Step.commit rm room).run sl bs s = .ok s') : Reaches sl bs s' ∧ s'.g.recalc = false := by
  refine ⟨.step (.commit rm room) h trivial hc, ?_⟩
  simp only [Step.run] at hc
  obtain ⟨g1, h1, hc⟩ := Sys.bind_inv hc
  obtain ⟨⟨g, a, sch⟩, h2, hc⟩ := Sys.bind_inv hc
  obtain ⟨g1', h1', h3⟩ := commitFull_ok h2
  rcases h3 with ⟨h3, rfl, rfl⟩ | ⟨h3, rfl, h4⟩
  · simp only [Except.ok.injEq] at hc
    subst hc
    exact h3
  · cases sch with
    | none => simp at h4
    | some sch =>
      obtain ⟨⟨order, disc⟩, h5, hc⟩ := Sys.bind_inv hc
      simp only [Except.ok.injEq] at hc
      subst hc
      rfl

/-- **C69.**  The inspection determines the nodes and the audio connections: two graphs with the same
inspection have the same. -/
theorem C69_determines {g g' : Graph} {v : Insp} (hw : WF g) (hw' : WF g') (h : Shows g v) (h' : Shows g' v) :
    (∀ k, Live g k ↔ Live g' k) ∧
    (∀ k i src ch, (∃ fb, g.edge k i = some ⟨src, ch, fb⟩) ↔ ∃ fb, g'.edge k i = some ⟨src, ch, fb⟩) ∧
    (∀ i, g.out i = g'.out i) ∧ g.numIn = g'.numIn ∧ g.outs.length = g'.outs.length := by
  have hl : ∀ k, Live g k ↔ Live g' k := fun k => (h.nodes k).symm.trans (h'.nodes k)
  refine ⟨hl, ?_, ?_, h.counts.1.symm.trans h'.counts.1, h.counts.2.symm.trans h'.counts.2⟩
  · intro k i src ch
    by_cases hk : Live g k
    · obtain ⟨n, hn, rfl⟩ := (h.nodes k).2 hk
      exact (h.wires n hn i ch src).symm.trans (h'.wires n hn i ch src)
    · have h1 : g.ins k = none := by
        cases hc : g.ins k with
        | none => rfl
        | some es => exact absurd ((live_iff_ins hw k).2 (by simp [hc])) hk
      have h2 : g'.ins k = none := by
        cases hc : g'.ins k with
        | none => rfl
        | some es => exact absurd ((hl k).2 ((live_iff_ins hw' k).2 (by simp [hc]))) hk
      simp [edge_of_none h1, edge_of_none h2]
  · intro i
    ext e
    obtain ⟨src, ch, fb⟩ := e
    exact (h.outs i ch src fb).symm.trans (h'.outs i ch src fb)

/-! ### The `unconnected` mark -/

theorem disc_iff {g : Graph} (hw : WF g) {order disc : List Key} (hc : calcOrder g = .ok (order, disc))
    (hf : ∀ k i e, g.edge k i = some e → e.fb = false) {k : Key} (hk : k ∈ order) :
    k ∈ disc ↔ ¬ Heard g k := by
  have hlive := ((order_nodup_mem hw hc).2 k).1 hk
  obtain ⟨rs, vis, o, hrs, -, hd, ho, hrem⟩ := calcOrder_ok hc
  have hvis : k ∈ disc ↔ k ∉ vis := by
    rw [hrem]
    simp only [List.mem_filter, Bool.and_eq_true, decide_eq_true_eq, Bool.not_eq_true', hlive.2, and_true]
    constructor
    · exact fun h => h.2
    · exact fun h => ⟨(get_isSome _ _).1 hlive.1, h⟩
  rw [hvis, not_iff_not]
  have hclosed : ∀ a b, ReflTransGen (Dep g) a b → b ∈ vis → a ∈ vis := by
    intro a b hab
    induction hab using ReflTransGen.head_induction_on with
    | refl => exact fun h => h
    | head hd1 _ ih =>
      intro hb
      refine hd.closed _ ?_ _ hd1
      rcases (hd.vis _).1 (ih hb) with h | h
      · exact h
      · simp at h
  constructor
  · intro hk
    obtain ⟨root, hroot, hp⟩ := hd.heard _ hk
    exact ⟨root, (roots_inv hrs).1 root hroot, hp⟩
  · rintro ⟨out, hout, hp⟩
    refine hclosed _ _ hp ?_
    obtain ⟨root, hroot, hf2⟩ := (rootsLoop_covers hw.nodup _ _ _ hrs).2 out (mem_outs_iff.2 hout)
    refine hclosed _ _ ?_ (hd.root root hroot)
    refine Relation.ReflTransGen.mono (r := Feeds g) (fun a b => ?_) _ _ hf2
    rintro ⟨i, e, he, hsrc⟩
    exact .inl ⟨i, e, he, hsrc, hf _ _ _ he⟩

/-- **C69.**  After a commit that made a new schedule (a new flag is in use) a node is marked unconnected
exactly if no graph output depends on it.  Missing: commits that make no new schedule although the graph
changed (`C69_unconnected_violated`) and graphs with feedback. -/
theorem C69_unconnected_partial {sl bs} {s s' : IS} {rm room} (h : Reaches sl bs s)
    (hc : (Step.commit rm room).run sl bs s = .ok s') (hnew : s'.g.flag ≠ s.g.flag)
    (hf : ∀ k i e, s'.g.edge k i = some e → e.fb = false) {v : Insp}
    (hv : inspect s'.g s'.order s'.disc = .ok v) {n : NodeI} (hn : n ∈ v.nodes) :
    n.unconnected = true ↔ ¬ Heard s'.g n.key := by
  have h' : Reaches sl bs s' := (C69_after_commit h hc).1
  obtain ⟨ns, h1, h2, h3⟩ := inspectNodes_ok (disc := s'.disc) s'.order h'.inv.here
  have hv2 : v.nodes = ns := by
    simp only [inspect, h1, bind_ok, Except.ok.injEq] at hv
    rw [← hv]
  rw [hv2] at hn
  obtain ⟨r, hr, -, -, -, h4⟩ := h3 n hn
  rw [h4]
  have hmem : n.key ∈ s'.order := by rw [← h2]; exact List.mem_map_of_mem hn
  clear h1 h2 h3 h4 hv hv2
  simp only [Step.run] at hc
  obtain ⟨g1, h1, hc⟩ := Sys.bind_inv hc
  obtain ⟨⟨g, a, sch⟩, h2, hc⟩ := Sys.bind_inv hc
  obtain ⟨g1', h1', h3⟩ := commitFull_ok h2
  rw [h1] at h1'
  simp only [Except.ok.injEq] at h1'
  subst h1'
  have hd := iinv_drop h.inv h1
  rcases h3 with ⟨h3, rfl, rfl⟩ | ⟨h3, rfl, h4⟩
  · simp only [Except.ok.injEq] at hc
    subst hc
    obtain ⟨g0, hk, rfl⟩ := kp_freeOld h1
    exact absurd hk.flag hnew
  · cases sch with
    | none => simp at h4
    | some sch =>
      obtain ⟨⟨order, disc⟩, h5, hc⟩ := Sys.bind_inv hc
      simp only [Except.ok.injEq] at hc
      subst hc
      exact disc_iff hd.wf h5 hf hmem

/-! ### The dot string -/

theorem position_key {ns : List NodeI} (hn : (ns.map NodeI.key).Nodup) {k : Key} {j : Nat} :
    position (fun n : NodeI => n.key == k) ns = some j ↔ ∃ n, ns[j]? = some n ∧ n.key = k := by
  induction ns generalizing j with
  | nil => simp [position]
  | cons m ns ih =>
    simp only [List.map_cons, List.nodup_cons] at hn
    simp only [position]
    by_cases hm : m.key = k
    · simp only [hm, beq_self_eq_true, if_true, Option.some.injEq]
      constructor
      · rintro rfl
        exact ⟨m, rfl, hm⟩
      · rintro ⟨n, h1, h2⟩
        cases j with
        | zero => rfl
        | succ j =>
          simp only [List.getElem?_cons_succ] at h1
          exact absurd (List.mem_map_of_mem (f := NodeI.key) (List.mem_of_getElem? h1)) (by rw [h2, ← hm]; exact hn.1)
    · have : (m.key == k) = false := by simpa using hm
      simp only [this, Bool.false_eq_true, if_false, Option.map_eq_some_iff]
      constructor
      · rintro ⟨j', h1, rfl⟩
        exact (ih hn.2).1 h1
      · rintro ⟨n, h1, h2⟩
        cases j with
        | zero =>
          simp only [List.getElem?_cons_zero, Option.some.injEq] at h1
          exact absurd (h1 ▸ h2) hm
        | succ j => exact ⟨j, (ih hn.2).2 ⟨n, h1, h2⟩, rfl⟩

/-- An end of an arrow is the source `src`. -/
def EndIs (v : Insp) (d : DotEnd) : Src → Prop
  | .node k => ∃ j n, d = some j ∧ v.nodes[j]? = some n ∧ n.key = k
  | .graph => d = none

theorem dotSource_iff {v : Insp} (hn : (v.nodes.map NodeI.key).Nodup) {src : Src} {d : DotEnd} :
    dotSource v src = some d ↔ EndIs v d src := by
  cases src with
  | graph =>
    simp only [dotSource, EndIs, Option.some.injEq]
    exact eq_comm
  | node k =>
    simp only [dotSource, EndIs, Option.map_eq_some_iff]
    constructor
    · rintro ⟨j, h1, rfl⟩
      obtain ⟨n, h2, h3⟩ := (position_key hn).1 h1
      exact ⟨j, n, rfl, h2, h3⟩
    · rintro ⟨j, n, rfl, h2, h3⟩
      exact ⟨j, (position_key hn).2 ⟨n, h2, h3⟩, rfl⟩

/-- **C69.**  The arrows of the dot string into nodes are exactly the audio connections between nodes that
are shown. -/
theorem C69_dot_nodes {g : Graph} {v : Insp} (h : Shows g v) (d : DotEnd) (ch j i : Nat) :
    (d, ch, some j, i) ∈ dotEdges v ↔ ∃ n src fb, v.nodes[j]? = some n ∧ g.edge n.key i = some ⟨src, ch, fb⟩ ∧
      EndIs v d src := by
  simp only [dotEdges, List.mem_append, List.mem_flatMap, List.mem_filterMap, Prod.exists,
    Option.map_eq_some_iff, Prod.mk.injEq, Option.some.injEq, reduceCtorEq, and_false, false_and, exists_false, or_false]
  constructor
  · rintro ⟨n, j', hj, x, hx, s, hs, rfl, rfl, rfl, rfl⟩
    have hj2 := List.mk_mem_zipIdx_iff_getElem?.1 hj
    obtain ⟨fb, he⟩ := (h.wires n (List.mem_of_getElem? hj2) x.to' x.from' x.source).1 ⟨x.fb, hx⟩
    exact ⟨n, x.source, fb, hj2, he, (dotSource_iff h.once).1 hs⟩
  · rintro ⟨n, src, fb, hj, he, hd⟩
    obtain ⟨fb', hx⟩ := (h.wires n (List.mem_of_getElem? hj) i ch src).2 ⟨fb, he⟩
    exact ⟨n, j, List.mk_mem_zipIdx_iff_getElem?.2 hj, _, hx, d, (dotSource_iff h.once).2 hd, rfl, rfl, rfl, rfl⟩

/-- **C69.**  The arrows into the graph outputs are exactly the connections to graph outputs. -/
theorem C69_dot_outs {g : Graph} {v : Insp} (h : Shows g v) (d : DotEnd) (ch i : Nat) :
    (d, ch, none, i) ∈ dotEdges v ↔ ∃ src fb, g.out i = some ⟨src, ch, fb⟩ ∧ EndIs v d src := by
  simp only [dotEdges, List.mem_append, List.mem_flatMap, List.mem_filterMap, Option.map_eq_some_iff,
    Prod.mk.injEq, reduceCtorEq, and_false, false_and, exists_false, false_or, true_and]
  constructor
  · rintro ⟨x, hx, s, hs, rfl, rfl, rfl⟩
    exact ⟨x.source, x.fb, (h.outs x.to' x.from' x.source x.fb).1 hx, (dotSource_iff h.once).1 hs⟩
  · rintro ⟨src, fb, he, hd⟩
    exact ⟨_, (h.outs i ch src fb).2 he, d, (dotSource_iff h.once).2 hd, rfl, rfl, rfl⟩

/-- **C69.**  No connection is left out of the drawing if none dangles. -/
theorem C69_dot_complete {g : Graph} {v : Insp} (h : Shows g v) (hd : NoDangle g) {k i : Nat} {e : Edge}
    (hk : Live g k) (he : g.edge k i = some e) : ∃ d j n, v.nodes[j]? = some n ∧ n.key = k ∧ EndIs v d e.source ∧
      (d, e.chan, some j, i) ∈ dotEdges v := by
  obtain ⟨n, hn, hnk⟩ := (h.nodes k).2 hk
  obtain ⟨j, hj⟩ := List.getElem?_of_mem hn
  have hsrc : ∃ d, EndIs v d e.source := by
    have := hd.1 k i e he
    cases hs : e.source with
    | graph => exact ⟨none, rfl⟩
    | node a =>
      obtain ⟨r, hr, hp, -⟩ := this.1 a hs
      obtain ⟨m, hm, hma⟩ := (h.nodes a).2 ⟨by rw [hr]; rfl, hp⟩
      obtain ⟨j', hj'⟩ := List.getElem?_of_mem hm
      exact ⟨some j', j', m, rfl, hj', hma⟩
  obtain ⟨d, hd2⟩ := hsrc
  exact ⟨d, j, n, hj, hnk, hd2, (C69_dot_nodes h d e.chan j i).2 ⟨n, e.source, e.fb, hj, by rw [hnk, he], hd2⟩⟩

/-! ### Concrete histories -/

/-- Several steps. -/
def runs (sl : Key → Nat) (bs : Nat) (s : IS) : List Step → R IS
  | [] => .ok s
  | st :: sts => do runs sl bs (← st.run sl bs s) sts

/-- The inspection after some steps. -/
def seen (sl : Key → Nat) (bs : Nat) (s : IS) (sts : List Step) : R Insp := do
  let s ← runs sl bs s sts
  inspect s.g s.order s.disc

theorem Reaches.runs {sl bs} : ∀ (sts : List Step) {s s' : IS}, Reaches sl bs s → (∀ st ∈ sts, st.legal) →
    runs sl bs s sts = .ok s' → Reaches sl bs s'
  | [], s, s', h, _, hr => by
    simp only [In.runs, Except.ok.injEq] at hr
    exact hr ▸ h
  | st :: sts, s, s', h, hl, hr => by
    simp only [In.runs] at hr
    obtain ⟨s1, h1, hr⟩ := Sys.bind_inv hr
    exact Reaches.runs sts (.step st h (hl st (by simp)) h1) (fun st' h' => hl st' (List.mem_cons_of_mem _ h')) hr

/-- The state after some steps on a new graph with number 3, one input and two outputs. -/
def after (sts : List Step) : IS :=
  match runs id 4 (IS.init 3 1 2 4) sts with
  | .ok s => s
  | .error _ => IS.init 3 1 2 4

/-- The steps do not panic. -/
def fine (sts : List Step) : Bool :=
  match runs id 4 (IS.init 3 1 2 4) sts with
  | .ok _ => true
  | .error _ => false

theorem reach_after {sts : List Step} (hl : ∀ st ∈ sts, st.legal) (h : fine sts = true) :
    Reaches id 4 (after sts) := by
  refine Reaches.runs sts (.init 3 1 2) hl ?_
  unfold after
  unfold fine at h
  split at h
  · next s hs => rw [hs]
  · simp at h

/-- A commit with room in the ring buffer and no node marked by the audio thread. -/
def commitS : Step := .commit (fun _ => false) true
/-- Pushing a node with one parameter. -/
def pushS (i o : Nat) : Step := .edit (.push i o [7])
/-- Connecting output 0 of a node to input 0 of a node. -/
def wireS (a b : Nat) (fb : Bool) : Step := .edit (.connect (.node ⟨a, 3⟩) 0 0 (.node ⟨b, 3⟩) true fb)
/-- Connecting output 0 of a node to a graph output. -/
def outS (a c : Nat) : Step := .edit (.connect (.node ⟨a, 3⟩) 0 c .graph true false)

/-- Two sources added at the input of a node that is connected to both outputs. -/
def demo : List Step := [pushS 1 1, pushS 0 1, pushS 0 1, wireS 1 0 false, wireS 2 0 false, outS 0 0, outS 0 1]

theorem demo_legal : ∀ st ∈ demo ++ [commitS], st.legal := by
  simp [demo, commitS, pushS, wireS, outS, Step.legal]

/-- The hypotheses of `C69_partial` hold in a concrete case with an inserted math node. -/
example : Reaches id 4 (after (demo ++ [commitS])) ∧ (after (demo ++ [commitS])).g.recalc = false ∧
    inspect (after (demo ++ [commitS])).g (after (demo ++ [commitS])).order (after (demo ++ [commitS])).disc = .ok
      ⟨[⟨1, 0, 1, [], false⟩, ⟨2, 0, 1, [], false⟩, ⟨3, 2, 1, [⟨.node 1, 0, 0, false⟩, ⟨.node 2, 0, 1, false⟩], false⟩,
        ⟨0, 1, 1, [⟨.node 3, 0, 0, false⟩], false⟩],
        [⟨.node 0, 0, 0, false⟩, ⟨.node 0, 0, 1, false⟩], 1, 2, 3⟩ :=
  ⟨reach_after demo_legal (by decide +kernel), by decide +kernel, by decide +kernel⟩

/-- The hypotheses of `C69_unconnected_partial` hold in the same case: the flag is a new one. -/
example : (after (demo ++ [commitS])).g.flag ≠ (after demo).g.flag := by decide +kernel

/-- Small numbers of channels in the same case. -/
example : Small (after (demo ++ [commitS])).g := by
  refine ⟨?_, by decide +kernel⟩
  have h : ∀ p ∈ (after (demo ++ [commitS])).g.nodes, p.2.inputs ≤ U16 := by decide +kernel
  intro k r hk
  exact h (k, r) (mem_of_get hk)

/-- **C69 is violated**: connections to parameters are not shown. -/
theorem C69_params_violated : ∃ s s' : IS, Reaches id 4 s ∧ Reaches id 4 s' ∧ s.g.recalc = false ∧ s'.g.recalc = false ∧
    (∃ v, inspect s.g s.order s.disc = .ok v ∧ inspect s'.g s'.order s'.disc = .ok v) ∧
    s.g.pars 0 = some [] ∧ s'.g.pars 0 = some [⟨1, 0, 0⟩] := by
  refine ⟨after [pushS 1 1, pushS 0 1, outS 0 0, commitS],
    after [pushS 1 1, pushS 0 1, outS 0 0, commitS, .edit (.param ⟨1, 3⟩ 0 (.index 0) ⟨0, 3⟩ false), commitS],
    reach_after (by simp [commitS, pushS, outS, Step.legal]) (by decide +kernel),
    reach_after (by simp [commitS, pushS, outS, Step.legal]) (by decide +kernel),
    by decide +kernel, by decide +kernel,
    ⟨⟨[⟨0, 1, 1, [], false⟩, ⟨1, 0, 1, [], true⟩], [⟨.node 0, 0, 0, false⟩], 1, 2, 3⟩, by decide +kernel,
      by decide +kernel⟩, by decide +kernel, by decide +kernel⟩

/-- **C69 is violated**: a connection that is marked as feedback in the graph is shown without the mark. -/
theorem C69_feedback_violated : ∃ s : IS, Reaches id 4 s ∧ s.g.recalc = false ∧
    s.g.edge 2 0 = some ⟨.node 1, 0, true⟩ ∧ ∃ v n, inspect s.g s.order s.disc = .ok v ∧ n ∈ v.nodes ∧ n.key = 2 ∧
      n.edges = [⟨.node 1, 0, 0, false⟩] := by
  refine ⟨after [pushS 1 1, pushS 0 1, outS 0 0, wireS 1 0 true, commitS],
    reach_after (by simp [commitS, pushS, outS, wireS, Step.legal]) (by decide +kernel),
    by decide +kernel, by decide +kernel, ?_⟩
  exact ⟨⟨[⟨0, 1, 1, [⟨.node 3, 0, 0, false⟩], false⟩, ⟨1, 0, 1, [], true⟩, ⟨2, 1, 0, [⟨.node 1, 0, 0, false⟩], true⟩,
    ⟨3, 1, 0, [], true⟩], [⟨.node 0, 0, 0, false⟩], 1, 2, 3⟩, ⟨2, 1, 0, [⟨.node 1, 0, 0, false⟩], true⟩,
    by decide +kernel, by simp, rfl, rfl⟩

/-- **C69 is violated**: the documentation of `GraphInspection::nodes` says that nodes pending removal are
included; they are not. -/
theorem C69_pending_violated : ∃ s : IS, Reaches id 4 s ∧ s.g.recalc = false ∧ (s.g.get 1).isSome ∧
    s.g.isPending 1 = true ∧ ∃ v, inspect s.g s.order s.disc = .ok v ∧ ∀ n ∈ v.nodes, n.key ≠ 1 := by
  refine ⟨after [pushS 1 1, pushS 0 1, outS 0 0, commitS, .edit (.free ⟨1, 3⟩), commitS],
    reach_after (by simp [commitS, pushS, outS, Step.legal]) (by decide +kernel),
    by decide +kernel, by decide +kernel, by decide +kernel, ?_⟩
  exact ⟨⟨[⟨0, 1, 1, [], false⟩], [⟨.node 0, 0, 0, false⟩], 1, 2, 3⟩, by decide +kernel, by simp⟩

/-- **C69 is violated**: after a disconnected graph output and a commit the node is still shown as connected,
since that edit asks for no new schedule (C68). -/
theorem C69_unconnected_violated : ∃ s : IS, Reaches id 4 s ∧ s.g.recalc = false ∧ (∀ i, s.g.out i = none) ∧
    ∃ v n, inspect s.g s.order s.disc = .ok v ∧ n ∈ v.nodes ∧ n.unconnected = false := by
  refine ⟨after [pushS 1 1, outS 0 0, commitS, .edit (.disconnectSink 0 .graph), commitS],
    reach_after (by simp [commitS, pushS, outS, Step.legal]) (by decide +kernel), by decide +kernel, ?_, ?_⟩
  · have h : (after [pushS 1 1, outS 0 0, commitS, .edit (.disconnectSink 0 .graph), commitS]).g.outs = [none, none] := by
      decide +kernel
    intro i
    rw [Graph.out, h]
    rcases i with _ | _ | i <;> rfl
  · exact ⟨⟨[⟨0, 1, 1, [], false⟩], [], 1, 2, 3⟩, ⟨0, 1, 1, [], false⟩, by decide +kernel, by simp, rfl⟩

/-- **C69 is violated** between an edit through the public calls of `Graph` and the next commit: the new nodes
are not shown and the arrow from the inserted math node is missing in the drawing, so that a node with two
sources is drawn without any. -/
theorem C69_uncommitted_violated : ∃ s : IS, Reaches id 4 s ∧ Live s.g 3 ∧ s.g.edge 0 0 = some ⟨.node 3, 0, false⟩ ∧
    ∃ v, inspect s.g s.order s.disc = .ok v ∧ (∀ n ∈ v.nodes, n.key ≠ 3) ∧ dotEdges v = [] := by
  refine ⟨after [pushS 1 1, pushS 0 1, pushS 0 1, wireS 1 0 false, commitS, wireS 2 0 false],
    reach_after (by simp [commitS, pushS, wireS, Step.legal]) (by decide +kernel), ⟨by decide +kernel, by decide +kernel⟩,
    by decide +kernel, ⟨⟨[⟨0, 1, 1, [⟨.node 3, 0, 0, false⟩], true⟩, ⟨1, 0, 1, [], true⟩, ⟨2, 0, 1, [], true⟩],
      [], 1, 2, 3⟩, by decide +kernel, by simp, by decide +kernel⟩⟩

end Verif.In
