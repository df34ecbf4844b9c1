import Verif.Model.Link
import Verif.Props.Handles
import Verif.Props.ParamLinks

/-!
# C106: linking a parameter through a handle

The parameter follows the one output of the source from the next commit on, or the caller learns that it does not.
-/

namespace Verif.Lk

open Verif.G Verif.Ar Verif.H
open Verif.Pl (drivers Linked driven)

/-- What `link` does when the source is a node. -/
theorem link_node {sl g sink p} {source : SHandle} {n c} (h : source.outs = [(.node n, c)]) :
    link sl g sink p source = (connectParam sl g n c p sink false).bind fun r =>
      match r.2 with
      | .ok _ => .ok (r.1, .nothing)
      | .error e => .ok (r.1, .failed e) := by
  simp only [link, (C63_channels source).1, bind_ok, h, List.head?_cons]
  rfl

theorem one {source : SHandle} (h : source.outT = 1) : ∃ c, source.outs = [c] := by
  have := (C63_channels source).2.2.1
  rw [h] at this
  exact List.length_eq_one_iff.1 this

/-- **C106**, the source is there: with a source of one output, as its type says, taking the first output never panics. -/
theorem C106_source {sl g sink p} {source : SHandle} (h : source.outT = 1) :
    (∃ c, source.outs = [(.graph, c)] ∧ link sl g sink p source = .ok (g, .graphInput)) ∨
    ∃ n c, source.outs = [(.node n, c)] ∧
      ∀ e, link sl g sink p source = .error e ↔ connectParam sl g n c p sink false = .error e := by
  obtain ⟨⟨ng, c⟩, hc⟩ := one h
  cases ng with
  | graph => exact .inl ⟨c, hc, by simp [link, (C63_channels source).1, hc]⟩
  | node n =>
    refine .inr ⟨n, c, hc, fun e => ?_⟩
    rw [link_node hc]
    cases hr : connectParam sl g n c p sink false with
    | error e' => simp [Except.bind]
    | ok r =>
      simp only [Except.bind]
      cases r.2 <;> simp

theorem link_ok {sl g g' sink p} {source : SHandle} (ht : source.outT = 1)
    (h : link sl g sink p source = .ok (g', .nothing)) : ∃ n c, source.outs = [(.node n, c)] ∧
      (Op.param n c p sink false).run sl g = .ok (g', .ok ()) := by
  obtain ⟨⟨ng, c⟩, hc⟩ := one ht
  cases ng with
  | graph => simp [link, (C63_channels source).1, hc] at h
  | node n =>
    refine ⟨n, c, hc, ?_⟩
    rw [link_node hc] at h
    simp only [Op.run]
    cases hr : connectParam sl g n c p sink false with
    | error e' => simp [hr, Except.bind] at h
    | ok r =>
      obtain ⟨g1, r1⟩ := r
      cases r1 with
      | error e => simp [hr, Except.bind] at h
      | ok u => simp only [hr, Except.bind, Except.ok.injEq, Prod.mk.injEq, and_true] at h; rw [h]

/-- **C106**, one link: when nothing is logged, the parameter follows the output of the source and nothing else, and
nothing else changes.  Missing: that failures reach the caller, and that a commit passes the link on (see below). -/
theorem C106_link_partial {sl g g' sink p} {source : SHandle} (hr : Reach sl g) (ht : source.outT = 1)
    (h : link sl g sink p source = .ok (g', .nothing)) : ∃ n c nk idx, source.outs = [(.node n, c)] ∧
      g.get sink.key = some nk ∧ paramIndex nk p = some idx ∧ drivers g' sink.key idx = [⟨n.key, c, idx⟩] ∧
      Linked g g' n.key c sink.key idx false := by
  obtain ⟨n, c, hc, hrun⟩ := link_ok ht h
  obtain ⟨nk, idx, h1, h2, h3⟩ := Pl.C103_connect hr n c p sink false hrun
  refine ⟨n, c, nk, idx, hc, h1, h2, ?_, h3⟩
  simp only [Op.run] at hrun
  rcases connectParam_ok hrun with ⟨-, e, he⟩ | ⟨-, ns, nk', idx', es, -, -, a1, a2, a3, b⟩
  · simp at he
  · rw [h1] at a1
    simp only [Option.some.injEq] at a1
    subst a1
    rw [h2] at a2
    simp only [Option.some.injEq] at a2
    subst a2
    rcases b with ⟨-, rfl⟩ | ⟨hf, -⟩ | ⟨hf, -⟩
    · have hp : (g.modify sink.key fun n' => { n' with pars := some (es.filter (fun pe => pe.param != idx) ++
          [⟨n.key, c, idx⟩]) }).pars sink.key = some (es.filter (fun pe => pe.param != idx) ++ [⟨n.key, c, idx⟩]) := by
        rw [pars_eq, get_modify, if_pos rfl, h1]
        rfl
      rw [drivers, hp, Option.getD_some, List.filter_append, List.filter_filter]
      simp
    · simp at hf
    · simp at hf

/-- The graph after a link that worked. -/
theorem link_graph {sl g g' sink p} {source : SHandle} (ht : source.outT = 1)
    (h : link sl g sink p source = .ok (g', .nothing)) : ∃ es : List PEdge,
      g' = g.modify sink.key fun n => { n with pars := some es } := by
  obtain ⟨n, c, hc, hrun⟩ := link_ok ht h
  simp only [Op.run] at hrun
  rcases connectParam_ok hrun with ⟨-, e, he⟩ | ⟨-, ns, nk', idx', es, -, -, a1, a2, a3, ⟨-, rfl⟩ | ⟨hf, -⟩ | ⟨hf, -⟩⟩
  · simp at he
  · exact ⟨_, rfl⟩
  · simp at hf
  · simp at hf

theorem link_descs {sl g g' sink p} {source : SHandle} {nk : NodeRec} (ht : source.outT = 1)
    (h : link sl g sink p source = .ok (g', .nothing)) (hk : g.get sink.key = some nk) :
    ∃ nk', g'.get sink.key = some nk' ∧ nk'.descs = nk.descs := by
  obtain ⟨es, rfl⟩ := link_graph ht h
  exact ⟨{ nk with pars := some es }, by rw [get_modify, if_pos rfl, hk]; rfl, rfl⟩

theorem link_reach {sl g g' sink p said} {source : SHandle} (hr : Reach sl g) (ht : source.outT = 1)
    (h : link sl g sink p source = .ok (g', said)) : Reach sl g' := by
  obtain ⟨⟨ng, c⟩, hc⟩ := one ht
  cases ng with
  | graph =>
    simp only [link, (C63_channels source).1, hc, bind_ok, List.head?_cons, Except.ok.injEq, Prod.mk.injEq] at h
    exact h.1 ▸ hr
  | node n =>
    rw [link_node hc] at h
    cases hr' : connectParam sl g n c p sink false with
    | error e' => simp [hr', Except.bind] at h
    | ok r =>
      obtain ⟨g1, r1⟩ := r
      have : g1 = g' := by
        cases r1 <;> simp only [hr', Except.bind, Except.ok.injEq, Prod.mk.injEq] at h <;> exact h.1
      subst this
      exact .step (Op.param n c p sink false) hr hr'

/-- **C106**, several links on one handle: of the links to the same parameter the last one counts, and a parameter that is
not linked keeps what it had. -/
theorem C106_links_partial {sl} {sink : NodeId} : ∀ (ls : List (Param × SHandle)) {g g' : Graph} {said},
    Reach sl g → (∀ l ∈ ls, l.2.outT = 1) → links sl sink g ls = .ok (g', said) → (∀ x ∈ said, x = .nothing) →
    ∀ {nk : NodeRec}, g.get sink.key = some nk → ∀ q,
      drivers g' sink.key q =
        match (ls.filter fun l => paramIndex nk l.1 == some q).getLast? with
        | some l => (l.2.outs.filterMap fun o => match o with
            | (.node n, c) => some ⟨n.key, c, q⟩
            | (.graph, _) => none)
        | none => drivers g sink.key q := by
  intro ls
  induction ls with
  | nil =>
    intro g g' said _ _ h _ nk _ q
    simp only [links, Except.ok.injEq, Prod.mk.injEq] at h
    rw [← h.1]
    rfl
  | cons l ls ih =>
    intro g g' said hr ht h hs nk hk q
    simp only [links] at h
    obtain ⟨⟨g1, s1⟩, h1, h⟩ := Pl.bind_inv h
    obtain ⟨⟨g2, s2⟩, h2, h⟩ := Pl.bind_inv h
    simp only [pure_ok, Except.ok.injEq, Prod.mk.injEq] at h
    obtain ⟨rfl, rfl⟩ := h
    have hn : s1 = .nothing := hs s1 (by simp)
    subst hn
    have ht1 := ht l (by simp)
    obtain ⟨n, c, nk', idx, hc, a1, a2, a3, a4⟩ := C106_link_partial hr ht1 h1
    rw [hk] at a1
    simp only [Option.some.injEq] at a1
    subst a1
    obtain ⟨nk1, hk1, hd⟩ := link_descs ht1 h1 hk
    have hi : ∀ p, paramIndex nk1 p = paramIndex nk p := by
      intro p
      cases p <;> simp [paramIndex, hd]
    have hih := ih (link_reach hr ht1 h1) (fun x hx => ht x (List.mem_cons_of_mem _ hx)) h2
      (fun x hx => hs x (List.mem_cons_of_mem _ hx)) hk1 q
    simp only [hi] at hih
    rw [hih]
    by_cases hq : idx = q
    · subst hq
      rw [List.filter_cons_of_pos (by simp [a2]), List.getLast?_cons]
      cases (ls.filter fun l => paramIndex nk l.1 == some idx).getLast? with
      | none => simp [a3, hc]
      | some x => simp
    · rw [List.filter_cons_of_neg (by simp [a2, hq])]
      cases (ls.filter fun l => paramIndex nk l.1 == some q).getLast? with
      | none => exact a4.other sink.key q (hr.wf.lt _ _ hk) (.inr (fun h => hq h.symm))
      | some x => rfl

/-- A graph with an input, an oscillator with the parameter 5, and two nodes to link to it; all committed. -/
def ops : List Op := [.push 0 1 [], .push 0 1 [], .push 0 1 [5], .connect (.node (nd 2)) 0 0 .graph true false,
  .commit (fun _ => false) (fun _ => false)]

def idle : Graph :=
  { id := 0, outs := [some ⟨.node 2, 0, false⟩], numIn := 1, nextKey := 3, flag := 1, nodes :=
      [(0, { inputs := 0, outputs := 1, ins := some [], pars := some [] }),
       (1, { inputs := 0, outputs := 1, ins := some [], pars := some [] }),
       (2, { inputs := 0, outputs := 1, descs := [5], ins := some [], pars := some [] })] }

theorem idle_reach : Reach id idle :=
  reach_runOps ops (Reach.init 0 1 1) (rs := [.ok (), .ok (), .ok (), .ok (), .ok ()]) (by decide)

/-- The hypotheses of `C106_link_partial` and `C106_links_partial` hold, also for a source picked from a stack. -/
example : ∃ g', Reach id idle ∧ (SHandle.chans [(.node (nd 1), 0)]).outT = 1 ∧
    links id (nd 2) idle [(.desc 5, .node (nd 0) 0 1), (.index 0, .chans [(.node (nd 1), 0)])] =
      .ok (g', [.nothing, .nothing]) ∧ drivers g' 2 0 = [⟨1, 0, 0⟩] :=
  ⟨_, idle_reach, rfl, rfl, by decide⟩

/-- **C106 is violated**, failures: a graph input is a source of one output, but linking it does nothing, for every graph,
node and parameter.  The caller gets the same handle back as from a link that works. -/
theorem C106_input_violated (sl) (g : Graph) (sink : NodeId) (p : Param) (c : Nat) :
    (SHandle.chans [(.graph, c)]).outT = 1 ∧
    link sl g sink p (.chans [(.graph, c)]) = .ok (g, .graphInput) := ⟨rfl, rfl⟩

/-- **C106 is violated**, names: linking a parameter the node does not have does nothing either. -/
theorem C106_name_violated {sl} {g : Graph} {sink n : NodeId} {nk : NodeRec} {d i : Nat}
    (hk : g.get sink.key = some nk) (hd : d ∉ nk.descs) (hs : foreign sink.graph g.id = false)
    (hn : foreign n.graph g.id = false) :
    link sl g sink (.desc d) (.node n i 1) = .ok (g, .failed .paramDescNotFound) := by
  have hpos : ∀ l : List Nat, d ∉ l → position (· == d) l = none := by
    intro l
    induction l with
    | nil => intro _; rfl
    | cons a l ih =>
      intro h
      simp only [List.mem_cons, not_or] at h
      have : (a == d) = false := by simpa using fun e => h.1 e.symm
      simp [position, this, ih h.2]
  have ho : (SHandle.node n i 1).outs = [(.node n, 0)] := rfl
  rw [link_node ho]
  simp [connectParam, hs, hn, hk, hpos _ hd, Except.bind]

/-- The hypotheses of `C106_name_violated` hold. -/
example : ∃ nk, idle.get (nd 2).key = some nk ∧ 6 ∉ nk.descs ∧ 5 ∈ nk.descs ∧ foreign (nd 2).graph idle.id = false ∧
    foreign (nd 0).graph idle.id = false := ⟨_, rfl, by decide, by decide, by decide, by decide⟩

/-- **C106 is violated**, commits: whatever the graph and the link, when everything before has been committed and there
is nothing to clean up, the next commit does not hand a new schedule to the audio thread.  The link is in the graph but
the parameter goes on without it. -/
theorem C106_commit_violated {sl g g' sink p} {source : SHandle} (hr : Reach sl g) (hc : g.recalc = false)
    (hst : Settled g) (ht : source.outT = 1) (h : link sl g sink p source = .ok (g', .nothing)) (fs : Nat → Bool)
    (room : Bool) (bs : Nat) (a : AState) :
    ∃ g2, commitFull (fun _ => false) fs room bs g' a = .ok (g2, a, none) := by
  have hw := (link_reach hr ht h).wf
  obtain ⟨es, rfl⟩ := link_graph ht h
  have hst' : Settled (g.modify sink.key fun n => { n with pars := some es }) := by
    intro k n hn
    rw [get_modify] at hn
    split at hn
    · next e =>
      subst e
      cases h1 : g.get sink.key with
      | none => simp [h1] at hn
      | some m =>
        rw [h1] at hn
        simp only [Option.map_some, Option.some.injEq] at hn
        subst hn
        exact hst _ m h1
    · exact hst k n hn
  generalize hg : (g.modify sink.key fun n => { n with pars := some es }) = g1 at *
  have hrc : g1.recalc = false := by rw [← hg]; exact hc
  have hfm : freeMany g1 ((g1.nodes.map Prod.fst).filter fun _ => false) = g1 := by simp [freeMany]
  refine ⟨dropFlagged fs g1, ?_⟩
  have hfo : freeOld (fun _ => false) fs g1 = .ok (dropFlagged fs g1) := by
    simp only [freeOld]
    rw [hfm, evalMany_settled hw hst' _ (fun k hk => (get_isSome g1 k).2 hk)]
    rfl
  have hd : (dropFlagged fs g1).recalc = false := hrc
  simp only [commitFull, hfo, bind_ok, hd, Bool.false_eq_true, if_false]

/-- Such a graph and a link that works. -/
example : ∃ g', Reach id idle ∧ idle.recalc = false ∧ Settled idle ∧
    link id idle (nd 2) (.desc 5) (.node (nd 0) 0 1) = .ok (g', .nothing) ∧ drivers g' 2 0 = [⟨0, 0, 0⟩] := by
  refine ⟨_, idle_reach, rfl, ?_, rfl, by decide⟩
  intro k n hk
  have hm : ∀ p ∈ idle.nodes, p.2.autoFree = false ∧ p.2.autoMath = false := by decide
  obtain ⟨p, hp, rfl⟩ : ∃ p ∈ idle.nodes, p.2 = n := by
    simp only [Graph.get, Option.map_eq_some_iff] at hk
    obtain ⟨p, hp, rfl⟩ := hk
    exact ⟨p, List.mem_of_find?_eq_some hp, rfl⟩
  exact ⟨(hm p hp).1, fun h => by rw [(hm p hp).2] at h; simp at h⟩

end Verif.Lk
