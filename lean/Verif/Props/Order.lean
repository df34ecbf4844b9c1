import Verif.Lemmas.Order
import Verif.Props.GraphEdits

/-!
# C11: the processing order
-/

namespace Verif.G

open Relation

/-- A node that is part of the graph and has not been freed. -/
def Live (g : Graph) (k : Key) : Prop := (g.get k).isSome ∧ g.isPending k = false

theorem live_iff_ins {g : Graph} (h : WF g) (k : Key) : Live g k ↔ (g.ins k).isSome := by
  unfold Live
  rw [ins_eq]
  cases hk : g.get k with
  | none => simp
  | some n =>
    have := h.live k n hk
    simp only [Option.isSome_some, true_and, Option.bind_some]
    cases hi : n.ins with
    | none => simp [this.1 hi]
    | some es =>
      simp only [Option.isSome_some, iff_true]
      cases hp : g.isPending k with
      | false => rfl
      | true => simp [this.2 hp] at hi

theorem live_iff_pars {g : Graph} (h : WF g) (k : Key) : Live g k ↔ (g.pars k).isSome := by
  unfold Live
  rw [pars_eq]
  cases hk : g.get k with
  | none => simp
  | some n =>
    have := h.livep k n hk
    simp only [Option.isSome_some, true_and, Option.bind_some]
    cases hi : n.pars with
    | none => simp [this.1 hi]
    | some es =>
      simp only [Option.isSome_some, iff_true]
      cases hp : g.isPending k with
      | false => rfl
      | true => simp [this.2 hp] at hi

theorem order_nodup_mem {g : Graph} (hg : WF g) {order rem : List Key}
    (h : calcOrder g = .ok (order, rem)) :
    order.Nodup ∧ ∀ k, k ∈ order ↔ Live g k := by
  obtain ⟨rs, v, o, -, -, hi, rfl, hrem⟩ := calcOrder_ok h
  have hvo : ∀ k, k ∈ v ↔ k ∈ o := by intro k; rw [hi.vis k]; simp
  have hmem : ∀ k, k ∈ rem ↔ k ∈ g.nodes.map Prod.fst ∧ k ∉ o ∧ g.isPending k = false := by
    intro k
    rw [hrem, List.mem_filter]
    simp only [Bool.and_eq_true, decide_eq_true_eq, Bool.not_eq_eq_eq_not, Bool.not_true, hvo k]
  constructor
  · rw [List.nodup_append]
    refine ⟨by simpa using hi.nodup, hrem ▸ hg.nodup.filter _, ?_⟩
    intro a ha b hb e
    subst e
    exact ((hmem a).1 hb).2.1 ha
  · intro k
    rw [List.mem_append, hmem k, ← get_isSome]
    constructor
    · rintro (h1 | h1)
      · exact (live_iff_ins hg k).2 (hi.live k h1)
      · exact ⟨h1.1, h1.2.2⟩
    · intro hl
      by_cases hk : k ∈ o
      · exact .inl hk
      · exact .inr ⟨hl.1, hk, hl.2⟩

/-- C11, first half: whenever the processing order is computed, it contains every live node exactly
once and nothing else (in particular no freed node). -/
theorem C11_once {sl} {g : Graph} (hr : Reach sl g) {order rem : List Key}
    (h : calcOrder g = .ok (order, rem)) :
    order.Nodup ∧ ∀ k, k ∈ order ↔ Live g k := order_nodup_mem hr.wf h

/-- No parameter connection starts at a node that is missing or freed. -/
def ParamsLive (g : Graph) : Prop :=
  ∀ b es pe, g.pars b = some es → pe ∈ es → Live g pe.source

theorem calcOrder_total {g : Graph} (hg : WF g) (hacyc : Acyclic (Feeds g)) (hd : NoDangle g) (hp : ParamsLive g) :
    ∃ order rem, calcOrder g = .ok (order, rem) := by
  have hl : ∀ k, Live g k → (g.ins k).isSome ∧ (g.pars k).isSome := fun k h =>
    ⟨(live_iff_ins hg k).1 h, (live_iff_pars hg k).1 h⟩
  have hsrc : ∀ e, SrcOk g e → ∀ a, e.source = .node a → Live g a := by
    intro e he a ha
    obtain ⟨n, h1, h2, -⟩ := he.1 a ha
    exact ⟨by simp [h1], h2⟩
  obtain ⟨rs, hrs⟩ := rootsLoop_total hg.nodup hacyc (srcKeys g.outs) []
  have hrs' : roots g = .ok rs := hrs
  obtain ⟨hout, hnd⟩ := roots_inv hrs'
  obtain ⟨⟨v, o⟩, hd⟩ := dfsLoop_total (g := g) (rs := rs) (fun a b hab => hl a (by
      rcases hab with ⟨i, e, h1, h2, -⟩ | ⟨es, pe, h1, h2, rfl⟩
      · exact hsrc e (hd.1 _ _ _ h1) a h2
      · exact hp _ _ _ h1 h2))
    (2 * g.nodes.length + rs.length + 2) (dinv_start hnd) (fun k hk => hl k (by
      obtain ⟨i, e, h1, h2⟩ := hout k hk
      exact hsrc e (hd.2 _ _ h1) k h2)) (by
      have : unvis g rs ≤ g.nodes.length := Nat.le_trans (List.length_filter_le _ _) (by simp)
      omega)
  rw [calcOrder, hrs']
  simp only [bind_ok]
  rw [hd]
  exact ⟨_, _, rfl⟩

/-- The order is computed without a panic when no connection dangles. -/
theorem C11_no_panic {sl} {g : Graph} (hr : Reach sl g) (hd : NoDangle g) (hp : ParamsLive g) :
    ∃ order rem, calcOrder g = .ok (order, rem) := calcOrder_total hr.wf hr.acyclic hd hp

/-- The signal of node `b` reaches a graph output within the block. -/
def Heard (g : Graph) (b : Key) : Prop := ∃ r, OutNode g r ∧ ReflTransGen (Dep g) b r

/-- Two situations in which the roots of the search do not depend on each other the wrong way round:
no node connected to a graph output feeds another such node, or there are no parameter connections and
every node feeds at most one other node. -/
def RootsOk (g : Graph) : Prop :=
  (∀ a b, OutNode g a → OutNode g b → ¬ TransGen (Dep g) a b) ∨
  ((∀ b es, g.pars b = some es → es = []) ∧ ∀ a b c, Feeds g a b → Feeds g a c → b = c)

theorem dep_feeds {g : Graph} (h : ∀ b es, g.pars b = some es → es = []) {a b : Key}
    (hd : Dep g a b) : Feeds g a b := by
  rcases hd with ⟨i, e, h1, h2, -⟩ | ⟨es, pe, h1, h2, -⟩
  · exact ⟨i, e, h1, h2⟩
  · rw [h b es h1] at h2; simp at h2

theorem mem_of_append_cons {α} {pre post x y : List α} {b : α} (h : x ++ y = pre ++ b :: post)
    (hb : b ∈ x) (hn : (x ++ y).Nodup) : ∃ m, x = pre ++ b :: m := by
  rcases List.append_eq_append_iff.1 h with ⟨m, h1, h2⟩ | ⟨m, h1, h2⟩
  · exfalso
    have hy : b ∈ y := by rw [h2]; simp
    exact (List.nodup_append.1 hn).2.2 b hb b hy rfl
  · cases m with
    | nil =>
      exfalso
      simp only [List.nil_append] at h2
      have hy : b ∈ y := by rw [← h2]; simp
      exact (List.nodup_append.1 hn).2.2 b hb b hy rfl
    | cons c m =>
      simp only [List.cons_append, List.cons.injEq] at h2
      exact ⟨m, h2.1 ▸ h1⟩

/-- The part of the order found by the search is a topological order. -/
theorem order_topo {g : Graph} (hg : WF g) (hac : Acyclic (Dep g)) (hro : RootsOk g)
    {order rem : List Key} (h : calcOrder g = .ok (order, rem)) :
    ∃ o, order = o ++ rem ∧ Topo g o ∧ (∀ a ∈ o, ∀ b, Dep g b a → b ∈ o) ∧
      ((∀ a b, Feeds g a b → Dep g a b) → ∀ b, Heard g b → b ∈ o) := by
  obtain ⟨rs, v, o, hrs, hd, hi, rfl, hrem⟩ := calcOrder_ok h
  obtain ⟨hout, hnd⟩ := roots_inv hrs
  have hvo : ∀ k, k ∈ v ↔ k ∈ o := by intro k; rw [hi.vis k]; simp
  refine ⟨o, rfl, ?_, fun a ha b hb => (hvo b).1 (hi.closed a ha b hb), ?_⟩
  · refine dfsLoop_topo hac _ (dinv_start hnd) ?_ ?_ hd
    · rcases hro with hro | ⟨hpar, hf⟩
      · exact hnd.imp_of_mem fun {a b} ha hb _ => hro b a (hout b hb) (hout a ha)
      · have hind := rootsLoop_indep hg.nodup hf _ _ _ hrs (fun s hs => mem_outs_iff.1 hs) (by simp)
          (by simp)
        refine hnd.imp_of_mem fun {a b} ha hb _ ht => ?_
        exact hind b hb a (TransGen.mono (fun _ _ => dep_feeds hpar) _ _ ht) (hout a ha)
    · intro pre b post e
      simp at e
  · rintro hfd b ⟨r, hr, hbr⟩
    have hclosed : ∀ a b, ReflTransGen (Dep g) a b → b ∈ o → a ∈ o := by
      intro a b hab
      induction hab with
      | refl => exact id
      | tail _ h2 ih => intro hc; exact ih ((hvo _).1 (hi.closed _ hc _ h2))
    obtain ⟨r', hr', hp⟩ := (rootsLoop_covers hg.nodup _ _ _ hrs).2 r (mem_outs_iff.2 hr)
    have hdep : ReflTransGen (Dep g) r r' := ReflTransGen.mono hfd _ _ hp
    exact hclosed b r' (hbr.trans hdep) ((hvo r').1 (hi.root r' hr'))

theorem order_before {g : Graph} (hg : WF g) (hac : Acyclic (Dep g))
    (hfb : ∀ k i e, g.edge k i = some e → e.fb = false) (hro : RootsOk g) {order rem : List Key}
    (h : calcOrder g = .ok (order, rem)) {a b : Key} (hh : Heard g b) (hab : Dep g a b) :
    ∃ x y z, order = x ++ a :: y ++ b :: z := by
  obtain ⟨o, rfl, ht, -, hheard⟩ := order_topo hg hac hro h
  have hb := hheard (fun a b ⟨i, e, h1, h2⟩ => .inl ⟨i, e, h1, h2, hfb _ _ _ h1⟩) b hh
  obtain ⟨pre, post, rfl⟩ := List.append_of_mem hb
  obtain ⟨x, y, rfl⟩ := List.append_of_mem (ht pre b post rfl a hab)
  exact ⟨x, y, post ++ rem, by simp⟩

/-- C11, second half, in the situations described by `RootsOk`: without feedback connections, every
node whose signal reaches a graph output comes after all the nodes it depends on.  Missing for the
full claim: graphs that are not `RootsOk`, nodes that do not reach an output (see the two negations
below), dependency cycles through parameters (C02) and feedback connections. -/
theorem C11_topological_partial {sl} {g : Graph} (hr : Reach sl g) (hac : Acyclic (Dep g))
    (hfb : ∀ k i e, g.edge k i = some e → e.fb = false) (hro : RootsOk g) {order rem : List Key}
    (h : calcOrder g = .ok (order, rem)) {a b : Key} (hh : Heard g b) (hab : Dep g a b) :
    ∃ x y z, order = x ++ a :: y ++ b :: z :=
  order_before hr.wf hac hfb hro h hh hab

/-- Node 1 feeds node 0, which is connected to both graph outputs. -/
def chainGraph : Graph :=
  { id := 0, outs := [some ⟨.node 0, 0, false⟩, some ⟨.node 0, 0, false⟩], numIn := 0, nextKey := 2,
    recalc := true, nodes :=
      [(0, { inputs := 1, outputs := 1, ins := some [some ⟨.node 1, 0, false⟩], pars := some [] }),
       (1, { inputs := 1, outputs := 1, ins := some [none], pars := some [] })] }

theorem chainGraph_reach : Reach id chainGraph :=
  reach_runOps [.push 1 1 [], .push 1 1 [], .connect (.node (nd 1)) 0 0 (.node (nd 0)) true false,
    .connect (.node (nd 0)) 0 0 .graph true false, .connect (.node (nd 0)) 0 1 .graph true false]
    (Reach.init 0 0 2) (rs := [.ok (), .ok (), .ok (), .ok (), .ok ()]) rfl

theorem chainGraph_edge {k i e} (h : chainGraph.edge k i = some e) :
    k = 0 ∧ e = ⟨.node 1, 0, false⟩ := by
  simp only [edge_eq, ins_eq, get_eq, chainGraph, List.find?_cons, List.find?_nil] at h
  by_cases h0 : k = 0
  · subst h0
    refine ⟨rfl, ?_⟩
    cases i with
    | zero => simpa using h.symm
    | succ i => simp at h
  · by_cases h1 : k = 1
    · subst h1
      cases i with
      | zero => simp at h
      | succ i => simp at h
    · have h0' : ((0 : Nat) == k) = false := by simpa using fun e => h0 e.symm
      have h1' : ((1 : Nat) == k) = false := by simpa using fun e => h1 e.symm
      simp [h0', h1'] at h

theorem chainGraph_pars {k es} (h : chainGraph.pars k = some es) : es = [] := by
  simp only [pars_eq, get_eq, chainGraph, List.find?_cons, List.find?_nil] at h
  by_cases h0 : k = 0
  · subst h0; simpa using h.symm
  · by_cases h1 : k = 1
    · subst h1; simpa using h.symm
    · have h0' : ((0 : Nat) == k) = false := by simpa using fun e => h0 e.symm
      have h1' : ((1 : Nat) == k) = false := by simpa using fun e => h1 e.symm
      simp [h0', h1'] at h

example : ∃ order rem, Reach id chainGraph ∧ calcOrder chainGraph = .ok (order, rem) ∧
    Acyclic (Dep chainGraph) ∧ (∀ k i e, chainGraph.edge k i = some e → e.fb = false) ∧
    RootsOk chainGraph ∧ Heard chainGraph 0 ∧ Dep chainGraph 1 0 ∧ ParamsLive chainGraph ∧
    order = [1, 0] := by
  have hdep : ∀ a b, Dep chainGraph a b → Feeds chainGraph a b := fun a b h =>
    dep_feeds (fun b es => chainGraph_pars) h
  refine ⟨_, _, chainGraph_reach, rfl, Acyclic.mono chainGraph_reach.acyclic hdep, ?_, .inr ⟨?_, ?_⟩,
    ⟨0, ⟨0, ⟨.node 0, 0, false⟩, by decide, rfl⟩, .refl⟩, .inl ⟨0, ⟨.node 1, 0, false⟩, by decide⟩,
    ?_, by decide⟩
  · intro k i e h; rw [(chainGraph_edge h).2]
  · intro b es h; exact chainGraph_pars h
  · rintro a b c ⟨i, e, h1, h2⟩ ⟨i', e', h3, h4⟩
    rw [(chainGraph_edge h1).1, (chainGraph_edge h3).1]
  · intro b es pe h hm
    rw [chainGraph_pars h] at hm
    simp at hm

/-- C11 is violated for nodes that do not reach a graph output: they are processed in slot order, here
node 0 before node 1 although node 1 feeds node 0. -/
theorem C11_unconnected_violated : ∃ g : Graph, Reach id g ∧ Dep g 1 0 ∧
    calcOrder g = .ok ([0, 1], [0, 1]) := by
  refine ⟨_, reach_runOps [.push 1 1 [], .push 1 1 [],
    .connect (.node (nd 1)) 0 0 (.node (nd 0)) true false] (Reach.init 0 0 1)
    (rs := [.ok (), .ok (), .ok ()]) rfl, .inl ⟨0, ⟨.node 1, 0, false⟩, ?_⟩, ?_⟩ <;> decide

/-- C11 is violated also for nodes that are heard: node 0 is connected to output 0 and feeds node 2,
which is connected to output 1.  Because node 0 also feeds node 1, which is not connected to anything,
both 0 and 2 become roots of the search and node 2 is processed before node 0. -/
theorem C11_heard_violated : ∃ g : Graph, Reach id g ∧ Dep g 0 2 ∧ Heard g 2 ∧
    calcOrder g = .ok ([2, 0, 1], [1]) := by
  refine ⟨_, reach_runOps [.push 1 1 [], .push 1 1 [], .push 1 1 [],
    .connect (.node (nd 0)) 0 0 (.node (nd 1)) true false,
    .connect (.node (nd 0)) 0 0 (.node (nd 2)) true false,
    .connect (.node (nd 0)) 0 0 .graph true false,
    .connect (.node (nd 2)) 0 1 .graph true false] (Reach.init 0 0 2)
    (rs := [.ok (), .ok (), .ok (), .ok (), .ok (), .ok (), .ok ()]) rfl,
    .inl ⟨0, ⟨.node 0, 0, false⟩, ?_⟩, ⟨2, ⟨1, ⟨.node 2, 0, false⟩, ?_⟩, .refl⟩, ?_⟩ <;> decide

/-- C11 is violated through parameters: node 1 controls a parameter of node 0 and both are connected to
a graph output; node 0 is processed first. -/
theorem C11_param_violated : ∃ g : Graph, Reach id g ∧ Dep g 1 0 ∧ Heard g 0 ∧
    calcOrder g = .ok ([0, 1], []) := by
  refine ⟨_, reach_runOps [.push 1 1 [0], .push 1 1 [],
    .param (nd 1) 0 (.index 0) (nd 0) true,
    .connect (.node (nd 1)) 0 0 .graph true false,
    .connect (.node (nd 0)) 0 1 .graph true false] (Reach.init 0 0 2)
    (rs := [.ok (), .ok (), .ok (), .ok (), .ok ()]) rfl,
    .inr ⟨[⟨1, 0, 0⟩], ⟨1, 0, 0⟩, ?_⟩, ⟨0, ⟨1, ⟨.node 0, 0, false⟩, ?_⟩, .refl⟩, ?_⟩ <;> decide

/-- Computing the order panics when a parameter connection starts at a freed node. -/
theorem C11_param_panic : ∃ g : Graph, Reach id g ∧ calcOrder g = .error .index := by
  refine ⟨_, reach_runOps [.push 1 1 [0], .push 1 1 [],
    .param (nd 1) 0 (.index 0) (nd 0) true, .connect (.node (nd 0)) 0 0 .graph true false,
    .free (nd 1)] (Reach.init 0 0 2)
    (rs := [.ok (), .ok (), .ok (), .ok (), .ok ()]) rfl, ?_⟩
  decide

end Verif.G
