import Verif.Model.Graph
import Mathlib.Data.List.Basic
import Mathlib.Data.List.Nodup
import Mathlib.Logic.Relation

/-!
# Lemmas about the graph editing primitives
-/

namespace Verif.G

/-- The connection at input `i` of node `k`, if any. -/
def Graph.edge (g : Graph) (k : Key) (i : Nat) : Option Edge := ((g.ins k).bind (·[i]?)).join

/-- The connection at graph output `i`, if any. -/
def Graph.out (g : Graph) (i : Nat) : Option Edge := (g.outs[i]?).join

/-! ### Lookups -/

theorem get_eq (g : Graph) (k : Key) :
    g.get k = (g.nodes.find? (fun p => p.1 == k)).map Prod.snd := rfl

theorem get_congr {g g' : Graph} (h : g.nodes = g'.nodes) (k : Key) : g.get k = g'.get k := by
  simp [get_eq, h]

@[simp] theorem get_mk (a b c d e f h i) (k : Key) :
    Graph.get ⟨a, b, c, d, e, f, h, i⟩ k = (b.find? (fun p => p.1 == k)).map Prod.snd := rfl

theorem find_map_key (l : List (Key × NodeRec)) (f : Key × NodeRec → NodeRec) (k : Key) :
    ((l.map fun p => (p.1, f p)).find? (fun p => p.1 == k)).map Prod.snd =
      (l.find? (fun p => p.1 == k)).map f := by
  induction l with
  | nil => simp
  | cons p l ih =>
    by_cases h : p.1 = k
    · simp [h]
    · simp only [List.map_cons, List.find?_cons]
      have : (p.1 == k) = false := by simpa using h
      simp only [this]
      exact ih

theorem get_modify (g : Graph) (k j : Key) (f : NodeRec → NodeRec) :
    (g.modify k f).get j = if j = k then (g.get k).map f else g.get j := by
  have : (g.modify k f).nodes = g.nodes.map fun p => (p.1, if p.1 = k then f p.2 else p.2) := by
    simp only [Graph.modify]
    apply List.map_congr_left
    intro p _
    split <;> simp
  rw [get_eq, this, find_map_key]
  rw [get_eq, get_eq]
  by_cases h : j = k
  · subst h
    rw [if_pos rfl]
    cases hf : g.nodes.find? (fun p => p.1 == j) with
    | none => rfl
    | some p =>
      have := List.find?_some hf
      simp only [beq_iff_eq] at this
      simp only [Option.map_some, if_pos this]
  · rw [if_neg h]
    cases hf : g.nodes.find? (fun p => p.1 == j) with
    | none => rfl
    | some p =>
      have := List.find?_some hf
      simp only [beq_iff_eq] at this
      simp only [Option.map_some, if_neg (this ▸ h)]

theorem get_mapNodes (g : Graph) (f : NodeRec → NodeRec) (j : Key) :
    (g.mapNodes f).get j = (g.get j).map f := by
  have := find_map_key g.nodes (fun p => f p.2) j
  rw [get_eq, Graph.mapNodes, this, get_eq, Option.map_map]
  rfl

theorem get_isSome (g : Graph) (k : Key) : (g.get k).isSome ↔ k ∈ g.nodes.map Prod.fst := by
  rw [get_eq]
  simp [List.find?_isSome]

theorem get_none (g : Graph) (k : Key) : g.get k = none ↔ k ∉ g.nodes.map Prod.fst := by
  rw [← get_isSome]
  cases g.get k <;> simp

theorem mem_of_get {g : Graph} {k : Key} {n : NodeRec} (h : g.get k = some n) :
    (k, n) ∈ g.nodes := by
  rw [get_eq] at h
  cases hf : g.nodes.find? (fun p => p.1 == k) with
  | none => simp [hf] at h
  | some p =>
    simp only [hf, Option.map_some, Option.some.injEq] at h
    have h1 := List.find?_some hf
    have h2 := List.mem_of_find?_eq_some hf
    simp only [beq_iff_eq] at h1
    rw [← h1, ← h]
    exact h2

theorem get_of_mem {g : Graph} (hn : (g.nodes.map Prod.fst).Nodup) {k : Key} {n : NodeRec}
    (h : (k, n) ∈ g.nodes) : g.get k = some n := by
  have : (g.get k).isSome := (get_isSome g k).2 (List.mem_map.2 ⟨_, h, rfl⟩)
  obtain ⟨m, hm⟩ := Option.isSome_iff_exists.1 this
  have hm' := mem_of_get hm
  have : (k, m) = (k, n) := List.inj_on_of_nodup_map hn hm' h rfl
  rw [hm]
  simpa using this

/-- The node keys, in slot order, are unchanged by `modify`. -/
@[simp] theorem keys_modify (g : Graph) (k : Key) (f) :
    (g.modify k f).nodes.map Prod.fst = g.nodes.map Prod.fst := by
  simp only [Graph.modify, List.map_map]
  apply List.map_congr_left
  intro p _
  simp only [Function.comp]
  split <;> simp

@[simp] theorem keys_mapNodes (g : Graph) (f) :
    (g.mapNodes f).nodes.map Prod.fst = g.nodes.map Prod.fst := by
  simp [Graph.mapNodes, Function.comp_def]

@[simp] theorem modify_outs (g : Graph) (k f) : (g.modify k f).outs = g.outs := rfl
@[simp] theorem modify_pending (g : Graph) (k f) : (g.modify k f).pending = g.pending := rfl
@[simp] theorem modify_nextKey (g : Graph) (k f) : (g.modify k f).nextKey = g.nextKey := rfl
@[simp] theorem modify_id (g : Graph) (k f) : (g.modify k f).id = g.id := rfl
@[simp] theorem modify_numIn (g : Graph) (k f) : (g.modify k f).numIn = g.numIn := rfl
@[simp] theorem modify_flag (g : Graph) (k f) : (g.modify k f).flag = g.flag := rfl
@[simp] theorem modify_recalc (g : Graph) (k f) : (g.modify k f).recalc = g.recalc := rfl
@[simp] theorem mapNodes_outs (g : Graph) (f) : (g.mapNodes f).outs = g.outs := rfl
@[simp] theorem mapNodes_pending (g : Graph) (f) : (g.mapNodes f).pending = g.pending := rfl
@[simp] theorem mapNodes_nextKey (g : Graph) (f) : (g.mapNodes f).nextKey = g.nextKey := rfl
@[simp] theorem mapNodes_id (g : Graph) (f) : (g.mapNodes f).id = g.id := rfl
@[simp] theorem mapNodes_numIn (g : Graph) (f) : (g.mapNodes f).numIn = g.numIn := rfl
@[simp] theorem mapNodes_flag (g : Graph) (f) : (g.mapNodes f).flag = g.flag := rfl
@[simp] theorem mapNodes_recalc (g : Graph) (f) : (g.mapNodes f).recalc = g.recalc := rfl

theorem find_insert (l : List (Key × NodeRec)) (i : Nat) (k j : Key) (n : NodeRec)
    (hk : k ∉ l.map Prod.fst) :
    ((l.take i ++ (k, n) :: l.drop i).find? (fun p => p.1 == j)).map Prod.snd =
      if j = k then some n else (l.find? (fun p => p.1 == j)).map Prod.snd := by
  rw [List.find?_append, List.find?_cons]
  by_cases h : j = k
  · subst h
    have : (l.take i).find? (fun p => p.1 == j) = none := by
      rw [List.find?_eq_none]
      intro p hp
      simp only [beq_iff_eq]
      intro he
      exact hk (List.mem_map.2 ⟨p, List.mem_of_mem_take hp, he⟩)
    simp [this]
  · have h' : (k == j) = false := by simpa using fun e => h e.symm
    have : l.find? (fun p => p.1 == j) =
        ((l.take i).find? (fun p => p.1 == j)).or ((l.drop i).find? (fun p => p.1 == j)) := by
      rw [← List.find?_append, List.take_append_drop]
    rw [this]
    simp [h, h']

theorem get_pushNode (sl) (g : Graph) (n : NodeRec) (j : Key) (hk : g.get g.nextKey = none) :
    (pushNode sl g n).get j =
      if j = g.nextKey then
        some { n with ins := some (List.replicate n.inputs none), pars := some [], mortal := true }
      else g.get j := by
  rw [get_none] at hk
  simp only [pushNode, get_mk]
  rw [find_insert _ _ _ _ _ hk]
  rfl

@[simp] theorem pushNode_outs (sl g n) : (pushNode sl g n).outs = g.outs := rfl
@[simp] theorem pushNode_pending (sl g n) : (pushNode sl g n).pending = g.pending := rfl
@[simp] theorem pushNode_nextKey (sl g n) : (pushNode sl g n).nextKey = g.nextKey + 1 := rfl
@[simp] theorem pushNode_id (sl g n) : (pushNode sl g n).id = g.id := rfl
@[simp] theorem pushNode_numIn (sl g n) : (pushNode sl g n).numIn = g.numIn := rfl

/-! ### Edges -/

theorem ins_eq (g : Graph) (k : Key) : g.ins k = (g.get k).bind (·.ins) := rfl

theorem edge_eq (g : Graph) (k : Key) (i : Nat) : g.edge k i = ((g.ins k).bind (·[i]?)).join := rfl

theorem edge_of_ins {g : Graph} {k : Key} {es} (h : g.ins k = some es) (i : Nat) :
    g.edge k i = (es[i]?).join := by simp [edge_eq, h]

theorem edge_of_none {g : Graph} {k : Key} (h : g.ins k = none) (i : Nat) :
    g.edge k i = none := by simp [edge_eq, h]

theorem ins_congr {g g' : Graph} (h : g.nodes = g'.nodes) (k : Key) : g.ins k = g'.ins k := by
  rw [ins_eq, ins_eq, get_congr h]

theorem edge_congr {g g' : Graph} (h : g.nodes = g'.nodes) (k : Key) (i) :
    g.edge k i = g'.edge k i := by
  rw [edge_eq, edge_eq, ins_congr h]

theorem ins_pushNode (sl) (g : Graph) (n : NodeRec) (j : Key) (hk : g.get g.nextKey = none) :
    (pushNode sl g n).ins j =
      if j = g.nextKey then some (List.replicate n.inputs none) else g.ins j := by
  rw [ins_eq, get_pushNode sl g n j hk]
  split <;> simp [ins_eq]

theorem edge_pushNode (sl) (g : Graph) (n : NodeRec) (j : Key) (i) (hk : g.get g.nextKey = none) :
    (pushNode sl g n).edge j i = g.edge j i := by
  rw [edge_eq, ins_pushNode sl g n j hk]
  split
  · next h =>
    subst h
    have : g.ins g.nextKey = none := by simp [ins_eq, hk]
    rw [edge_of_none this]
    simp only [Option.bind_some, List.getElem?_replicate]
    split <;> simp
  · rfl

theorem setEdge_ok {g g' : Graph} {k i e} (h : setEdge g k i e = .ok g') :
    ∃ es, g.ins k = some es ∧ i < es.length ∧
      g' = g.modify k fun n => { n with ins := some (es.set i e) } := by
  unfold setEdge at h
  split at h
  · simp at h
  · next es hes =>
    split at h
    · next hi =>
      exact ⟨es, hes, hi, by simpa using h.symm⟩
    · simp at h

theorem get_setEdge {g g' : Graph} {k i e} (h : setEdge g k i e = .ok g') (j : Key) :
    ∃ es, g.ins k = some es ∧ i < es.length ∧
    g'.get j = if j = k then (g.get k).map (fun n => { n with ins := some (es.set i e) })
      else g.get j := by
  obtain ⟨es, hes, hi, rfl⟩ := setEdge_ok h
  exact ⟨es, hes, hi, get_modify g k j _⟩

theorem ins_setEdge {g g' : Graph} {k i e} (h : setEdge g k i e = .ok g') (j : Key) :
    ∃ es, g.ins k = some es ∧ i < es.length ∧
    g'.ins j = if j = k then some (es.set i e) else g.ins j := by
  obtain ⟨es, hes, hi, hg⟩ := get_setEdge h j
  refine ⟨es, hes, hi, ?_⟩
  rw [ins_eq, hg]
  split
  · next hj =>
    rw [ins_eq] at hes
    cases hk : g.get k <;> simp_all
  · rfl

theorem edge_setEdge {g g' : Graph} {k i e} (h : setEdge g k i e = .ok g') (j : Key) (i' : Nat) :
    g'.edge j i' = if j = k ∧ i' = i then e else g.edge j i' := by
  obtain ⟨es, hes, hi, hg⟩ := ins_setEdge h j
  rw [edge_eq, hg]
  by_cases hj : j = k
  · subst hj
    simp only [if_true, Option.bind_some, true_and]
    by_cases hii : i' = i
    · subst hii
      simp [hi]
    · rw [if_neg hii, List.getElem?_set_ne (fun e => hii e.symm), edge_of_ins hes]
  · simp [hj, edge_eq]

theorem outs_setEdge {g g' : Graph} {k i e} (h : setEdge g k i e = .ok g') : g'.outs = g.outs := by
  obtain ⟨es, hes, hi, rfl⟩ := setEdge_ok h
  rfl

theorem nextKey_setEdge {g g' : Graph} {k i e} (h : setEdge g k i e = .ok g') :
    g'.nextKey = g.nextKey := by
  obtain ⟨es, hes, hi, rfl⟩ := setEdge_ok h
  rfl

theorem getEdge_ok {g : Graph} {k i e} (h : getEdge g k i = .ok e) : g.edge k i = e := by
  unfold getEdge at h
  split at h
  · simp at h
  · next es hes =>
    split at h
    · simp at h
    · next x hx =>
      rw [edge_of_ins hes, hx]
      simpa using h

theorem setOut_ok {g g' : Graph} {i e} (h : setOut g i e = .ok g') :
    i < g.outs.length ∧ g' = { g with outs := g.outs.set i e } := by
  unfold setOut at h
  split at h
  · next hi => exact ⟨hi, by simpa using h.symm⟩
  · simp at h

theorem out_setOut {g g' : Graph} {i e} (h : setOut g i e = .ok g') (j : Nat) :
    g'.out j = if j = i then e else g.out j := by
  obtain ⟨hi, rfl⟩ := setOut_ok h
  simp only [Graph.out]
  by_cases hj : j = i
  · subst hj; simp [hi]
  · rw [if_neg hj, List.getElem?_set_ne (fun e => hj e.symm)]

theorem getOut_ok {g : Graph} {i e} (h : getOut g i = .ok e) : g.out i = e := by
  unfold getOut at h
  split at h
  · simp at h
  · next x hx =>
    simp only [Graph.out, hx]
    simpa using h

/-- Rewriting all input edges with a function that keeps empty inputs empty. -/
theorem ins_mapEdges (g : Graph) (f : Option Edge → Option Edge) (k : Key) :
    (g.mapNodes fun n => { n with ins := n.ins.map (·.map f) }).ins k =
      (g.ins k).map (·.map f) := by
  rw [ins_eq, get_mapNodes, ins_eq]
  cases g.get k <;> simp

theorem edge_mapEdges (g : Graph) (f : Option Edge → Option Edge) (hf : f none = none)
    (k : Key) (i : Nat) :
    (g.mapNodes fun n => { n with ins := n.ins.map (·.map f) }).edge k i = f (g.edge k i) := by
  rw [edge_eq, ins_mapEdges, edge_eq]
  cases hk : g.ins k with
  | none => simp [hf]
  | some es =>
    simp only [Option.map_some, Option.bind_some, List.getElem?_map]
    cases es[i]? <;> simp [hf]

theorem out_mapOuts (outs : List (Option Edge)) (f : Option Edge → Option Edge)
    (hf : f none = none) (i : Nat) : ((outs.map f)[i]?).join = f ((outs[i]?).join) := by
  rw [List.getElem?_map]
  cases outs[i]? <;> simp [hf]

@[simp] theorem dropFrom_none (k) : dropFrom k none = none := rfl
@[simp] theorem redirect_none (k e) : redirect k e none = none := rfl
@[simp] theorem dropExact_none (s c) : dropExact s c none = none := rfl

theorem dropFrom_some {k e e'} (h : dropFrom k e = some e') : e = some e' ∧ e'.source ≠ .node k := by
  cases e with
  | none => simp at h
  | some ed =>
    simp only [dropFrom] at h
    split at h
    · simp at h
    · next hne => simp only [Option.some.injEq] at h; subst h; exact ⟨rfl, hne⟩

theorem dropExact_some {s c e e'} (h : dropExact s c e = some e') : e = some e' := by
  cases e with
  | none => simp at h
  | some ed =>
    simp only [dropExact] at h
    split at h
    · simp at h
    · exact h

theorem redirect_some {k new e e'} (h : redirect k new e = some e') :
    (e = some e' ∧ e'.source ≠ .node k) ∨ (e' = new ∧ ∃ ed, e = some ed ∧ ed.source = .node k) := by
  cases e with
  | none => simp at h
  | some ed =>
    simp only [redirect] at h
    split at h
    · next he =>
      simp only [Option.some.injEq] at h
      exact .inr ⟨h.symm, ed, rfl, he⟩
    · next hne =>
      simp only [Option.some.injEq] at h
      subst h
      exact .inl ⟨rfl, hne⟩

/-! ### Freeing -/

/-- The changes one successful round of `free_node_from_key` makes. -/
def free1 (g : Graph) (k : Key) : Graph :=
  let g := { g with recalc := true }
  let g := g.modify k fun n => { n with ins := none, pars := none }
  let g := g.mapNodes fun n => { n with ins := n.ins.map (·.map (dropFrom k)) }
  let g := { g with outs := g.outs.map (dropFrom k) }
  { g with pending := g.pending ++ [(k, g.flag)] }

theorem freeLoop_succ (fuel : Nat) (g : Graph) (k : Key) : freeLoop (fuel + 1) g k =
    match g.get k with
    | none => (g, .error .freeNotFound)
    | some n =>
      if !n.mortal then (g, .error .immortal)
      else if g.isPending k then (g, .ok ())
      else match n.dep with
        | some d => ((freeLoop fuel (free1 g k) d).1, .ok ())
        | none => (free1 g k, .ok ()) := rfl

theorem get_free1 (g : Graph) (k j : Key) :
    (free1 g k).get j = if j = k
      then (g.get k).map fun n => { n with ins := none, pars := none }
      else (g.get j).map fun n => { n with ins := n.ins.map (·.map (dropFrom k)) } := by
  have h1 : (free1 g k).get j = (((({ g with recalc := true } : Graph).modify k
      fun n => { n with ins := none, pars := none }).mapNodes
      fun n => { n with ins := n.ins.map (·.map (dropFrom k)) })).get j := rfl
  rw [h1, get_mapNodes, get_modify]
  have h2 : ∀ j, ({ g with recalc := true } : Graph).get j = g.get j := fun _ => rfl
  rw [h2, h2]
  split
  · cases g.get k <;> simp
  · rfl

theorem ins_free1 (g : Graph) (k j : Key) :
    (free1 g k).ins j = if j = k then none else (g.ins j).map (·.map (dropFrom k)) := by
  rw [ins_eq, get_free1, ins_eq]
  split
  · cases g.get k <;> simp
  · cases g.get j <;> simp

theorem edge_free1 (g : Graph) (k j : Key) (i : Nat) :
    (free1 g k).edge j i = if j = k then none else dropFrom k (g.edge j i) := by
  rw [edge_eq, ins_free1, edge_eq]
  split
  · simp
  · cases hk : g.ins j with
    | none => simp
    | some es =>
      simp only [Option.map_some, Option.bind_some, List.getElem?_map]
      cases es[i]? <;> simp

theorem out_free1 (g : Graph) (k : Key) (i : Nat) : (free1 g k).out i = dropFrom k (g.out i) :=
  out_mapOuts g.outs (dropFrom k) rfl i

@[simp] theorem free1_nextKey (g k) : (free1 g k).nextKey = g.nextKey := rfl
@[simp] theorem free1_id (g k) : (free1 g k).id = g.id := rfl
@[simp] theorem free1_numIn (g k) : (free1 g k).numIn = g.numIn := rfl
@[simp] theorem free1_flag (g k) : (free1 g k).flag = g.flag := rfl
@[simp] theorem free1_pending (g k) : (free1 g k).pending = g.pending ++ [(k, g.flag)] := rfl
@[simp] theorem free1_recalc (g k) : (free1 g k).recalc = true := rfl

@[simp] theorem free1_keys (g k) : (free1 g k).nodes.map Prod.fst = g.nodes.map Prod.fst := by
  have h : (free1 g k).nodes = (((({ g with recalc := true } : Graph).modify k
      fun n => { n with ins := none, pars := none }).mapNodes
      fun n => { n with ins := n.ins.map (·.map (dropFrom k)) })).nodes := rfl
  rw [h, keys_mapNodes, keys_modify]

/-- A property kept by every round of freeing is kept by `free_node_from_key`. -/
theorem freeLoop_ind {P : Graph → Prop}
    (h1 : ∀ g k n, P g → g.get k = some n → n.mortal = true → g.isPending k = false →
      P (free1 g k)) :
    ∀ fuel g k, P g → P (freeLoop fuel g k).1
  | 0, g, k, hg => hg
  | fuel + 1, g, k, hg => by
    rw [freeLoop_succ]
    split
    · exact hg
    · next n hn =>
      split
      · exact hg
      · next hm =>
        split
        · exact hg
        · next hp =>
          have := h1 g k n hg hn (by simpa using hm) (by simpa using hp)
          split
          · exact freeLoop_ind h1 fuel _ _ this
          · exact this

theorem freeNode_ind {P : Graph → Prop}
    (h1 : ∀ g k n, P g → g.get k = some n → n.mortal = true → g.isPending k = false →
      P (free1 g k)) (g : Graph) (k : Key) (hg : P g) : P (freeNode g k).1 :=
  freeLoop_ind h1 _ g k hg

theorem freeMany_ind {P : Graph → Prop}
    (h1 : ∀ g k n, P g → g.get k = some n → n.mortal = true → g.isPending k = false →
      P (free1 g k)) : ∀ (ks : List Key) (g : Graph), P g → P (freeMany g ks)
  | [], g, hg => hg
  | k :: ks, g, hg => freeMany_ind h1 ks _ (freeNode_ind h1 g k hg)

/-- The changes made when a math node is bypassed: every edge from `k` is replaced by `e`. -/
def bypass (g : Graph) (k : Key) (e : Edge) : Graph :=
  { g.mapNodes fun n => { n with ins := n.ins.map (·.map (redirect k e)) } with
    outs := g.outs.map (redirect k e) }

theorem get_bypass (g : Graph) (k : Key) (e : Edge) (j : Key) :
    (bypass g k e).get j =
      (g.get j).map fun n => { n with ins := n.ins.map (·.map (redirect k e)) } := by
  have : (bypass g k e).get j =
    (g.mapNodes fun n => { n with ins := n.ins.map (·.map (redirect k e)) }).get j := rfl
  rw [this, get_mapNodes]

theorem edge_bypass (g : Graph) (k : Key) (e : Edge) (j : Key) (i : Nat) :
    (bypass g k e).edge j i = redirect k e (g.edge j i) := by
  have : (bypass g k e).edge j i =
    (g.mapNodes fun n => { n with ins := n.ins.map (·.map (redirect k e)) }).edge j i := rfl
  rw [this, edge_mapEdges _ _ rfl]

theorem out_bypass (g : Graph) (k : Key) (e : Edge) (i : Nat) :
    (bypass g k e).out i = redirect k e (g.out i) :=
  out_mapOuts g.outs (redirect k e) rfl i

@[simp] theorem bypass_nextKey (g k e) : (bypass g k e).nextKey = g.nextKey := rfl
@[simp] theorem bypass_id (g k e) : (bypass g k e).id = g.id := rfl
@[simp] theorem bypass_numIn (g k e) : (bypass g k e).numIn = g.numIn := rfl
@[simp] theorem bypass_pending (g k e) : (bypass g k e).pending = g.pending := rfl
@[simp] theorem bypass_flag (g k e) : (bypass g k e).flag = g.flag := rfl
@[simp] theorem bypass_recalc (g k e) : (bypass g k e).recalc = g.recalc := rfl
@[simp] theorem bypass_keys (g k e) : (bypass g k e).nodes.map Prod.fst = g.nodes.map Prod.fst :=
  keys_mapNodes g fun n => { n with ins := n.ins.map (·.map (redirect k e)) }

/-- What `evalMath` does, case by case. -/
theorem evalMath_ok {g g' : Graph} {k : Key} (h : evalMath g k = .ok g') :
    g' = g ∨
    (∃ n, g.get k = some n ∧ n.autoMath = true ∧ n.inputs = 2 ∧ n.outputs = 1 ∧
      ((g.edge k 0 = none ∧ g.edge k 1 = none ∧ g' = (freeNode g k).1) ∨
       (∃ e, ((g.edge k 0 = none ∧ g.edge k 1 = some e) ∨
          (g.edge k 0 = some e ∧ g.edge k 1 = none)) ∧ (∀ o ∈ g.outs, o ≠ none) ∧
          g' = (freeNode (bypass g k e) k).1))) := by
  unfold evalMath at h
  split at h
  · simp at h
  · next n hn =>
    split at h
    · next hm =>
      split at h
      · simp at h
      · next h2 =>
        split at h
        · simp at h
        · next h1 =>
          split at h
          · left; simpa using h.symm
          · next es hes =>
            have hins : g.ins k = some es := by simp [ins_eq, hn, hes]
            split at h
            · next e0 e1 he0 he1 =>
              have hk0 : g.edge k 0 = e0 := by rw [edge_of_ins hins, he0]; rfl
              have hk1 : g.edge k 1 = e1 := by rw [edge_of_ins hins, he1]; rfl
              split at h
              · left; simpa using h.symm
              · next e =>
                right
                dsimp only at h
                split at h
                · simp at h
                · next ha =>
                  refine ⟨n, hn, hm, by simpa using h2, by simpa using h1, .inr ⟨e, .inl ⟨hk0, hk1⟩, ?_, ?_⟩⟩
                  · intro o ho hne
                    apply ha
                    rw [mapNodes_outs, List.any_eq_true]
                    exact ⟨o, ho, by simp [hne]⟩
                  · simpa [bypass] using h.symm
              · next e =>
                right
                dsimp only at h
                split at h
                · simp at h
                · next ha =>
                  refine ⟨n, hn, hm, by simpa using h2, by simpa using h1, .inr ⟨e, .inr ⟨hk0, hk1⟩, ?_, ?_⟩⟩
                  · intro o ho hne
                    apply ha
                    rw [mapNodes_outs, List.any_eq_true]
                    exact ⟨o, ho, by simp [hne]⟩
                  · simpa [bypass] using h.symm
              · right
                exact ⟨n, hn, hm, by simpa using h2, by simpa using h1, .inl ⟨hk0, hk1, by simpa using h.symm⟩⟩
            · simp at h
    · left; simpa using h.symm

theorem evalFree_ok {g g' : Graph} {k : Key} (h : evalFree g k = .ok g') :
    g' = g ∨ (∃ n, g.get k = some n ∧ n.autoFree = true ∧ (∀ i, g.edge k i = none) ∧
      (∀ p ∈ g.nodes, anyFrom k (p.2.ins.getD []) = false) ∧ g' = (freeNode g k).1) := by
  unfold evalFree at h
  split at h
  · simp at h
  · next n hn =>
    split at h
    · next ha =>
      split at h
      · left; simpa using h.symm
      · next h1 =>
        split at h
        · left; simpa using h.symm
        · next h2 =>
          right
          refine ⟨n, hn, ha, ?_, ?_, by simpa using h.symm⟩
          · intro i
            have hins : g.ins k = n.ins := by simp [ins_eq, hn]
            rw [edge_eq, hins]
            cases he : n.ins with
            | none => rfl
            | some es =>
              simp only [he, Option.getD_some, Bool.not_eq_true, List.any_eq_false] at h1
              simp only [Option.bind_some]
              cases hi : es[i]? with
              | none => rfl
              | some o =>
                have := h1 o (List.mem_of_getElem? hi)
                cases o <;> simp_all
          · intro p hp
            simp only [Bool.not_eq_true, List.any_eq_false] at h2
            simpa using h2 p hp
    · left; simpa using h.symm

/-- A property kept by freeing and by bypassing math nodes is kept by the evaluation of a node. -/
theorem evalNode_ind {P : Graph → Prop}
    (h1 : ∀ g k n, P g → g.get k = some n → n.mortal = true → g.isPending k = false →
      P (free1 g k))
    (h2 : ∀ g k n e, P g → g.get k = some n → n.autoMath = true →
      ((g.edge k 0 = none ∧ g.edge k 1 = some e) ∨ (g.edge k 0 = some e ∧ g.edge k 1 = none)) →
      P (bypass g k e))
    {g g' : Graph} {k : Key} (hg : P g) (h : evalNode g k = .ok g') : P g' := by
  unfold evalNode at h
  cases hm : evalMath g k with
  | error e => simp [hm] at h
  | ok gm =>
    have hgm : P gm := by
      rcases evalMath_ok hm with rfl | ⟨n, hn, ha, -, -, ⟨-, -, rfl⟩ | ⟨e, he, -, rfl⟩⟩
      · exact hg
      · exact freeNode_ind h1 _ _ hg
      · exact freeNode_ind h1 _ _ (h2 g k n e hg hn ha he)
    simp only [hm, bind_ok] at h
    rcases evalFree_ok h with rfl | ⟨n, -, -, -, -, rfl⟩
    · exact hgm
    · exact freeNode_ind h1 _ _ hgm

theorem evalMany_ind {P : Graph → Prop}
    (h1 : ∀ g k n, P g → g.get k = some n → n.mortal = true → g.isPending k = false →
      P (free1 g k))
    (h2 : ∀ g k n e, P g → g.get k = some n → n.autoMath = true →
      ((g.edge k 0 = none ∧ g.edge k 1 = some e) ∨ (g.edge k 0 = some e ∧ g.edge k 1 = none)) →
      P (bypass g k e)) :
    ∀ (ks : List Key) {g g' : Graph}, P g → evalMany g ks = .ok g' → P g'
  | [], g, g', hg, h => by
    simp only [evalMany, Except.ok.injEq] at h
    exact h ▸ hg
  | k :: ks, g, g', hg, h => by
    simp only [evalMany] at h
    cases hk : evalNode g k with
    | error e => simp [hk] at h
    | ok g1 =>
      simp only [hk, bind_ok] at h
      exact evalMany_ind h1 h2 ks (evalNode_ind h1 h2 hg hk) h

theorem freeOld_ok {rm fs} {g g' : Graph} (h : freeOld rm fs g = .ok g') :
    ∃ g1, evalMany (freeMany g ((g.nodes.map Prod.fst).filter rm))
      ((freeMany g ((g.nodes.map Prod.fst).filter rm)).nodes.map Prod.fst) = .ok g1 ∧
      g' = dropFlagged fs g1 := by
  unfold freeOld at h
  simp only [pure_ok] at h
  cases h1 : evalMany (freeMany g ((g.nodes.map Prod.fst).filter rm))
      ((freeMany g ((g.nodes.map Prod.fst).filter rm)).nodes.map Prod.fst) with
  | error e => simp [h1] at h
  | ok g1 =>
    simp only [h1, bind_ok, Except.ok.injEq] at h
    exact ⟨g1, rfl, h.symm⟩

theorem find_filter_key (l : List (Key × NodeRec)) (q : Key → Bool) (j : Key) :
    ((l.filter (fun p => q p.1)).find? (fun p => p.1 == j)) =
      if q j then l.find? (fun p => p.1 == j) else none := by
  induction l with
  | nil => simp
  | cons p l ih =>
    by_cases hp : q p.1
    · rw [List.filter_cons, if_pos hp, List.find?_cons, List.find?_cons]
      by_cases hj : p.1 = j
      · simp [hj, hj ▸ hp]
      · have : (p.1 == j) = false := by simpa using hj
        simp only [this]
        exact ih
    · rw [List.filter_cons, if_neg hp, ih]
      by_cases hj : p.1 = j
      · subst hj; simp [hp]
      · have : (p.1 == j) = false := by simpa using hj
        rw [List.find?_cons]
        simp only [this]

/-- The keys dropped by `dropFlagged`. -/
def goneKeys (fs : Nat → Bool) (g : Graph) : List Key :=
  (g.pending.filter (fun p => fs p.2)).map Prod.fst

theorem get_dropFlagged (fs) (g : Graph) (j : Key) :
    (dropFlagged fs g).get j = if j ∈ goneKeys fs g then none else g.get j := by
  have := find_filter_key g.nodes (fun k => k ∉ goneKeys fs g) j
  have e : (dropFlagged fs g).get j =
    ((g.nodes.filter (fun p => decide (p.1 ∉ goneKeys fs g))).find?
      (fun p => p.1 == j)).map Prod.snd := rfl
  rw [e, this, get_eq]
  by_cases h : j ∈ goneKeys fs g <;> simp [h]

theorem edge_dropFlagged (fs) (g : Graph) (j : Key) (i) :
    (dropFlagged fs g).edge j i = if j ∈ goneKeys fs g then none else g.edge j i := by
  rw [edge_eq, ins_eq, get_dropFlagged, edge_eq, ins_eq]
  split <;> simp

@[simp] theorem dropFlagged_outs (fs g) : (dropFlagged fs g).outs = g.outs := rfl
@[simp] theorem dropFlagged_nextKey (fs g) : (dropFlagged fs g).nextKey = g.nextKey := rfl

theorem dropAll_edge (g : Graph) (s ch) (k i) :
    (dropAll g s ch).edge k i = dropExact s ch (g.edge k i) := by
  have : (dropAll g s ch).edge k i =
    (g.mapNodes fun n => { n with ins := n.ins.map (·.map (dropExact s ch)) }).edge k i := rfl
  rw [this, edge_mapEdges _ _ rfl]

theorem dropAll_get (g : Graph) (s ch) (k) :
    (dropAll g s ch).get k =
      (g.get k).map fun n => { n with ins := n.ins.map (·.map (dropExact s ch)) } := by
  have : (dropAll g s ch).get k =
    (g.mapNodes fun n => { n with ins := n.ins.map (·.map (dropExact s ch)) }).get k := rfl
  rw [this, get_mapNodes]

theorem dropAll_out (g : Graph) (s ch) (i) :
    (dropAll g s ch).out i = dropExact s ch (g.out i) :=
  out_mapOuts g.outs (dropExact s ch) rfl i

@[simp] theorem dropAll_keys (g s c) :
    (dropAll g s c).nodes.map Prod.fst = g.nodes.map Prod.fst :=
  keys_mapNodes g fun n => { n with ins := n.ins.map (·.map (dropExact s c)) }
@[simp] theorem dropAll_nextKey (g s c) : (dropAll g s c).nextKey = g.nextKey := rfl
@[simp] theorem dropAll_pending (g s c) : (dropAll g s c).pending = g.pending := rfl

end Verif.G
