import Verif.Lemmas.GraphOps

/-!
# `has_path` computes reachability, and acyclicity is preserved by every edit
-/

namespace Verif.G

open Relation

/-- Node `a` feeds node `b`: some audio input of `b` is connected to an output of `a`. -/
def Feeds (g : Graph) (a b : Key) : Prop := ∃ i e, g.edge b i = some e ∧ e.source = .node a

theorem mem_srcKeys {es : List (Option Edge)} {a : Key} :
    a ∈ srcKeys es ↔ ∃ (i : Nat) (e : Edge), (es[i]?).join = some e ∧ e.source = .node a := by
  unfold srcKeys
  rw [List.mem_filterMap]
  constructor
  · rintro ⟨o, ho, h⟩
    obtain ⟨i, hi⟩ := List.mem_iff_getElem?.1 ho
    split at h
    · next k c f =>
      simp only [Option.some.injEq] at h
      exact ⟨i, ⟨.node k, c, f⟩, by rw [hi]; rfl, by simp [h]⟩
    · simp at h
  · rintro ⟨i, e, hi, he⟩
    cases hi' : es[i]? with
    | none => simp [hi'] at hi
    | some o =>
      rw [hi'] at hi
      simp only [Option.join_some] at hi
      subst hi
      refine ⟨some e, List.mem_of_getElem? hi', ?_⟩
      obtain ⟨s, c, f⟩ := e
      simp only at he
      subst he
      rfl

theorem feeds_iff_mem {g : Graph} {b : Key} {es} (h : g.ins b = some es) (a : Key) :
    Feeds g a b ↔ a ∈ srcKeys es := by
  rw [mem_srcKeys]
  unfold Feeds
  simp only [edge_of_ins h]

theorem not_feeds_of_none {g : Graph} {b : Key} (h : g.ins b = none) (a : Key) : ¬ Feeds g a b := by
  rintro ⟨i, e, h1, -⟩
  rw [edge_of_none h] at h1
  simp at h1

/-- Inputs of the nodes not yet visited. -/
def pot (l : List (Key × NodeRec)) (visited : List Key) : Nat :=
  ((l.filter (fun p => p.1 ∉ visited)).map fun p => (p.2.ins.getD []).length).sum

theorem pot_mono (l : List (Key × NodeRec)) (visited : List Key) (n : Key) :
    pot l (n :: visited) ≤ pot l visited := by
  induction l with
  | nil => simp [pot]
  | cons p l ih =>
    unfold pot at ih ⊢
    by_cases h1 : p.1 ∈ visited
    · have h2 : p.1 ∈ n :: visited := List.mem_cons_of_mem _ h1
      simpa [List.filter_cons, h1, h2] using ih
    · by_cases h2 : p.1 ∈ n :: visited
      · simp only [List.filter_cons, h1, h2, not_true_eq_false, not_false_eq_true, decide_false,
          decide_true, if_true, if_false, Bool.false_eq_true, List.map_cons, List.sum_cons]
        exact Nat.le_trans ih (Nat.le_add_left _ _)
      · simp only [List.filter_cons, h1, h2, not_false_eq_true, decide_true, if_true,
          List.map_cons, List.sum_cons]
        exact Nat.add_le_add_left ih _

theorem pot_visit (l : List (Key × NodeRec)) (visited : List Key) (n : Key) (hn : n ∉ visited)
    (p : Key × NodeRec) (hp : l.find? (fun p => p.1 == n) = some p) :
    pot l (n :: visited) + (p.2.ins.getD []).length ≤ pot l visited := by
  induction l with
  | nil => simp at hp
  | cons q l ih =>
    by_cases hq : q.1 = n
    · have : (q.1 == n) = true := by simpa using hq
      simp only [List.find?_cons, this, Option.some.injEq] at hp
      subst hp
      have h1 : q.1 ∉ visited := hq ▸ hn
      have h2 : q.1 ∈ n :: visited := by simp [hq]
      have hm := pot_mono l visited n
      unfold pot at hm ⊢
      simp only [List.filter_cons, h1, h2, not_true_eq_false, not_false_eq_true, decide_false,
        decide_true, if_true, if_false, Bool.false_eq_true, List.map_cons, List.sum_cons]
      rw [Nat.add_comm]
      exact Nat.add_le_add_left hm _
    · have : (q.1 == n) = false := by simpa using hq
      simp only [List.find?_cons, this] at hp
      have ih := ih hp
      unfold pot at ih ⊢
      by_cases h1 : q.1 ∈ visited
      · have h2 : q.1 ∈ n :: visited := List.mem_cons_of_mem _ h1
        simpa [List.filter_cons, h1, h2] using ih
      · have h2 : q.1 ∉ n :: visited := by simp [hq, h1]
        simp only [List.filter_cons, h1, h2, not_false_eq_true, decide_true, if_true,
          List.map_cons, List.sum_cons]
        rw [Nat.add_assoc]
        exact Nat.add_le_add_left ih _

theorem srcKeys_length (es : List (Option Edge)) : (srcKeys es).length ≤ es.length :=
  List.length_filterMap_le _ _

theorem hasPathLoop_sound (g : Graph) (src dst : Key) :
    ∀ fuel visited stack, (∀ n ∈ stack, ReflTransGen (Feeds g) n dst) →
      hasPathLoop g src fuel visited stack = true → ReflTransGen (Feeds g) src dst
  | 0, _, _, _, h => by simp [hasPathLoop] at h
  | _ + 1, _, [], _, h => by simp [hasPathLoop] at h
  | fuel + 1, visited, n :: stack, hs, h => by
    unfold hasPathLoop at h
    split at h
    · next e => subst e; exact hs n List.mem_cons_self
    split at h
    · exact hasPathLoop_sound g src dst fuel _ _ (fun m hm => hs m (List.mem_cons_of_mem _ hm)) h
    split at h
    · next es hes =>
      refine hasPathLoop_sound g src dst fuel _ _ ?_ h
      intro m hm
      rw [List.mem_append, List.mem_reverse] at hm
      rcases hm with hm | hm
      · exact ReflTransGen.head ((feeds_iff_mem hes m).2 hm) (hs n List.mem_cons_self)
      · exact hs m (List.mem_cons_of_mem _ hm)
    · exact hasPathLoop_sound g src dst fuel _ _ (fun m hm => hs m (List.mem_cons_of_mem _ hm)) h

theorem hasPathLoop_complete (g : Graph) (src dst : Key) :
    ∀ fuel visited stack, pot g.nodes visited + stack.length < fuel →
      (dst ∈ visited ∨ dst ∈ stack) →
      (∀ v ∈ visited, v ≠ src ∧ ∀ a, Feeds g a v → a ∈ visited ∨ a ∈ stack) →
      hasPathLoop g src fuel visited stack = false → ¬ ReflTransGen (Feeds g) src dst
  | 0, _, _, hf, _, _, _ => by simp at hf
  | _ + 1, visited, [], _, hd, hv, _ => by
    intro hp
    have hd' : dst ∈ visited := by simpa using hd
    have : ∀ x, ReflTransGen (Feeds g) x dst → x ∈ visited := by
      intro x hx
      induction hx using ReflTransGen.head_induction_on with
      | refl => exact hd'
      | head h1 _ ih => simpa using (hv _ ih).2 _ h1
    exact (hv src (this src hp)).1 rfl
  | fuel + 1, visited, n :: stack, hf, hd, hv, h => by
    have hf' : pot g.nodes visited + stack.length < fuel := by
      simp only [List.length_cons] at hf; omega
    unfold hasPathLoop at h
    split at h
    · simp at h
    next hns =>
    split at h
    · next hmem =>
      refine hasPathLoop_complete g src dst fuel visited stack hf' ?_ ?_ h
      · rcases hd with hd | hd
        · exact .inl hd
        · rcases List.mem_cons.1 hd with rfl | hd
          · exact .inl hmem
          · exact .inr hd
      · intro v hvm
        refine ⟨(hv v hvm).1, fun a ha => ?_⟩
        rcases (hv v hvm).2 a ha with h1 | h1
        · exact .inl h1
        · rcases List.mem_cons.1 h1 with rfl | h1
          · exact .inl hmem
          · exact .inr h1
    next hmem =>
    split at h
    · next es hes =>
      refine hasPathLoop_complete g src dst fuel _ _ ?_ ?_ ?_ h
      · obtain ⟨p, hp, hpi⟩ : ∃ p, g.nodes.find? (fun p => p.1 == n) = some p ∧ p.2.ins = some es := by
          rw [ins_eq, get_eq] at hes
          cases hf : g.nodes.find? (fun p => p.1 == n) with
          | none => simp [hf] at hes
          | some p => exact ⟨p, rfl, by simpa [hf] using hes⟩
        have h1 := pot_visit g.nodes visited n hmem p hp
        rw [hpi] at h1
        simp only [Option.getD_some] at h1
        have h2 := srcKeys_length es
        simp only [List.length_append, List.length_reverse]
        omega
      · rcases hd with hd | hd
        · exact .inl (List.mem_cons_of_mem _ hd)
        · rcases List.mem_cons.1 hd with rfl | hd
          · exact .inl List.mem_cons_self
          · exact .inr (List.mem_append_right _ hd)
      · intro v hvm
        rcases List.mem_cons.1 hvm with rfl | hvm
        · refine ⟨hns, fun a ha => .inr (List.mem_append_left _ ?_)⟩
          rw [List.mem_reverse]
          exact (feeds_iff_mem hes a).1 ha
        · refine ⟨(hv v hvm).1, fun a ha => ?_⟩
          rcases (hv v hvm).2 a ha with h1 | h1
          · exact .inl (List.mem_cons_of_mem _ h1)
          · rcases List.mem_cons.1 h1 with rfl | h1
            · exact .inl List.mem_cons_self
            · exact .inr (List.mem_append_right _ h1)
    · next hes =>
      refine hasPathLoop_complete g src dst fuel _ _ ?_ ?_ ?_ h
      · have := pot_mono g.nodes visited n
        omega
      · rcases hd with hd | hd
        · exact .inl (List.mem_cons_of_mem _ hd)
        · rcases List.mem_cons.1 hd with rfl | hd
          · exact .inl List.mem_cons_self
          · exact .inr hd
      · intro v hvm
        rcases List.mem_cons.1 hvm with rfl | hvm
        · exact ⟨hns, fun a ha => absurd ha (not_feeds_of_none hes a)⟩
        · refine ⟨(hv v hvm).1, fun a ha => ?_⟩
          rcases (hv v hvm).2 a ha with h1 | h1
          · exact .inl (List.mem_cons_of_mem _ h1)
          · rcases List.mem_cons.1 h1 with rfl | h1
            · exact .inl List.mem_cons_self
            · exact .inr h1

theorem pot_nil (g : Graph) : pot g.nodes [] = g.edgeCount := by
  simp [pot, Graph.edgeCount]

/-- `has_path` decides reachability through audio connections. -/
theorem hasPath_iff (g : Graph) (src dst : Key) :
    hasPath g src dst = true ↔ ReflTransGen (Feeds g) src dst := by
  constructor
  · intro h
    refine hasPathLoop_sound g src dst _ _ _ ?_ h
    intro n hn
    simp only [List.mem_singleton] at hn
    subst hn
    exact ReflTransGen.refl
  · intro h
    by_contra hc
    rw [Bool.not_eq_true] at hc
    refine hasPathLoop_complete g src dst _ _ _ ?_ ?_ ?_ hc h
    · rw [pot_nil]; simp
    · simp
    · simp

/-! ### Relations -/

/-- No key is related to itself through one or more steps. -/
def Acyclic (r : Key → Key → Prop) : Prop := ∀ k, ¬ TransGen r k k

theorem Acyclic.of_sub {r r' : Key → Key → Prop} (h : Acyclic r)
    (hs : ∀ a b, r' a b → TransGen r a b) : Acyclic r' := by
  intro k hk
  refine h k ?_
  exact TransGen.trans_induction_on (motive := fun {a b} _ => TransGen r a b) hk
    (fun h => hs _ _ h) (fun _ _ h1 h2 => h1.trans h2)

theorem Acyclic.mono {r r' : Key → Key → Prop} (h : Acyclic r) (hs : ∀ a b, r' a b → r a b) :
    Acyclic r' := h.of_sub fun a b hab => .single (hs a b hab)

/-- Adding an edge `s → t` when `t` does not reach `s`. -/
theorem Acyclic.add {r r' : Key → Key → Prop} (h : Acyclic r) {s t : Key}
    (hst : ¬ ReflTransGen r t s) (hs : ∀ a b, r' a b → r a b ∨ (a = s ∧ b = t)) : Acyclic r' := by
  have key : ∀ a b, TransGen r' a b → TransGen r a b ∨ (ReflTransGen r a s ∧ ReflTransGen r t b) := by
    intro a b hab
    induction hab with
    | single h1 =>
      rcases hs _ _ h1 with h2 | ⟨rfl, rfl⟩
      · exact .inl (.single h2)
      · exact .inr ⟨.refl, .refl⟩
    | tail _ h1 ih =>
      rcases hs _ _ h1 with h2 | ⟨rfl, rfl⟩
      · rcases ih with ih | ⟨ih1, ih2⟩
        · exact .inl (ih.tail h2)
        · exact .inr ⟨ih1, ih2.tail h2⟩
      · rcases ih with ih | ⟨ih1, ih2⟩
        · exact .inr ⟨ih.to_reflTransGen, .refl⟩
        · exact absurd ih2 hst
  intro k hk
  rcases key k k hk with h1 | ⟨h1, h2⟩
  · exact h k h1
  · exact hst (h2.trans h1)

/-- Inserting a node `n` with edges from the former predecessors of `t` and from `s`, and an edge
`n → t`. -/
theorem Acyclic.insert {r r' : Key → Key → Prop} (h : Acyclic r) {s t n : Key}
    (hst : ¬ ReflTransGen r t s) (hnt : n ≠ t) (hns : n ≠ s)
    (hn1 : ∀ a, ¬ r n a) (hn2 : ∀ a, ¬ r a n)
    (hs : ∀ a b, r' a b → r a b ∨ (b = n ∧ (r a t ∨ a = s)) ∨ (a = n ∧ b = t)) : Acyclic r' := by
  let r2 : Key → Key → Prop := fun a b => r a b ∨ (a = s ∧ b = t)
  have h2 : Acyclic r2 := h.add hst (fun _ _ h => h)
  let f : Key → Key := fun a => if a = n then t else a
  have fn : f n = t := by simp [f]
  have fo : ∀ a, a ≠ n → f a = a := fun a ha => by simp [f, ha]
  have step : ∀ a b, r' a b → r2 (f a) (f b) ∨ (a = n ∧ b = t) := by
    intro a b hab
    rcases hs a b hab with h1 | ⟨rfl, h1⟩ | h1
    · have ha : a ≠ n := fun e => hn1 b (e ▸ h1)
      have hb : b ≠ n := fun e => hn2 a (e ▸ h1)
      rw [fo a ha, fo b hb]
      exact .inl (.inl h1)
    · rcases h1 with h1 | rfl
      · have ha : a ≠ b := fun e => hn1 t (e ▸ h1)
        rw [fo a ha, fn]
        exact .inl (.inl h1)
      · rw [fo a (fun e => hns e.symm), fn]
        exact .inl (.inr ⟨rfl, rfl⟩)
    · exact .inr h1
  have key : ∀ a b, TransGen r' a b → TransGen r2 (f a) (f b) ∨ (a = n ∧ b = t) := by
    intro a b hab
    induction hab with
    | single h1 =>
      rcases step _ _ h1 with h3 | h3
      · exact .inl (.single h3)
      · exact .inr h3
    | tail _ h1 ih =>
      rcases step _ _ h1 with h3 | ⟨rfl, rfl⟩
      · rcases ih with ih | ⟨rfl, rfl⟩
        · exact .inl (ih.tail h3)
        · rw [fn]
          rw [fo _ (fun e => hnt e.symm)] at h3
          exact .inl (.single h3)
      · rcases ih with ih | ⟨rfl, ih⟩
        · rw [fn] at ih
          rw [fo _ (fun e => hnt e.symm)]
          exact .inl ih
        · exact absurd ih hnt
  intro k hk
  rcases key k k hk with h3 | ⟨rfl, h3⟩
  · exact h2 _ h3
  · exact hnt h3

/-- Adding edges into a node without outgoing edges. -/
theorem Acyclic.sink {r r' : Key → Key → Prop} (h : Acyclic r) {n : Key}
    (hn : ∀ a, ¬ r' n a) (hs : ∀ a b, r' a b → r a b ∨ b = n) : Acyclic r' := by
  have key : ∀ a b, TransGen r' a b → TransGen r a b ∨ b = n := by
    intro a b hab
    induction hab with
    | single h1 =>
      rcases hs _ _ h1 with h3 | h3
      · exact .inl (.single h3)
      · exact .inr h3
    | tail _ h1 ih =>
      rcases ih with ih | rfl
      · rcases hs _ _ h1 with h3 | h3
        · exact .inl (ih.tail h3)
        · exact .inr h3
      · exact absurd h1 (hn _)
  intro k hk
  rcases key k k hk with h3 | rfl
  · exact h k h3
  · obtain ⟨c, hc, -⟩ := TransGen.head'_iff.1 hk
    exact hn c hc

/-! ### Edits -/

theorem edge_newAdd {sl} {g : Graph} (h : WF g) (k i) : (newAdd sl g).edge k i = g.edge k i :=
  edge_pushNode sl g _ k i h.fresh

theorem edge_newFeedback {sl} {g : Graph} (h : WF g) (k i) :
    (newFeedback sl g).edge k i = g.edge k i := by
  let n : NodeRec := { inputs := 1, outputs := 0, autoFree := true, dep := some (g.nextKey + 1) }
  have w := wf_push (sl := sl) (n := n) h (by simp [n])
  unfold newFeedback
  dsimp only
  rw [edge_pushNode sl _ _ k i w.fresh, edge_pushNode sl g _ k i h.fresh]

/-- The connections after the second part of `connect_to_node_internal`. -/
theorem tail_edges {sl} {g g' : Graph} (h : WF g) {source sink so si add fb}
    (he : connectTail sl g source sink so si add fb = .ok g') :
    g'.outs = g.outs ∧ (∃ es, g.ins sink = some es ∧ si < es.length) ∧
    (((add = false ∨ g.edge sink si = none) ∧ g'.nextKey = g.nextKey ∧
      ∃ f, ∀ k i, g'.edge k i = if k = sink ∧ i = si then some ⟨source, so, f⟩ else g.edge k i) ∨
     (∃ ex, add = true ∧ g.edge sink si = some ex ∧ g'.nextKey = g.nextKey + 1 ∧
      sink ≠ g.nextKey ∧
      ∀ k i, g'.edge k i = if k = sink ∧ i = si then some ⟨.node g.nextKey, 0, false⟩
        else if k = g.nextKey ∧ i = 1 then some ⟨source, so, false⟩
        else if k = g.nextKey ∧ i = 0 then some ex else g.edge k i)) := by
  unfold connectTail at he
  split at he
  · next hadd =>
    obtain ⟨es, h1, h2, -⟩ := setEdge_ok he
    exact ⟨outs_setEdge he, ⟨es, h1, h2⟩, .inl ⟨.inl (by simpa using hadd), nextKey_setEdge he, false,
      edge_setEdge he⟩⟩
  next hadd =>
  cases h1 : getEdge g sink si with
  | error e => simp [h1] at he
  | ok o =>
    simp only [h1, bind_ok] at he
    have hex := getEdge_ok h1
    cases o with
    | none =>
      obtain ⟨es, h1, h2, -⟩ := setEdge_ok he
      exact ⟨outs_setEdge he, ⟨es, h1, h2⟩, .inl ⟨.inr hex, nextKey_setEdge he, fb, edge_setEdge he⟩⟩
    | some ex =>
      simp only at he
      cases h2 : setEdge (newAdd sl g) g.nextKey 0 (some ex) with
      | error e => simp [h2] at he
      | ok g2 =>
        simp only [h2, bind_ok] at he
        cases h3 : setEdge g2 g.nextKey 1 (some ⟨source, so, false⟩) with
        | error e => simp [h3] at he
        | ok g3 =>
          simp only [h3, bind_ok] at he
          have hne : sink ≠ g.nextKey := by
            intro e
            have : g.ins sink = none := by rw [e, ins_eq, h.fresh]; rfl
            rw [edge_of_none this] at hex
            simp at hex
          have hsi : ∃ es, g.ins sink = some es ∧ si < es.length := by
            cases hs : g.ins sink with
            | none => rw [edge_of_none hs] at hex; simp at hex
            | some es =>
              refine ⟨es, rfl, ?_⟩
              by_contra hc
              rw [edge_of_ins hs, List.getElem?_eq_none (Nat.le_of_not_lt hc)] at hex
              simp at hex
          refine ⟨?_, hsi, .inr ⟨ex, by simpa using hadd, hex, ?_, hne, ?_⟩⟩
          · rw [outs_setEdge he, outs_setEdge h3, outs_setEdge h2]; rfl
          · rw [nextKey_setEdge he, nextKey_setEdge h3, nextKey_setEdge h2]; rfl
          · intro k i
            rw [edge_setEdge he, edge_setEdge h3, edge_setEdge h2, edge_newAdd h]

theorem feeds_tail {sl} {g g' : Graph} (h : WF g) (hac : Acyclic (Feeds g)) {source sink so si add fb}
    (he : connectTail sl g source sink so si add fb = .ok g')
    (hs : ∀ a, source = .node a → a < g.nextKey ∧ ¬ ReflTransGen (Feeds g) sink a) :
    Acyclic (Feeds g') := by
  obtain ⟨-, -, ⟨-, -, f, hed⟩ | ⟨ex, -, hex, -, hne, hed⟩⟩ := tail_edges h he
  · cases source with
    | graph =>
      refine hac.mono ?_
      rintro a b ⟨i, e, h1, h2⟩
      rw [hed] at h1
      split at h1
      · simp only [Option.some.injEq] at h1; subst h1; simp at h2
      · exact ⟨i, e, h1, h2⟩
    | node s =>
      refine hac.add (s := s) (t := sink) (hs s rfl).2 ?_
      rintro a b ⟨i, e, h1, h2⟩
      rw [hed] at h1
      split at h1
      · next hc =>
        simp only [Option.some.injEq] at h1; subst h1
        simp only [Src.node.injEq] at h2
        exact .inr ⟨h2.symm, hc.1⟩
      · exact .inl ⟨i, e, h1, h2⟩
  · have hn1 : ∀ a, ¬ Feeds g g.nextKey a := by
      rintro a ⟨i, e, h1, h2⟩
      exact Nat.lt_irrefl _ (h.srcLt a i e _ h1 h2)
    have hn2 : ∀ a, ¬ Feeds g a g.nextKey := by
      intro a
      apply not_feeds_of_none
      rw [ins_eq, h.fresh]; rfl
    cases source with
    | graph =>
      -- no new source node: use a fresh dummy source that is not connected to anything
      have hd : ¬ ReflTransGen (Feeds g) sink (g.nextKey + 1) := by
        intro hp
        rcases ReflTransGen.cases_tail hp with he | ⟨c, -, hc⟩
        · have : sink < g.nextKey := by
            cases hg : g.get sink with
            | none =>
              have : g.ins sink = none := by rw [ins_eq, hg]; rfl
              rw [edge_of_none this] at hex; simp at hex
            | some n => exact h.lt _ _ hg
          rw [← he] at this
          exact absurd this (by simp)
        · refine not_feeds_of_none ?_ c hc
          rw [ins_eq]
          cases hg : g.get (g.nextKey + 1) with
          | none => rfl
          | some n => exact absurd (h.lt _ _ hg) (by simp)
      refine hac.insert (s := g.nextKey + 1) (t := sink) (n := g.nextKey) hd hne.symm
        (by simp) hn1 hn2 ?_
      rintro a b ⟨i, e, h1, h2⟩
      rw [hed] at h1
      split at h1
      · next hc =>
        simp only [Option.some.injEq] at h1; subst h1
        simp only [Src.node.injEq] at h2
        exact .inr (.inr ⟨h2.symm, hc.1⟩)
      split at h1
      · simp only [Option.some.injEq] at h1; subst h1; simp at h2
      split at h1
      · next hc =>
        simp only [Option.some.injEq] at h1; subst h1
        exact .inr (.inl ⟨hc.1, .inl ⟨si, ex, hex, h2⟩⟩)
      · exact .inl ⟨i, e, h1, h2⟩
    | node s =>
      refine hac.insert (s := s) (t := sink) (n := g.nextKey) (hs s rfl).2 hne.symm
        (Nat.ne_of_gt (hs s rfl).1) hn1 hn2 ?_
      rintro a b ⟨i, e, h1, h2⟩
      rw [hed] at h1
      split at h1
      · next hc =>
        simp only [Option.some.injEq] at h1; subst h1
        simp only [Src.node.injEq] at h2
        exact .inr (.inr ⟨h2.symm, hc.1⟩)
      split at h1
      · next hc =>
        simp only [Option.some.injEq] at h1; subst h1
        simp only [Src.node.injEq] at h2
        exact .inr (.inl ⟨hc.1, .inr h2.symm⟩)
      split at h1
      · next hc =>
        simp only [Option.some.injEq] at h1; subst h1
        exact .inr (.inl ⟨hc.1, .inl ⟨si, ex, hex, h2⟩⟩)
      · exact .inl ⟨i, e, h1, h2⟩

theorem feeds_congr {g g' : Graph} (h : ∀ k i, g'.edge k i = g.edge k i) : Feeds g' = Feeds g := by
  funext a b
  simp only [Feeds, h]

theorem acyclic_connectToNode {sl} {g g' : Graph} (h : WF g) (hac : Acyclic (Feeds g))
    {source sink so si add fb} (hsink : sink < g.nextKey)
    (hs : ∀ a, source = .node a → a < g.nextKey ∧ (fb = true ∨ ¬ ReflTransGen (Feeds g) sink a))
    (he : connectToNode sl g source sink so si add fb = .ok g') : Acyclic (Feeds g') := by
  unfold connectToNode at he
  have h0 : WF { g with recalc := true } := h.congr rfl rfl rfl rfl
  have hac0 : Acyclic (Feeds { g with recalc := true }) := hac
  dsimp only at he
  split at he
  · next hfb =>
    cases h1 : setEdge (newFeedback sl { g with recalc := true }) g.nextKey 0
        (some ⟨source, so, true⟩) with
    | error e => simp [h1] at he
    | ok g1 =>
      simp only [h1, bind_ok] at he
      have n1 : g1.nextKey = g.nextKey + 1 + 1 := nextKey_setEdge h1
      have hed : ∀ k i, g1.edge k i = if k = g.nextKey ∧ i = 0 then some ⟨source, so, true⟩
          else g.edge k i := by
        intro k i
        rw [edge_setEdge h1, edge_newFeedback h0]
        rfl
      have w1 : WF g1 := wf_setEdge (wf_newFeedback h0) h1 (by
        intro ed a e1 e2
        simp only [Option.some.injEq] at e1; subst e1
        exact Nat.lt_succ_of_lt (Nat.lt_succ_of_lt (hs a e2).1))
      have hac1 : Acyclic (Feeds g1) := by
        refine hac.sink (n := g.nextKey) ?_ ?_
        · rintro a ⟨i, e, h2, h3⟩
          rw [hed] at h2
          split at h2
          · simp only [Option.some.injEq] at h2; subst h2
            exact Nat.lt_irrefl _ (hs _ h3).1
          · exact Nat.lt_irrefl _ (h.srcLt a i e _ h2 h3)
        · rintro a b ⟨i, e, h2, h3⟩
          rw [hed] at h2
          split at h2
          · next hc => exact .inr hc.1
          · exact .inl ⟨i, e, h2, h3⟩
      refine feeds_tail w1 hac1 he ?_
      intro a ha
      simp only [Src.node.injEq] at ha
      subst ha
      refine ⟨by rw [n1]; exact Nat.lt_succ_self _, ?_⟩
      intro hp
      rcases ReflTransGen.cases_tail hp with hq | ⟨c, -, i, e, h2, h3⟩
      · rw [← hq] at hsink
        exact absurd hsink (by simp)
      · rw [hed] at h2
        split at h2
        · next hc => exact absurd hc.1 (by simp)
        · have : g.edge (g.nextKey + 1) i = none := by
            apply edge_of_none
            rw [ins_eq]
            cases hg : g.get (g.nextKey + 1) with
            | none => rfl
            | some n => exact absurd (h.lt _ _ hg) (by simp)
          change g.edge (g.nextKey + 1) i = some e at h2
          rw [this] at h2
          simp at h2
  · next hfb =>
    refine feeds_tail h0 hac0 he ?_
    intro a ha
    refine ⟨(hs a ha).1, ?_⟩
    rcases (hs a ha).2 with h1 | h1
    · exact absurd h1 hfb
    · exact h1

theorem acyclic_connectToOut {sl} {g g' : Graph} (h : WF g) (hac : Acyclic (Feeds g))
    {source so si add} (hs : ∀ a, source = .node a → a < g.nextKey)
    (he : connectToOut sl g source so si add = .ok g') : Acyclic (Feeds g') := by
  unfold connectToOut at he
  have h0 : WF { g with recalc := true } := h.congr rfl rfl rfl rfl
  dsimp only at he
  split at he
  · obtain ⟨-, rfl⟩ := setOut_ok he; exact hac
  · cases h1 : getOut { g with recalc := true } si with
    | error e => simp [h1] at he
    | ok o =>
      simp only [h1, bind_ok] at he
      cases o with
      | none => obtain ⟨-, rfl⟩ := setOut_ok he; exact hac
      | some ex =>
        have hex := getOut_ok h1
        simp only at he
        cases h2 : setEdge (newAdd sl { g with recalc := true }) g.nextKey 0 (some ex) with
        | error e => simp [h2] at he
        | ok g2 =>
          simp only [h2, bind_ok] at he
          cases h3 : setEdge g2 g.nextKey 1 (some ⟨source, so, false⟩) with
          | error e => simp [h3] at he
          | ok g3 =>
            simp only [h3, bind_ok] at he
            obtain ⟨-, rfl⟩ := setOut_ok he
            have hed : ∀ k i, g3.edge k i = if k = g.nextKey ∧ i = 1 then some ⟨source, so, false⟩
                else if k = g.nextKey ∧ i = 0 then some ex else g.edge k i := by
              intro k i
              rw [edge_setEdge h3, edge_setEdge h2, edge_newAdd h0]
              rfl
            change Acyclic (Feeds g3)
            refine hac.sink (n := g.nextKey) ?_ ?_
            · rintro a ⟨i, e, h2, h3⟩
              rw [hed] at h2
              split at h2
              · simp only [Option.some.injEq] at h2; subst h2
                exact Nat.lt_irrefl _ (hs _ h3)
              split at h2
              · simp only [Option.some.injEq] at h2; subst h2
                exact Nat.lt_irrefl _ (h.outLt _ _ _ hex h3)
              · exact Nat.lt_irrefl _ (h.srcLt a i e _ h2 h3)
            · rintro a b ⟨i, e, h2, h3⟩
              rw [hed] at h2
              split at h2
              · next hc => exact .inr hc.1
              split at h2
              · next hc => exact .inr hc.1
              · exact .inl ⟨i, e, h2, h3⟩

theorem acyclic_free1 {g : Graph} (hac : Acyclic (Feeds g)) (k : Key) :
    Acyclic (Feeds (free1 g k)) := by
  refine hac.mono ?_
  rintro a b ⟨i, e, h1, h2⟩
  rw [edge_free1] at h1
  split at h1
  · simp at h1
  · exact ⟨i, e, (dropFrom_some h1).1, h2⟩

theorem acyclic_bypass {g : Graph} (hac : Acyclic (Feeds g)) {k : Key} {e : Edge} {i}
    (he : g.edge k i = some e) : Acyclic (Feeds (bypass g k e)) := by
  refine hac.of_sub ?_
  rintro a b ⟨j, e', h1, h2⟩
  rw [edge_bypass] at h1
  rcases redirect_some h1 with ⟨h3, -⟩ | ⟨rfl, ed, h3, h4⟩
  · exact .single ⟨j, e', h3, h2⟩
  · exact .tail (.single ⟨i, e', he, h2⟩) ⟨j, ed, h3, h4⟩

theorem acyclic_step {sl} {g g' : Graph} {op : Op} {r} (hg : WF g) (hac : Acyclic (Feeds g))
    (h : op.run sl g = .ok (g', r)) : Acyclic (Feeds g') := by
  have hF : ∀ g k n, Acyclic (Feeds g) → g.get k = some n → n.mortal = true →
      g.isPending k = false → Acyclic (Feeds (free1 g k)) := fun g k _ h _ _ _ => acyclic_free1 h k
  have hB : ∀ g k n e, Acyclic (Feeds g) → g.get k = some n → n.autoMath = true →
      ((g.edge k 0 = none ∧ g.edge k 1 = some e) ∨ (g.edge k 0 = some e ∧ g.edge k 1 = none)) →
      Acyclic (Feeds (bypass g k e)) := by
    intro g k n e h _ _ he
    rcases he with ⟨-, h1⟩ | ⟨h1, -⟩ <;> exact acyclic_bypass h h1
  have hO : ∀ g g' i, Acyclic (Feeds g) → setOut g i none = .ok g' → Acyclic (Feeds g') := by
    intro g g' i h hs
    obtain ⟨-, rfl⟩ := setOut_ok hs
    exact h
  have hE : ∀ g g' k i, Acyclic (Feeds g) → setEdge g k i none = .ok g' → Acyclic (Feeds g') := by
    intro g g' k i h hs
    refine h.mono ?_
    rintro a b ⟨j, e, h1, h2⟩
    rw [edge_setEdge hs] at h1
    split at h1
    · simp at h1
    · exact ⟨j, e, h1, h2⟩
  have hD : ∀ g s c, Acyclic (Feeds g) → Acyclic (Feeds (dropAll g s c)) := by
    intro g s c h
    refine h.mono ?_
    rintro a b ⟨j, e, h1, h2⟩
    rw [dropAll_edge] at h1
    exact ⟨j, e, dropExact_some h1, h2⟩
  cases op with
  | push i o d =>
    simp only [Op.run, Except.ok.injEq, Prod.mk.injEq] at h
    rw [← h.1, feeds_congr (fun k i => edge_pushNode sl g _ k i hg.fresh)]
    exact hac
  | connect s so si k a f =>
    simp only [Op.run, connect2] at h
    split at h
    · rcases connectInputToNode_ok h with ⟨rfl, -⟩ | ⟨-, nk, -, hk, -, h1⟩
      · exact hac
      · exact acyclic_connectToNode hg hac (hg.lt _ _ hk) (by simp) h1
    · rcases connectNodes_ok h with ⟨rfl, -⟩ | ⟨-, ns, nk, hns, -, hk, -, hp, h1⟩
      · exact hac
      · refine acyclic_connectToNode hg hac (hg.lt _ _ hk) ?_ h1
        intro b hb
        simp only [Src.node.injEq] at hb
        subst hb
        refine ⟨hg.lt _ _ hns, ?_⟩
        rcases hp with hp | hp
        · exact .inl hp
        · exact .inr (fun hc => by rw [(hasPath_iff _ _ _).2 hc] at hp; simp at hp)
    · rcases connectNodeToOutput_ok h with ⟨rfl, -⟩ | ⟨-, ns, hns, -, -, h1⟩
      · exact hac
      · refine acyclic_connectToOut hg hac ?_ h1
        intro b hb
        simp only [Src.node.injEq] at hb
        subst hb
        exact hg.lt _ _ hns
    · rcases connectInputToOutput_ok h with ⟨rfl, -⟩ | ⟨-, -, -, h1⟩
      · exact hac
      · exact acyclic_connectToOut hg hac (by simp) h1
  | param s so p k a =>
    have hmod : ∀ (g : Graph) k (f : NodeRec → NodeRec), (∀ n, (f n).ins = n.ins) →
        ∀ j i, (g.modify k f).edge j i = g.edge j i := by
      intro g k f hf j i
      rw [edge_eq, edge_eq, ins_eq, ins_eq, get_modify]
      split
      · next e => subst e; cases g.get j <;> simp [hf]
      · rfl
    have hmodF : ∀ (g : Graph) k (f : NodeRec → NodeRec), (∀ n, (f n).ins = n.ins) →
        Feeds (g.modify k f) = Feeds g := fun g k f hf => feeds_congr (hmod g k f hf)
    rcases connectParam_ok h with ⟨rfl, -⟩ | ⟨-, ns, nk, idx, es, hns, hso, hnk, hidx, hes, h⟩
    · exact hac
    rcases h with ⟨-, rfl⟩ | ⟨-, -, rfl⟩ | ⟨-, pos, ex, g2, g3, hpos, hex, h2, h3, rfl⟩
    · rw [hmodF g]
      · exact hac
      · intro _; rfl
    · rw [hmodF g]
      · exact hac
      · intro _; rfl
    · rw [hmodF g3]
      swap
      · intro _; rfl
      have hp : g.pars k.key = some es := by simp [pars_eq, hnk, hes]
      have hexlt : ex.source < g.nextKey := hg.parLt _ _ _ hp (List.mem_of_getElem? hex)
      have w1 : WF (g.modify k.key fun n => { n with pars := some (swapRemove es pos) }) := by
        refine wf_modify hg _ (fun _ => rfl) (fun _ => ⟨rfl, rfl, rfl⟩) ?_ ?_
        · intro n hn; rw [hnk] at hn; simp only [Option.some.injEq] at hn; subst hn; simp [hes]
        · intro n es' pe _ h1 h2
          simp only [Option.some.injEq] at h1
          subst h1
          exact hg.parLt _ _ _ hp (mem_swapRemove h2)
      have hed : ∀ k i, g3.edge k i =
          if k = g.nextKey ∧ i = 1 then some ⟨.node s.key, so, false⟩
          else if k = g.nextKey ∧ i = 0 then some ⟨.node ex.source, ex.chan, false⟩
          else g.edge k i := by
        intro k i
        rw [edge_setEdge h3, edge_setEdge h2, edge_newAdd w1, hmod g]
        intro _; rfl
      refine hac.sink (n := g.nextKey) ?_ ?_
      · rintro a ⟨i, e, h2, h3⟩
        rw [hed] at h2
        split at h2
        · simp only [Option.some.injEq] at h2; subst h2
          simp only [Src.node.injEq] at h3
          have := hg.lt _ _ hns
          rw [h3] at this
          exact Nat.lt_irrefl _ this
        split at h2
        · simp only [Option.some.injEq] at h2; subst h2
          simp only [Src.node.injEq] at h3
          rw [h3] at hexlt
          exact Nat.lt_irrefl _ hexlt
        · exact Nat.lt_irrefl _ (hg.srcLt a i e _ h2 h3)
      · rintro a b ⟨i, e, h2, h3⟩
        rw [hed] at h2
        split at h2
        · next hc => exact .inr hc.1
        split at h2
        · next hc => exact .inr hc.1
        · exact .inl ⟨i, e, h2, h3⟩
  | disconnectSource s c =>
    rcases disconnectSource_ok h with ⟨rfl, -⟩ | ⟨-, ⟨n, rec, -, -, -, -, rfl⟩ | ⟨g1, -, -, h1, -, rfl⟩⟩
    · exact hac
    · exact hD _ _ _ hac
    · exact hD _ _ _ (takeOut_ind hF hB hO hac h1)
  | disconnectSink c k =>
    rcases disconnectSink_ok h with ⟨rfl, -⟩ |
      ⟨-, ⟨n, rec, es, g1, -, -, -, -, -, h1, rfl⟩ | ⟨-, -, h1⟩⟩
    · exact hac
    · exact (takeIn_ind hF hB hE hac h1 : Acyclic (Feeds g1))
    · exact takeOut_ind hF hB hO hac h1
  | free n =>
    simp only [Op.run, editFree] at h
    split at h
    · simp only [Except.ok.injEq, Prod.mk.injEq] at h; exact h.1 ▸ hac
    · simp only [Except.ok.injEq] at h
      have : g' = (freeNode g n.key).1 := by rw [h]
      rw [this]
      exact freeNode_ind hF _ _ hac
  | mortality n m st =>
    simp only [Op.run, Except.ok.injEq] at h
    have hg' : g' = (setMortality g n m st).1 := by rw [h]
    rw [hg']
    unfold setMortality
    split
    · exact hac
    · rw [feeds_congr (g := g)]
      · exact hac
      · intro j i
        rw [edge_eq, edge_eq, ins_eq, ins_eq, get_modify]
        split
        · next e => subst e; cases g.get n.key <;> simp
        · rfl
  | commit rm fs =>
    simp only [Op.run] at h
    cases h1 : commitEdits rm fs g with
    | error e => simp [h1] at h
    | ok g1 =>
      simp only [h1, bind_ok, Except.ok.injEq, Prod.mk.injEq] at h
      rw [← h.1]
      unfold commitEdits at h1
      cases h2 : freeOld rm fs g with
      | error e => simp [h2] at h1
      | ok g2 =>
        have hac2 : Acyclic (Feeds g2) := by
          obtain ⟨g3, h3, rfl⟩ := freeOld_ok h2
          have := evalMany_ind hF hB _ (freeMany_ind hF _ _ hac) h3
          refine this.mono ?_
          rintro a b ⟨j, e, h1, h2⟩
          rw [edge_dropFlagged] at h1
          split at h1
          · simp at h1
          · exact ⟨j, e, h1, h2⟩
        simp only [h2, bind_ok, pure_ok, Except.ok.injEq] at h1
        split at h1 <;> subst h1 <;> exact hac2

theorem Reach.acyclic {sl} {g : Graph} (h : Reach sl g) : Acyclic (Feeds g) := by
  induction h with
  | init id a b =>
    intro k hk
    obtain ⟨c, ⟨i, e, h1, -⟩, -⟩ := TransGen.head'_iff.1 hk
    simp [Graph.init, edge_eq, ins_eq, get_eq] at h1
  | step op hr hs ih => exact acyclic_step hr.wf ih hs

end Verif.G
