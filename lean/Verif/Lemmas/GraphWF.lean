import Verif.Lemmas.Graph

/-!
# Well-formedness of reachable graphs
-/

namespace Verif.G

/-- Structural facts about every reachable graph. -/
structure WF (g : Graph) : Prop where
  lt : ∀ k n, g.get k = some n → k < g.nextKey
  nodup : (g.nodes.map Prod.fst).Nodup
  len : ∀ k n es, g.get k = some n → n.ins = some es → es.length = n.inputs
  math : ∀ k n, g.get k = some n → n.autoMath = true → n.inputs = 2 ∧ n.outputs = 1
  live : ∀ k n, g.get k = some n → (n.ins = none ↔ g.isPending k = true)
  livep : ∀ k n, g.get k = some n → (n.pars = none ↔ g.isPending k = true)
  pend : ∀ k, g.isPending k = true → (g.get k).isSome
  pendNodup : (g.pending.map Prod.fst).Nodup
  srcLt : ∀ k i e a, g.edge k i = some e → e.source = .node a → a < g.nextKey
  outLt : ∀ i e a, g.out i = some e → e.source = .node a → a < g.nextKey
  parLt : ∀ k es pe, g.pars k = some es → pe ∈ es → pe.source < g.nextKey

theorem WF.fresh {g : Graph} (h : WF g) : g.get g.nextKey = none := by
  cases hg : g.get g.nextKey with
  | none => rfl
  | some n => exact absurd (h.lt _ _ hg) (Nat.lt_irrefl _)

theorem pars_eq (g : Graph) (k : Key) : g.pars k = (g.get k).bind (·.pars) := rfl

theorem isPending_eq (g : Graph) (k : Key) : g.isPending k = g.pending.any (fun p => p.1 == k) := rfl

theorem isPending_iff (g : Graph) (k : Key) : g.isPending k = true ↔ k ∈ g.pending.map Prod.fst := by
  rw [isPending_eq]
  simp

/-- Changing only `recalc` and `flag`. -/
theorem WF.congr {g g' : Graph} (h : WF g) (h1 : g'.nodes = g.nodes) (h2 : g'.nextKey = g.nextKey)
    (h3 : g'.outs = g.outs) (h4 : g'.pending = g.pending) : WF g' := by
  have hget : ∀ k, g'.get k = g.get k := get_congr h1
  have hedge : ∀ k i, g'.edge k i = g.edge k i := edge_congr h1
  have hp : ∀ k, g'.isPending k = g.isPending k := by intro k; rw [isPending_eq, h4, isPending_eq]
  have hpars : ∀ k, g'.pars k = g.pars k := by intro k; rw [pars_eq, hget, pars_eq]
  have hout : ∀ i, g'.out i = g.out i := by intro i; simp only [Graph.out, h3]
  constructor
  · intro k n; rw [hget, h2]; exact h.lt k n
  · rw [h1]; exact h.nodup
  · intro k n es; rw [hget]; exact h.len k n es
  · intro k n; rw [hget]; exact h.math k n
  · intro k n; rw [hget, hp]; exact h.live k n
  · intro k n; rw [hget, hp]; exact h.livep k n
  · intro k; rw [hget, hp]; exact h.pend k
  · rw [h4]; exact h.pendNodup
  · intro k i e a; rw [hedge, h2]; exact h.srcLt k i e a
  · intro i e a; rw [hout, h2]; exact h.outLt i e a
  · intro k es pe; rw [hpars, h2]; exact h.parLt k es pe

theorem wf_init (id a b) : WF (Graph.init id a b) := by
  constructor <;> simp [Graph.init, get_eq, edge_eq, ins_eq, isPending_eq, Graph.out, pars_eq,
    List.getElem?_replicate]
  intro i e a h
  split at h <;> simp at h

theorem keys_insert (l : List (Key × NodeRec)) (i : Nat) (p : Key × NodeRec) :
    ((l.take i ++ p :: l.drop i).map Prod.fst).Perm (p.1 :: l.map Prod.fst) := by
  have h : (l.take i ++ p :: l.drop i).Perm (p :: (l.take i ++ l.drop i)) := List.perm_middle
  rw [List.take_append_drop] at h
  exact h.map Prod.fst

theorem wf_push {sl} {g : Graph} (h : WF g) {n : NodeRec}
    (hm : n.autoMath = true → n.inputs = 2 ∧ n.outputs = 1) : WF (pushNode sl g n) := by
  have hf := h.fresh
  have hget := fun j => get_pushNode sl g n j hf
  have hedge := fun j i => edge_pushNode sl g n j i hf
  have hnp : g.isPending g.nextKey = false := by
    cases hp : g.isPending g.nextKey with
    | false => rfl
    | true => have := h.pend _ hp; simp [hf] at this
  have hpend : ∀ k, (pushNode sl g n).isPending k = g.isPending k := fun _ => rfl
  constructor
  · intro k m
    rw [hget]
    split
    · next e => intro _; simp [e]
    · intro hk; have := h.lt k m hk; exact Nat.lt_succ_of_lt this
  · have := keys_insert g.nodes (sl g.nextKey) (g.nextKey,
      { n with ins := some (List.replicate n.inputs none), pars := some [], mortal := true })
    refine this.nodup_iff.2 ?_
    refine List.nodup_cons.2 ⟨?_, h.nodup⟩
    exact (get_none g g.nextKey).1 hf
  · intro k m es
    rw [hget]
    split
    · intro e h1; simp only [Option.some.injEq] at e; subst e
      simp only [Option.some.injEq] at h1; subst h1; simp
    · exact h.len k m es
  · intro k m
    rw [hget]
    split
    · intro e h1; simp only [Option.some.injEq] at e; subst e
      exact hm h1
    · exact h.math k m
  · intro k m
    rw [hget, hpend]
    split
    · next e => subst e; intro e; simp only [Option.some.injEq] at e; subst e; simp [hnp]
    · exact h.live k m
  · intro k m
    rw [hget, hpend]
    split
    · next e => subst e; intro e; simp only [Option.some.injEq] at e; subst e; simp [hnp]
    · exact h.livep k m
  · intro k
    rw [hget, hpend]
    split
    · simp
    · exact h.pend k
  · exact h.pendNodup
  · intro k i e a
    rw [hedge]
    intro h1 h2
    have := h.srcLt k i e a h1 h2
    exact Nat.lt_succ_of_lt this
  · intro i e a h1 h2
    have := h.outLt i e a h1 h2
    exact Nat.lt_succ_of_lt this
  · intro k es pe
    rw [pars_eq, hget]
    split
    · simp; intro e; subst e; simp
    · intro h1 h2; have := h.parLt k es pe h1 h2; exact Nat.lt_succ_of_lt this

/-- Updating node records without touching the fields that matter. -/
theorem wf_setEdge {g g' : Graph} (h : WF g) {k i e} (hs : setEdge g k i e = .ok g')
    (he : ∀ ed a, e = some ed → ed.source = .node a → a < g.nextKey) : WF g' := by
  obtain ⟨es, hes, hi, heq⟩ := setEdge_ok hs
  have hget : ∀ j, g'.get j = if j = k
      then (g.get k).map (fun n => { n with ins := some (es.set i e) }) else g.get j := by
    intro j; rw [heq]; exact get_modify g k j _
  have hedge := edge_setEdge hs
  have hnk : g'.nextKey = g.nextKey := nextKey_setEdge hs
  have hpe : g'.pending = g.pending := by rw [heq]; rfl
  have hpend : ∀ k, g'.isPending k = g.isPending k := by
    intro j; rw [isPending_eq, hpe, isPending_eq]
  obtain ⟨nk, hnk', hnkins⟩ : ∃ n, g.get k = some n ∧ n.ins = some es := by
    rw [ins_eq] at hes
    cases hk : g.get k with
    | none => simp [hk] at hes
    | some n => exact ⟨n, rfl, by simpa [hk] using hes⟩
  rw [hnk'] at hget
  simp only [Option.map_some] at hget
  constructor
  · intro j m
    rw [hget, hnk]
    split
    · next e => intro _; subst e; exact h.lt _ _ hnk'
    · exact h.lt j m
  · have : g'.nodes.map Prod.fst = g.nodes.map Prod.fst := by rw [heq]; simp
    rw [this]; exact h.nodup
  · intro j m es'
    rw [hget]
    split
    · intro e1 e2
      simp only [Option.some.injEq] at e1
      subst e1
      simp only [Option.some.injEq] at e2
      subst e2
      simp only [List.length_set]
      exact h.len k nk es hnk' hnkins
    · exact h.len j m es'
  · intro j m
    rw [hget]
    split
    · intro e1
      simp only [Option.some.injEq] at e1
      subst e1
      exact h.math k nk hnk'
    · exact h.math j m
  · intro j m
    rw [hget, hpend]
    split
    · next e' =>
      subst e'
      intro e1
      simp only [Option.some.injEq] at e1
      subst e1
      have := h.live j nk hnk'
      rw [hnkins] at this
      simpa using this
    · exact h.live j m
  · intro j m
    rw [hget, hpend]
    split
    · next e' =>
      subst e'
      intro e1
      simp only [Option.some.injEq] at e1
      subst e1
      exact h.livep j nk hnk'
    · exact h.livep j m
  · intro j
    rw [hget, hpend]
    split
    · simp
    · exact h.pend j
  · rw [hpe]; exact h.pendNodup
  · intro j i' e' a
    rw [hedge, hnk]
    split
    · intro h1 h2; exact he e' a h1 h2
    · exact h.srcLt j i' e' a
  · intro i' e' a
    have : g'.out i' = g.out i' := by simp only [Graph.out, outs_setEdge hs]
    rw [this, hnk]
    exact h.outLt i' e' a
  · intro j es' pe
    rw [pars_eq, hget, hnk]
    split
    · next e' =>
      subst e'
      have := h.parLt j es' pe
      rw [pars_eq, hnk'] at this
      exact this
    · exact h.parLt j es' pe

theorem wf_setOut {g g' : Graph} (h : WF g) {i e} (hs : setOut g i e = .ok g')
    (he : ∀ ed a, e = some ed → ed.source = .node a → a < g.nextKey) : WF g' := by
  obtain ⟨hi, heq⟩ := setOut_ok hs
  have h1 := out_setOut hs
  have base : WF { g' with outs := g.outs } := h.congr (by rw [heq]) (by rw [heq]) rfl (by rw [heq])
  constructor
  · exact base.lt
  · exact base.nodup
  · exact base.len
  · exact base.math
  · exact base.live
  · exact base.livep
  · exact base.pend
  · exact base.pendNodup
  · exact base.srcLt
  · intro j e' a
    rw [h1]
    have hn : g'.nextKey = g.nextKey := by rw [heq]
    rw [hn]
    split
    · intro h2 h3; exact he e' a h2 h3
    · exact h.outLt j e' a
  · exact base.parLt

theorem wf_mapEdges {g g' : Graph} (h : WF g) (f : Option Edge → Option Edge)
    (hk : g'.nodes.map Prod.fst = g.nodes.map Prod.fst)
    (hget : ∀ j, g'.get j = (g.get j).map fun n => { n with ins := n.ins.map (·.map f) })
    (hedge : ∀ j i, g'.edge j i = f (g.edge j i)) (hout : ∀ i, g'.out i = f (g.out i))
    (hn : g'.nextKey = g.nextKey) (hpe : g'.pending = g.pending)
    (hf : ∀ e e' a, f (some e) = some e' → e'.source = .node a →
      (∀ a, e.source = .node a → a < g.nextKey) → a < g.nextKey)
    (hf0 : f none = none) : WF g' := by
  have hpend : ∀ k, g'.isPending k = g.isPending k := by
    intro j; rw [isPending_eq, hpe, isPending_eq]
  constructor
  · intro j m
    rw [hget, hn]
    cases hj : g.get j with
    | none => simp
    | some n => intro _; exact h.lt j n hj
  · rw [hk]; exact h.nodup
  · intro j m es
    rw [hget]
    cases hj : g.get j with
    | none => simp
    | some n =>
      intro e1 e2
      simp only [Option.map_some, Option.some.injEq] at e1
      subst e1
      simp only [Option.map_eq_some_iff] at e2
      obtain ⟨es0, h0, rfl⟩ := e2
      simpa using h.len j n es0 hj h0
  · intro j m
    rw [hget]
    cases hj : g.get j with
    | none => simp
    | some n =>
      intro e1
      simp only [Option.map_some, Option.some.injEq] at e1
      subst e1
      exact h.math j n hj
  · intro j m
    rw [hget, hpend]
    cases hj : g.get j with
    | none => simp
    | some n =>
      intro e1
      simp only [Option.map_some, Option.some.injEq] at e1
      subst e1
      simpa using h.live j n hj
  · intro j m
    rw [hget, hpend]
    cases hj : g.get j with
    | none => simp
    | some n =>
      intro e1
      simp only [Option.map_some, Option.some.injEq] at e1
      subst e1
      simpa using h.livep j n hj
  · intro j
    rw [hget, hpend]
    simpa using h.pend j
  · rw [hpe]; exact h.pendNodup
  · intro j i e a
    rw [hedge, hn]
    cases hj : g.edge j i with
    | none => simp [hf0]
    | some e0 => intro h1 h2; exact hf e0 e a h1 h2 (fun b hb => h.srcLt j i e0 b hj hb)
  · intro i e a
    rw [hout, hn]
    cases hj : g.out i with
    | none => simp [hf0]
    | some e0 => intro h1 h2; exact hf e0 e a h1 h2 (fun b hb => h.outLt i e0 b hj hb)
  · intro j es pe
    rw [pars_eq, hget, hn]
    intro h1
    apply h.parLt j es pe
    rw [pars_eq]
    cases hj : g.get j <;> simp_all

theorem wf_bypass {g : Graph} (h : WF g) {k : Key} {e : Edge} {i} (he : g.edge k i = some e) :
    WF (bypass g k e) := by
  refine wf_mapEdges h (redirect k e) (bypass_keys g k e) (get_bypass g k e) (edge_bypass g k e)
    (out_bypass g k e) rfl rfl ?_ rfl
  intro e0 e' a h1 h2 h3
  rcases redirect_some h1 with ⟨h4, -⟩ | ⟨rfl, -⟩
  · simp only [Option.some.injEq] at h4; subst h4; exact h3 a h2
  · exact h.srcLt k i e' a he h2

theorem wf_dropAll {g : Graph} (h : WF g) (s ch) : WF (dropAll g s ch) := by
  refine wf_mapEdges h (dropExact s ch) (dropAll_keys g s ch) (dropAll_get g s ch)
    (dropAll_edge g s ch) (dropAll_out g s ch) rfl rfl ?_ rfl
  intro e0 e' a h1 h2 h3
  have := dropExact_some h1
  simp only [Option.some.injEq] at this; subst this; exact h3 a h2

theorem wf_free1 {g : Graph} (h : WF g) {k : Key} {n : NodeRec} (hk : g.get k = some n)
    (hnp : g.isPending k = false) :
    WF (free1 g k) := by
  have hpend : ∀ j, (free1 g k).isPending j = (g.isPending j || k == j) := by
    intro j
    rw [isPending_eq, free1_pending, List.any_append, isPending_eq]
    simp
  have hget := get_free1 g k
  rw [hk] at hget
  simp only [Option.map_some] at hget
  constructor
  · intro j m
    rw [hget]
    split
    · next e => intro _; subst e; exact h.lt _ _ hk
    · cases hj : g.get j with
      | none => simp
      | some n => intro _; exact h.lt j n hj
  · rw [free1_keys]; exact h.nodup
  · intro j m es
    rw [hget]
    split
    · intro e1 e2; simp only [Option.some.injEq] at e1; subst e1; simp at e2
    · cases hj : g.get j with
      | none => simp
      | some n =>
        intro e1 e2
        simp only [Option.map_some, Option.some.injEq] at e1
        subst e1
        simp only [Option.map_eq_some_iff] at e2
        obtain ⟨es0, h0, rfl⟩ := e2
        simpa using h.len j n es0 hj h0
  · intro j m
    rw [hget]
    split
    · intro e1; simp only [Option.some.injEq] at e1; subst e1; exact h.math k n hk
    · cases hj : g.get j with
      | none => simp
      | some n =>
        intro e1
        simp only [Option.map_some, Option.some.injEq] at e1
        subst e1
        exact h.math j n hj
  · intro j m
    rw [hget, hpend]
    split
    · next e => intro e1; simp only [Option.some.injEq] at e1; subst e1; simp [e]
    · next hne =>
      have hkj : (k == j) = false := by simpa using fun e => hne e.symm
      rw [hkj, Bool.or_false]
      cases hj : g.get j with
      | none => simp
      | some n =>
        intro e1
        simp only [Option.map_some, Option.some.injEq] at e1
        subst e1
        simpa using h.live j n hj
  · intro j m
    rw [hget, hpend]
    split
    · next e => intro e1; simp only [Option.some.injEq] at e1; subst e1; simp [e]
    · next hne =>
      have hkj : (k == j) = false := by simpa using fun e => hne e.symm
      rw [hkj, Bool.or_false]
      cases hj : g.get j with
      | none => simp
      | some n =>
        intro e1
        simp only [Option.map_some, Option.some.injEq] at e1
        subst e1
        simpa using h.livep j n hj
  · intro j
    rw [hget, hpend]
    split
    · simp
    · next hne =>
      have hkj : (k == j) = false := by simpa using fun e => hne e.symm
      rw [hkj, Bool.or_false]
      simpa using h.pend j
  · rw [free1_pending, List.map_append]
    refine List.nodup_append.2 ⟨h.pendNodup, by simp, ?_⟩
    intro a ha b hb
    simp only [List.map_cons, List.map_nil, List.mem_singleton] at hb
    subst hb
    rintro rfl
    rw [(isPending_iff g a).2 ha] at hnp
    simp at hnp
  · intro j i e a
    rw [edge_free1]
    split
    · simp
    · intro h1 h2
      exact h.srcLt j i e a (dropFrom_some h1).1 h2
  · intro i e a
    rw [out_free1]
    intro h1 h2
    exact h.outLt i e a (dropFrom_some h1).1 h2
  · intro j es pe
    rw [pars_eq, hget]
    split
    · simp
    · intro h1
      apply h.parLt j es pe
      rw [pars_eq]
      cases hj : g.get j <;> simp_all

theorem wf_freeNode {g : Graph} (h : WF g) (k : Key) : WF (freeNode g k).1 :=
  freeNode_ind (fun _ _ _ hg hk _ hp => wf_free1 hg hk hp) g k h

theorem wf_freeMany {g : Graph} (h : WF g) (ks : List Key) : WF (freeMany g ks) :=
  freeMany_ind (fun _ _ _ hg hk _ hp => wf_free1 hg hk hp) ks g h

theorem wf_evalNode {g g' : Graph} (h : WF g) {k : Key} (he : evalNode g k = .ok g') : WF g' :=
  evalNode_ind (fun _ _ _ hg hk _ hp => wf_free1 hg hk hp)
    (fun _ _ _ _ hg _ _ he => by
      rcases he with ⟨-, h1⟩ | ⟨h1, -⟩ <;> exact wf_bypass hg h1) h he

theorem wf_evalMany {g g' : Graph} (h : WF g) {ks : List Key} (he : evalMany g ks = .ok g') :
    WF g' :=
  evalMany_ind (fun _ _ _ hg hk _ hp => wf_free1 hg hk hp)
    (fun _ _ _ _ hg _ _ he => by
      rcases he with ⟨-, h1⟩ | ⟨h1, -⟩ <;> exact wf_bypass hg h1) ks h he

theorem wf_dropFlagged {g : Graph} (h : WF g) (fs) : WF (dropFlagged fs g) := by
  have hn := h.pendNodup
  have hget := get_dropFlagged fs g
  have hedge := edge_dropFlagged fs g
  have hpend : ∀ j, (dropFlagged fs g).isPending j = true ↔
      g.isPending j = true ∧ j ∉ goneKeys fs g := by
    intro j
    rw [isPending_iff, isPending_iff]
    simp only [dropFlagged, goneKeys, List.mem_map, List.mem_filter]
    constructor
    · rintro ⟨p, ⟨hp, hf⟩, rfl⟩
      refine ⟨⟨p, hp, rfl⟩, ?_⟩
      rintro ⟨q, ⟨hq, hqf⟩, hqp⟩
      have := List.inj_on_of_nodup_map hn hq hp hqp
      subst this
      simp [hqf] at hf
    · rintro ⟨⟨p, hp, rfl⟩, hng⟩
      refine ⟨p, ⟨hp, ?_⟩, rfl⟩
      cases hf : fs p.2 with
      | false => rfl
      | true => exact absurd ⟨p, ⟨hp, hf⟩, rfl⟩ hng
  have hpars : ∀ j, (dropFlagged fs g).pars j = if j ∈ goneKeys fs g then none else g.pars j := by
    intro j
    rw [pars_eq, hget, pars_eq]
    split <;> simp
  have hsub : ∀ {j n}, (dropFlagged fs g).get j = some n → g.get j = some n ∧ j ∉ goneKeys fs g := by
    intro j n
    rw [hget]
    split
    · simp
    · next hj => exact fun hh => ⟨hh, hj⟩
  constructor
  · intro k n hk; exact h.lt k n (hsub hk).1
  · exact List.Nodup.sublist (List.Sublist.map _ List.filter_sublist) h.nodup
  · intro k n es hk; exact h.len k n es (hsub hk).1
  · intro k n hk; exact h.math k n (hsub hk).1
  · intro k n hk
    rw [h.live k n (hsub hk).1, hpend]
    exact ⟨fun hh => ⟨hh, (hsub hk).2⟩, fun hh => hh.1⟩
  · intro k n hk
    rw [h.livep k n (hsub hk).1, hpend]
    exact ⟨fun hh => ⟨hh, (hsub hk).2⟩, fun hh => hh.1⟩
  · intro k hk
    rw [hpend] at hk
    rw [hget, if_neg hk.2]
    exact h.pend k hk.1
  · exact List.Nodup.sublist (List.Sublist.map _ List.filter_sublist) h.pendNodup
  · intro k i e a
    rw [hedge]
    split
    · simp
    · exact h.srcLt k i e a
  · exact h.outLt
  · intro k es pe
    rw [hpars]
    split
    · simp
    · exact h.parLt k es pe

theorem wf_freeOld {rm fs} {g g' : Graph} (h : WF g) (he : freeOld rm fs g = .ok g') : WF g' := by
  obtain ⟨g1, h1, rfl⟩ := freeOld_ok he
  exact wf_dropFlagged (wf_evalMany (wf_freeMany h _) h1) fs

theorem wf_commit {rm fs} {g g' : Graph} (h : WF g) (he : commitEdits rm fs g = .ok g') :
    WF g' := by
  unfold commitEdits at he
  cases h1 : freeOld rm fs g with
  | error e => simp [h1] at he
  | ok g1 =>
    simp only [h1, bind_ok, pure_ok, Except.ok.injEq] at he
    have := wf_freeOld h h1
    split at he <;> subst he
    · exact this.congr rfl rfl rfl rfl
    · exact this

/-- Changing the parameter edges or the mortality of one node. -/
theorem wf_modify {g : Graph} (h : WF g) {k : Key} (f : NodeRec → NodeRec)
    (h1 : ∀ n, (f n).ins = n.ins) (h2 : ∀ n, (f n).inputs = n.inputs ∧ (f n).outputs = n.outputs ∧
      (f n).autoMath = n.autoMath)
    (h3 : ∀ n, g.get k = some n → ((f n).pars = none ↔ n.pars = none))
    (h4 : ∀ n es pe, g.get k = some n → (f n).pars = some es → pe ∈ es → pe.source < g.nextKey) :
    WF (g.modify k f) := by
  have hget := fun j => get_modify g k j f
  have hins : ∀ j, (g.modify k f).ins j = g.ins j := by
    intro j
    rw [ins_eq, hget, ins_eq]
    split
    · next e => subst e; cases g.get j <;> simp [h1]
    · rfl
  have hedge : ∀ j i, (g.modify k f).edge j i = g.edge j i := by
    intro j i; rw [edge_eq, hins, edge_eq]
  have hpend : ∀ j, (g.modify k f).isPending j = g.isPending j := fun _ => rfl
  have key : ∀ j m, (g.modify k f).get j = some m → ∃ n, g.get j = some n ∧
      ((j = k ∧ m = f n) ∨ (j ≠ k ∧ m = n)) := by
    intro j m
    rw [hget]
    split
    · next e =>
      subst e
      cases hj : g.get j with
      | none => simp
      | some n => intro hm; exact ⟨n, rfl, .inl ⟨rfl, by simpa using hm.symm⟩⟩
    · next e => intro hm; exact ⟨m, hm, .inr ⟨e, rfl⟩⟩
  constructor
  · intro j m hm
    obtain ⟨n, hn, -⟩ := key j m hm
    exact h.lt j n hn
  · rw [keys_modify]; exact h.nodup
  · intro j m es hm
    obtain ⟨n, hn, ⟨-, rfl⟩ | ⟨-, rfl⟩⟩ := key j m hm
    · rw [h1, (h2 n).1]; exact h.len j n es hn
    · exact h.len j m es hn
  · intro j m hm
    obtain ⟨n, hn, ⟨-, rfl⟩ | ⟨-, rfl⟩⟩ := key j m hm
    · rw [(h2 n).1, (h2 n).2.1, (h2 n).2.2]; exact h.math j n hn
    · exact h.math j m hn
  · intro j m hm
    obtain ⟨n, hn, ⟨-, rfl⟩ | ⟨-, rfl⟩⟩ := key j m hm
    · rw [h1, hpend]; exact h.live j n hn
    · rw [hpend]; exact h.live j m hn
  · intro j m hm
    obtain ⟨n, hn, ⟨rfl, rfl⟩ | ⟨-, rfl⟩⟩ := key j m hm
    · rw [h3 n hn, hpend]; exact h.livep j n hn
    · rw [hpend]; exact h.livep j m hn
  · intro j
    rw [hget, hpend]
    split
    · next e => subst e; simpa using h.pend j
    · exact h.pend j
  · exact h.pendNodup
  · intro j i e a; rw [hedge]; exact h.srcLt j i e a
  · exact h.outLt
  · intro j es pe
    rw [pars_eq]
    cases hm : (g.modify k f).get j with
    | none => simp
    | some m =>
      obtain ⟨n, hn, ⟨rfl, rfl⟩ | ⟨-, rfl⟩⟩ := key j m hm
      · exact h4 n es pe hn
      · intro h5; apply h.parLt j es pe; rw [pars_eq, hn]; exact h5

theorem wf_newAdd {sl} {g : Graph} (h : WF g) : WF (newAdd sl g) := wf_push h (fun _ => ⟨rfl, rfl⟩)

theorem wf_newFeedback {sl} {g : Graph} (h : WF g) : WF (newFeedback sl g) := by
  unfold newFeedback
  exact wf_push (wf_push h (by simp)) (by simp)

@[simp] theorem newAdd_nextKey (sl g) : (newAdd sl g).nextKey = g.nextKey + 1 := rfl
@[simp] theorem newAdd_outs (sl g) : (newAdd sl g).outs = g.outs := rfl
@[simp] theorem newFeedback_nextKey (sl g) : (newFeedback sl g).nextKey = g.nextKey + 1 + 1 := rfl
@[simp] theorem newFeedback_outs (sl g) : (newFeedback sl g).outs = g.outs := rfl

theorem wf_tail {sl} {g g' : Graph} (h : WF g) {source sink so si add fb}
    (hs : ∀ a, source = .node a → a < g.nextKey)
    (he : connectTail sl g source sink so si add fb = .ok g') : WF g' := by
  unfold connectTail at he
  split at he
  · exact wf_setEdge h he (by rintro ed a h1 h2; simp only [Option.some.injEq] at h1; subst h1; exact hs a h2)
  · cases h1 : getEdge g sink si with
    | error e => simp [h1] at he
    | ok o =>
      simp only [h1, bind_ok] at he
      cases o with
      | none =>
        exact wf_setEdge h he (by rintro ed a h1 h2; simp only [Option.some.injEq] at h1; subst h1; exact hs a h2)
      | some ex =>
        have hex := getEdge_ok h1
        simp only at he
        cases h2 : setEdge (newAdd sl g) g.nextKey 0 (some ex) with
        | error e => simp [h2] at he
        | ok g2 =>
          simp only [h2, bind_ok] at he
          cases h3 : setEdge g2 g.nextKey 1 (some ⟨source, so, false⟩) with
          | error e => simp [h3] at he
          | ok g3 =>
            simp only [h3, bind_ok] at he
            have w2 : WF g2 := wf_setEdge (wf_newAdd h) h2 (by
              intro ed a e1 e2
              simp only [Option.some.injEq] at e1; subst e1
              exact Nat.lt_succ_of_lt (h.srcLt _ _ _ a hex e2))
            have n2 : g2.nextKey = g.nextKey + 1 := nextKey_setEdge h2
            have w3 : WF g3 := wf_setEdge w2 h3 (by
              intro ed a e1 e2
              simp only [Option.some.injEq] at e1; subst e1
              rw [n2]
              exact Nat.lt_succ_of_lt (hs a e2))
            have n3 : g3.nextKey = g.nextKey + 1 := (nextKey_setEdge h3).trans n2
            refine wf_setEdge w3 he ?_
            intro ed a e1 e2
            simp only [Option.some.injEq] at e1; subst e1
            simp only [Src.node.injEq] at e2
            rw [n3, ← e2]
            exact Nat.lt_succ_self _

theorem wf_connectToNode {sl} {g g' : Graph} (h : WF g) {source sink so si add fb}
    (hs : ∀ a, source = .node a → a < g.nextKey)
    (he : connectToNode sl g source sink so si add fb = .ok g') : WF g' := by
  unfold connectToNode at he
  have h0 : WF { g with recalc := true } := h.congr rfl rfl rfl rfl
  dsimp only at he
  split at he
  · cases h1 : setEdge (newFeedback sl { g with recalc := true }) g.nextKey 0
        (some ⟨source, so, true⟩) with
    | error e => simp [h1] at he
    | ok g1 =>
      simp only [h1, bind_ok] at he
      have n1 : g1.nextKey = g.nextKey + 1 + 1 := nextKey_setEdge h1
      refine wf_tail (wf_setEdge (wf_newFeedback h0) h1 ?_) ?_ he
      · intro ed a e1 e2
        simp only [Option.some.injEq] at e1; subst e1
        exact Nat.lt_succ_of_lt (Nat.lt_succ_of_lt (hs a e2))
      · intro a ha
        simp only [Src.node.injEq] at ha
        rw [n1, ← ha]
        exact Nat.lt_succ_self _
  · exact wf_tail h0 hs he

theorem wf_connectToOut {sl} {g g' : Graph} (h : WF g) {source so si add}
    (hs : ∀ a, source = .node a → a < g.nextKey)
    (he : connectToOut sl g source so si add = .ok g') : WF g' := by
  unfold connectToOut at he
  have h0 : WF { g with recalc := true } := h.congr rfl rfl rfl rfl
  dsimp only at he
  split at he
  · exact wf_setOut h0 he (by rintro ed a h1 h2; simp only [Option.some.injEq] at h1; subst h1; exact hs a h2)
  · cases h1 : getOut { g with recalc := true } si with
    | error e => simp [h1] at he
    | ok o =>
      simp only [h1, bind_ok] at he
      cases o with
      | none =>
        exact wf_setOut h0 he (by rintro ed a h1 h2; simp only [Option.some.injEq] at h1; subst h1; exact hs a h2)
      | some ex =>
        have hex := getOut_ok h1
        simp only at he
        cases h2 : setEdge (newAdd sl { g with recalc := true }) g.nextKey 0 (some ex) with
        | error e => simp [h2] at he
        | ok g2 =>
          simp only [h2, bind_ok] at he
          cases h3 : setEdge g2 g.nextKey 1 (some ⟨source, so, false⟩) with
          | error e => simp [h3] at he
          | ok g3 =>
            simp only [h3, bind_ok] at he
            have w2 : WF g2 := wf_setEdge (wf_newAdd h0) h2 (by
              intro ed a e1 e2
              simp only [Option.some.injEq] at e1; subst e1
              exact Nat.lt_succ_of_lt (h0.outLt _ _ a hex e2))
            have n2 : g2.nextKey = g.nextKey + 1 := nextKey_setEdge h2
            have w3 : WF g3 := wf_setEdge w2 h3 (by
              intro ed a e1 e2
              simp only [Option.some.injEq] at e1; subst e1
              rw [n2]
              exact Nat.lt_succ_of_lt (hs a e2))
            have n3 : g3.nextKey = g.nextKey + 1 := (nextKey_setEdge h3).trans n2
            refine wf_setOut w3 he ?_
            intro ed a e1 e2
            simp only [Option.some.injEq] at e1; subst e1
            simp only [Src.node.injEq] at e2
            rw [n3, ← e2]
            exact Nat.lt_succ_self _

end Verif.G
