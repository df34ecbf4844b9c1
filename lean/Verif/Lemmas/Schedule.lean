import Verif.Lemmas.Alloc
import Verif.Props.Order

/-!
# The schedule produced by a commit
-/

namespace Verif.G

open Relation

theorem mapR_ok {α β} {f : α → R β} {h : α → β} : ∀ {l : List α}, (∀ x ∈ l, f x = .ok (h x)) →
    mapR f l = .ok (l.map h) := by
  intro l
  induction l with
  | nil => intro _; rfl
  | cons x l ih =>
    intro hx
    rw [mapR, hx x (by simp)]
    simp only [bind_ok]
    rw [ih (fun y hy => hx y (List.mem_cons_of_mem _ hy))]
    rfl

theorem mapR_mem {α β} {f : α → R β} : ∀ {l : List α} {ys : List β}, mapR f l = .ok ys →
    ∀ y ∈ ys, ∃ x ∈ l, f x = .ok y := by
  intro l
  induction l with
  | nil => intro ys h y hy; simp only [mapR, Except.ok.injEq] at h; subst h; simp at hy
  | cons x l ih =>
    intro ys h y hy
    rw [mapR] at h
    cases hx : f x with
    | error e => simp [hx] at h
    | ok z =>
      rw [hx] at h
      simp only [bind_ok] at h
      cases hl : mapR f l with
      | error e => simp [hl] at h
      | ok zs =>
        rw [hl] at h
        simp only [bind_ok, Except.ok.injEq] at h
        subst h
        rcases List.mem_cons.1 hy with rfl | hy
        · exact ⟨x, by simp, hx⟩
        · obtain ⟨x', h1, h2⟩ := ih hl y hy
          exact ⟨x', List.mem_cons_of_mem _ h1, h2⟩

theorem sum_map_filter {α} (f : α → Nat) (p : α → Bool) (l : List α)
    (h : ∀ x ∈ l, p x = false → f x = 0) : (l.map f).sum = ((l.filter p).map f).sum := by
  induction l with
  | nil => rfl
  | cons x l ih =>
    have h1 := ih (fun y hy => h y (List.mem_cons_of_mem _ hy))
    simp only [List.map_cons, List.sum_cons, List.filter_cons]
    cases hp : p x with
    | true => simp [h1]
    | false => simp [h1, h x (by simp) hp]

theorem sourcesOf_live {g : Graph} (hg : WF g) {a b : Key} (h : a ∈ sourcesOf g b) : Live g b := by
  unfold sourcesOf at h
  cases hb : g.get b with
  | none => simp [hb] at h
  | some n =>
    refine ⟨by simp [hb], ?_⟩
    cases hp : g.isPending b with
    | false => rfl
    | true =>
      have h1 := (hg.live b n hb).2 hp
      have h2 := (hg.livep b n hb).2 hp
      simp [hb, recSources, h1, h2, srcKeys] at h

/-- The dependents counted in `allocate_node_buffers` are the connections into the nodes of the
order. -/
theorem depCount_order {g : Graph} (hg : WF g) {order : List Key} (hnd : order.Nodup)
    (hmem : ∀ k, k ∈ order ↔ Live g k) (k : Key) :
    depCount g k = (order.map fun b => (sourcesOf g b).count k).sum := by
  have h1 : depCount g k = ((g.nodes.map Prod.fst).map fun b => (sourcesOf g b).count k).sum := by
    unfold depCount
    rw [List.map_map]
    congr 1
    refine List.map_congr_left ?_
    intro p hp
    have := get_of_mem hg.nodup (k := p.1) (n := p.2) hp
    simp [sourcesOf, this]
  rw [h1, sum_map_filter _ (fun b => decide (b ∈ order))]
  · refine List.Perm.sum_nat (List.Perm.map _ ?_)
    refine (List.perm_ext_iff_of_nodup (hg.nodup.filter _) hnd).2 ?_
    intro a
    rw [List.mem_filter]
    simp only [decide_eq_true_eq, and_iff_right_iff_imp]
    intro ha
    exact (get_isSome g a).1 ((hmem a).1 ha).1
  · intro b _ hb
    rw [List.count_eq_zero]
    intro hm
    have := (hmem b).2 (sourcesOf_live hg hm)
    simp [this] at hb

theorem mem_sourcesOf {g : Graph} {a b : Key} : a ∈ sourcesOf g b ↔ Needs g a b := by
  unfold sourcesOf Needs
  cases hb : g.get b with
  | none =>
    simp only [List.not_mem_nil, false_iff, not_or]
    refine ⟨not_feeds_of_none (by rw [ins_eq, hb]; rfl) a, ?_⟩
    rintro ⟨es, pe, h, -⟩
    simp [pars_eq, hb] at h
  | some n =>
    simp only [recSources, List.mem_append]
    refine or_congr ?_ ?_
    · cases hi : n.ins with
      | none =>
        have := not_feeds_of_none (g := g) (b := b) (by rw [ins_eq, hb]; exact hi) a
        simp [srcKeys, this]
      | some es =>
        rw [feeds_iff_mem (es := es) (by rw [ins_eq, hb]; exact hi) a]
        simp
    · cases hi : n.pars with
      | none =>
        simp only [Option.getD_none, List.map_nil, List.not_mem_nil, false_iff]
        rintro ⟨es, pe, h, -⟩
        simp [pars_eq, hb, hi] at h
      | some ps =>
        simp only [Option.getD_some, List.mem_map]
        constructor
        · rintro ⟨pe, h1, h2⟩; exact ⟨ps, pe, by simp [pars_eq, hb, hi], h1, h2⟩
        · rintro ⟨es, pe, h, h1, h2⟩
          simp only [pars_eq, hb, Option.bind_some, hi, Option.some.injEq] at h
          exact ⟨pe, h ▸ h1, h2⟩

/-- The number of output channels of a node. -/
def outputsOf (g : Graph) (k : Key) : Nat := match g.get k with
  | some n => n.outputs
  | none => 0

/-- Everything the schedule generation relies on. -/
structure Sound (g : Graph) (order : List Key) : Prop where
  wf : WF g
  nodangle : NoDangle g
  params : ∀ b es pe, g.pars b = some es → pe ∈ es →
    Live g pe.source ∧ pe.chan < outputsOf g pe.source
  outputs : ∀ k, Live g k → 0 < outputsOf g k
  ord : ∃ rem, calcOrder g = .ok (order, rem)
  topo : ∀ pre b post, order = pre ++ b :: post → ∀ a, Needs g a b → a ∈ pre

theorem aok_reset (a : Alloc) {bs : Nat} (hbs : 0 < bs) : AOk bs (a.reset bs) := by
  have : a.reset bs = { a with next := bs, vsize := bs, blocks := [⟨0, bs, U64 - 1⟩], ret := [] } := by
    simp [Alloc.reset, getBlock, newBlock]
  rw [this]
  have hget : ∀ (i : Nat) (b : Blk), [(⟨0, bs, U64 - 1⟩ : Blk)][i]? = some b → i = 0 ∧ b = ⟨0, bs, U64 - 1⟩ := by
    intro i b h
    cases i with
    | zero => simp only [List.getElem?_cons_zero, Option.some.injEq] at h; exact ⟨rfl, h.symm⟩
    | succ i => simp at h
  constructor
  · rfl
  · intro i b h
    obtain ⟨-, rfl⟩ := hget i b h
    simp
  · intro i j b c hij h1 h2
    obtain ⟨rfl, rfl⟩ := hget i b h1
    obtain ⟨rfl, rfl⟩ := hget j c h2
    omega
  · intro i b h
    obtain ⟨-, rfl⟩ := hget i b h
    exact hbs
  · exact ⟨_, rfl, rfl, rfl⟩
  · intro i hi; simp at hi
  · exact List.nodup_nil

/-- Where an edge is read from. -/
def inOf (bs buf : Nat) (off : Key → Nat) : Option Edge → In
  | some ⟨.node k, c, _⟩ => .mem buf (off k + c * bs)
  | some ⟨.graph, c, _⟩ => .graph c
  | none => .mem buf 0

/-- The schedule made for a sound graph: no panic, and the regions of the nodes are laid out so that
nothing that is still needed is overwritten. -/
theorem makeSchedule_spec {g : Graph} {order : List Key} (hs : Sound g order) {bs : Nat} (hbs : 0 < bs)
    (s : AState) : ∃ (s' : AState) (sch : Schedule) (off : Key → Nat),
      makeSchedule g bs s = .ok (s', sch) ∧
      sch.tasks = order.map (fun k => ⟨k, ((g.ins k).getD []).map (inOf bs s'.alloc.buf off),
        (s'.alloc.buf, off k), outputsOf g k⟩) ∧
      sch.outs = g.outs.map (fun e => e.map fun ed => inOf bs s'.alloc.buf off (some ed)) ∧
      sch.ar = ((g.nodes.map Prod.fst).filter (· ∈ order) |>.flatMap fun k =>
        ((g.pars k).getD []).map fun pe => (⟨k, pe.param, .mem s'.alloc.buf (off pe.source + pe.chan * bs)⟩ : ArChange)) ∧
      (∀ k ∈ order, s'.outm k = .ptr s'.alloc.buf (off k)) ∧
      (∀ k ∈ order, bs ≤ off k ∧ off k + outputsOf g k * bs ≤ s'.alloc.bufLen) ∧
      ∀ pre b post, order = pre ++ b :: post → ∀ k ∈ pre,
        (depCount g k = 0 ∨ ∃ c ∈ b :: post, Needs g k c) →
        off k + outputsOf g k * bs ≤ off b ∨ off b + outputsOf g b * bs ≤ off k := by
  have hg := hs.wf
  obtain ⟨rem, hord⟩ := hs.ord
  obtain ⟨hnd, hmem⟩ := order_nodup_mem hg hord
  -- the assignment loop
  have hlive : ∀ b ∈ order, ∃ n, g.get b = some n ∧ n.ins.isSome ∧ n.pars.isSome ∧ 0 < n.outputs := by
    intro b hb
    have hl := (hmem b).1 hb
    obtain ⟨n, hn⟩ := Option.isSome_iff_exists.1 hl.1
    have h1 := (live_iff_ins hg b).1 hl
    have h2 := (live_iff_pars hg b).1 hl
    have h3 := hs.outputs b hl
    simp only [ins_eq, hn, Option.bind_some] at h1
    simp only [pars_eq, hn, Option.bind_some] at h2
    simp only [outputsOf, hn] at h3
    exact ⟨n, hn, h1, h2, h3⟩
  have hcount := depCount_order hg hnd hmem
  have hinit : GInv g bs { s with alloc := s.alloc.reset bs } (depCount g) [] (fun _ => 0) := by
    constructor
    · exact aok_reset _ hbs
    · intro k hk; simp at hk
    · intro k hk; simp at hk
    · intro k hk; simp at hk
    · intro k; exact Nat.le_refl _
  obtain ⟨s1, ix, h1, h2, -, h4⟩ := assignAll_spec hbs order [] hinit (by simpa using hnd) hlive hcount
    (fun k _ => rfl) (by
      intro pre b post e a ha
      exact .inr (hs.topo pre b post e a (mem_sourcesOf.1 ha)))
  simp only [List.nil_append] at h2 h4
  -- the result of the conversion to pointers
  let s2 : AState := swapAll { s1 with alloc := s1.alloc.finish } order
  let off : Key → Nat := fun k => match s1.outm k with | .off o => o | .ptr _ o => o
  have hfin : s1.alloc.vsize ≤ s1.alloc.finish.bufLen := by
    unfold Alloc.finish
    split
    · assumption
    · exact Nat.le_refl _
  have hblk : ∀ k ∈ order, ∃ b : Blk, s1.alloc.blocks[ix k]? = some b ∧ s1.outm k = .off b.start ∧
      off k = b.start ∧ outputsOf g k * bs ≤ b.len ∧ ix k ≠ 0 := by
    intro k hk
    obtain ⟨b, n, hb, ho, hn, hle, h0⟩ := h2.blk k hk
    refine ⟨b, hb, ho, ?_, ?_, h0⟩
    · simp [off, ho]
    · simpa [outputsOf, hn] using hle
  have hbound : ∀ k ∈ order, bs ≤ off k ∧ off k + outputsOf g k * bs ≤ s1.alloc.finish.bufLen := by
    intro k hk
    obtain ⟨b, hb, ho, e, hle, h0⟩ := hblk k hk
    have := h2.ok.bound _ _ hb
    have h5 := h2.ok.start_ge h0 hb
    have h6 := h2.ok.vs
    constructor <;> omega
  have hout : ∀ k ∈ order, s2.outm k = .ptr s2.alloc.buf (off k) := by
    intro k hk
    obtain ⟨b, hb, ho, e, hle, h0⟩ := hblk k hk
    have hlt : b.start < s1.alloc.finish.bufLen := by
      have h5 := h2.ok.bound _ _ hb
      have h6 := h2.ok.pos _ _ hb
      have h7 := h2.ok.vs
      omega
    simp only [s2, swapAll, hk, if_true, ho, hlt, e]
  have hbl : s2.alloc.bufLen ≠ 0 := by
    simp only [s2, swapAll]
    obtain ⟨b, hb, -, hb2⟩ := h2.ok.first
    have h5 := h2.ok.bound _ _ hb
    have h7 := h2.ok.vs
    omega
  have hsrcLive : ∀ e, SrcOk g e → ∀ a, e.source = .node a → a ∈ order ∧ e.chan < outputsOf g a := by
    intro e he a ha
    obtain ⟨n, h5, h6, h7⟩ := he.1 a ha
    refine ⟨(hmem a).2 ⟨by simp [h5], h6⟩, ?_⟩
    simpa [outputsOf, h5] using h7
  have hptr : ∀ a ∈ order, ∀ c, outPtr g bs s2 a c = .ok (.mem s2.alloc.buf (off a + c * bs)) := by
    intro a ha c
    unfold outPtr
    obtain ⟨n, hn⟩ := Option.isSome_iff_exists.1 ((hmem a).1 ha).1
    rw [hn]
    simp only
    rw [hout a ha]
  have hin : ∀ e, (∀ ed, e = some ed → SrcOk g ed) → makeIn g bs s2 e = .ok (inOf bs s2.alloc.buf off e) := by
    intro e he
    match e, he with
    | none, _ => simp [makeIn, hbl, inOf]
    | some ⟨.graph, c, f⟩, _ => rfl
    | some ⟨.node a, c, f⟩, he =>
      simp only [makeIn, inOf]
      exact hptr a (hsrcLive _ (he _ rfl) a rfl).1 c
  have htask : ∀ k ∈ order, makeTask g bs s2 k = .ok ⟨k, ((g.ins k).getD []).map (inOf bs s2.alloc.buf off),
      (s2.alloc.buf, off k), outputsOf g k⟩ := by
    intro k hk
    obtain ⟨n, hn, hi, -, -⟩ := hlive k hk
    obtain ⟨es, hes⟩ := Option.isSome_iff_exists.1 hi
    have hins : g.ins k = some es := by rw [ins_eq, hn]; exact hes
    unfold makeTask
    rw [hn]
    simp only [hes]
    rw [mapR_ok (h := inOf bs s2.alloc.buf off)]
    · simp only [bind_ok, hout k hk, hins, Option.getD_some, outputsOf, hn]
    · intro e he
      refine hin e ?_
      intro ed hed
      subst hed
      obtain ⟨i, hi⟩ := List.mem_iff_getElem?.1 he
      exact hs.nodangle.1 k i ed (by rw [edge_of_ins hins, hi]; rfl)
  have houts : ∀ e ∈ g.outs, makeOut g bs s2 e = .ok (e.map fun ed => inOf bs s2.alloc.buf off (some ed)) := by
    intro e he
    obtain ⟨i, hi⟩ := List.mem_iff_getElem?.1 he
    match e, hi with
    | none, _ => rfl
    | some ⟨.graph, c, f⟩, _ => rfl
    | some ⟨.node a, c, f⟩, hi =>
      have h5 := hs.nodangle.2 i ⟨.node a, c, f⟩ (by rw [Graph.out, hi]; rfl)
      obtain ⟨h6, h7⟩ := hsrcLive _ h5 a rfl
      obtain ⟨n, hn, -, -⟩ := hlive a h6
      simp only [makeOut, hn, hptr a h6 c, bind_ok]
      simp only [outputsOf, hn] at h7
      rw [if_pos h7]
      rfl
  have har : ∀ kp ∈ ((g.nodes.map Prod.fst).filter (· ∈ order) |>.flatMap fun k =>
        ((g.pars k).getD []).map fun pe => (k, pe)),
      makeAr g bs s2 kp.1 kp.2 = .ok ⟨kp.1, kp.2.param, .mem s2.alloc.buf (off kp.2.source + kp.2.chan * bs)⟩ := by
    rintro ⟨k, pe⟩ hkp
    simp only [List.mem_flatMap, List.mem_map, Prod.mk.injEq] at hkp
    obtain ⟨k', -, pe', hpe, rfl, rfl⟩ := hkp
    cases hp : g.pars k' with
    | none => simp [hp] at hpe
    | some ps =>
      simp only [hp, Option.getD_some] at hpe
      obtain ⟨h5, h6⟩ := hs.params k' ps pe' hp hpe
      obtain ⟨n, hn⟩ := Option.isSome_iff_exists.1 h5.1
      simp only [makeAr, hn]
      rw [hptr _ ((hmem _).2 h5)]
      simp only [bind_ok]
      simp only [outputsOf, hn] at h6
      rw [if_pos h6]
  have hexist : sourcesExist g = true := by
    unfold sourcesExist
    rw [List.all_eq_true]
    intro p hp
    rw [List.all_eq_true]
    intro a ha
    have hget := get_of_mem hg.nodup (k := p.1) (n := p.2) hp
    have hn : Needs g a p.1 := mem_sourcesOf.1 (by simpa [sourcesOf, hget] using ha)
    rcases hn with ⟨i, e, h5, h6⟩ | ⟨es, pe, h5, h6, rfl⟩
    · obtain ⟨n, h7, -⟩ := (hs.nodangle.1 _ _ _ h5).1 a h6
      simp [h7]
    · exact (hs.params _ _ _ h5 h6).1.1
  refine ⟨s2, ⟨order.map _, _, g.outs.map _⟩, off, ?_, rfl, rfl, rfl, hout, hbound, ?_⟩
  · unfold makeSchedule
    rw [hord]
    simp only [bind_ok, hexist, Bool.not_true, Bool.false_eq_true, if_false]
    rw [h1]
    simp only [bind_ok]
    show (mapR (makeTask g bs s2) order >>= _) = _
    rw [mapR_ok htask]
    simp only [bind_ok]
    rw [mapR_ok houts]
    simp only [bind_ok]
    rw [mapR_ok har]
    simp only [bind_ok, List.map_flatMap, List.map_map]
    rfl
  · intro pre b post e k hk ha
    have hne := h4 pre b post e k hk (by
      rcases ha with ha | ⟨c, hc, hkc⟩
      · exact .inl ha
      · exact .inr ⟨c, hc, mem_sourcesOf.2 hkc⟩)
    obtain ⟨b1, hb1, -, e1, hl1, -⟩ := hblk k (by rw [e]; exact List.mem_append_left _ hk)
    obtain ⟨b2, hb2, -, e2, hl2, -⟩ := hblk b (by rw [e]; simp)
    have := h2.ok.apart hne hb1 hb2
    rw [e1, e2]
    omega

end Verif.G
