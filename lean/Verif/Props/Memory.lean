import Verif.Props.Dataflow
import Mathlib.Data.Finset.Card
import Mathlib.Order.Interval.Finset.Nat
import Mathlib.Algebra.Order.BigOperators.Group.Finset
import Mathlib.Data.List.Nodup

/-!
# C99: the signals of a graph need no more memory than necessary

The model is `Model/Alloc.lean` (`buffer_allocator.rs` and `allocate_node_buffers`).

The specification knows nothing of blocks and borrows: a layout gives every node of the order a place behind the silent
channel, and a node must not be put on top of a signal that is still to be read, by a node that has not run or by a graph
output.
-/

namespace Verif.Mm

open Verif.G

/-- The signal of `k` is read by a graph output. -/
def Heard (g : Graph) (k : Key) : Prop := ∃ e ch fb, e ∈ g.outs ∧ e = some ⟨.node k, ch, fb⟩

/-- When `b` runs, with the nodes of `post` still to come, the signal of `k` is still to be read. -/
def Wanted (g : Graph) (k b : Key) (post : List Key) : Prop := Heard g k ∨ ∃ c ∈ b :: post, Needs g k c

/-- A layout of the signals in a memory of `size` samples. -/
structure Layout (g : Graph) (bs : Nat) (order : List Key) (off : Key → Nat) (size : Nat) : Prop where
  silent : bs ≤ size
  inside : ∀ k ∈ order, bs ≤ off k ∧ off k + outputsOf g k * bs ≤ size
  apart : ∀ pre b post, order = pre ++ b :: post → ∀ k ∈ pre, Wanted g k b post →
    off k + outputsOf g k * bs ≤ off b ∨ off b + outputsOf g b * bs ≤ off k

/-! ### Counting -/

/-- Intervals that do not overlap need the sum of their lengths. -/
theorem packed {l : List Key} (hnd : l.Nodup) {off : Key → Nat} {L lo hi : Nat} (hlh : lo ≤ hi)
    (hin : ∀ k ∈ l, lo ≤ off k ∧ off k + L ≤ hi)
    (hap : ∀ k ∈ l, ∀ j ∈ l, k ≠ j → off k + L ≤ off j ∨ off j + L ≤ off k) : lo + l.length * L ≤ hi := by
  have hsub : l.toFinset.biUnion (fun k => Finset.Ico (off k) (off k + L)) ⊆ Finset.Ico lo hi := by
    intro x hx
    simp only [Finset.mem_biUnion, List.mem_toFinset, Finset.mem_Ico] at hx ⊢
    obtain ⟨k, hk, h1, h2⟩ := hx
    have := hin k hk
    omega
  have hcard := Finset.card_le_card hsub
  rw [Finset.card_biUnion] at hcard
  · rw [Finset.sum_const_nat (m := L) (fun x _ => by simp), List.toFinset_card_of_nodup hnd, Nat.card_Ico] at hcard
    omega
  · intro k hk j hj hne
    show Disjoint (Finset.Ico (off k) (off k + L)) (Finset.Ico (off j) (off j + L))
    rw [Finset.disjoint_left]
    intro x h1 h2
    simp only [Finset.mem_Ico] at h1 h2
    rcases hap k (by simpa using hk) j (by simpa using hj) hne with h | h <;> omega

/-! ### The allocator with signals of one width -/

/-- All blocks but the first have the same length and follow one another; every one is returned or holds a signal that is
still wanted. -/
structure Cover (g : Graph) (bs L : Nat) (s : AState) (rem : Key → Nat) (done : List Key) (ix : Key → Nat) : Prop where
  uni : ∀ i b, i ≠ 0 → s.alloc.blocks[i]? = some b → b.len = L
  size : s.alloc.next = bs + (s.alloc.blocks.length - 1) * L
  cov : ∀ i, i ≠ 0 → i < s.alloc.blocks.length → i ∈ s.alloc.ret ∨ ∃ k ∈ done, (0 < rem k ∨ depCount g k = 0) ∧ ix k = i

theorem returnBlock_next {a a' : Alloc} {off : Nat} (h : returnBlock a off = .ok a') : a'.next = a.next ∧ a'.vsize = a.vsize := by
  unfold returnBlock at h
  cases hl : returnLoop off 0 a.blocks with
  | error e => rw [hl] at h; cases h
  | ok r =>
    rw [hl] at h
    simp only [bind_ok, Except.ok.injEq] at h
    subst h
    exact ⟨rfl, rfl⟩

theorem cover_return {g : Graph} {bs L : Nat} {s s' : AState} {rem : Key → Nat} {done : List Key} {ix : Key → Nat}
    (h : GInv g bs s rem done ix) (hc : Cover g bs L s rem done ix) {k : Key} (hk : k ∈ done) (hr : 0 < rem k)
    (hs : returnKey g s k = .ok s') :
    Cover g bs L s' (fun j => if j = k then rem k - 1 else rem j) done ix ∧
      s'.alloc.blocks.length = s.alloc.blocks.length := by
  obtain ⟨b, n, hb, ho, hn, hlen, h0⟩ := h.blk k hk
  obtain ⟨hret, hbor⟩ := h.act k hk (.inl hr)
  have hbr := hbor b hb
  obtain ⟨a', h1, h2, h3, h4, h5, -, -, h8⟩ := returnBlock_spec h.ok hb h0 (by omega) hret
  have hnext := returnBlock_next h1
  have e : s' = { s with alloc := a' } := by
    unfold returnKey at hs
    rw [hn, ho] at hs
    simp only at hs
    rw [h1] at hs
    exact (Except.ok.inj hs).symm
  subst e
  refine ⟨⟨?_, ?_, ?_⟩, h8⟩
  · intro i c hi hc'
    simp only at hc'
    by_cases ei : i = ix k
    · subst ei
      rw [h3] at hc'
      simp only [Option.some.injEq] at hc'
      subst hc'
      exact hc.uni (ix k) b hi hb
    · rw [h4 i ei] at hc'
      exact hc.uni i c hi hc'
  · simp only [h8, hnext.1]
    exact hc.size
  · intro i hi hlt
    simp only [h8] at hlt ⊢
    rcases hc.cov i hi hlt with hin | ⟨j, hj, ha, hij⟩
    · exact .inl ((h5 i).2 (.inl hin))
    · by_cases ej : j = k
      · subst ej
        by_cases h1' : rem j = 1
        · exact .inl ((h5 i).2 (.inr ⟨hij.symm, by omega⟩))
        · exact .inr ⟨j, hj, .inl (by simp only [if_true]; omega), hij⟩
      · exact .inr ⟨j, hj, by simpa only [if_neg ej] using ha, hij⟩

theorem cover_returnAll {g : Graph} {bs L : Nat} {done : List Key} {ix : Key → Nat} : ∀ (ks : List Key)
    {s s' : AState} {rem : Key → Nat}, GInv g bs s rem done ix → Cover g bs L s rem done ix →
    (∀ k ∈ ks, k ∈ done) → (∀ k, ks.count k ≤ rem k) → returnAll g s ks = .ok s' →
    Cover g bs L s' (fun j => rem j - ks.count j) done ix ∧ s'.alloc.blocks.length = s.alloc.blocks.length := by
  intro ks
  induction ks with
  | nil =>
    intro s s' rem h hc _ _ hs
    simp only [returnAll, Except.ok.injEq] at hs
    subst hs
    exact ⟨by simpa using hc, rfl⟩
  | cons k ks ih =>
    intro s s' rem h hc hd hcnt hs
    have hk := hcnt k
    simp only [List.count_cons_self] at hk
    obtain ⟨s1, h1, h2, h3⟩ := ginv_return h (hd k (by simp)) (by omega)
    obtain ⟨c1, l1⟩ := cover_return h hc (hd k (by simp)) (by omega) h1
    rw [returnAll, h1] at hs
    simp only [bind_ok] at hs
    obtain ⟨c2, l2⟩ := ih h3 c1 (fun j hj => hd j (List.mem_cons_of_mem _ hj)) (by
      intro j
      have := hcnt j
      by_cases e : j = k
      · subst e; simp only [List.count_cons_self] at this; simp only [if_true]; omega
      · simp only [if_neg e]
        rw [List.count_cons_of_ne (fun e' => e e'.symm)] at this
        exact this) hs
    refine ⟨?_, l2.trans l1⟩
    have : (fun j => (if j = k then rem k - 1 else rem j) - ks.count j) = fun j => rem j - (k :: ks).count j := by
      funext j
      by_cases e : j = k
      · subst e; simp only [if_true, List.count_cons_self]; omega
      · simp only [if_neg e]
        rw [List.count_cons_of_ne (fun e' => e e'.symm)]
    rw [this] at c2
    exact c2

/-- A block is taken from the returned ones if there are any. -/
theorem getBlock_uni {g : Graph} {bs L : Nat} {s : AState} {rem : Key → Nat} {done : List Key} {ix : Key → Nat}
    (h : GInv g bs s rem done ix) (hc : Cover g bs L s rem done ix) {chans borrows : Nat} (hL : chans * bs = L) :
    ((getBlock s.alloc chans bs borrows).1.blocks.length = s.alloc.blocks.length ∧
      (getBlock s.alloc chans bs borrows).1.next = s.alloc.next) ∨
    (s.alloc.ret = [] ∧ (getBlock s.alloc chans bs borrows).1.blocks.length = s.alloc.blocks.length + 1 ∧
      (getBlock s.alloc chans bs borrows).1.next = s.alloc.next + L ∧
      (getBlock s.alloc chans bs borrows).1.blocks[s.alloc.blocks.length]? = some ⟨s.alloc.next, L, borrows⟩) := by
  unfold getBlock
  cases hr : s.alloc.ret with
  | nil =>
    right
    simp [newBlock, hL]
  | cons i is =>
    left
    obtain ⟨h0, b, hb, hz⟩ := h.ok.ret i (by rw [hr]; simp)
    have hf : fits s.alloc (chans * bs) i = true := by
      simp [fits, hb, hz, hc.uni i b h0 hb, hL]
    rw [List.find?_cons_of_pos hf]
    simp [hb]

theorem step {g : Graph} {bs L : Nat} {s : AState} {rem : Key → Nat} {done : List Key} {ix : Key → Nat}
    (h : GInv g bs s rem done ix) (hc : Cover g bs L s rem done ix) {k : Key} {n : NodeRec}
    (hk : g.get k = some n) (hi : n.ins.isSome) (hp : n.pars.isSome) (hn : k ∉ done)
    (ho : 0 < n.outputs) (hbs : 0 < bs) (hL : n.outputs * bs = L) (hrem : rem k = depCount g k)
    (hsrc : ∀ a ∈ sourcesOf g k, a ∈ done) (hcnt : ∀ a, (sourcesOf g k).count a ≤ rem a) :
    ∃ (s' : AState) (ix' : Key → Nat), assignNode g bs s k = .ok s' ∧
      GInv g bs s' (fun j => rem j - (sourcesOf g k).count j) (done ++ [k]) ix' ∧
      Cover g bs L s' (fun j => rem j - (sourcesOf g k).count j) (done ++ [k]) ix' ∧
      (s'.alloc.blocks.length = s.alloc.blocks.length ∨
        s'.alloc.blocks.length = s.alloc.blocks.length + 1 ∧
        s.alloc.blocks.length - 1 ≤ (done.filter fun j => decide (0 < rem j ∨ depCount g j = 0)).length) := by
  obtain ⟨idx, h1, h2⟩ := ginv_get h hk hn ho hbs hrem
  obtain ⟨idx', b', k1, k2, k3, k4, k5, k6, k7, k8, k9, k10, -, -⟩ :=
    getBlock_spec h.ok (borrows := depCount g k) (Nat.mul_pos ho hbs)
  have hix : idx = idx' := by
    obtain ⟨b, m, e1, e2, -⟩ := h1.blk k (by simp)
    simp only [if_true, Out.off.injEq] at e1 e2
    by_contra hne
    exact k10.start_ne hne e1 k2 (e2 ▸ k1)
  subst hix
  have hgb := getBlock_uni h hc (chans := n.outputs) (borrows := depCount g k) hL
  have hc1 : Cover g bs L { alloc := (getBlock s.alloc n.outputs bs (depCount g k)).1, outm := fun j => if j = k then .off (getBlock s.alloc n.outputs bs (depCount g k)).2 else s.outm j }
      rem (done ++ [k]) (fun j => if j = k then idx else ix j) := by
    have hact : 0 < rem k ∨ depCount g k = 0 := by rw [hrem]; omega
    refine ⟨?_, ?_, ?_⟩
    · intro i b hi0 hb
      simp only at hb
      by_cases ei : i = idx
      · subst ei
        rw [k2] at hb
        have hb := Option.some.inj hb
        subst hb
        rcases hgb with ⟨hl, -⟩ | ⟨hr, -, -, hnew⟩
        · have hlt : i < s.alloc.blocks.length := by rw [← hl]; exact getElem?_lt k2
          have hge := List.getElem?_eq_getElem hlt
          rw [← (k8 _ hge).2]
          exact hc.uni i _ hi0 hge
        · rcases k6 with k6 | k6
          · rw [hr] at k6; simp at k6
          · rw [k6, hnew] at k2
            rw [← Option.some.inj k2]
      · rcases hgb with ⟨hl, -⟩ | ⟨hr, hl, -, hnew⟩
        · have hlt : i < s.alloc.blocks.length := by rw [← hl]; exact getElem?_lt hb
          have hge := List.getElem?_eq_getElem hlt
          rw [k7 i _ ei hge] at hb
          rw [← Option.some.inj hb]
          exact hc.uni i _ hi0 hge
        · have hlt : i < s.alloc.blocks.length := by
            have := getElem?_lt hb
            rw [hl] at this
            rcases k6 with k6 | k6
            · rw [hr] at k6; simp at k6
            · omega
          have hge := List.getElem?_eq_getElem hlt
          rw [k7 i _ ei hge] at hb
          rw [← Option.some.inj hb]
          exact hc.uni i _ hi0 hge
    · have h0 : 0 < s.alloc.blocks.length := by
        obtain ⟨b0, hb0, -⟩ := h.ok.first
        exact getElem?_lt hb0
      have hsz := hc.size
      rcases hgb with ⟨hl, hx⟩ | ⟨-, hl, hx, -⟩
      · simp only [hl, hx]; exact hsz
      · simp only [hl, hx]
        obtain ⟨m, hm⟩ : ∃ m, s.alloc.blocks.length = m + 1 := ⟨_, (Nat.sub_add_cancel h0).symm⟩
        rw [hm] at hsz ⊢
        simp only [Nat.add_sub_cancel] at hsz ⊢
        rw [hsz, Nat.add_mul, Nat.one_mul]
        omega
    · intro i hi0 hlt
      simp only at hlt ⊢
      by_cases ei : i = idx
      · exact .inr ⟨k, by simp, hact, by simp [ei]⟩
      · have hlt' : i < s.alloc.blocks.length := by
          rcases hgb with ⟨hl, -⟩ | ⟨hr, hl, -, -⟩
          · omega
          · rcases k6 with k6 | k6
            · rw [hr] at k6; simp at k6
            · omega
        rcases hc.cov i hi0 hlt' with hin | ⟨j, hj, ha, hij⟩
        · exact .inl ((k9 i).2 ⟨hin, ei⟩)
        · have hjk : j ≠ k := fun e => hn (e ▸ hj)
          exact .inr ⟨j, List.mem_append_left _ hj, ha, by simp [hjk, hij]⟩
  obtain ⟨es, hes⟩ := Option.isSome_iff_exists.1 hi
  obtain ⟨ps, hps⟩ := Option.isSome_iff_exists.1 hp
  have hso : sourcesOf g k = srcKeys es ++ ps.map PEdge.source := by
    simp [sourcesOf, hk, recSources, hes, hps]
  have hsd : ∀ a ∈ srcKeys es ++ ps.map PEdge.source, a ∈ done ++ [k] := by
    intro a ha
    exact List.mem_append_left _ (hsrc a (hso ▸ ha))
  obtain ⟨s', h3, h4, h5⟩ := ginv_returnAll (srcKeys es ++ ps.map PEdge.source) h1 hsd (by
    intro a; rw [← hso]; exact hcnt a)
  obtain ⟨c2, l2⟩ := cover_returnAll (srcKeys es ++ ps.map PEdge.source) h1 hc1 hsd (by
    intro a; rw [← hso]; exact hcnt a) h3
  refine ⟨s', _, ?_, hso ▸ h5, hso ▸ c2, ?_⟩
  · unfold assignNode
    rw [hk]
    simp only [hes, hps]
    exact h3
  · rw [l2]
    rcases hgb with ⟨hl, -⟩ | ⟨hr, hl, -, -⟩
    · exact .inl hl
    · refine .inr ⟨hl, ?_⟩
      have hsub : (List.range (s.alloc.blocks.length - 1)).map (· + 1) ⊆
          (done.filter fun j => decide (0 < rem j ∨ depCount g j = 0)).map ix := by
        intro i hi'
        simp only [List.mem_map, List.mem_range] at hi'
        obtain ⟨m, hm, rfl⟩ := hi'
        rcases hc.cov (m + 1) (by omega) (by omega) with hin | ⟨j, hj, ha, hij⟩
        · rw [hr] at hin; simp at hin
        · exact List.mem_map.2 ⟨j, List.mem_filter.2 ⟨hj, by simpa using ha⟩, hij⟩
      have hnd : ((List.range (s.alloc.blocks.length - 1)).map (· + 1)).Nodup :=
        List.Nodup.map (fun a b e => by simpa using e) List.nodup_range
      have := (List.subperm_of_subset hnd hsub).length_le
      simpa using this

/-- The whole loop: the blocks in use at the end were all in use at one moment. -/
theorem peak {g : Graph} {bs L : Nat} (hbs : 0 < bs) : ∀ (todo done : List Key) {s : AState}
    {rem ix : Key → Nat},
    GInv g bs s rem done ix → Cover g bs L s rem done ix → (done ++ todo).Nodup →
    (∀ b ∈ todo, ∃ n, g.get b = some n ∧ n.ins.isSome ∧ n.pars.isSome ∧ 0 < n.outputs ∧ n.outputs * bs = L) →
    (∀ k, rem k = (todo.map fun b => (sourcesOf g b).count k).sum) →
    (∀ k ∈ todo, rem k = depCount g k) →
    (∀ pre b post, todo = pre ++ b :: post → ∀ a ∈ sourcesOf g b, a ∈ done ∨ a ∈ pre) →
    ∃ (s' : AState), assignAll g bs s todo = .ok s' ∧ AOk bs s'.alloc ∧
      s'.alloc.next = bs + (s'.alloc.blocks.length - 1) * L ∧
      (s'.alloc.blocks.length = s.alloc.blocks.length ∨
        ∃ pre b post, ∃ l : List Key, todo = pre ++ b :: post ∧ l.Nodup ∧
          (∀ k ∈ l, k ∈ done ++ pre ∧ (depCount g k = 0 ∨ ∃ c ∈ b :: post, k ∈ sourcesOf g c)) ∧
          s'.alloc.blocks.length - 1 ≤ l.length + 1) := by
  intro todo
  induction todo with
  | nil =>
    intro done s rem ix h hc hnd _ hrem _ _
    exact ⟨s, rfl, h.ok, hc.size, .inl rfl⟩
  | cons b todo ih =>
    intro done s rem ix h hc hnd hlive hrem hfull htopo
    obtain ⟨n, hb, hi, hp, ho, hL⟩ := hlive b (by simp)
    have hnd' := List.nodup_append.1 hnd
    have hbd : b ∉ done := fun hm => hnd'.2.2 b hm b (by simp) rfl
    have hsrc : ∀ a ∈ sourcesOf g b, a ∈ done := by
      intro a ha
      rcases htopo [] b todo rfl a ha with h1 | h1
      · exact h1
      · simp at h1
    obtain ⟨s1, ix1, h1, h2, h3, h4⟩ := step h hc hb hi hp hbd ho hbs hL (hfull b (by simp)) hsrc
      (by intro a; rw [hrem a]; simp)
    obtain ⟨s2, h5, h6, h7, h8⟩ := ih (done ++ [b]) h2 h3 (by simpa using hnd)
      (fun c hc => hlive c (List.mem_cons_of_mem _ hc))
      (by intro k; rw [hrem k]; simp)
      (by
        intro k hk
        have hk1 := hfull k (List.mem_cons_of_mem _ hk)
        have : (sourcesOf g b).count k = 0 := by
          rw [List.count_eq_zero]
          intro hm
          exact hnd'.2.2 k (hsrc k hm) k (List.mem_cons_of_mem _ hk) rfl
        rw [this]
        simpa using hk1)
      (by
        intro pre c post e a ha
        rcases htopo (b :: pre) c post (by rw [e]; rfl) a ha with h9 | h9
        · exact .inl (List.mem_append_left _ h9)
        · rcases List.mem_cons.1 h9 with rfl | h9
          · exact .inl (by simp)
          · exact .inr h9)
    refine ⟨s2, ?_, h6, h7, ?_⟩
    · rw [assignAll, h1]
      exact h5
    · rcases h8 with h8 | ⟨pre, c, post, l, e, hl1, hl2, hl3⟩
      · rcases h4 with h4 | ⟨h4, h4'⟩
        · exact .inl (h8.trans h4)
        · refine .inr ⟨[], b, todo, done.filter fun j => decide (0 < rem j ∨ depCount g j = 0), rfl, (hnd'.1).filter _, ?_,
            by rw [h8, h4]; omega⟩
          intro k hk
          obtain ⟨hk1, hk2⟩ := List.mem_filter.1 hk
          refine ⟨by simpa using hk1, ?_⟩
          simp only [decide_eq_true_eq] at hk2
          rcases hk2 with hk2 | hk2
          · right
            rw [hrem k] at hk2
            by_contra hno
            push Not at hno
            have : ((b :: todo).map fun b => (sourcesOf g b).count k).sum = 0 := by
              refine List.sum_eq_zero ?_
              intro x hx
              obtain ⟨c, hc', rfl⟩ := List.mem_map.1 hx
              exact List.count_eq_zero.2 (hno c hc')
            omega
          · exact .inl hk2
      · refine .inr ⟨b :: pre, c, post, l, by rw [e]; rfl, hl1, ?_, hl3⟩
        intro k hk
        obtain ⟨hk1, hk2⟩ := hl2 k hk
        exact ⟨by simpa using hk1, hk2⟩

/-! ### The memory of a schedule -/

theorem bind_inv {α β : Type} {x : R α} {f : α → R β} {c : β} (h : (x >>= f) = .ok c) : ∃ a, x = .ok a ∧ f a = .ok c := by
  cases x with
  | error e => cases h
  | ok a => exact ⟨a, rfl, h⟩

/-- What `makeSchedule` does with the allocator. -/
theorem schedule_alloc {g : Graph} {bs : Nat} {s s' : AState} {sch : Schedule} {order : List Key} {rem : List Key}
    (ho : calcOrder g = .ok (order, rem)) (h : makeSchedule g bs s = .ok (s', sch)) :
    ∃ s1, assignAll g bs { s with alloc := s.alloc.reset bs } order = .ok s1 ∧
      s' = swapAll { s1 with alloc := s1.alloc.finish } order := by
  unfold makeSchedule at h
  rw [ho] at h
  simp only [bind_ok] at h
  split at h
  · cases h
  · obtain ⟨s1, h1, h⟩ := bind_inv h
    refine ⟨s1, h1, ?_⟩
    obtain ⟨_, -, h⟩ := bind_inv h
    obtain ⟨_, -, h⟩ := bind_inv h
    obtain ⟨_, -, h⟩ := bind_inv h
    have := congrArg Prod.fst (Except.ok.inj h)
    exact this.symm

theorem swap_alloc (s : AState) (order : List Key) : (swapAll s order).alloc = s.alloc := rfl

theorem reset_eq (a : Alloc) (bs : Nat) :
    a.reset bs = { a with next := bs, vsize := bs, blocks := [⟨0, bs, U64 - 1⟩], ret := [] } := by
  simp [Alloc.reset, getBlock, newBlock]

theorem finish_vsize (a : Alloc) : a.finish.vsize = a.vsize := by
  unfold Alloc.finish; split <;> rfl

theorem finish_len (a : Alloc) : a.finish.bufLen = max a.bufLen a.vsize := by
  unfold Alloc.finish
  split
  · rename_i h; exact (Nat.max_eq_left h).symm
  · rename_i h
    show a.vsize = _
    omega

theorem getBlock_bufLen (a : Alloc) (c bs n : Nat) : (getBlock a c bs n).1.bufLen = a.bufLen := by
  unfold getBlock
  split
  · split <;> rfl
  · rfl

theorem returnAll_keeps {g : Graph} : ∀ (ks : List Key) {s s' : AState}, returnAll g s ks = .ok s' →
    s'.alloc.bufLen = s.alloc.bufLen ∧ s'.alloc.next = s.alloc.next ∧ s'.alloc.vsize = s.alloc.vsize ∧
      s'.alloc.blocks.map Blk.len = s.alloc.blocks.map Blk.len := by
  intro ks
  induction ks with
  | nil =>
    intro s s' h
    simp only [returnAll, Except.ok.injEq] at h
    subst h
    exact ⟨rfl, rfl, rfl, rfl⟩
  | cons k ks ih =>
    intro s s' h
    obtain ⟨s1, h1, h⟩ := bind_inv h
    obtain ⟨i1, i2, i3, i4⟩ := ih h
    have key : s1.alloc.bufLen = s.alloc.bufLen ∧ s1.alloc.next = s.alloc.next ∧ s1.alloc.vsize = s.alloc.vsize ∧
        s1.alloc.blocks.map Blk.len = s.alloc.blocks.map Blk.len := by
      unfold returnKey at h1
      cases hg : g.get k with
      | none => rw [hg] at h1; cases h1
      | some n =>
        rw [hg] at h1
        simp only at h1
        cases ho : s.outm k with
        | ptr b o =>
          rw [ho] at h1
          simp only [Except.ok.injEq] at h1
          subst h1
          exact ⟨rfl, rfl, rfl, rfl⟩
        | off b =>
          rw [ho] at h1
          obtain ⟨a, h2, h1⟩ := bind_inv h1
          have h1 := Except.ok.inj h1
          subst h1
          unfold returnBlock at h2
          obtain ⟨r, h3, h2⟩ := bind_inv h2
          have h2 := Except.ok.inj h2
          subst h2
          refine ⟨rfl, rfl, rfl, ?_⟩
          have : ∀ (bl : List Blk) (m : Nat) (r : List Blk × Option Nat), returnLoop b m bl = .ok r →
              r.1.map Blk.len = bl.map Blk.len := by
            intro bl
            induction bl with
            | nil => intro m r h; simp only [returnLoop, Except.ok.injEq] at h; subst h; rfl
            | cons x bl ihl =>
              intro m r h
              simp only [returnLoop] at h
              split at h
              · obtain ⟨q, -, h⟩ := bind_inv h
                have h := Except.ok.inj h
                subst h
                rfl
              · obtain ⟨q, hq, h⟩ := bind_inv h
                have h := Except.ok.inj h
                subst h
                simp only [List.map_cons, ihl _ _ hq]
          exact this _ _ _ h3
    exact ⟨i1.trans key.1, i2.trans key.2.1, i3.trans key.2.2.1, i4.trans key.2.2.2⟩

/-- One node of the loop, taken apart. -/
theorem assignNode_inv {g : Graph} {bs : Nat} {s s' : AState} {k : Key} (h : assignNode g bs s k = .ok s') :
    ∃ es ps, ∃ n : NodeRec, g.get k = some n ∧ n.ins = some es ∧ n.pars = some ps ∧
      returnAll g { alloc := (getBlock s.alloc n.outputs bs (depCount g k)).1, outm := fun j => if j = k then .off (getBlock s.alloc n.outputs bs (depCount g k)).2 else s.outm j }
        (srcKeys es ++ ps.map PEdge.source) = .ok s' := by
  unfold assignNode at h
  cases hg : g.get k with
  | none => rw [hg] at h; cases h
  | some n =>
    rw [hg] at h
    simp only at h
    split at h
    · rename_i es ps h1 h2
      exact ⟨es, ps, n, rfl, h1, h2, h⟩
    · cases h

theorem getBlock_grow (a : Alloc) (c bs n : Nat) (h : a.vsize = a.next) :
    (getBlock a c bs n).1.next ≤ a.next + c * bs ∧ (getBlock a c bs n).1.vsize = (getBlock a c bs n).1.next := by
  have hn : (newBlock a (c * bs) n).1.next ≤ a.next + c * bs ∧ (newBlock a (c * bs) n).1.vsize = (newBlock a (c * bs) n).1.next := by
    refine ⟨Nat.le_refl _, ?_⟩
    simp only [newBlock]
    omega
  unfold getBlock
  split
  · split
    · exact ⟨by simp, h⟩
    · exact hn
  · exact hn

theorem assignAll_keeps {g : Graph} {bs : Nat} : ∀ (order : List Key) {s s' : AState}, assignAll g bs s order = .ok s' →
    s.alloc.vsize = s.alloc.next →
    s'.alloc.bufLen = s.alloc.bufLen ∧ s'.alloc.vsize = s'.alloc.next ∧
      s'.alloc.next ≤ s.alloc.next + (order.map fun k => outputsOf g k * bs).sum := by
  intro order
  induction order with
  | nil =>
    intro s s' h hv
    simp only [assignAll, Except.ok.injEq] at h
    subst h
    exact ⟨rfl, hv, by simp⟩
  | cons k ks ih =>
    intro s s' h hv
    obtain ⟨s1, h1, h⟩ := bind_inv h
    obtain ⟨es, ps, n, hg, -, -, hr⟩ := assignNode_inv h1
    obtain ⟨r1, r2, r3, -⟩ := returnAll_keeps _ hr
    simp only at r1 r2 r3
    obtain ⟨g1, g2⟩ := getBlock_grow s.alloc n.outputs bs (depCount g k) hv
    obtain ⟨i1, i2, i3⟩ := ih h (by rw [r3, r2]; exact g2)
    refine ⟨i1.trans (r1.trans (getBlock_bufLen ..)), i2, ?_⟩
    have : outputsOf g k = n.outputs := by simp [outputsOf, hg]
    simp only [List.map_cons, List.sum_cons, this]
    omega

/-- C99: the memory of a schedule is never more than a channel of silence and one place for every output of every node; the
memory that is kept is the largest that was ever needed, and is never given back. -/
theorem C99_bound {g : Graph} {bs : Nat} {s s' : AState} {sch : Schedule} {order rem : List Key}
    (ho : calcOrder g = .ok (order, rem)) (h : makeSchedule g bs s = .ok (s', sch)) :
    s'.alloc.vsize ≤ bs + (order.map fun k => outputsOf g k * bs).sum ∧
    s'.alloc.bufLen = max s.alloc.bufLen s'.alloc.vsize := by
  obtain ⟨s1, h1, h2⟩ := schedule_alloc ho h
  obtain ⟨k1, k2, k3⟩ := assignAll_keeps order h1 (by simp [reset_eq])
  simp only [reset_eq] at k1 k3
  rw [h2, swap_alloc, finish_vsize, finish_len, k1, k2]
  exact ⟨k3, rfl⟩

/-- C99 for graphs all of whose nodes have the same number of outputs, and whose nodes all are heard or read by others: no
layout of the signals that keeps what is still to be read, however clever, needs less memory than the one of the graph.

Missing: nodes of different widths (`C99_widening_violated`) and nodes nobody listens to (`C99_unused_violated`). -/
theorem C99_optimal_partial {g : Graph} {order : List Key} (hs : Sound g order) {bs : Nat} (hbs : 0 < bs) (s : AState)
    {c : Nat} (hw : ∀ k, Live g k → outputsOf g k = c) (hun : ∀ k, Live g k → Heard g k ∨ ∃ b, Needs g k b) :
    ∃ s' sch, makeSchedule g bs s = .ok (s', sch) ∧
      ∀ off size, Layout g bs order off size → s'.alloc.vsize ≤ size := by
  obtain ⟨s', sch, -, hm, -⟩ := makeSchedule_spec hs hbs s
  refine ⟨s', sch, hm, ?_⟩
  have hg := hs.wf
  obtain ⟨rem, hord⟩ := hs.ord
  obtain ⟨hnd, hmem⟩ := order_nodup_mem hg hord
  obtain ⟨s1, h1, h2⟩ := schedule_alloc hord hm
  have hlive : ∀ b ∈ order, ∃ n, g.get b = some n ∧ n.ins.isSome ∧ n.pars.isSome ∧ 0 < n.outputs ∧ n.outputs * bs = c * bs := by
    intro b hb
    have hl := (hmem b).1 hb
    obtain ⟨n, hn⟩ := Option.isSome_iff_exists.1 hl.1
    have h1 := (live_iff_ins hg b).1 hl
    have h2 := (live_iff_pars hg b).1 hl
    have h3 := hs.outputs b hl
    have h4 := hw b hl
    simp only [ins_eq, hn, Option.bind_some] at h1
    simp only [pars_eq, hn, Option.bind_some] at h2
    simp only [outputsOf, hn] at h3 h4
    exact ⟨n, hn, h1, h2, h3, by rw [h4]⟩
  have hcount := depCount_order hg hnd hmem
  have hinit : GInv g bs { s with alloc := s.alloc.reset bs } (depCount g) [] (fun _ => 0) := by
    constructor
    · exact aok_reset _ hbs
    · intro k hk; simp at hk
    · intro k hk; simp at hk
    · intro k hk; simp at hk
    · intro k; exact Nat.le_refl _
  have hcov : Cover g bs (c * bs) { s with alloc := s.alloc.reset bs } (depCount g) [] (fun _ => 0) := by
    rw [reset_eq]
    refine ⟨?_, by simp, ?_⟩
    · intro i b hi hb
      cases i with
      | zero => exact absurd rfl hi
      | succ i => simp at hb
    · intro i hi hlt
      simp only [List.length_cons, List.length_nil] at hlt
      omega
  obtain ⟨s1', k1, k2, k3, k4⟩ := peak hbs order [] hinit hcov (by simpa using hnd) hlive hcount (fun k _ => rfl) (by
    intro pre b post e a ha
    exact .inr (hs.topo pre b post e a (mem_sourcesOf.1 ha)))
  rw [h1] at k1
  have k1 := Except.ok.inj k1
  subst k1
  intro off size hl
  rw [h2, swap_alloc, finish_vsize, k2.vs, k3]
  rcases k4 with k4 | ⟨pre, b, post, l, e, l1, l2, l3⟩
  · simp only [reset_eq, List.length_cons, List.length_nil] at k4
    rw [k4]
    simpa using hl.silent
  · have hbo : b ∈ order := by rw [e]; simp
    have hpo : ∀ k ∈ pre, k ∈ order := fun k hk => by rw [e]; exact List.mem_append_left _ hk
    have hwant : ∀ k ∈ l, k ∈ pre ∧ Wanted g k b post := by
      intro k hk
      obtain ⟨m1, m2⟩ := l2 k hk
      have m1 : k ∈ pre := by simpa using m1
      refine ⟨m1, ?_⟩
      rcases m2 with m2 | ⟨d, hd, hkd⟩
      · rcases hun k ((hmem k).1 (hpo k m1)) with hh | ⟨d, hd⟩
        · exact .inl hh
        · exfalso
          rw [hcount k] at m2
          have hdo : d ∈ order := (hmem d).2 (sourcesOf_live hg (mem_sourcesOf.2 hd))
          have := le_sum_map (fun b => (sourcesOf g b).count k) hdo
          have hpos : 0 < (sourcesOf g d).count k := List.count_pos_iff.2 (mem_sourcesOf.2 hd)
          omega
      · exact .inr ⟨d, hd, mem_sourcesOf.1 hkd⟩
    have hwid : ∀ k ∈ order, outputsOf g k = c := fun k hk => hw k ((hmem k).1 hk)
    have hbp : b ∉ pre := by
      intro hb
      rw [e] at hnd
      exact (List.nodup_append.1 hnd).2.2 b hb b (by simp) rfl
    have hnd2 : (b :: l).Nodup := List.nodup_cons.2 ⟨fun hb => hbp (hwant b hb).1, l1⟩
    have hpk := packed hnd2 (off := off) (L := c * bs) hl.silent (by
        intro k hk
        have hko : k ∈ order := by
          rcases List.mem_cons.1 hk with rfl | hk
          · exact hbo
          · exact hpo k (hwant k hk).1
        have := hl.inside k hko
        rw [hwid k hko] at this
        exact this) (by
        have hlb : ∀ k ∈ l, off k + c * bs ≤ off b ∨ off b + c * bs ≤ off k := by
          intro k hk
          obtain ⟨m1, m2⟩ := hwant k hk
          have := hl.apart pre b post e k m1 m2
          rw [hwid k (hpo k m1), hwid b hbo] at this
          exact this
        have hll : ∀ k ∈ l, ∀ j ∈ l, (∃ x y z, pre = x ++ k :: y ++ j :: z) → off k + c * bs ≤ off j ∨ off j + c * bs ≤ off k := by
          rintro k hk j hj ⟨x, y, z, exyz⟩
          obtain ⟨m1, m2⟩ := hwant k hk
          have m3 := (hwant j hj).1
          have := hl.apart (x ++ k :: y) j (z ++ b :: post) (by rw [e, exyz]; simp) k (by simp) (by
            rcases m2 with m2 | ⟨d, hd, m2⟩
            · exact .inl m2
            · exact .inr ⟨d, by simp only [List.mem_cons, List.mem_append] at hd ⊢; tauto, m2⟩)
          rw [hwid k (hpo k m1), hwid j (hpo j m3)] at this
          exact this
        have htwo : ∀ k ∈ pre, ∀ j ∈ pre, k ≠ j → (∃ x y z, pre = x ++ k :: y ++ j :: z) ∨ ∃ x y z, pre = x ++ j :: y ++ k :: z := by
          intro k hk j hj hne
          obtain ⟨x, z, exz⟩ := List.append_of_mem hk
          rw [exz] at hj
          rcases List.mem_append.1 hj with hj | hj
          · obtain ⟨x', y', e'⟩ := List.append_of_mem hj
            exact .inr ⟨x', y', z, by rw [exz, e']⟩
          · rcases List.mem_cons.1 hj with hj | hj
            · exact absurd hj.symm hne
            · obtain ⟨x', y', e'⟩ := List.append_of_mem hj
              exact .inl ⟨x, x', y', by rw [exz, e']; simp⟩
        intro k hk j hj hne
        rcases List.mem_cons.1 hk with hkb | hk
        · rcases List.mem_cons.1 hj with hjb | hj
          · exact absurd (hkb.trans hjb.symm) hne
          · rw [hkb]; exact (hlb j hj).symm
        · rcases List.mem_cons.1 hj with hjb | hj
          · rw [hjb]; exact hlb k hk
          · rcases htwo k (hwant k hk).1 j (hwant j hj).1 hne with h | h
            · exact hll k hk j hj h
            · exact (hll j hj k hk h).symm)
    have : (s1.alloc.blocks.length - 1) * (c * bs) ≤ (b :: l).length * (c * bs) := Nat.mul_le_mul_right _ (by simpa using l3)
    omega

/-- C99: the bound of `C99_optimal_partial` is met.  The places the tasks write to are a layout in exactly that memory,
whatever the widths of the nodes, if no node is both heard and read by another node (otherwise signals are overwritten, see
C13). -/
theorem C99_layout {g : Graph} {order : List Key} (hs : Sound g order) {bs : Nat} (hbs : 0 < bs) (s : AState)
    (hk : ∀ k, Heard g k → ∀ b, ¬ Needs g k b) :
    ∃ s' sch off, makeSchedule g bs s = .ok (s', sch) ∧ sch.tasks.map (fun t => (t.key, t.out.2)) = order.map (fun k => (k, off k)) ∧
      Layout g bs order off s'.alloc.vsize := by
  obtain ⟨s', sch, off, hm, htasks, -, -, hout, hb, hap⟩ := makeSchedule_spec hs hbs s
  refine ⟨s', sch, off, hm, by rw [htasks, List.map_map]; rfl, ?_⟩
  have hg := hs.wf
  obtain ⟨rem, hord⟩ := hs.ord
  obtain ⟨hnd, hmem⟩ := order_nodup_mem hg hord
  obtain ⟨s1, h1, h2⟩ := schedule_alloc hord hm
  have hlive : ∀ b ∈ order, ∃ n, g.get b = some n ∧ n.ins.isSome ∧ n.pars.isSome ∧ 0 < n.outputs := by
    intro b hb
    have hl := (hmem b).1 hb
    obtain ⟨n, hn⟩ := Option.isSome_iff_exists.1 hl.1
    have h1 := (live_iff_ins hg b).1 hl
    have h2 := (live_iff_pars hg b).1 hl
    have h3 := hs.outputs b hl
    simp only [ins_eq, hn, Option.bind_some] at h1
    simp only [pars_eq, hn, Option.bind_some] at h2
    simp only [outputsOf, hn] at h3
    exact ⟨n, hn, h1, h2, h3⟩
  have hcount := depCount_order hg hnd hmem
  have hinit : GInv g bs { s with alloc := s.alloc.reset bs } (depCount g) [] (fun _ => 0) := by
    constructor
    · exact aok_reset _ hbs
    · intro k hk; simp at hk
    · intro k hk; simp at hk
    · intro k hk; simp at hk
    · intro k; exact Nat.le_refl _
  obtain ⟨s1', ix, k1, k2, -, -⟩ := assignAll_spec hbs order [] hinit (by simpa using hnd) hlive hcount (fun k _ => rfl) (by
    intro pre b post e a ha
    exact .inr (hs.topo pre b post e a (mem_sourcesOf.1 ha)))
  rw [h1] at k1
  have k1 := Except.ok.inj k1
  subst k1
  simp only [List.nil_append] at k2
  have hv : s'.alloc.vsize = s1.alloc.next := by rw [h2, swap_alloc, finish_vsize, k2.ok.vs]
  refine ⟨?_, ?_, ?_⟩
  · obtain ⟨b, hb0, e0, e1⟩ := k2.ok.first
    have := k2.ok.bound _ _ hb0
    omega
  · intro k hk'
    refine ⟨(hb k hk').1, ?_⟩
    obtain ⟨b, n, hb1, ho1, hn1, hl1, -⟩ := k2.blk k hk'
    have hbd := k2.ok.bound _ _ hb1
    have hw : outputsOf g k = n.outputs := by simp [outputsOf, hn1]
    have hoff : off k = b.start := by
      have e := hout k hk'
      rw [h2] at e
      simp only [swapAll, hk', if_true, ho1] at e
      split at e
      · simp only [Out.ptr.injEq] at e
        exact e.2.symm
      · cases e
    rw [hv, hw, hoff]
    omega
  · intro pre b post e k hk' hw
    refine hap pre b post e k hk' ?_
    rcases hw with hw | hw
    · refine .inl ?_
      rw [hcount k, sum_zero]
      intro x hx
      obtain ⟨b, -, rfl⟩ := List.mem_map.1 hx
      rw [List.count_eq_zero]
      exact fun hm => hk k hw b (mem_sourcesOf.1 hm)
    · exact .inr hw

/-! ### Where it is more -/

/-- Without connections nothing is ever returned. -/
theorem assignAll_alone {g : Graph} {bs : Nat} (hno : ∀ a b, ¬ Needs g a b) : ∀ (order : List Key) {s s' : AState},
    assignAll g bs s order = .ok s' → s.alloc.ret = [] →
    s'.alloc.next = s.alloc.next + (order.map fun k => outputsOf g k * bs).sum := by
  intro order
  induction order with
  | nil =>
    intro s s' h _
    simp only [assignAll, Except.ok.injEq] at h
    subst h
    simp
  | cons k ks ih =>
    intro s s' h hr
    obtain ⟨s1, h1, h⟩ := bind_inv h
    obtain ⟨es, ps, n, hg, he, hp, hret⟩ := assignNode_inv h1
    have hnil : srcKeys es ++ ps.map PEdge.source = [] := by
      have : sourcesOf g k = srcKeys es ++ ps.map PEdge.source := by simp [sourcesOf, hg, recSources, he, hp]
      rw [← this]
      exact List.eq_nil_iff_forall_not_mem.2 fun a ha => hno a k (mem_sourcesOf.1 ha)
    rw [hnil] at hret
    simp only [returnAll, Except.ok.injEq] at hret
    have hgb : getBlock s.alloc n.outputs bs (depCount g k) = newBlock s.alloc (n.outputs * bs) (depCount g k) := by
      unfold getBlock
      rw [hr]
      rfl
    have e1 : s1.alloc.ret = [] ∧ s1.alloc.next = s.alloc.next + n.outputs * bs := by
      rw [← hret, hgb]
      exact ⟨hr, rfl⟩
    have := ih h e1.1
    have hw : outputsOf g k = n.outputs := by simp [outputsOf, hg]
    simp only [List.map_cons, List.sum_cons, hw]
    omega

/-- C99 is false for nodes nobody listens to: if no node is connected to anything, the graph takes a place for every output
of every node, although a single place would do for all of them. -/
theorem C99_unused_violated {g : Graph} {order : List Key} (hs : Sound g order) {bs : Nat} (hbs : 0 < bs) (s : AState)
    (hno : ∀ a b, ¬ Needs g a b) (hh : ∀ k, ¬ Heard g k) {m : Nat} (hm : ∀ k ∈ order, outputsOf g k ≤ m) :
    ∃ s' sch, makeSchedule g bs s = .ok (s', sch) ∧ s'.alloc.vsize = bs + (order.map fun k => outputsOf g k * bs).sum ∧
      Layout g bs order (fun _ => bs) (bs + m * bs) := by
  obtain ⟨s', sch, off, hmk, -⟩ := makeSchedule_spec hs hbs s
  obtain ⟨rem, hord⟩ := hs.ord
  obtain ⟨s1, h1, h2⟩ := schedule_alloc hord hmk
  refine ⟨s', sch, hmk, ?_, ?_⟩
  · have k := assignAll_keeps order h1 (by simp [reset_eq])
    have := assignAll_alone hno order h1 (by simp [reset_eq])
    simp only [reset_eq] at this
    rw [h2, swap_alloc, finish_vsize, k.2.1, this]
  · refine ⟨by omega, ?_, ?_⟩
    · intro k hk
      have := Nat.mul_le_mul_right bs (hm k hk)
      exact ⟨Nat.le_refl _, by omega⟩
    · intro pre b post e k hk hw
      rcases hw with hw | ⟨c, -, hc⟩
      · exact absurd hw (hh k)
      · exact absurd hc (hno k c)

/-- If the widths grow along the order, no returned block is ever large enough. -/
theorem assignAll_widening {g : Graph} {bs : Nat} (hbs : 0 < bs) : ∀ (order : List Key) {s s' : AState},
    assignAll g bs s order = .ok s' → order.Pairwise (fun a b => outputsOf g a < outputsOf g b) →
    (∀ l ∈ s.alloc.blocks.map Blk.len, ∀ k ∈ order, l < outputsOf g k * bs) →
    s'.alloc.next = s.alloc.next + (order.map fun k => outputsOf g k * bs).sum := by
  intro order
  induction order with
  | nil =>
    intro s s' h _ _
    simp only [assignAll, Except.ok.injEq] at h
    subst h
    simp
  | cons k ks ih =>
    intro s s' h hpw hl
    obtain ⟨s1, h1, h⟩ := bind_inv h
    obtain ⟨es, ps, n, hg, he, hp, hret⟩ := assignNode_inv h1
    obtain ⟨-, r2, -, r4⟩ := returnAll_keeps _ hret
    have hw : outputsOf g k = n.outputs := by simp [outputsOf, hg]
    have hgb : getBlock s.alloc n.outputs bs (depCount g k) = newBlock s.alloc (n.outputs * bs) (depCount g k) := by
      unfold getBlock
      have hnone : s.alloc.ret.find? (fits s.alloc (n.outputs * bs)) = none := by
        rw [List.find?_eq_none]
        intro i hi
        unfold fits
        cases hb : s.alloc.blocks[i]? with
        | none => simp
        | some b =>
          have := hl b.len (List.mem_map.2 ⟨b, List.mem_of_getElem? hb, rfl⟩) k (by simp)
          rw [hw] at this
          simp only [Bool.and_eq_true, beq_iff_eq, ge_iff_le, decide_eq_true_eq, not_and, Nat.not_le]
          intro _
          exact this
      rw [hnone]
    rw [hgb] at r2 r4
    simp only [newBlock, List.map_append, List.map_cons, List.map_nil] at r2 r4
    have hpw' := List.pairwise_cons.1 hpw
    have := ih h hpw'.2 (by
      intro l hlm j hj
      rw [r4] at hlm
      rcases List.mem_append.1 hlm with hlm | hlm
      · exact hl l hlm j (List.mem_cons_of_mem _ hj)
      · simp only [List.mem_singleton] at hlm
        rw [hlm, ← hw]
        exact (Nat.mul_lt_mul_right hbs).2 (hpw'.1 j hj))
    simp only [List.map_cons, List.sum_cons, hw]
    omega

theorem idx_split {l x y : List Key} {k : Key} (hnd : l.Nodup) (e : l = x ++ k :: y) : l.idxOf k = x.length := by
  subst e
  have hx : k ∉ x := by
    intro h
    have := (List.nodup_append.1 hnd).2.2 k h k (by simp)
    exact this rfl
  rw [List.idxOf_append_of_notMem hx]
  simp

/-- C99 is false for nodes of different widths: along a chain whose nodes get wider and wider, every node gets memory of its
own, because no returned block is large enough and blocks are never joined.  Two places would do, used in turn: `m` is the
width of the widest pair of neighbours. -/
theorem C99_widening_violated {g : Graph} {order : List Key} (hs : Sound g order) {bs : Nat} (hbs : 0 < bs) (s : AState)
    (hwide : order.Pairwise fun a b => outputsOf g a < outputsOf g b) (htwo : ∀ k ∈ order, 1 < outputsOf g k)
    (hchain : ∀ a b, Needs g a b → ∃ x y, order = x ++ a :: b :: y) (hlast : ∀ k, Heard g k → ∃ x, order = x ++ [k])
    {m : Nat} (hm : ∀ k ∈ order, outputsOf g k ≤ m) (hm2 : ∀ a b, Needs g a b → outputsOf g a + outputsOf g b ≤ m) :
    ∃ s' sch off, makeSchedule g bs s = .ok (s', sch) ∧
      s'.alloc.vsize = bs + (order.map fun k => outputsOf g k * bs).sum ∧ Layout g bs order off (bs + m * bs) := by
  obtain ⟨s', sch, -, hmk, -⟩ := makeSchedule_spec hs hbs s
  obtain ⟨rem, hord⟩ := hs.ord
  obtain ⟨hnd, -⟩ := order_nodup_mem hs.wf hord
  obtain ⟨s1, h1, h2⟩ := schedule_alloc hord hmk
  refine ⟨s', sch, fun k => if order.idxOf k % 2 = 0 then bs else bs + (m - outputsOf g k) * bs, hmk, ?_, ?_⟩
  · have k := assignAll_keeps order h1 (by simp [reset_eq])
    have := assignAll_widening hbs order h1 hwide (by
      intro l hl k hk
      simp only [reset_eq, List.map_cons, List.map_nil, List.mem_singleton] at hl
      have := Nat.mul_le_mul_right bs (htwo k hk)
      omega)
    simp only [reset_eq] at this
    rw [h2, swap_alloc, finish_vsize, k.2.1, this]
  · have hmul : ∀ {a b : Nat}, a + b ≤ m → a * bs + b * bs ≤ m * bs := fun {a b} h => by
      rw [← Nat.add_mul]; exact Nat.mul_le_mul_right bs h
    refine ⟨by omega, ?_, ?_⟩
    · intro k hk
      have h3 := hm k hk
      have h4 := hmul (a := m - outputsOf g k) (b := outputsOf g k) (by omega)
      have h5 := Nat.mul_le_mul_right bs h3
      split <;> constructor <;> omega
    · intro pre b post e k hk hw
      have hb := idx_split hnd e
      obtain ⟨p1, p2, hp⟩ := List.append_of_mem hk
      have hki := idx_split (k := k) (x := p1) (y := p2 ++ b :: post) hnd (by rw [e, hp]; simp)
      have hlen : pre.length = p1.length + 1 + p2.length := by rw [hp]; simp; omega
      rcases hw with hw | ⟨c, hc, hw⟩
      · exfalso
        obtain ⟨x, hx⟩ := hlast k hw
        have h3 := idx_split hnd hx
        have h4 := congrArg List.length hx
        have h5 := congrArg List.length e
        simp only [List.length_append, List.length_cons, List.length_nil] at h4 h5
        omega
      · obtain ⟨x, y, hx⟩ := hchain k c hw
        have h3 := idx_split hnd hx
        have h4 := idx_split (k := c) (x := x ++ [k]) (y := y) hnd (by rw [hx]; simp)
        simp only [List.length_append, List.length_cons, List.length_nil] at h4
        have hcb : c = b := by
          rcases List.mem_cons.1 hc with h | h
          · exact h
          · exfalso
            obtain ⟨q1, q2, hq⟩ := List.append_of_mem h
            have h5 := idx_split (k := c) (x := pre ++ b :: q1) (y := q2) hnd (by rw [e, hq]; simp)
            simp only [List.length_append, List.length_cons] at h5
            omega
        subst hcb
        have h5 := hm2 k c hw
        have h6 := hmul (a := m - outputsOf g k - outputsOf g c) (b := outputsOf g k + outputsOf g c) (by omega)
        have h7 : (m - outputsOf g k) * bs = (m - outputsOf g k - outputsOf g c) * bs + outputsOf g c * bs := by
          rw [← Nat.add_mul]; congr 1; omega
        have h8 : (m - outputsOf g c) * bs = (m - outputsOf g k - outputsOf g c) * bs + outputsOf g k * bs := by
          rw [← Nat.add_mul]; congr 1; omega
        by_cases hpar : order.idxOf k % 2 = 0
        · rw [if_pos hpar, if_neg (by omega)]
          left
          omega
        · rw [if_neg hpar, if_pos (by omega)]
          right
          omega

/-! ### Graphs that meet the hypotheses -/

/-- `SrcOk` as a test. -/
def srcOk (g : Graph) (e : Edge) : Bool :=
  match e.source with
  | .node a => match g.get a with
    | some n => !g.isPending a && decide (e.chan < n.outputs)
    | none => false
  | .graph => decide (e.chan < g.numIn)

theorem srcOk_iff {g : Graph} {e : Edge} (h : srcOk g e = true) : SrcOk g e := by
  unfold srcOk at h
  constructor
  · intro a ha
    rw [ha] at h
    simp only at h
    cases hg : g.get a with
    | none => simp [hg] at h
    | some n =>
      simp only [hg, Bool.and_eq_true, Bool.not_eq_true', decide_eq_true_eq] at h
      exact ⟨n, rfl, h⟩
  · intro ha
    rw [ha] at h
    simpa using h

/-- Every node after those it reads. -/
def sorted (g : Graph) : List Key → List Key → Bool
  | _, [] => true
  | pre, b :: post => (sourcesOf g b).all (fun a => pre.contains a) && sorted g (pre ++ [b]) post

theorem sorted_topo {g : Graph} : ∀ (post pre : List Key), sorted g pre post = true →
    ∀ p b q, post = p ++ b :: q → ∀ a, Needs g a b → a ∈ pre ++ p := by
  intro post
  induction post with
  | nil => intro pre _ p b q e; simp at e
  | cons c post ih =>
    intro pre h p b q e a ha
    simp only [sorted, Bool.and_eq_true, List.all_eq_true] at h
    cases p with
    | nil =>
      simp only [List.nil_append, List.cons.injEq] at e
      have := h.1 a (mem_sourcesOf.2 (e.1 ▸ ha))
      simpa using this
    | cons d p =>
      simp only [List.cons_append, List.cons.injEq] at e
      have := ih (pre ++ [c]) h.2 p b q e.2 a ha
      rw [e.1] at this
      simpa using this

/-- `Sound` as a test, for graphs without parameter connections. -/
def soundTest (g : Graph) (order : List Key) : Bool :=
  g.nodes.all (fun p => (p.2.ins.getD []).all (fun e => e.all (srcOk g)) && decide (p.2.pars.getD [] = []) &&
    decide (0 < p.2.outputs)) && g.outs.all (fun e => e.all (srcOk g)) && sorted g [] order

theorem soundTest_sound {sl} {g : Graph} (hr : Reach sl g) {order rem : List Key} (ho : calcOrder g = .ok (order, rem))
    (h : soundTest g order = true) : Sound g order := by
  simp only [soundTest, Bool.and_eq_true, List.all_eq_true, decide_eq_true_eq] at h
  obtain ⟨⟨h1, h2⟩, h3⟩ := h
  refine ⟨hr.wf, ⟨?_, ?_⟩, ?_, ?_, ⟨rem, ho⟩, ?_⟩
  · intro k i e he
    rw [edge_eq, ins_eq] at he
    cases hn : g.get k with
    | none => simp [hn] at he
    | some n =>
      simp only [hn, Option.bind_some] at he
      cases hi : n.ins with
      | none => simp [hi] at he
      | some es =>
        simp only [hi, Option.bind_some, Option.join_eq_some_iff] at he
        have := (h1 _ (mem_of_get hn)).1.1 (some e) (by simp only [hi, Option.getD_some]; exact List.mem_of_getElem? he)
        exact srcOk_iff (by simpa using this)
  · intro i e he
    simp only [Graph.out, Option.join_eq_some_iff] at he
    have := h2 (some e) (List.mem_of_getElem? he)
    exact srcOk_iff (by simpa using this)
  · intro b es pe he hm
    rw [pars_eq] at he
    cases hn : g.get b with
    | none => simp [hn] at he
    | some n =>
      simp only [hn, Option.bind_some] at he
      have := (h1 _ (mem_of_get hn)).1.2
      simp only [he, Option.getD_some] at this
      rw [this] at hm
      simp at hm
  · intro k hk
    obtain ⟨n, hn⟩ := Option.isSome_iff_exists.1 hk.1
    have := (h1 _ (mem_of_get hn)).2
    simpa [outputsOf, hn] using this
  · intro pre b post e a ha
    simpa using sorted_topo order [] h3 pre b post e a ha

/-- A chain of nodes with 2, 3, 4 and 5 outputs. -/
def wideGraph : Graph :=
  { id := 0, outs := [some ⟨.node 3, 0, false⟩], numIn := 0, nextKey := 4, recalc := true, nodes :=
      [(0, { inputs := 0, outputs := 2, ins := some [], pars := some [] }),
       (1, { inputs := 1, outputs := 3, ins := some [some ⟨.node 0, 0, false⟩], pars := some [] }),
       (2, { inputs := 1, outputs := 4, ins := some [some ⟨.node 1, 0, false⟩], pars := some [] }),
       (3, { inputs := 1, outputs := 5, ins := some [some ⟨.node 2, 0, false⟩], pars := some [] })] }

theorem wideGraph_reach : Reach id wideGraph :=
  reach_runOps [.push 0 2 [], .push 1 3 [], .push 1 4 [], .push 1 5 [],
    .connect (.node (nd 0)) 0 0 (.node (nd 1)) true false, .connect (.node (nd 1)) 0 0 (.node (nd 2)) true false,
    .connect (.node (nd 2)) 0 0 (.node (nd 3)) true false, .connect (.node (nd 3)) 0 0 .graph true false]
    (Reach.init 0 0 1) (rs := [.ok (), .ok (), .ok (), .ok (), .ok (), .ok (), .ok (), .ok ()]) rfl

/-- All connections between nodes. -/
def links (g : Graph) : List (Key × Key) := g.nodes.flatMap fun p => (recSources p.2).map fun a => (a, p.1)

theorem needs_links {g : Graph} {a b : Key} (h : Needs g a b) : (a, b) ∈ links g := by
  have := mem_sourcesOf.2 h
  unfold sourcesOf at this
  cases hb : g.get b with
  | none => simp [hb] at this
  | some n =>
    simp only [hb] at this
    exact List.mem_flatMap.2 ⟨(b, n), mem_of_get hb, List.mem_map.2 ⟨a, this, rfl⟩⟩

theorem wideGraph_order : ∃ rem, calcOrder wideGraph = .ok ([0, 1, 2, 3], rem) := ⟨_, rfl⟩

theorem wideGraph_sound : Sound wideGraph [0, 1, 2, 3] := by
  obtain ⟨rem, h⟩ := wideGraph_order
  exact soundTest_sound wideGraph_reach h (by decide)

theorem wideGraph_needs {a b : Key} (h : Needs wideGraph a b) : (a, b) = (0, 1) ∨ (a, b) = (1, 2) ∨ (a, b) = (2, 3) := by
  have := needs_links h
  have e : links wideGraph = [(0, 1), (1, 2), (2, 3)] := by decide
  rw [e] at this
  simpa using this

/-- The hypotheses of `C99_widening_violated` are met: 15 channels are taken where 10 would do. -/
example (s : AState) : ∃ s' sch off, makeSchedule wideGraph 64 s = .ok (s', sch) ∧ s'.alloc.vsize = 15 * 64 ∧
    Layout wideGraph 64 [0, 1, 2, 3] off (10 * 64) := by
  refine C99_widening_violated wideGraph_sound (by decide) s (by decide) (by decide) ?_ ?_ (m := 9) (by decide) ?_
  · intro a b h
    rcases wideGraph_needs h with h | h | h <;> simp only [Prod.mk.injEq] at h <;> obtain ⟨rfl, rfl⟩ := h
    · exact ⟨[], [2, 3], rfl⟩
    · exact ⟨[0], [3], rfl⟩
    · exact ⟨[0, 1], [], rfl⟩
  · rintro k ⟨e, ch, fb, he, rfl⟩
    simp only [wideGraph, List.mem_singleton, Option.some.injEq, Edge.mk.injEq, Src.node.injEq] at he
    exact ⟨[0, 1, 2], by rw [he.1]; rfl⟩
  · intro a b h
    rcases wideGraph_needs h with h | h | h <;> simp only [Prod.mk.injEq] at h <;> obtain ⟨rfl, rfl⟩ := h <;> decide

/-- Three nodes with nothing connected. -/
def looseGraph : Graph :=
  { id := 0, outs := [none], numIn := 0, nextKey := 3, recalc := true, nodes :=
      [(0, { inputs := 0, outputs := 2, ins := some [], pars := some [] }),
       (1, { inputs := 0, outputs := 1, ins := some [], pars := some [] }),
       (2, { inputs := 0, outputs := 2, ins := some [], pars := some [] })] }

theorem looseGraph_reach : Reach id looseGraph :=
  reach_runOps [.push 0 2 [], .push 0 1 [], .push 0 2 []] (Reach.init 0 0 1) (rs := [.ok (), .ok (), .ok ()]) rfl

/-- The hypotheses of `C99_unused_violated` are met: 6 channels are taken where 3 would do. -/
example (s : AState) : ∃ order s' sch, Sound looseGraph order ∧ makeSchedule looseGraph 64 s = .ok (s', sch) ∧
    s'.alloc.vsize = 6 * 64 ∧ Layout looseGraph 64 order (fun _ => 64) (3 * 64) := by
  obtain ⟨order, rem, ho, hsum, hm, ht⟩ : ∃ order rem, calcOrder looseGraph = .ok (order, rem) ∧
      64 + (order.map fun k => outputsOf looseGraph k * 64).sum = 6 * 64 ∧ (∀ k ∈ order, outputsOf looseGraph k ≤ 2) ∧
      soundTest looseGraph order = true := ⟨_, _, rfl, by decide, by decide, by decide⟩
  have hs := soundTest_sound looseGraph_reach ho ht
  obtain ⟨s', sch, h1, h2, h3⟩ := C99_unused_violated hs (bs := 64) (by decide) s
    (fun a b h => by have := needs_links h; rw [show links looseGraph = [] by decide] at this; simp at this)
    (by rintro k ⟨e, ch, fb, he, rfl⟩; simp [looseGraph] at he) hm
  exact ⟨order, s', sch, hs, h1, by omega, h3⟩

/-- The hypotheses of `C99_optimal_partial` and `C99_layout` are met: the chain of C11. -/
example (s : AState) : ∃ order s' sch, Sound chainGraph order ∧ makeSchedule chainGraph 64 s = .ok (s', sch) ∧
    (∀ off size, Layout chainGraph 64 order off size → s'.alloc.vsize ≤ size) ∧
    ∃ off, Layout chainGraph 64 order off s'.alloc.vsize := by
  obtain ⟨order, hs⟩ := chainGraph_sound
  have hn : ∀ {a b}, Needs chainGraph a b → (a, b) = (1, 0) := by
    intro a b h
    have := needs_links h
    rw [show links chainGraph = [(1, 0)] by decide] at this
    simpa using this
  have hlive : ∀ k, Live chainGraph k → k = 0 ∨ k = 1 := by
    intro k hk
    have := (get_isSome chainGraph k).1 hk.1
    simpa [chainGraph] using this
  obtain ⟨s', sch, h1, h2⟩ := C99_optimal_partial hs (bs := 64) (by decide) s (c := 1)
    (fun k hk => by rcases hlive k hk with rfl | rfl <;> decide) (fun k hk => by
      rcases hlive k hk with rfl | rfl
      · exact .inl ⟨_, 0, false, by simp [chainGraph], rfl⟩
      · exact .inr ⟨0, .inl ⟨0, ⟨.node 1, 0, false⟩, by decide, rfl⟩⟩)
  obtain ⟨s2, sch2, off, h3, -, h4⟩ := C99_layout hs (bs := 64) (by decide) s (by
    rintro k ⟨e, ch, fb, he, rfl⟩ b hb
    have := hn hb
    simp only [Prod.mk.injEq] at this
    rw [this.1] at he
    simp [chainGraph] at he)
  rw [h1] at h3
  have := Except.ok.inj h3
  simp only [Prod.mk.injEq] at this
  exact ⟨order, s', sch, hs, h1, h2, off, this.1 ▸ h4⟩

end Verif.Mm
