import Verif.Model.Alloc
import Verif.Lemmas.GraphPath

/-!
# Invariants of the buffer assignment
-/

namespace Verif.G

/-- Shape of the allocator state: the blocks lie one after the other, none is empty, the silent
channel is the first one and is never available. -/
structure AOk (bs : Nat) (a : Alloc) : Prop where
  vs : a.vsize = a.next
  bound : ∀ (i : Nat) (b : Blk), a.blocks[i]? = some b → b.start + b.len ≤ a.next
  disj : ∀ (i j : Nat) (b c : Blk), i < j → a.blocks[i]? = some b → a.blocks[j]? = some c → b.start + b.len ≤ c.start
  pos : ∀ (i : Nat) (b : Blk), a.blocks[i]? = some b → 0 < b.len
  first : ∃ b : Blk, a.blocks[0]? = some b ∧ b.start = 0 ∧ b.len = bs
  ret : ∀ i ∈ a.ret, i ≠ 0 ∧ ∃ b : Blk, a.blocks[i]? = some b ∧ b.borrows = 0
  retNodup : a.ret.Nodup

theorem getElem?_lt {α} {l : List α} {i : Nat} {x : α} (h : l[i]? = some x) : i < l.length := by
  rcases Nat.lt_or_ge i l.length with h1 | h1
  · exact h1
  · rw [List.getElem?_eq_none h1] at h; simp at h

theorem AOk.start_ne {bs : Nat} {a : Alloc} (h : AOk bs a) {i j : Nat} {b c : Blk} (hij : i ≠ j)
    (hb : a.blocks[i]? = some b) (hc : a.blocks[j]? = some c) : b.start ≠ c.start := by
  have h1 := h.pos i b hb
  have h2 := h.pos j c hc
  rcases Nat.lt_or_gt_of_ne hij with h3 | h3
  · have := h.disj i j b c h3 hb hc; omega
  · have := h.disj j i c b h3 hc hb; omega

/-- Different blocks do not overlap. -/
theorem AOk.apart {bs : Nat} {a : Alloc} (h : AOk bs a) {i j : Nat} {b c : Blk} (hij : i ≠ j)
    (hb : a.blocks[i]? = some b) (hc : a.blocks[j]? = some c) :
    b.start + b.len ≤ c.start ∨ c.start + c.len ≤ b.start := by
  rcases Nat.lt_or_gt_of_ne hij with h3 | h3
  · exact .inl (h.disj i j b c h3 hb hc)
  · exact .inr (h.disj j i c b h3 hc hb)

theorem AOk.start_ge {bs : Nat} {a : Alloc} (h : AOk bs a) {i : Nat} {b : Blk} (hi : i ≠ 0)
    (hb : a.blocks[i]? = some b) : bs ≤ b.start := by
  obtain ⟨b0, h0, h1, h2⟩ := h.first
  have := h.disj 0 i b0 b (by omega) h0 hb
  omega

/-- What `getBlock` does, as far as the proofs need it. -/
theorem getBlock_spec {bs : Nat} {a : Alloc} (h : AOk bs a) {chans borrows : Nat} (hc : 0 < chans * bs) :
    ∃ (idx : Nat) (b : Blk), (getBlock a chans bs borrows).2 = b.start ∧
      (getBlock a chans bs borrows).1.blocks[idx]? = some b ∧ b.borrows = borrows ∧
      chans * bs ≤ b.len ∧ idx ≠ 0 ∧
      (idx ∈ a.ret ∨ idx = a.blocks.length) ∧
      (∀ (i : Nat) (c : Blk), i ≠ idx → a.blocks[i]? = some c → (getBlock a chans bs borrows).1.blocks[i]? = some c) ∧
      (∀ c : Blk, a.blocks[idx]? = some c → c.start = b.start ∧ c.len = b.len) ∧
      (∀ i, i ∈ (getBlock a chans bs borrows).1.ret ↔ i ∈ a.ret ∧ i ≠ idx) ∧
      AOk bs (getBlock a chans bs borrows).1 ∧
      (getBlock a chans bs borrows).1.bufLen = a.bufLen ∧ (getBlock a chans bs borrows).1.buf = a.buf := by
  obtain ⟨b0, h00, h01, h02⟩ := h.first
  have hlen0 := getElem?_lt h00
  have hnew : ∃ (idx : Nat) (b : Blk), (newBlock a (chans * bs) borrows).2 = b.start ∧
      (newBlock a (chans * bs) borrows).1.blocks[idx]? = some b ∧ b.borrows = borrows ∧
      chans * bs ≤ b.len ∧ idx ≠ 0 ∧
      (idx ∈ a.ret ∨ idx = a.blocks.length) ∧
      (∀ (i : Nat) (c : Blk), i ≠ idx → a.blocks[i]? = some c →
        (newBlock a (chans * bs) borrows).1.blocks[i]? = some c) ∧
      (∀ c : Blk, a.blocks[idx]? = some c → c.start = b.start ∧ c.len = b.len) ∧
      (∀ i, i ∈ (newBlock a (chans * bs) borrows).1.ret ↔ i ∈ a.ret ∧ i ≠ idx) ∧
      AOk bs (newBlock a (chans * bs) borrows).1 ∧
      (newBlock a (chans * bs) borrows).1.bufLen = a.bufLen ∧
      (newBlock a (chans * bs) borrows).1.buf = a.buf := by
    have hret : ∀ i ∈ a.ret, i < a.blocks.length := by
      intro i hi
      obtain ⟨-, b, hb, -⟩ := h.ret i hi
      exact getElem?_lt hb
    have hget : ∀ (i : Nat) (b : Blk), (a.blocks ++ [⟨a.next, chans * bs, borrows⟩])[i]? = some b →
        (a.blocks[i]? = some b ∧ i < a.blocks.length) ∨
        (i = a.blocks.length ∧ b = ⟨a.next, chans * bs, borrows⟩) := by
      intro i b hb
      rcases Nat.lt_or_ge i a.blocks.length with h1 | h1
      · rw [List.getElem?_append_left h1] at hb
        exact .inl ⟨hb, h1⟩
      · rw [List.getElem?_append_right h1] at hb
        have h2 := getElem?_lt hb
        simp only [List.length_singleton] at h2
        have h3 : i = a.blocks.length := by omega
        subst h3
        simp only [Nat.sub_self, List.getElem?_cons_zero, Option.some.injEq] at hb
        exact .inr ⟨rfl, hb.symm⟩
    refine ⟨a.blocks.length, ⟨a.next, chans * bs, borrows⟩, rfl, ?_, rfl, Nat.le_refl _, by omega,
      .inr rfl, ?_, ?_, ?_, ?_, rfl, rfl⟩
    · simp [newBlock]
    · intro i c _ hi
      simp only [newBlock]
      rw [List.getElem?_append_left (getElem?_lt hi)]
      exact hi
    · intro c hc
      rw [List.getElem?_eq_none (Nat.le_refl _)] at hc
      simp at hc
    · intro i
      simp only [newBlock]
      exact ⟨fun hi => ⟨hi, Nat.ne_of_lt (hret i hi)⟩, fun hi => hi.1⟩
    · constructor
      · simp only [newBlock, h.vs]; omega
      · intro i b hb
        simp only [newBlock] at hb ⊢
        rcases hget i b hb with ⟨h1, -⟩ | ⟨-, rfl⟩
        · have := h.bound i b h1; omega
        · simp
      · intro i j b c hij hb hc'
        simp only [newBlock] at hb hc'
        rcases hget i b hb with ⟨h1, h1'⟩ | ⟨h1', rfl⟩
        · rcases hget j c hc' with ⟨h2, h2'⟩ | ⟨-, rfl⟩
          · exact h.disj i j b c hij h1 h2
          · exact h.bound i b h1
        · rcases hget j c hc' with ⟨h2, h2'⟩ | ⟨h2', rfl⟩ <;> omega
      · intro i b hb
        simp only [newBlock] at hb
        rcases hget i b hb with ⟨h1, -⟩ | ⟨-, rfl⟩
        · exact h.pos i b h1
        · exact hc
      · refine ⟨b0, ?_, h01, h02⟩
        simp only [newBlock]
        rw [List.getElem?_append_left hlen0]
        exact h00
      · intro i hi
        simp only [newBlock] at hi ⊢
        obtain ⟨h1, b, h2, h3⟩ := h.ret i hi
        refine ⟨h1, b, ?_, h3⟩
        rw [List.getElem?_append_left (getElem?_lt h2)]
        exact h2
      · exact h.retNodup
  rw [getBlock]
  split
  · next idx hidx =>
    have hfit := List.find?_some hidx
    have hmem := List.mem_of_find?_eq_some hidx
    obtain ⟨hi0, b, hb, hb0⟩ := h.ret idx hmem
    rw [hb]
    simp only [fits, hb, Bool.and_eq_true, beq_iff_eq, decide_eq_true_eq] at hfit
    have hlt := getElem?_lt hb
    have hset : ∀ i, (a.blocks.set idx { b with borrows := borrows })[i]? =
        if i = idx then some { b with borrows := borrows } else a.blocks[i]? := by
      intro i
      rw [List.getElem?_set]
      by_cases e : i = idx
      · subst e; simp [hlt]
      · rw [if_neg (fun e' => e e'.symm), if_neg e]
    have hb' : ∀ (i : Nat) (c : Blk), (a.blocks.set idx { b with borrows := borrows })[i]? = some c →
        ∃ d : Blk, a.blocks[i]? = some d ∧ c.start = d.start ∧ c.len = d.len ∧ (i ≠ idx → c = d) := by
      intro i c hc'
      rw [hset] at hc'
      split at hc'
      · next e =>
        simp only [Option.some.injEq] at hc'
        exact ⟨b, e ▸ hb, hc' ▸ rfl, hc' ▸ rfl, fun e' => absurd e e'⟩
      · exact ⟨c, hc', rfl, rfl, fun _ => rfl⟩
    refine ⟨idx, { b with borrows := borrows }, rfl, ?_, rfl, hfit.2, hi0, .inl hmem, ?_, ?_, ?_, ?_,
      rfl, rfl⟩
    · simp only [hset, if_true]
    · intro i c hi hi'
      simp only [hset, if_neg hi, hi']
    · intro c hc'
      rw [hb] at hc'
      simp only [Option.some.injEq] at hc'
      exact hc' ▸ ⟨rfl, rfl⟩
    · intro i
      simp only
      rw [h.retNodup.mem_erase_iff]
      exact and_comm
    · constructor
      · exact h.vs
      · intro i c hc'
        obtain ⟨d, h1, h2, h3, -⟩ := hb' i c hc'
        rw [h2, h3]; exact h.bound i d h1
      · intro i j c d hij hc' hd
        obtain ⟨c', h1, h2, h3, -⟩ := hb' i c hc'
        obtain ⟨d', h4, h5, h6, -⟩ := hb' j d hd
        rw [h2, h3, h5]; exact h.disj i j c' d' hij h1 h4
      · intro i c hc'
        obtain ⟨d, h1, h2, h3, -⟩ := hb' i c hc'
        rw [h3]; exact h.pos i d h1
      · refine ⟨b0, ?_, h01, h02⟩
        simp only [hset, if_neg (Ne.symm hi0), h00]
      · intro i hi
        simp only at hi ⊢
        obtain ⟨h1, h2⟩ := (h.retNodup.mem_erase_iff).1 hi
        obtain ⟨h3, c, h4, h5⟩ := h.ret i h2
        refine ⟨h3, c, ?_, h5⟩
        rw [hset, if_neg h1]; exact h4
      · exact h.retNodup.erase _
  · exact hnew

theorem returnLoop_spec (off : Nat) : ∀ (blocks : List Blk) (n i : Nat) (b : Blk),
    blocks[i]? = some b → b.start = off → 0 < b.borrows →
    (∀ (j : Nat) (c : Blk), j < i → blocks[j]? = some c → c.start ≠ off) →
    returnLoop off n blocks = .ok (blocks.set i { b with borrows := b.borrows - 1 },
      if b.borrows - 1 = 0 then some (n + i) else none) := by
  intro blocks
  induction blocks with
  | nil => intro n i b h; simp at h
  | cons x blocks ih =>
    intro n i b h hs hp hlt
    cases i with
    | zero =>
      simp only [List.getElem?_cons_zero, Option.some.injEq] at h
      subst h
      simp only [returnLoop, hs, if_true, subC]
      rw [if_pos (by omega)]
      simp [bind_ok]
    | succ i =>
      have h0 := hlt 0 x (by omega) (by simp)
      simp only [returnLoop, if_neg h0]
      rw [ih (n + 1) i b (by simpa using h) hs hp (by
        intro j c hj hc
        exact hlt (j + 1) c (by omega) (by simpa using hc))]
      simp only [bind_ok, List.set_cons_succ]
      have : n + 1 + i = n + (i + 1) := by omega
      rw [this]

/-- What `returnBlock` does to the block at index `i`. -/
theorem returnBlock_spec {bs : Nat} {a : Alloc} (h : AOk bs a) {i : Nat} {b : Blk} (hi : a.blocks[i]? = some b)
    (hi0 : i ≠ 0) (hp : 0 < b.borrows) (hr : i ∉ a.ret) :
    ∃ a', returnBlock a b.start = .ok a' ∧ AOk bs a' ∧
      a'.blocks[i]? = some { b with borrows := b.borrows - 1 } ∧
      (∀ j, j ≠ i → a'.blocks[j]? = a.blocks[j]?) ∧
      (∀ j, j ∈ a'.ret ↔ j ∈ a.ret ∨ (j = i ∧ b.borrows = 1)) ∧
      a'.bufLen = a.bufLen ∧ a'.buf = a.buf ∧ a'.blocks.length = a.blocks.length := by
  have hs := returnLoop_spec b.start a.blocks 0 i b hi rfl hp (by
    intro j c hj hc e
    exact h.start_ne (by omega) hc hi e)
  unfold returnBlock
  rw [hs]
  simp only [bind_ok]
  have hlt := getElem?_lt hi
  have hset : ∀ j, (a.blocks.set i { b with borrows := b.borrows - 1 })[j]? =
      if j = i then some { b with borrows := b.borrows - 1 } else a.blocks[j]? := by
    intro j
    rw [List.getElem?_set]
    by_cases e : j = i
    · subst e; simp [hlt]
    · rw [if_neg (fun e' => e e'.symm), if_neg e]
  have hb' : ∀ (j : Nat) (c : Blk), (a.blocks.set i { b with borrows := b.borrows - 1 })[j]? = some c →
      ∃ d : Blk, a.blocks[j]? = some d ∧ c.start = d.start ∧ c.len = d.len := by
    intro j c hc'
    rw [hset] at hc'
    split at hc'
    · next e =>
      simp only [Option.some.injEq] at hc'
      exact ⟨b, e ▸ hi, hc' ▸ rfl, hc' ▸ rfl⟩
    · exact ⟨c, hc', rfl, rfl⟩
  have hret : ∀ j, (j ∈ (match (if b.borrows - 1 = 0 then some (0 + i) else none) with
      | some i => i :: a.ret | none => a.ret)) ↔ j ∈ a.ret ∨ (j = i ∧ b.borrows = 1) := by
    intro j
    by_cases h1 : b.borrows - 1 = 0
    · rw [if_pos h1]
      have : b.borrows = 1 := by omega
      simp only [Nat.zero_add, List.mem_cons, this, and_true]
      exact or_comm
    · rw [if_neg h1]
      have : ¬ b.borrows = 1 := by omega
      simp [this]
  obtain ⟨b0, h00, h01, h02⟩ := h.first
  refine ⟨_, rfl, ?_, ?_, ?_, hret, rfl, rfl, by simp⟩
  · constructor
    · exact h.vs
    · intro j c hc'
      obtain ⟨d, h1, h2, h3⟩ := hb' j c hc'
      rw [h2, h3]; exact h.bound j d h1
    · intro j k c d hij hc' hd
      obtain ⟨c', h1, h2, h3⟩ := hb' j c hc'
      obtain ⟨d', h4, h5, h6⟩ := hb' k d hd
      rw [h2, h3, h5]; exact h.disj j k c' d' hij h1 h4
    · intro j c hc'
      obtain ⟨d, h1, h2, h3⟩ := hb' j c hc'
      rw [h3]; exact h.pos j d h1
    · refine ⟨b0, ?_, h01, h02⟩
      simp only [hset, if_neg (Ne.symm hi0), h00]
    · intro j hj
      rcases (hret j).1 hj with h1 | ⟨rfl, h1⟩
      · obtain ⟨h3, c, h4, h5⟩ := h.ret j h1
        refine ⟨h3, c, ?_, h5⟩
        simp only [hset]
        have hne : j ≠ i := by rintro rfl; exact hr h1
        rw [if_neg hne]; exact h4
      · refine ⟨hi0, { b with borrows := b.borrows - 1 }, by simp only [hset, if_true], ?_⟩
        simp [h1]
    · simp only
      split
      · next x hx =>
        split at hx
        · simp only [Nat.zero_add, Option.some.injEq] at hx
          subst hx
          exact List.nodup_cons.2 ⟨hr, h.retNodup⟩
        · simp at hx
      · exact h.retNodup
  · simp only [hset, if_true]
  · intro j hj
    simp only [hset, if_neg hj]

/-- The state of the assignment after the nodes in `done`: `ix` is the block of each node and `rem` the
number of connections of a node that have not been accounted for.  A node is active when its output is
still needed, or was never needed by another node. -/
structure GInv (g : Graph) (bs : Nat) (s : AState) (rem : Key → Nat) (done : List Key) (ix : Key → Nat) :
    Prop where
  ok : AOk bs s.alloc
  blk : ∀ k ∈ done, ∃ (b : Blk) (n : NodeRec), s.alloc.blocks[ix k]? = some b ∧ s.outm k = .off b.start ∧
    g.get k = some n ∧ n.outputs * bs ≤ b.len ∧ ix k ≠ 0
  act : ∀ k ∈ done, 0 < rem k ∨ depCount g k = 0 → ix k ∉ s.alloc.ret ∧
    ∀ b : Blk, s.alloc.blocks[ix k]? = some b → b.borrows = rem k
  sep : ∀ k ∈ done, ∀ j ∈ done, 0 < rem k ∨ depCount g k = 0 → 0 < rem j ∨ depCount g j = 0 →
    ix k = ix j → k = j
  le : ∀ k, rem k ≤ depCount g k

theorem ginv_get {g : Graph} {bs : Nat} {s : AState} {rem : Key → Nat} {done : List Key} {ix : Key → Nat} (h : GInv g bs s rem done ix) {k : Key} {n : NodeRec}
    (hk : g.get k = some n) (hn : k ∉ done) (ho : 0 < n.outputs) (hbs : 0 < bs)
    (hrem : rem k = depCount g k) :
    ∃ idx, GInv g bs { alloc := (getBlock s.alloc n.outputs bs (depCount g k)).1, outm := fun j => if j = k then .off (getBlock s.alloc n.outputs bs (depCount g k)).2 else s.outm j }
        rem (done ++ [k]) (fun j => if j = k then idx else ix j) ∧
      ∀ j ∈ done, 0 < rem j ∨ depCount g j = 0 → ix j ≠ idx := by
  obtain ⟨idx, b, h1, h2, h3, h4, h5, h6, h7, h8, h9, h10, -, -⟩ :=
    getBlock_spec h.ok (borrows := depCount g k) (Nat.mul_pos ho hbs)
  have hne : ∀ j ∈ done, 0 < rem j ∨ depCount g j = 0 → ix j ≠ idx := by
    intro j hj ha e
    obtain ⟨hr, -⟩ := h.act j hj ha
    obtain ⟨c, m, hc, -⟩ := h.blk j hj
    rcases h6 with h6 | h6
    · exact hr (e ▸ h6)
    · have := getElem?_lt hc
      omega
  refine ⟨idx, ?_, hne⟩
  constructor
  · exact h10
  · intro j hj
    by_cases e : j = k
    · subst e
      simp only [if_true]
      exact ⟨b, n, h2, by rw [h1], hk, h4, h5⟩
    · have hj' : j ∈ done := by
        rcases List.mem_append.1 hj with hj | hj
        · exact hj
        · simp only [List.mem_singleton] at hj; exact absurd hj e
      simp only [if_neg e]
      obtain ⟨c, m, hc, ho', hm, hle, h0⟩ := h.blk j hj'
      by_cases ei : ix j = idx
      · rw [ei] at hc ⊢
        obtain ⟨h11, h12⟩ := h8 c hc
        exact ⟨b, m, h2, by rw [← h11]; exact ho', hm, by rw [← h12]; exact hle, h5⟩
      · exact ⟨c, m, h7 _ _ ei hc, ho', hm, hle, h0⟩
  · intro j hj ha
    by_cases e : j = k
    · subst e
      simp only [if_true]
      refine ⟨?_, ?_⟩
      · rw [h9]; simp
      · intro c hc
        rw [h2] at hc
        simp only [Option.some.injEq] at hc
        rw [← hc, h3, hrem]
    · have hj' : j ∈ done := by
        rcases List.mem_append.1 hj with hj | hj
        · exact hj
        · simp only [List.mem_singleton] at hj; exact absurd hj e
      simp only [if_neg e]
      obtain ⟨h11, h12⟩ := h.act j hj' ha
      obtain ⟨c, m, hc, -⟩ := h.blk j hj'
      have ei := hne j hj' ha
      refine ⟨?_, ?_⟩
      · rw [h9]; exact fun hh => h11 hh.1
      · intro d hd
        rw [h7 _ _ ei hc] at hd
        simp only [Option.some.injEq] at hd
        exact hd ▸ h12 c hc
  · intro i hi j hj hai haj e
    have mem : ∀ x ∈ done ++ [k], x ≠ k → x ∈ done := by
      intro x hx hxk
      rcases List.mem_append.1 hx with hx | hx
      · exact hx
      · simp only [List.mem_singleton] at hx; exact absurd hx hxk
    by_cases ei : i = k
    · by_cases ej : j = k
      · rw [ei, ej]
      · simp only [ei, if_true, if_neg ej] at e
        exact absurd e.symm (hne j (mem j hj ej) haj)
    · by_cases ej : j = k
      · simp only [ej, if_true, if_neg ei] at e
        exact absurd e (hne i (mem i hi ei) hai)
      · simp only [if_neg ei, if_neg ej] at e
        exact h.sep i (mem i hi ei) j (mem j hj ej) hai haj e
  · exact h.le

theorem ginv_return {g : Graph} {bs : Nat} {s : AState} {rem : Key → Nat} {done : List Key} {ix : Key → Nat} (h : GInv g bs s rem done ix) {k : Key} (hk : k ∈ done)
    (hr : 0 < rem k) :
    ∃ s', returnKey g s k = .ok s' ∧ s'.outm = s.outm ∧
      GInv g bs s' (fun j => if j = k then rem k - 1 else rem j) done ix := by
  obtain ⟨b, n, hb, ho, hn, hlen, h0⟩ := h.blk k hk
  obtain ⟨hret, hbor⟩ := h.act k hk (.inl hr)
  have hbr := hbor b hb
  obtain ⟨a', h1, h2, h3, h4, h5, -, -, -⟩ := returnBlock_spec h.ok hb h0 (by omega) hret
  refine ⟨{ s with alloc := a' }, ?_, rfl, ?_⟩
  · unfold returnKey
    rw [hn, ho]
    simp only
    rw [h1]
    rfl
  · have hlek := h.le k
    have hact : ∀ j, (0 < (if j = k then rem k - 1 else rem j) ∨ depCount g j = 0) →
        (0 < rem j ∨ depCount g j = 0) := by
      intro j hj
      by_cases e : j = k
      · subst e; exact .inl hr
      · rw [if_neg e] at hj; exact hj
    constructor
    · exact h2
    · intro j hj
      obtain ⟨c, m, hc, ho', hm, hle, hj0⟩ := h.blk j hj
      simp only
      by_cases ei : ix j = ix k
      · rw [ei] at hc ⊢
        rw [hb] at hc
        simp only [Option.some.injEq] at hc
        subst hc
        exact ⟨_, m, h3, ho', hm, hle, h0⟩
      · exact ⟨c, m, by rw [h4 _ ei]; exact hc, ho', hm, hle, hj0⟩
    · intro j hj ha
      simp only
      have ha' := hact j ha
      obtain ⟨h11, h12⟩ := h.act j hj ha'
      by_cases ej : j = k
      · subst ej
        simp only [if_true] at ha ⊢
        have h13 : 0 < rem j - 1 := by
          rcases ha with ha | ha
          · exact ha
          · omega
        refine ⟨?_, ?_⟩
        · rw [h5]
          rintro (hh | ⟨-, hh⟩)
          · exact h11 hh
          · omega
        · intro d hd
          rw [h3] at hd
          simp only [Option.some.injEq] at hd
          rw [← hd]
          simp only
          omega
      · have ei : ix j ≠ ix k := fun e => ej (h.sep j hj k hk ha' (.inl hr) e)
        simp only [if_neg ej]
        refine ⟨?_, ?_⟩
        · rw [h5]
          rintro (hh | ⟨hh, -⟩)
          · exact h11 hh
          · exact ei hh
        · intro d hd
          rw [h4 _ ei] at hd
          exact h12 d hd
    · intro i hi j hj hai haj e
      exact h.sep i hi j hj (hact i hai) (hact j haj) e
    · intro j
      have := h.le j
      by_cases e : j = k
      · subst e; simp only [if_true]; omega
      · simp only [if_neg e]; exact this

theorem ginv_returnAll {g : Graph} {bs : Nat} {done : List Key} {ix : Key → Nat} : ∀ (ks : List Key)
    {s : AState} {rem : Key → Nat}, GInv g bs s rem done ix →
    (∀ k ∈ ks, k ∈ done) → (∀ k, ks.count k ≤ rem k) →
    ∃ s', returnAll g s ks = .ok s' ∧ s'.outm = s.outm ∧
      GInv g bs s' (fun j => rem j - ks.count j) done ix := by
  intro ks
  induction ks with
  | nil =>
    intro s rem h _ _
    exact ⟨s, rfl, rfl, by simpa using h⟩
  | cons k ks ih =>
    intro s rem h hd hc
    have hk := hc k
    simp only [List.count_cons_self] at hk
    obtain ⟨s1, h1, h2, h3⟩ := ginv_return h (hd k (by simp)) (by omega)
    obtain ⟨s2, h4, h5, h6⟩ := ih h3 (fun j hj => hd j (List.mem_cons_of_mem _ hj)) (by
      intro j
      have := hc j
      by_cases e : j = k
      · subst e; simp only [List.count_cons_self] at this; simp only [if_true]; omega
      · simp only [if_neg e]
        rw [List.count_cons_of_ne (fun e' => e e'.symm)] at this
        exact this)
    refine ⟨s2, ?_, by rw [h5, h2], ?_⟩
    · rw [returnAll, h1]
      exact h4
    · have : (fun j => (if j = k then rem k - 1 else rem j) - ks.count j) =
          fun j => rem j - (k :: ks).count j := by
        funext j
        by_cases e : j = k
        · subst e; simp only [if_true, List.count_cons_self]; omega
        · simp only [if_neg e]
          rw [List.count_cons_of_ne (fun e' => e e'.symm)]
      rw [this] at h6
      exact h6

theorem le_sum_map {α} (f : α → Nat) {l : List α} {x : α} (h : x ∈ l) : f x ≤ (l.map f).sum := by
  induction l with
  | nil => simp at h
  | cons y l ih =>
    simp only [List.map_cons, List.sum_cons]
    rcases List.mem_cons.1 h with rfl | h
    · omega
    · have := ih h; omega

/-- The sources of node `b`. -/
def sourcesOf (g : Graph) (b : Key) : List Key := match g.get b with
  | some n => recSources n
  | none => []

theorem assignNode_spec {g : Graph} {bs : Nat} {s : AState} {rem : Key → Nat} {done : List Key} {ix : Key → Nat} (h : GInv g bs s rem done ix) {k : Key} {n : NodeRec}
    (hk : g.get k = some n) (hi : n.ins.isSome) (hp : n.pars.isSome) (hn : k ∉ done)
    (ho : 0 < n.outputs) (hbs : 0 < bs) (hrem : rem k = depCount g k)
    (hsrc : ∀ a ∈ sourcesOf g k, a ∈ done) (hcnt : ∀ a, (sourcesOf g k).count a ≤ rem a) :
    ∃ (s' : AState) (ix' : Key → Nat), assignNode g bs s k = .ok s' ∧
      GInv g bs s' (fun j => rem j - (sourcesOf g k).count j) (done ++ [k]) ix' ∧
      (∀ j, j ≠ k → ix' j = ix j ∧ s'.outm j = s.outm j) ∧
      ∀ j ∈ done, 0 < rem j ∨ depCount g j = 0 → ix' j ≠ ix' k := by
  obtain ⟨idx, h1, h2⟩ := ginv_get h hk hn ho hbs hrem
  obtain ⟨es, hes⟩ := Option.isSome_iff_exists.1 hi
  obtain ⟨ps, hps⟩ := Option.isSome_iff_exists.1 hp
  have hso : sourcesOf g k = srcKeys es ++ ps.map PEdge.source := by
    simp [sourcesOf, hk, recSources, hes, hps]
  obtain ⟨s', h3, h4, h5⟩ := ginv_returnAll (srcKeys es ++ ps.map PEdge.source) h1 (by
    intro a ha
    exact List.mem_append_left _ (hsrc a (hso ▸ ha))) (by
    intro a; rw [← hso]; exact hcnt a)
  refine ⟨s', _, ?_, hso ▸ h5, ?_, ?_⟩
  · unfold assignNode
    rw [hk]
    simp only [hes, hps]
    exact h3
  · intro j hj
    rw [h4]
    simp only [if_neg hj]
    exact ⟨trivial, trivial⟩
  · intro j hj ha
    have hjk : j ≠ k := fun e => hn (e ▸ hj)
    simp only [if_neg hjk, if_true]
    exact h2 j hj ha

/-- The whole assignment loop, for an order in which every node comes after its sources. -/
theorem assignAll_spec {g : Graph} {bs : Nat} (hbs : 0 < bs) : ∀ (todo done : List Key) {s : AState}
    {rem ix : Key → Nat},
    GInv g bs s rem done ix → (done ++ todo).Nodup →
    (∀ b ∈ todo, ∃ n, g.get b = some n ∧ n.ins.isSome ∧ n.pars.isSome ∧ 0 < n.outputs) →
    (∀ k, rem k = (todo.map fun b => (sourcesOf g b).count k).sum) →
    (∀ k ∈ todo, rem k = depCount g k) →
    (∀ pre b post, todo = pre ++ b :: post → ∀ a ∈ sourcesOf g b, a ∈ done ∨ a ∈ pre) →
    ∃ (s' : AState) (ix' : Key → Nat), assignAll g bs s todo = .ok s' ∧
      GInv g bs s' (fun _ => 0) (done ++ todo) ix' ∧
      (∀ j, j ∉ todo → ix' j = ix j ∧ s'.outm j = s.outm j) ∧
      ∀ pre b post, todo = pre ++ b :: post → ∀ k ∈ done ++ pre,
        (depCount g k = 0 ∨ ∃ c ∈ b :: post, k ∈ sourcesOf g c) → ix' k ≠ ix' b := by
  intro todo
  induction todo with
  | nil =>
    intro done s rem ix h hnd _ hrem _ _
    refine ⟨s, ix, rfl, ?_, fun j _ => ⟨rfl, rfl⟩, ?_⟩
    · have : rem = fun _ => 0 := by funext k; simpa using hrem k
      rw [List.append_nil]
      exact this ▸ h
    · intro pre b post e
      simp at e
  | cons b todo ih =>
    intro done s rem ix h hnd hlive hrem hfull htopo
    obtain ⟨n, hb, hi, hp, ho⟩ := hlive b (by simp)
    have hnd' := List.nodup_append.1 hnd
    have hbd : b ∉ done := fun hm => hnd'.2.2 b hm b (by simp) rfl
    have hbt : b ∉ todo := (List.nodup_cons.1 hnd'.2.1).1
    have hsrc : ∀ a ∈ sourcesOf g b, a ∈ done := by
      intro a ha
      rcases htopo [] b todo rfl a ha with h1 | h1
      · exact h1
      · simp at h1
    obtain ⟨s1, ix1, h1, h2, h3, h4⟩ := assignNode_spec h hb hi hp hbd ho hbs (hfull b (by simp)) hsrc
      (by intro a; rw [hrem a]; simp)
    obtain ⟨s2, ix2, h5, h6, h7, h8⟩ := ih (done ++ [b]) h2 (by simpa using hnd)
      (fun c hc => hlive c (List.mem_cons_of_mem _ hc))
      (by intro k; rw [hrem k]; simp)
      (by
        intro k hk
        have hk1 := hfull k (List.mem_cons_of_mem _ hk)
        have : (sourcesOf g b).count k = 0 := by
          rw [List.count_eq_zero]
          intro hm
          exact hnd'.2.2 k (hsrc k hm) k (List.mem_cons_of_mem _ hk) rfl
        rw [this]
        simpa using hk1)
      (by
        intro pre c post e a ha
        rcases htopo (b :: pre) c post (by rw [e]; rfl) a ha with h9 | h9
        · exact .inl (List.mem_append_left _ h9)
        · rcases List.mem_cons.1 h9 with rfl | h9
          · exact .inl (by simp)
          · exact .inr h9)
    refine ⟨s2, ix2, ?_, by simpa using h6, ?_, ?_⟩
    · rw [assignAll, h1]
      exact h5
    · intro j hj
      have hj1 : j ≠ b := fun e => hj (by simp [e])
      have hj2 : j ∉ todo := fun e => hj (List.mem_cons_of_mem _ e)
      obtain ⟨h9, h10⟩ := h7 j hj2
      obtain ⟨h11, h12⟩ := h3 j hj1
      exact ⟨h9.trans h11, h10.trans h12⟩
    · intro pre c post e k hk ha
      cases pre with
      | nil =>
        simp only [List.nil_append, List.cons.injEq] at e
        obtain ⟨rfl, rfl⟩ := e
        have hkd : k ∈ done := by simpa using hk
        have hkt : k ∉ todo := fun hm => hnd'.2.2 k hkd k (List.mem_cons_of_mem _ hm) rfl
        rw [(h7 k hkt).1, (h7 b hbt).1]
        refine h4 k hkd ?_
        rcases ha with ha | ⟨c, hc, hkc⟩
        · exact .inr ha
        · left
          rw [hrem k]
          have hpos : 0 < (sourcesOf g c).count k := List.count_pos_iff.2 hkc
          have hle : (sourcesOf g c).count k ≤
              ((b :: todo).map fun b => (sourcesOf g b).count k).sum := by
            exact le_sum_map (fun b => (sourcesOf g b).count k) hc
          omega
      | cons x pre =>
        simp only [List.cons_append, List.cons.injEq] at e
        obtain ⟨rfl, e⟩ := e
        refine h8 pre c post e k ?_ ha
        simpa using hk

end Verif.G
