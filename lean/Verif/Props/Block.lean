import Verif.Model.Block
import Mathlib.Tactic.Linarith
import Mathlib.Tactic.Ring

/-!
# C50: block channels are isolated
-/

namespace Verif.Bk

variable {α : Type}

/-- The block fits the memory of `size` samples: owned buffers have exactly the size of the block, raw pointers
point to allocations that are large enough and (aggregate blocks) do not overlap, windows lie inside. -/
def Blk.Fits (size : Nat) : Blk → Prop
  | .vec c n | .static c n => size = c * n
  | .empty => True
  | .raw p c n => p + c * n ≤ size
  | .agg bufs n => (∀ p ∈ bufs, p + n ≤ size) ∧
      ∀ i j : Nat, i < j → j < bufs.length → bufs.getD i 0 + n ≤ bufs.getD j 0 ∨ bufs.getD j 0 + n ≤ bufs.getD i 0
  | .part b s l => b.Fits size ∧ s + l ≤ b.blockSize

theorem cell_lt {c f cs n : Nat} (hc : c < cs) (hf : f < n) : c * n + f < cs * n := by
  have : (c + 1) * n ≤ cs * n := Nat.mul_le_mul_right n hc
  have h2 : (c + 1) * n = c * n + n := by ring
  omega

theorem cell_inj {c f c' f' n : Nat} (hf : f < n) (hf' : f' < n) (h : c * n + f = c' * n + f') : c = c' ∧ f = f' := by
  have hc : c = c' := by
    rcases Nat.lt_trichotomy c c' with h1 | h1 | h1
    · have h2 := cell_lt h1 hf
      omega
    · exact h1
    · have h2 := cell_lt h1 hf'
      omega
  subst hc
  exact ⟨rfl, by omega⟩

/-- Inside the block every access goes to a cell of the memory, and different channels or frames go to
different cells. -/
theorem addr_spec (size : Nat) (b : Blk) (hb : b.Fits size) (c f : Nat) (hc : c < b.channels) (hf : f < b.blockSize) :
    ∃ a, b.addr c f = .ok a ∧ a < size := by
  induction b generalizing f with
  | vec cs n | static cs n =>
    refine ⟨c * n + f, rfl, ?_⟩
    have : size = cs * n := hb
    rw [this]
    exact cell_lt hc hf
  | empty => simp [Blk.channels] at hc
  | raw p cs n =>
    have hb' : p + cs * n ≤ size := hb
    have := cell_lt (show c < cs from hc) (show f < n from hf)
    have hc' : c < cs := hc
    have hf' : f < n := hf
    exact ⟨p + (c * n + f), by simp [Blk.addr, hc', hf'], by omega⟩
  | agg bufs n =>
    have hc' : c < bufs.length := hc
    have hf' : f < n := hf
    have := hb.1 (bufs.getD c 0) (by
      rw [List.getD_eq_getElem?_getD, List.getElem?_eq_getElem hc']
      exact List.getElem_mem hc')
    exact ⟨bufs.getD c 0 + f, by simp [Blk.addr, hc', hf'], by omega⟩
  | part b s l ih =>
    have hf' : f < l := hf
    have := hb.2
    exact ih hb.1 (f + s) hc (by omega)

theorem addr_inj (size : Nat) (b : Blk) (hb : b.Fits size) (c f c' f' : Nat) (hc : c < b.channels) (hf : f < b.blockSize)
    (hc' : c' < b.channels) (hf' : f' < b.blockSize) (h : b.addr c f = b.addr c' f') : c = c' ∧ f = f' := by
  induction b generalizing f f' with
  | vec cs n | static cs n =>
    simp only [Blk.addr, Except.ok.injEq] at h
    exact cell_inj hf hf' h
  | empty => simp [Blk.channels] at hc
  | raw p cs n =>
    have h1 : c < cs := hc
    have h2 : f < n := hf
    have h3 : c' < cs := hc'
    have h4 : f' < n := hf'
    simp only [Blk.addr, h1, h2, h3, h4, if_true, Except.ok.injEq] at h
    exact cell_inj h2 h4 (by omega)
  | agg bufs n =>
    have h1 : c < bufs.length := hc
    have h2 : f < n := hf
    have h3 : c' < bufs.length := hc'
    have h4 : f' < n := hf'
    simp only [Blk.addr, h1, h2, h3, h4, if_true, Except.ok.injEq] at h
    rcases Nat.lt_trichotomy c c' with hlt | heq | hgt
    · have := hb.2 c c' hlt h3
      omega
    · subst heq
      exact ⟨rfl, by omega⟩
    · have := hb.2 c' c hgt h1
      omega
  | part b s l ih =>
    have h2 : f < l := hf
    have h4 : f' < l := hf'
    have := hb.2
    have := ih hb.1 (f + s) (f' + s) hc (by omega) hc' (by omega) h
    exact ⟨this.1, by omega⟩

theorem read_of_addr {b : Blk} {m : List α} {c f a : Nat} (h : b.addr c f = .ok a) (ha : a < m.length) :
    b.read m c f = .ok m[a] := by
  simp [Blk.read, h, List.getElem?_eq_getElem ha]

/-- **C50** (reading after writing): inside a block that fits its memory, writing succeeds, reading the same
channel and frame gives the value written, and every other channel and frame reads as before. -/
theorem C50_read_write (m : List α) (b : Blk) (hb : b.Fits m.length) (v : α) (c f : Nat) (hc : c < b.channels)
    (hf : f < b.blockSize) :
    ∃ m', b.write m v c f = .ok m' ∧ m'.length = m.length ∧ b.read m' c f = .ok v ∧
      ∀ c' f', c' < b.channels → f' < b.blockSize → (c', f') ≠ (c, f) → b.read m' c' f' = b.read m c' f' := by
  obtain ⟨a, ha, hlt⟩ := addr_spec _ b hb c f hc hf
  refine ⟨m.set a v, by simp [Blk.write, ha, hlt], by simp, ?_, ?_⟩
  · rw [read_of_addr ha (by simpa using hlt)]
    simp
  · intro c' f' hc' hf' hne
    obtain ⟨a', ha', hlt'⟩ := addr_spec _ b hb c' f' hc' hf'
    have haa : a ≠ a' := by
      rintro rfl
      have := addr_inj _ b hb c f c' f' hc hf hc' hf' (by rw [ha, ha'])
      exact hne (by rw [this.1, this.2])
    rw [read_of_addr ha' (by simpa using hlt'), read_of_addr ha' hlt', List.getElem_set_ne haa]

/-- **C50** (reading): inside a block every sample can be read. -/
theorem C50_read_total (m : List α) (b : Blk) (hb : b.Fits m.length) (c f : Nat) (hc : c < b.channels)
    (hf : f < b.blockSize) : ∃ x, b.read m c f = .ok x := by
  obtain ⟨a, ha, hlt⟩ := addr_spec _ b hb c f hc hf
  exact ⟨_, read_of_addr ha hlt⟩

/-- **C50** (partial views): a view of a window inside a block, also of a window of a window, is the block itself
with the frames moved: reading and writing frame `f` of the view is reading and writing frame `s + f` of the
block, for every access. -/
theorem C50_partial_view (m : List α) (b : Blk) (s l c f : Nat) (v : α) :
    (Blk.part b s l).read m c f = b.read m c (s + f) ∧ (Blk.part b s l).write m v c f = b.write m v c (s + f) ∧
    (Blk.part b s l).blockSize = l ∧ (Blk.part b s l).channels = b.channels := by
  refine ⟨?_, ?_, rfl, rfl⟩ <;> simp only [Blk.read, Blk.write, Blk.addr, Nat.add_comm f s]

/-- **C50** (partial views): a write through a window changes, in the underlying block, exactly the sample it
names. In particular nothing outside of the window changes. -/
theorem C50_partial_window (m : List α) (b : Blk) (s l : Nat) (hb : (Blk.part b s l).Fits m.length) (v : α)
    (c f : Nat) (hc : c < b.channels) (hf : f < l) :
    ∃ m', (Blk.part b s l).write m v c f = .ok m' ∧ b.read m' c (s + f) = .ok v ∧
      ∀ c' f', c' < b.channels → f' < b.blockSize → (c' = c → f' ≠ s + f) → b.read m' c' f' = b.read m c' f' := by
  have hsf : s + f < b.blockSize := by
    have := hb.2
    omega
  obtain ⟨m', h1, -, h2, h3⟩ := C50_read_write m b hb.1 v c (s + f) hc hsf
  refine ⟨m', by rw [(C50_partial_view m b s l c f v).2.1, h1], h2, ?_⟩
  intro c' f' hc' hf' hne
  apply h3 c' f' hc' hf'
  intro h
  simp only [Prod.mk.injEq] at h
  exact hne h.1 h.2

/-- **C50** (slices): the slice of a channel has exactly the length of the block and its elements are the samples
`read` gives. -/
theorem C50_slice (m : List α) (b : Blk) (hb : b.Fits m.length) (c : Nat) (hc : c < b.channels) :
    ∃ p, b.slice m.length c = .ok (p, b.blockSize) ∧ p + b.blockSize ≤ m.length ∧
      ∀ f < b.blockSize, b.addr c f = .ok (p + f) := by
  induction b with
  | vec cs n =>
    have hs : m.length = cs * n := hb
    have hc' : c < cs := hc
    have h1 : (c + 1) * n ≤ cs * n := Nat.mul_le_mul_right n hc
    have h2 : (c + 1) * n = c * n + n := by ring
    refine ⟨c * n, ?_, by show c * n + n ≤ _; omega, fun f _ => rfl⟩
    simp only [Blk.slice, hc', if_true, subslice, Blk.blockSize]
    rw [if_pos ⟨by omega, by omega⟩, h2]
    simp
  | static cs n =>
    have hs : m.length = cs * n := hb
    have hc' : c < cs := hc
    have h1 : (c + 1) * n ≤ cs * n := Nat.mul_le_mul_right n hc
    have h2 : (c + 1) * n = c * n + n := by ring
    refine ⟨c * n, ?_, by show c * n + n ≤ _; omega, fun f _ => rfl⟩
    simp only [Blk.slice, subslice, Blk.blockSize]
    rw [if_pos ⟨by omega, by omega⟩, h2]
    simp
  | empty => simp [Blk.channels] at hc
  | raw p cs n =>
    have hs : p + cs * n ≤ m.length := hb
    have hc' : c < cs := hc
    have h1 : (c + 1) * n ≤ cs * n := Nat.mul_le_mul_right n hc
    have h2 : (c + 1) * n = c * n + n := by ring
    refine ⟨p + c * n, by simp [Blk.slice, hc', Blk.blockSize], by show p + c * n + n ≤ _; omega, ?_⟩
    intro f hf
    have hf' : f < n := hf
    simp only [Blk.addr, hc', hf', if_true, Except.ok.injEq]
    omega
  | agg bufs n =>
    have hc' : c < bufs.length := hc
    have := hb.1 (bufs.getD c 0) (by
      rw [List.getD_eq_getElem?_getD, List.getElem?_eq_getElem hc']
      exact List.getElem_mem hc')
    refine ⟨bufs.getD c 0, by simp [Blk.slice, hc', Blk.blockSize], this, ?_⟩
    intro f hf
    have hf' : f < n := hf
    simp only [Blk.addr, hc', hf', if_true]
  | part b s l ih =>
    obtain ⟨p, h1, h2, h3⟩ := ih hb.1 hc
    have hw := hb.2
    refine ⟨p + s, ?_, by show p + s + l ≤ _; omega, ?_⟩
    · have : s + l ≤ b.blockSize := hw
      simp only [Blk.slice, h1, bind_ok, subslice]
      rw [if_pos ⟨by omega, this⟩]
      simp [Blk.blockSize]
    · intro f hf
      have hf' : f < l := hf
      have := h3 (f + s) (by omega)
      simp only [Blk.addr, this, Except.ok.injEq]
      omega

/-- **C50** (slices of different channels do not overlap), which the iterator of mutable channel slices relies
on. -/
theorem C50_slices_disjoint (m : List α) (b : Blk) (hb : b.Fits m.length) (c c' p p' n n' : Nat)
    (hc : c < b.channels) (hc' : c' < b.channels) (hne : c ≠ c') (h : b.slice m.length c = .ok (p, n))
    (h' : b.slice m.length c' = .ok (p', n')) : ∀ a, ¬ (p ≤ a ∧ a < p + n ∧ p' ≤ a ∧ a < p' + n') := by
  obtain ⟨q, hq, -, hqa⟩ := C50_slice m b hb c hc
  obtain ⟨q', hq', -, hqa'⟩ := C50_slice m b hb c' hc'
  rw [hq] at h
  rw [hq'] at h'
  simp only [Except.ok.injEq, Prod.mk.injEq] at h h'
  obtain ⟨rfl, rfl⟩ := h
  obtain ⟨rfl, rfl⟩ := h'
  rintro a ⟨h1, h2, h3, h4⟩
  have e1 := hqa (a - q) (by omega)
  have e2 := hqa' (a - q') (by omega)
  have := addr_inj _ b hb c (a - q) c' (a - q') hc (by omega) hc' (by omega) (by
    rw [e1, e2, show q + (a - q) = a by omega, show q' + (a - q') = a by omega])
  exact hne this.1

theorem mapM_ok {β γ : Type} (l : List β) (f : β → R γ) (h : ∀ x ∈ l, ∃ y, f x = .ok y) :
    ∃ ys, l.mapM f = .ok ys ∧ ys.length = l.length ∧ ∀ (i : Nat) (x : β), l[i]? = some x → ∃ y, ys[i]? = some y ∧ f x = .ok y := by
  induction l with
  | nil => exact ⟨[], rfl, rfl, by simp⟩
  | cons a l ih =>
    obtain ⟨y, hy⟩ := h a (by simp)
    obtain ⟨ys, h1, h2, h3⟩ := ih fun x hx => h x (by simp [hx])
    refine ⟨y :: ys, by simp [List.mapM_cons, hy, h1], by simp [h2], ?_⟩
    intro i x hx
    cases i with
    | zero =>
      simp only [List.getElem?_cons_zero, Option.some.injEq] at hx
      subst hx
      exact ⟨y, rfl, hy⟩
    | succ i => exact h3 i x (by simpa using hx)

/-- **C50** (the iterator): it yields one slice per channel, in order, pairwise disjoint. -/
theorem C50_iter (m : List α) (b : Blk) (hb : b.Fits m.length) :
    ∃ ss, b.iterMut m.length = .ok ss ∧ ss.length = b.channels ∧
      (∀ c < b.channels, ∃ p, ss[c]? = some (p, b.blockSize) ∧ b.slice m.length c = .ok (p, b.blockSize)) ∧
      ∀ c c' : Nat, c < b.channels → c' < b.channels → c ≠ c' → ∀ s s', ss[c]? = some s → ss[c']? = some s' →
        ∀ a, ¬ (s.1 ≤ a ∧ a < s.1 + s.2 ∧ s'.1 ≤ a ∧ a < s'.1 + s'.2) := by
  obtain ⟨ss, h1, h2, h3⟩ := mapM_ok (List.range b.channels) (fun c : Nat => b.slice m.length c) (by
    intro c hc
    obtain ⟨p, hp, -⟩ := C50_slice m b hb c (List.mem_range.1 hc)
    exact ⟨_, hp⟩)
  have get : ∀ c < b.channels, ∃ s, ss[c]? = some s ∧ b.slice m.length c = .ok s := by
    intro c hc
    exact h3 c c (List.getElem?_range hc)
  refine ⟨ss, h1, by simpa using h2, ?_, ?_⟩
  · intro c hc
    obtain ⟨s, hs1, hs2⟩ := get c hc
    obtain ⟨p, hp, -⟩ := C50_slice m b hb c hc
    rw [hp] at hs2
    obtain rfl := Except.ok.inj hs2
    exact ⟨p, hs1, hp⟩
  · intro c c' hc hc' hne s s' hs hs'
    obtain ⟨t, ht1, ht2⟩ := get c hc
    obtain ⟨t', ht1', ht2'⟩ := get c' hc'
    rw [hs] at ht1
    rw [hs'] at ht1'
    obtain rfl := Option.some.inj ht1
    obtain rfl := Option.some.inj ht1'
    exact C50_slices_disjoint m b hb c c' s.1 s'.1 s.2 s'.2 hc hc' hne ht2 ht2'

example : (Blk.part (.part (.raw 2 3 8) 2 5) 1 3).Fits 26 ∧ (Blk.agg [8, 0, 4] 4).Fits 12 := by
  refine ⟨⟨⟨?_, ?_⟩, ?_⟩, ?_, ?_⟩
  · show 2 + 3 * 8 ≤ 26
    omega
  · show 2 + 5 ≤ 8
    omega
  · show 1 + 3 ≤ 5
    omega
  · decide
  · intro i j hij hj
    have hj' : j < 3 := hj
    have : (i = 0 ∧ j = 1) ∨ (i = 0 ∧ j = 2) ∨ (i = 1 ∧ j = 2) := by omega
    rcases this with ⟨rfl, rfl⟩ | ⟨rfl, rfl⟩ | ⟨rfl, rfl⟩ <;> decide

/-- A sequence of writes to a block. -/
def writes (b : Blk) : List α → List (Nat × Nat × α) → R (List α)
  | m, [] => .ok m
  | m, (c, f, v) :: ws => do
    let m' ← b.write m v c f
    writes b m' ws

/-- The last value written at a channel and a frame, if any. -/
def lastWritten (ws : List (Nat × Nat × α)) (c f : Nat) : Option α :=
  ((ws.filter fun w => w.1 == c && w.2.1 == f).getLast?).map fun w => w.2.2

/-- **C50** (histories): after any number of writes inside the block, each channel and frame reads as the last
value written there, or as before if there was none. -/
theorem C50_history (m : List α) (b : Blk) (hb : b.Fits m.length) (ws : List (Nat × Nat × α))
    (hws : ∀ w ∈ ws, w.1 < b.channels ∧ w.2.1 < b.blockSize) :
    ∃ m', writes b m ws = .ok m' ∧ ∀ c f, c < b.channels → f < b.blockSize →
      b.read m' c f = match lastWritten ws c f with
        | some v => .ok v
        | none => b.read m c f := by
  induction ws generalizing m with
  | nil => exact ⟨m, rfl, fun c f _ _ => rfl⟩
  | cons w ws ih =>
    obtain ⟨c, f, v⟩ := w
    obtain ⟨hc, hf⟩ := hws _ List.mem_cons_self
    obtain ⟨m1, h1, h2, h3, h4⟩ := C50_read_write m b hb v c f hc hf
    obtain ⟨m', h5, h6⟩ := ih m1 (by rw [h2]; exact hb) fun w hw => hws w (List.mem_cons_of_mem _ hw)
    refine ⟨m', by simp [writes, h1, h5], ?_⟩
    intro c' f' hc' hf'
    rw [h6 c' f' hc' hf']
    by_cases heq : c = c' ∧ f = f'
    · obtain ⟨rfl, rfl⟩ := heq
      cases hl : (ws.filter fun w => w.1 == c && w.2.1 == f).getLast? with
      | none =>
        have hnil := List.getLast?_eq_none_iff.1 hl
        simp [lastWritten, hnil, h3]
      | some y => simp [lastWritten, List.getLast?_cons, hl]
    · have hne : (c', f') ≠ (c, f) := by
        intro h
        simp only [Prod.mk.injEq] at h
        exact heq ⟨h.1.symm, h.2.symm⟩
      have hlast : lastWritten ((c, f, v) :: ws) c' f' = lastWritten ws c' f' := by
        unfold lastWritten
        rw [List.filter_cons_of_neg (by simpa using heq)]
      rw [hlast, h4 c' f' hc' hf' hne]

example : (writes (.part (.agg [4, 0] 4) 1 2) [0, 0, 0, 0, 0, 0, 0, 0] [(0, 1, 5), (1, 0, 6), (0, 1, 7)]) =
    .ok [0, 6, 0, 0, 0, 0, 7, 0] := by
  decide

/-- **C50** (outside of the raw blocks): `RawContiguousBlock` and `RawAggregateBlock`, the blocks the audio thread
uses, refuse every access outside (assertion), so they never touch a neighbouring buffer. -/
theorem C50_raw_refuses (m : List α) (b : Blk) (hr : (∃ p cs n, b = .raw p cs n) ∨ ∃ bufs n, b = .agg bufs n)
    (v : α) (c f : Nat) (h : ¬ (c < b.channels ∧ f < b.blockSize)) :
    b.read m c f = .error .assert ∧ b.write m v c f = .error .assert := by
  have : b.addr c f = .error .assert := by
    rcases hr with ⟨p, cs, n, rfl⟩ | ⟨bufs, n, rfl⟩
    · have h' : ¬ (c < cs ∧ f < n) := h
      by_cases hc : c < cs
      · have hf : ¬ f < n := fun hf => h' ⟨hc, hf⟩
        simp [Blk.addr, hc, hf]
      · simp [Blk.addr, hc]
    · have h' : ¬ (c < bufs.length ∧ f < n) := h
      by_cases hc : c < bufs.length
      · have hf : ¬ f < n := fun hf => h' ⟨hc, hf⟩
        simp [Blk.addr, hc, hf]
      · simp [Blk.addr, hc]
  simp [Blk.read, Blk.write, this]

/-- **C50 violated** (a frame past the block size): `VecBlock` and `StaticBlock` do not check the frame, the
write lands in the next channel; the same for a read. -/
theorem C50_vec_violated :
    (Blk.vec 2 4).write [0, 0, 0, 0, 0, 0, 0, 0] 9 0 5 = .ok [0, 0, 0, 0, 0, 9, 0, 0] ∧
    (Blk.vec 2 4).read [0, 0, 0, 0, 0, 9, 0, 0] 1 1 = .ok 9 ∧
    (Blk.static 2 4).read [0, 1, 2, 3, 4, 5, 6, 7] 0 5 = .ok 5 ∧ (Blk.vec 2 4).blockSize = 4 := by
  decide

/-- **C50 violated** (partial views do not end at their window): a write at a frame past the length of the view
changes a sample outside of the window, for every window that does not reach the end of the block. -/
theorem C50_partial_violated (m : List α) (b : Blk) (hb : b.Fits m.length) (v : α) (s l c : Nat)
    (hc : c < b.channels) (hl : s + l < b.blockSize) :
    ∃ m', (Blk.part b s l).write m v c l = .ok m' ∧ b.read m' c (s + l) = .ok v := by
  obtain ⟨m', h1, -, h2, -⟩ := C50_read_write m b hb v c (s + l) hc hl
  exact ⟨m', by rw [(C50_partial_view m b s l c l v).2.1, h1], h2⟩

end Verif.Bk
