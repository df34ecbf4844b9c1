import Verif.Lemmas.Delay

/-!
# C39: the static sample delay
-/

namespace Verif.Dl

/-! ### Specification -/

/-- All input frames of a sequence of operations. -/
def inputs : List StaticOp → List Rat
  | [] => []
  | .frame x :: ops => x :: inputs ops
  | .block xs :: ops => xs ++ inputs ops

/-- The stream `xs` delayed by `d` frames. -/
def delayedBy (d : Nat) (xs : List Rat) : List Rat := (List.replicate d 0 ++ xs).take xs.length

/-! ### The buffer as a queue -/

/-- The values that come out next, in order. -/
def Static.queue (s : Static) : List Rat := s.buf.drop s.pos ++ s.buf.take s.pos

theorem queue_length (s : Static) : s.queue.length = s.buf.length := by
  simp only [Static.queue, List.length_append, List.length_drop, List.length_take]; omega

/-- The delay line uses its whole buffer. -/
structure Full (s : Static) : Prop where
  lt : s.pos < s.buf.length
  len : s.len = s.buf.length

theorem full_frame {s : Static} (h : Full s) (x : Rat) : ∃ o s', s.read = .ok o ∧ s.write x = .ok s' ∧ Full s' ∧
    s.queue ++ [x] = o :: s'.queue ∧ s'.buf.length = s.buf.length := by
  have hL : 0 < s.buf.length := by have := h.lt; omega
  refine ⟨s.buf[s.pos]'h.lt, { s with buf := s.buf.set s.pos x, pos := (s.pos + 1) % s.buf.length }, ?_, ?_, ?_, ?_, by simp⟩
  · exact read_ok (List.getElem?_eq_getElem h.lt)
  · simp only [Static.write, write_ok h.lt, bind_ok, h.len, modC_ok hL, pure_ok]
  · exact ⟨by simpa using Nat.mod_lt _ hL, by simpa using h.len⟩
  · simp only [Static.queue]
    rw [List.drop_eq_getElem_cons h.lt]
    by_cases he : s.pos + 1 = s.buf.length
    · rw [he, Nat.mod_self]
      simp only [List.drop_zero, List.take_zero, List.append_nil, List.drop_length, List.cons_append, List.nil_append]
      congr 1
      rw [List.set_eq_take_append_cons_drop, if_pos h.lt, he, List.drop_length]
    · have hlt := h.lt
      rw [Nat.mod_eq_of_lt (by omega)]
      rw [List.drop_set_of_lt (by omega), List.take_add_one]
      simp only [List.take_set_of_le (Nat.le_refl _), List.getElem?_set_self h.lt, Option.toList_some, List.cons_append,
        List.append_assoc]

theorem full_block {s : Static} (h : Full s) (xs : List Rat) (hn : xs.length ≤ s.buf.length) : ∃ o s',
    s.readBlock xs.length = .ok o ∧ s.writeBlock xs = .ok s' ∧ Full s' ∧ s.queue ++ xs = o ++ s'.queue ∧
      s'.buf.length = s.buf.length ∧ o.length = xs.length := by
  have hlt := h.lt
  have hL : 0 < s.buf.length := by omega
  by_cases hw : s.pos + xs.length ≤ s.buf.length
  · refine ⟨(s.buf.drop s.pos).take xs.length,
      { s with buf := s.buf.take s.pos ++ xs ++ s.buf.drop (s.pos + xs.length), pos := (s.pos + xs.length) % s.buf.length },
      ?_, ?_, ?_, ?_, ?_, ?_⟩
    · simp only [Static.readBlock, if_neg (Nat.not_lt.mpr hn), if_pos hw]
    · simp only [Static.writeBlock, Static.copyBlock, if_neg (Nat.not_lt.mpr hn), if_pos hw, bind_ok, modC_ok hL, pure_ok]
    · refine ⟨?_, ?_⟩
      · simp only [List.length_append, List.length_take, List.length_drop]
        have := Nat.mod_lt (s.pos + xs.length) hL; omega
      · simp only [List.length_append, List.length_take, List.length_drop, h.len]; omega
    · simp only [Static.queue]
      by_cases he : s.pos + xs.length = s.buf.length
      · rw [he, Nat.mod_self]
        have : (s.buf.drop s.pos).take xs.length = s.buf.drop s.pos := List.take_of_length_le (by simp; omega)
        rw [this]; simp
      · rw [Nat.mod_eq_of_lt (by omega)]
        have l1 : (s.buf.take s.pos ++ xs).length = s.pos + xs.length := by simp; omega
        rw [List.drop_left' l1, List.take_left' l1]
        have e : s.buf.drop s.pos = (s.buf.drop s.pos).take xs.length ++ s.buf.drop (s.pos + xs.length) := by
          rw [← List.drop_drop, List.take_append_drop]
        conv_lhs => rw [e]
        simp only [List.append_assoc]
    · simp only [List.length_append, List.length_take, List.length_drop]; omega
    · simp only [List.length_take, List.length_drop]; omega
  · have hmod : (s.pos + xs.length) % s.buf.length = s.pos + xs.length - s.buf.length := by
      rw [Nat.mod_eq_sub_mod (by omega), Nat.mod_eq_of_lt (by omega)]
    have hk : xs.length - (s.pos + xs.length - s.buf.length) = s.buf.length - s.pos := by omega
    generalize he : s.pos + xs.length - s.buf.length = e at *
    have hm : modC (s.pos + xs.length) s.len = .ok e := by rw [h.len, modC_ok hL, hmod]
    refine ⟨s.buf.drop s.pos ++ s.buf.take e,
      { s with buf := xs.drop (s.buf.length - s.pos) ++ (s.buf.take s.pos ++ xs.take (s.buf.length - s.pos)).drop e, pos := e },
      ?_, ?_, ?_, ?_, ?_, ?_⟩
    · simp only [Static.readBlock, if_neg (Nat.not_lt.mpr hn), if_neg hw, hm, bind_ok, subC_ok (show e ≤ xs.length by omega), hk,
        if_neg (show ¬ s.buf.length < s.pos by omega), ne_eq, not_true_eq_false, if_false,
        if_neg (show ¬ s.buf.length < e by omega), pure_ok]
    · simp only [Static.writeBlock, Static.copyBlock, if_neg (Nat.not_lt.mpr hn), if_neg hw, hm, bind_ok,
        subC_ok (show e ≤ xs.length by omega), hk, if_neg (show ¬ s.buf.length < s.pos by omega), ne_eq, not_true_eq_false,
        if_false, if_neg (show ¬ s.buf.length < e by omega), pure_ok, modC_ok hL, hmod]
    · refine ⟨?_, ?_⟩ <;>
        simp only [List.length_append, List.length_take, List.length_drop, h.len] <;> omega
    · simp only [Static.queue]
      have l1 : (xs.drop (s.buf.length - s.pos)).length = e := by simp; omega
      rw [List.drop_left' l1, List.take_left' l1]
      have hd : (s.buf.take s.pos ++ xs.take (s.buf.length - s.pos)).drop e =
          (s.buf.take s.pos).drop e ++ xs.take (s.buf.length - s.pos) := by
        rw [List.drop_append_of_le_length (by simp; omega)]
      rw [hd]
      have e2 : s.buf.take s.pos = s.buf.take e ++ (s.buf.take s.pos).drop e := by
        have := (List.take_append_drop e (s.buf.take s.pos)).symm
        rwa [List.take_take, Nat.min_eq_left (by omega)] at this
      conv_lhs => rw [e2]
      have e3 : xs = xs.take (s.buf.length - s.pos) ++ xs.drop (s.buf.length - s.pos) := (List.take_append_drop _ _).symm
      conv_lhs => rw [e3]
      simp only [List.append_assoc]
    · simp only [List.length_append, List.length_take, List.length_drop]; omega
    · simp only [List.length_append, List.length_take, List.length_drop]; omega

theorem full_frames (xs : List Rat) : ∀ {s : Static}, Full s → ∃ o s', s.frames xs = .ok (s', o) ∧ Full s' ∧
    s.queue ++ xs = o ++ s'.queue ∧ s'.buf.length = s.buf.length ∧ o.length = xs.length := by
  induction xs with
  | nil => intro s h; exact ⟨[], s, rfl, h, by simp, rfl, rfl⟩
  | cons x xs ih =>
    intro s h
    obtain ⟨o, s', hr, hw, h', hq, hl⟩ := full_frame h x
    obtain ⟨os, s'', e, h'', hq', hl', hlo⟩ := ih h'
    refine ⟨o :: os, s'', by simp only [Static.frames, hr, bind_ok, hw, e, pure_ok], h'', ?_, by omega, by simp [hlo]⟩
    have : s.queue ++ x :: xs = (s.queue ++ [x]) ++ xs := by simp
    rw [this, hq, List.cons_append, hq', List.cons_append]

theorem full_op {s : Static} (h : Full s) (op : StaticOp) : ∃ o s', s.op op = .ok (s', o) ∧ Full s' ∧
    s.queue ++ inputs [op] = o ++ s'.queue ∧ s'.buf.length = s.buf.length ∧ o.length = (inputs [op]).length := by
  cases op with
  | frame x =>
    obtain ⟨o, s', hr, hw, h', hq, hl⟩ := full_frame h x
    exact ⟨[o], s', by simp only [Static.op, hr, bind_ok, hw, pure_ok], h', by simpa [inputs] using hq, hl, rfl⟩
  | block xs =>
    simp only [Static.op, Static.process, inputs, List.append_nil]
    by_cases hn : xs.length < s.buf.length
    · obtain ⟨o, s', hr, hw, h', hq, hl, hlo⟩ := full_block h xs (by omega)
      exact ⟨o, s', by simp only [if_pos hn, hr, bind_ok, hw, pure_ok], h', hq, hl, hlo⟩
    · obtain ⟨o, s', e, h', hq, hl, hlo⟩ := full_frames xs h
      exact ⟨o, s', by rw [if_neg hn, e], h', hq, hl, hlo⟩

theorem full_run (ops : List StaticOp) : ∀ {s : Static}, Full s → ∃ o s', s.run ops = .ok (s', o) ∧ Full s' ∧
    s.queue ++ inputs ops = o ++ s'.queue ∧ s'.buf.length = s.buf.length ∧ o.length = (inputs ops).length := by
  induction ops with
  | nil => intro s h; exact ⟨[], s, rfl, h, by simp [inputs], rfl, rfl⟩
  | cons op ops ih =>
    intro s h
    obtain ⟨o, s', e, h', hq, hl, hlo⟩ := full_op h op
    obtain ⟨os, s'', e', h'', hq', hl', hlo'⟩ := ih h'
    have hi : inputs (op :: ops) = inputs [op] ++ inputs ops := by cases op <;> simp [inputs]
    refine ⟨o ++ os, s'', by simp only [Static.run, e, bind_ok, e', pure_ok], h'', ?_, by omega, ?_⟩
    · rw [hi, ← List.append_assoc, hq, List.append_assoc, hq', List.append_assoc]
    · rw [hi, List.length_append, List.length_append, hlo, hlo']

/-! ### Properties -/

/-- C39, for a delay line that keeps its length: for every mixture of single frames and blocks of any sizes the output is
exactly the input delayed by the length, without a crash.

Missing: changes of the delay length; see `C39_length_partial` and the violations below. -/
theorem C39_mixed_partial (n : Nat) (hn : 0 < n) (ops : List StaticOp) :
    ∃ s s', Static.new n = .ok s ∧ s.run ops = .ok (s', delayedBy n (inputs ops)) := by
  refine ⟨⟨List.replicate n 0, 0, n⟩, ?_⟩
  have hf : Full ⟨List.replicate n 0, 0, n⟩ := ⟨by simpa using hn, by simp⟩
  obtain ⟨o, s', e, _, hq, _, hlo⟩ := full_run ops hf
  refine ⟨s', by simp [Static.new, Nat.pos_iff_ne_zero.mp hn], ?_⟩
  rw [e]
  have : delayedBy n (inputs ops) = o := by
    have hq0 : (⟨List.replicate n 0, 0, n⟩ : Static).queue = List.replicate n 0 := by simp [Static.queue]
    rw [hq0] at hq
    rw [delayedBy, hq, List.take_left' hlo]
  rw [this]

/-- A concrete case: length three, blocks of two, one, four and two frames and a single frame. -/
example : ∃ s, Static.new 3 = .ok s ∧ (s.run [.block [1, 2], .frame 3, .block [4, 5, 6, 7], .block [8, 9]]).map (·.2) =
    .ok [0, 0, 0, 1, 2, 3, 4, 5, 6] := ⟨⟨[0, 0, 0], 0, 3⟩, by decide +kernel⟩

/-- The delay line uses the first `len` frames of its buffer. -/
structure Cyc (s : Static) : Prop where
  lt : s.pos < s.len
  le : s.len ≤ s.buf.length

/-- The frames in use as a delay line of their own. -/
def Static.front (s : Static) : Static := { s with buf := s.buf.take s.len }

theorem front_full {s : Static} (h : Cyc s) : Full s.front := by
  have h1 := h.lt; have h2 := h.le
  exact ⟨by simp [Static.front]; omega, by simp [Static.front]; omega⟩

theorem front_write {s s' : Static} (h : Cyc s) (x : Rat) (hw : s.write x = .ok s') : Cyc s' ∧ s'.len = s.len ∧
    s.front.write x = .ok s'.front ∧ s.front.read = s.read := by
  have h1 := h.lt; have h2 := h.le
  have hp : 0 < s.len := by omega
  simp only [Static.write, write_ok (show s.pos < s.buf.length by omega), bind_ok, modC_ok hp, pure_ok, Except.ok.injEq] at hw
  subst hw
  refine ⟨⟨Nat.mod_lt _ hp, by simpa using h2⟩, rfl, ?_, ?_⟩
  · simp only [Static.write, Static.front, write_ok (show s.pos < (s.buf.take s.len).length by simp; omega), bind_ok,
      modC_ok hp, pure_ok, List.take_set]
  · simp only [Static.read, Static.front, Dl.read]
    rw [List.getElem?_take_of_lt h1]

theorem cyc_frames (xs : List Rat) : ∀ {s : Static}, Cyc s → ∃ o s', s.frames xs = .ok (s', o) ∧ s.front.frames xs = .ok (s'.front, o)
    ∧ Cyc s' ∧ s'.len = s.len := by
  induction xs with
  | nil => intro s h; exact ⟨[], s, rfl, rfl, h, rfl⟩
  | cons x xs ih =>
    intro s h
    have h1 := h.lt; have h2 := h.le
    obtain ⟨s', hw⟩ : ∃ s', s.write x = .ok s' := ⟨⟨s.buf.set s.pos x, (s.pos + 1) % s.len, s.len⟩, by
      simp only [Static.write, write_ok (show s.pos < s.buf.length by omega), bind_ok, modC_ok (show 0 < s.len by omega), pure_ok]⟩
    obtain ⟨hc, hl, hfw, hfr⟩ := front_write h x hw
    have hr : s.read = .ok (s.buf[s.pos]'(by omega)) := read_ok (List.getElem?_eq_getElem _)
    obtain ⟨o, s'', e, ef, hc', hl'⟩ := ih hc
    refine ⟨s.buf[s.pos]'(by omega) :: o, s'', by simp only [Static.frames, hr, bind_ok, hw, e, pure_ok], ?_, hc', by omega⟩
    simp only [Static.frames, hfr, hr, bind_ok, hfw, ef, pure_ok]

/-- After the position has come into the frames in use, `d` frames later the output is the input delayed by `d`. -/
theorem cyc_delay {s : Static} (h : Cyc s) (xs : List Rat) : ∃ o s', s.frames xs = .ok (s', o) ∧ o.length = xs.length ∧
    ∀ k, s.len ≤ k → k < xs.length → o[k]? = xs[k - s.len]? := by
  obtain ⟨o, s', e, ef, _, _⟩ := cyc_frames xs h
  obtain ⟨o', s'', ef', _, hq, _, hlo⟩ := full_frames xs (front_full h)
  rw [ef] at ef'
  simp only [Except.ok.injEq, Prod.mk.injEq] at ef'
  obtain ⟨_, rfl⟩ := ef'
  refine ⟨o, s', e, hlo, fun k hk hx => ?_⟩
  have hl : s.front.queue.length = s.len := by
    have := h.le
    rw [queue_length]; simp [Static.front]; omega
  have : (s.front.queue ++ xs)[k]? = (o ++ s''.queue)[k]? := by rw [hq]
  rw [List.getElem?_append_right (by omega), hl, List.getElem?_append_left (by omega)] at this
  exact this.symm

/-- C39, for changes of the length followed by single frames: whatever was done with the delay line before, once it has been
refilled after its length has been set to `d ≥ 1` (at most the length of the buffer), each frame put out is the input `d` frames
ago.

Missing: blocks after a change to a shorter length (`C39_block_violated`, `C39_block_crash_violated`), the length zero
(`C39_zero_violated`) and lengths given by a fraction (`C39_fraction_violated`, `C39_fraction_zero_violated`). -/
theorem C39_length_partial (n : Nat) (ops : List StaticOp) (s₀ s : Static) (o₀ : List Rat) (h₀ : Static.new n = .ok s₀)
    (hs : s₀.run ops = .ok (s, o₀)) (d : Nat) (hd : 0 < d) (xs : List Rat) :
    ∃ o s', (s.setLength d).frames xs = .ok (s', o) ∧ o.length = xs.length ∧
      ∀ k, min d n + 1 ≤ k → k < xs.length → o[k]? = xs[k - min d n]? := by
  have hn : 0 < n := by
    rcases Nat.eq_zero_or_pos n with rfl | h
    · simp [Static.new] at h₀
    · exact h
  have h0 : s₀ = ⟨List.replicate n 0, 0, n⟩ := by
    simp only [Static.new, if_neg (Nat.pos_iff_ne_zero.mp hn), Except.ok.injEq] at h₀; exact h₀.symm
  subst h0
  have hf : Full ⟨List.replicate n 0, 0, n⟩ := ⟨by simpa using hn, by simp⟩
  obtain ⟨o', s', e, hf', _, hl, _⟩ := full_run ops hf
  rw [hs] at e
  simp only [Except.ok.injEq, Prod.mk.injEq] at e
  obtain ⟨rfl, _⟩ := e
  simp only [List.length_replicate] at hl
  have hlt := hf'.lt
  have hpos : 0 < (s.setLength d).len := by simp [Static.setLength]; omega
  have hlen : (s.setLength d).len = min d n := by simp [Static.setLength, hl]
  by_cases hc : s.pos < min d n
  · have : Cyc (s.setLength d) := ⟨by rw [hlen]; exact hc, by simp [Static.setLength]⟩
    obtain ⟨o, s'', e, hlo, hk⟩ := cyc_delay this xs
    rw [hlen] at hk
    exact ⟨o, s'', e, hlo, fun k h1 h2 => hk k (by omega) h2⟩
  · cases xs with
    | nil => exact ⟨[], _, rfl, rfl, fun k _ h => absurd h (by simp)⟩
    | cons x xs =>
      have hw : (s.setLength d).write x = .ok ⟨s.buf.set s.pos x, (s.pos + 1) % (s.setLength d).len, (s.setLength d).len⟩ := by
        simp only [Static.write, Static.setLength, write_ok hlt, bind_ok]
        rw [modC_ok (by simpa [Static.setLength] using hpos)]; rfl
      have hr : (s.setLength d).read = .ok (s.buf[s.pos]'hlt) := read_ok (List.getElem?_eq_getElem _)
      have hcy : Cyc ⟨s.buf.set s.pos x, (s.pos + 1) % (s.setLength d).len, (s.setLength d).len⟩ :=
        ⟨Nat.mod_lt _ hpos, by simp [Static.setLength]⟩
      obtain ⟨o, s'', e, hlo, hk⟩ := cyc_delay hcy xs
      refine ⟨s.buf[s.pos]'hlt :: o, s'', by simp only [Static.frames, hr, bind_ok, hw, e, pure_ok], by simp [hlo], fun k h1 h2 => ?_⟩
      obtain ⟨k, rfl⟩ : ∃ j, k = j + 1 := ⟨k - 1, by omega⟩
      simp only [List.length_cons] at h2
      have := hk k (by simp only [hlen]; omega) (by omega)
      simp only [hlen] at this
      rw [List.getElem?_cons_succ, this]
      have hp : 0 < min d n := by omega
      rw [show k + 1 - min d n = (k - min d n) + 1 by omega, List.getElem?_cons_succ]

/-- A concrete case: three frames into a delay line of four frames it is shortened to two frames. -/
example : ∃ s₀ s, Static.new 4 = .ok s₀ ∧ (s₀.run [.block [1, 2, 3]]).map (·.1) = .ok s ∧
    ((s.setLength 2).frames [4, 5, 6, 7, 8]).map (·.2) = .ok [0, 1, 2, 5, 6] :=
  ⟨⟨[0, 0, 0, 0], 0, 4⟩, ⟨[1, 2, 3, 0], 3, 4⟩, by decide +kernel⟩

/-- Reading between two frames interpolates linearly between neighbours, for every position from zero on; positions past the
end wrap around, and it does not crash. -/
theorem C39_lin (s : Static) (hb : s.buf ≠ []) (k : Nat) (f : Rat) (h0 : 0 ≤ f) (h1 : f < 1) :
    s.readAtLin (k + f) = .ok (s.buf.getD (k % s.buf.length) 0 +
      (s.buf.getD ((k + 1) % s.buf.length) 0 - s.buf.getD (k % s.buf.length) 0) * f) := by
  have hL : 0 < s.buf.length := List.length_pos_iff.mpr hb
  have hfl : ⌊(k : Rat) + f⌋ = k := by
    rw [Int.floor_eq_iff]
    refine ⟨?_, ?_⟩
    · push_cast; linarith
    · push_cast; linarith
  have hlow : k % s.buf.length < s.buf.length := Nat.mod_lt _ hL
  have hread : ∀ i, i < s.buf.length → Dl.read s.buf i = .ok (s.buf.getD i 0) := by
    intro i hi
    rw [read_ok (List.getElem?_eq_getElem hi)]; simp [hi]
  have hle : k % s.buf.length ≤ k := Nat.mod_le _ _
  simp only [Static.readAtLin, hfl, if_neg (show ¬ ((k : Int) < 0) by omega), Int.toNat_natCast]
  have hfr : (k : Rat) + f - ((k : Int) : Rat) = f := by push_cast; ring
  rw [hfr]
  by_cases hf : f = 0
  · subst hf
    have hc : ⌈(k : Rat) + 0⌉ = k := by rw [add_zero]; exact_mod_cast Int.ceil_natCast k
    rw [hc, Int.toNat_natCast, show k - (k - k % s.buf.length) = k % s.buf.length by omega, if_neg (by omega),
      hread _ hlow]
    simp
  · have hc : ⌈(k : Rat) + f⌉ = k + 1 := by
      rw [Int.ceil_eq_iff]
      have : 0 < f := lt_of_le_of_ne h0 (Ne.symm hf)
      refine ⟨?_, ?_⟩
      · push_cast; linarith
      · push_cast; linarith
    have hcn : ⌈(k : Rat) + f⌉.toNat = k + 1 := by rw [hc]; omega
    rw [hcn, show k + 1 - (k - k % s.buf.length) = k % s.buf.length + 1 by omega]
    have hh : (if s.buf.length ≤ k % s.buf.length + 1 then k % s.buf.length + 1 - s.buf.length else k % s.buf.length + 1) =
        (k + 1) % s.buf.length := by
      by_cases hone : s.buf.length = 1
      · simp [hone, Nat.mod_one]
      · rw [Nat.add_mod k 1, Nat.mod_eq_of_lt (show 1 < s.buf.length by omega)]
        by_cases he : s.buf.length ≤ k % s.buf.length + 1
        · rw [if_pos he, show k % s.buf.length + 1 = s.buf.length by omega]; simp
        · rw [if_neg he, Nat.mod_eq_of_lt (show k % s.buf.length + 1 < s.buf.length by omega)]
    rw [hh, hread _ hlow, hread _ (Nat.mod_lt _ hL)]
    simp only [bind_ok, pure_ok]

example : (⟨[1, 3, 5], 0, 3⟩ : Static).readAtLin (5 + 1 / 4) = .ok 4 := by decide +kernel

/-! ### Violations -/

/-- C39 is false for blocks after the delay has been shortened: they still go through the whole buffer. -/
theorem C39_block_violated : ∃ (s : Static) (xs o : List Rat), Static.new 4 = .ok s ∧ xs.length = 8 ∧
    ((s.setLength 2).run [.block (xs.take 2), .block ((xs.drop 2).take 2), .block ((xs.drop 4).take 2), .block (xs.drop 6)]).map (·.2) =
      .ok o ∧ o[7]? ≠ xs[7 - 2]? ∧ o[7]? = xs[7 - 4]? := by
  exact ⟨⟨[0, 0, 0, 0], 0, 4⟩, [1, 2, 3, 4, 5, 6, 7, 8], [0, 0, 0, 0, 1, 2, 3, 4], by decide +kernel⟩

/-- They can also crash, when a block goes past the end of the buffer. -/
theorem C39_block_crash_violated : ∃ s, Static.new 5 = .ok s ∧
    (s.setLength 3).run [.block [1, 2, 3], .block [4, 5, 6]] = .error .assert := by
  exact ⟨⟨[0, 0, 0, 0, 0], 0, 5⟩, by decide +kernel⟩

/-- The length zero is accepted and the next frame crashes. -/
theorem C39_zero_violated : ∃ s, Static.new 4 = .ok s ∧ (s.setLength 0).frames [1] = .error .divByZero := by
  exact ⟨⟨[0, 0, 0, 0], 0, 4⟩, by decide +kernel⟩

/-- A fraction above one is accepted and the delay line runs out of its buffer. -/
theorem C39_fraction_violated : ∃ s s', Static.new 2 = .ok s ∧ s.setFraction 2 = .ok s' ∧
    s'.frames [1, 2, 3] = .error .index := by
  exact ⟨⟨[0, 0], 0, 2⟩, ⟨[0, 0], 0, 4⟩, by decide +kernel⟩

/-- A fraction below one over the length is accepted and gives the length zero. -/
theorem C39_fraction_zero_violated : ∃ s s', Static.new 2 = .ok s ∧ s.setFraction (1 / 4) = .ok s' ∧
    s'.frames [1] = .error .divByZero := by
  exact ⟨⟨[0, 0], 0, 2⟩, ⟨[0, 0], 0, 0⟩, by decide +kernel⟩

end Verif.Dl
