import Verif.Props.Delay

/-!
# C40: the allpass-interpolated delays
-/

namespace Verif.Dl

/-! ### Specification -/

/-- The input frames of a sequence of operations, in order. -/
def frameInputs : List Op → List Rat
  | [] => []
  | .time _ :: ops => frameInputs ops
  | .frame x :: ops => x :: frameInputs ops

/-- No delay time that is set is negative. -/
def NonNeg (ops : List Op) : Prop := ∀ t, Op.time t ∈ ops → 0 ≤ t

/-- The first-order allpass filter `y k = c * (r k - y (k - 1)) + r (k - 1)` started with `r (-1) = px` and `y (-1) = py`. -/
def allpass (c : Rat) : Rat → Rat → List Rat → List Rat
  | _, _, [] => []
  | px, py, r :: rs => (c * (r - py) + px) :: allpass c r (c * (r - py) + px) rs

/-! ### The delay as a pure delay followed by the filter -/

/-- The buffer holds the inputs `h` and the read position is `m` frames behind. -/
structure Inv (s : Allpass) (h : List Rat) (m : Nat) : Prop where
  holds : Holds s.buf s.wf h
  pos : 0 < m
  le : m ≤ s.buf.length
  rf : s.rf = (s.wf + s.buf.length - m) % s.buf.length
  clear : s.clearLeft = 0

theorem ahead {L wf m : Nat} (hw : wf < L) (h0 : 0 < m) (hm : m ≤ L) :
    ((wf + L - m) % L + 1) % L = ((wf + 1) % L + L - m) % L := by
  rw [back_succ hw h0 hm]
  by_cases h : m ≤ wf
  · rw [show wf + L - m = (wf - m) + L by omega, Nat.add_mod_right, Nat.mod_eq_of_lt (show wf - m < L by omega),
      show wf + L - (m - 1) = (wf - m + 1) + L by omega, Nat.add_mod_right]
  · rw [Nat.mod_eq_of_lt (show wf + L - m < L by omega)]
    congr 1; omega

theorem read_inv {s : Allpass} {h : List Rat} {m : Nat} (I : Inv s h m) : s.read =
    .ok ({ s with ap := (s.ap.process (h.getD (m - 1) 0)).1, rf := (s.rf + 1) % s.buf.length },
      (s.ap.process (h.getD (m - 1) 0)).2) := by
  have hL : 0 < s.buf.length := by have := I.holds.lt; omega
  have hr : Dl.read s.buf s.rf = .ok (h.getD (m - 1) 0) := by
    rw [I.rf]; exact read_ok (I.holds.get m I.pos I.le)
  simp only [Allpass.read, I.clear, Nat.lt_irrefl, if_false, hr, bind_ok, modC_ok hL, pure_ok]

theorem write_inv {s : Allpass} {h : List Rat} {m : Nat} (I : Inv s h m) (ap : Interp) (x : Rat) :
    ∃ s', Allpass.write { s with ap := ap, rf := (s.rf + 1) % s.buf.length } x = .ok s' ∧ Inv s' (x :: h) m ∧ s'.ap = ap ∧
      s'.buf.length = s.buf.length := by
  have hlt := I.holds.lt
  have hL : 0 < s.buf.length := by omega
  refine ⟨_, by simp only [Allpass.write, write_ok hlt, bind_ok, List.length_set, modC_ok hL, pure_ok]; rfl, ?_, rfl, by simp⟩
  refine ⟨holds_write I.holds x, I.pos, by simpa using I.le, ?_, I.clear⟩
  simp only [List.length_set, I.rf]
  exact ahead hlt I.pos I.le

theorem process_inv {s : Allpass} {h : List Rat} {m : Nat} (I : Inv s h m) (x : Rat) :
    ∃ s', s.process x = .ok (s', (s.ap.process (h.getD (m - 1) 0)).2) ∧ Inv s' (x :: h) m ∧
      s'.ap = (s.ap.process (h.getD (m - 1) 0)).1 ∧ s'.buf.length = s.buf.length := by
  obtain ⟨s', e, I', ha, hl⟩ := write_inv I (s.ap.process (h.getD (m - 1) 0)).1 x
  exact ⟨s', by simp only [Allpass.process, read_inv I, bind_ok, e, pure_ok], I', ha, hl⟩

theorem init_inv {maxDelay : Rat} {sr : Nat} (h : 1 ≤ maxDelay * sr) :
    Inv (Allpass.init maxDelay sr) [] ⌊maxDelay * sr⌋.toNat ∧ (Allpass.init maxDelay sr).buf.length = ⌊maxDelay * sr⌋.toNat := by
  have h0 : 0 < ⌊maxDelay * sr⌋.toNat := by
    have : (1 : Int) ≤ ⌊maxDelay * sr⌋ := Int.le_floor.mpr (by exact_mod_cast h)
    omega
  refine ⟨⟨holds_init h0, h0, by simp [Allpass.init, asUsize], ?_, rfl⟩, by simp [Allpass.init, asUsize]⟩
  simp [Allpass.init, asUsize]

theorem readPos_inv {s : Allpass} {h : List Rat} {m : Nat} (I : Inv s h m) {num : Nat} (hn : num ≤ s.buf.length) :
    s.readPos num = .ok ((s.wf + s.buf.length - (if num = 0 then s.buf.length else num)) % s.buf.length) := by
  have hlt := I.holds.lt
  unfold Allpass.readPos
  by_cases h1 : num ≤ s.wf
  · rw [if_pos h1]
    congr 1
    by_cases h0 : num = 0
    · rw [if_pos h0, Nat.add_sub_cancel, Nat.mod_eq_of_lt hlt]; omega
    · rw [if_neg h0, show s.wf + s.buf.length - num = (s.wf - num) + s.buf.length by omega, Nat.add_mod_right,
        Nat.mod_eq_of_lt (by omega)]
  · rw [if_neg h1, subC_ok hn, if_neg (by omega)]
    simp only [bind_ok, pure_ok]
    rw [Nat.mod_eq_of_lt (by omega)]; congr 1; omega

theorem setFrames_inv {s : Allpass} {h : List Rat} {m : Nat} (I : Inv s h m) {n : Rat} {num : Nat} {delta : Rat}
    (hs : splitFrames n = .ok (num, delta)) (hn : num ≤ s.buf.length) :
    ∃ s', s.setFrames n = .ok s' ∧ Inv s' h (if num = 0 then s.buf.length else num) ∧
      s'.ap = s.ap.setDelta delta ∧ s'.buf = s.buf := by
  have hlt := I.holds.lt
  refine ⟨⟨s.buf, s.wf, (s.wf + s.buf.length - (if num = 0 then s.buf.length else num)) % s.buf.length, num, s.clearLeft,
    s.ap.setDelta delta⟩, by simp only [Allpass.setFrames, hs, bind_ok, readPos_inv I hn, pure_ok], ?_, rfl, rfl⟩
  exact ⟨I.holds, by split <;> omega, by show _ ≤ s.buf.length; split <;> omega, rfl, I.clear⟩

/-- What `set_delay_in_frames` makes of a delay that is not negative. -/
theorem split_ok {n : Rat} (h : 0 ≤ n) : ∃ num delta, splitFrames n = .ok (num, delta) ∧ (num : Rat) + delta = n ∧ 0 ≤ delta ∧
    num ≤ ⌊n⌋.toNat ∧ (1 / 2 < n → 1 / 2 ≤ delta ∧ delta < 3 / 2) := by
  have h2 : 0 ≤ ⌊n⌋ := Int.floor_nonneg.mpr h
  have hle : (⌊n⌋ : Rat) ≤ n := Int.floor_le n
  have hlt : n < ⌊n⌋ + 1 := Int.lt_floor_add_one n
  have hc : ((⌊n⌋.toNat : Nat) : Rat) = ⌊n⌋ := by
    rw [← Int.cast_natCast, Int.toNat_of_nonneg h2]
  unfold splitFrames
  rw [if_neg (by omega)]
  by_cases hb : 1 / 2 < n ∧ n - ⌊n⌋ < 1 / 2
  · have hf : 1 ≤ ⌊n⌋.toNat := by
      rcases Nat.eq_zero_or_pos ⌊n⌋.toNat with h0 | h0
      · exfalso
        have : (⌊n⌋ : Rat) = 0 := by rw [← hc, h0]; simp
        have h3 := hb.2; have h4 := hb.1; rw [this] at h3; linarith
      · exact h0
    refine ⟨⌊n⌋.toNat - 1, n - ⌊n⌋ + 1, ?_, ?_, by linarith, by omega, fun _ => ⟨by linarith, by linarith [hb.2]⟩⟩
    · simp only [if_pos hb, subC_ok hf, bind_ok, pure_ok]
    · rw [Nat.cast_sub hf, hc]; push_cast; ring
  · refine ⟨⌊n⌋.toNat, n - ⌊n⌋, by simp only [if_neg hb], by rw [hc]; ring, by linarith, le_refl _, fun h' => ⟨?_, by linarith⟩⟩
    by_contra hcon
    exact hb ⟨h', by linarith⟩

/-- A whole number of frames, at least one, is split into one frame less and the fraction one. -/
theorem split_whole {k : Nat} : splitFrames ((k + 1 : Nat) : Rat) = .ok (k, 1) := by
  have hf : ⌊((k + 1 : Nat) : Rat)⌋ = (k + 1 : Nat) := Int.floor_natCast _
  unfold splitFrames
  rw [if_neg (by rw [hf]; omega)]
  have hpos : (0 : Rat) ≤ k := Nat.cast_nonneg k
  have hb : 1 / 2 < ((k + 1 : Nat) : Rat) ∧ ((k + 1 : Nat) : Rat) - ⌊((k + 1 : Nat) : Rat)⌋ < 1 / 2 := by
    rw [hf]; push_cast; constructor
    · linarith
    · norm_num
  simp only [if_pos hb]
  rw [hf, Int.toNat_natCast, subC_ok (by omega)]
  simp

/-! ### Properties -/

theorem op_ok {s : Allpass} {h : List Rat} {m : Nat} (I : Inv s h m) (sr : Nat) (t : Rat) (ht : 0 ≤ t) :
    ∃ s' m', s.delayTime sr t = .ok s' ∧ Inv s' h m' ∧ s'.buf.length = s.buf.length := by
  unfold Allpass.delayTime
  by_cases hc : asUsize (t * sr) < s.buf.length
  · rw [if_pos hc]
    obtain ⟨num, delta, hs, _, _, hle, _⟩ := split_ok (mul_nonneg ht (Nat.cast_nonneg sr) : 0 ≤ t * sr)
    obtain ⟨s', e, I', _, hb⟩ := setFrames_inv I hs (by simp only [asUsize] at hc; omega)
    exact ⟨s', _, e, I', by rw [hb]⟩
  · rw [if_neg hc]; exact ⟨s, m, rfl, I, rfl⟩

theorem run_inv (sr : Nat) (ops : List Op) : ∀ {s : Allpass} {h : List Rat} {m : Nat}, Inv s h m → NonNeg ops →
    ∃ s' o m', s.run sr ops = .ok (s', o) ∧ Inv s' ((frameInputs ops).reverse ++ h) m' ∧ o.length = (frameInputs ops).length ∧
      s'.buf.length = s.buf.length := by
  induction ops with
  | nil => intro s h m I _; exact ⟨s, [], m, rfl, by simpa [frameInputs] using I, rfl, rfl⟩
  | cons op ops ih =>
    intro s h m I hn
    have hn' : NonNeg ops := fun t h' => hn t (List.mem_cons_of_mem _ h')
    cases op with
    | time t =>
      obtain ⟨s', m', e, I', hl⟩ := op_ok I sr t (hn t (by simp))
      obtain ⟨s'', o, m'', e', I'', ho, hl'⟩ := ih I' hn'
      exact ⟨s'', o, m'', by simp only [Allpass.run, e, bind_ok, e'], I'', ho, by omega⟩
    | frame x =>
      obtain ⟨s', e, I', _, hl⟩ := process_inv I x
      obtain ⟨s'', o, m'', e', I'', ho, hl'⟩ := ih I' hn'
      refine ⟨s'', (s.ap.process (h.getD (m - 1) 0)).2 :: o, m'', by simp only [Allpass.run, e, bind_ok, e', pure_ok], ?_, by simp [frameInputs, ho], by omega⟩
      simpa [frameInputs] using I''

/-- C40, no crash: with a buffer of at least one frame and delay times that are not negative, an allpass delay never crashes
and never reads or writes outside its buffer, whatever the inputs and however often the delay time changes.

Missing: negative delay times (`C40_negative_violated`) and an empty buffer (`C40_empty_violated`), for which it is false. -/
theorem C40_safe_partial (maxDelay : Rat) (sr : Nat) (ops : List Op) (hL : 1 ≤ maxDelay * sr) (hn : NonNeg ops) :
    ∃ s' o, (Allpass.init maxDelay sr).run sr ops = .ok (s', o) ∧ o.length = (frameInputs ops).length := by
  obtain ⟨s', o, _, e, _, hl, _⟩ := run_inv sr ops (init_inv hL).1 hn
  exact ⟨s', o, e, hl⟩

theorem run_time {s s' : Allpass} {sr : Nat} {t : Rat} (h : s.delayTime sr t = .ok s') (ops : List Op) :
    s.run sr (.time t :: ops) = s'.run sr ops := by simp only [Allpass.run, h, bind_ok]

/-- Frames without a change of the delay: the input some frames ago goes through the allpass filter. -/
theorem frames_out (sr : Nat) (xs : List Rat) : ∀ {s : Allpass} {h : List Rat} {m : Nat}, Inv s h m →
    ∃ s', s.run sr (xs.map .frame) =
      .ok (s', allpass s.ap.coeff s.ap.prevIn s.ap.prevOut (delayed sr m h (xs.map .frame))) := by
  induction xs with
  | nil => intro s h m _; exact ⟨s, rfl⟩
  | cons x xs ih =>
    intro s h m I
    obtain ⟨s', e, I', ha, _⟩ := process_inv I x
    obtain ⟨s'', e'⟩ := ih I'
    refine ⟨s'', ?_⟩
    have hm : (x :: h).getD m 0 = h.getD (m - 1) 0 := by
      obtain ⟨k, rfl⟩ : ∃ k, m = k + 1 := ⟨m - 1, by have := I.pos; omega⟩
      simp
    simp only [List.map_cons, Allpass.run, e, bind_ok, e', ha, Interp.process, pure_ok, delayed, allpass, hm]

theorem allpass_zero (rs : List Rat) : ∀ (px py : Rat), allpass 0 px py rs = (px :: rs).take rs.length := by
  induction rs with
  | nil => intro px py; rfl
  | cons r rs ih => intro px py; simp [allpass, ih]

/-- C40, for a delay of a whole number `n` of frames, at least two: whatever happened before, from the second frame after the
delay has been set on the output is exactly the input `n` frames ago (zero before the first frame).

Missing: the first frame after the change, which still comes from the filter and is one for a new delay line
(`C40_first_violated`), and the delays of one frame and of zero frames (`C40_one_violated`, `C40_zero_violated`). -/
theorem C40_whole_partial (maxDelay : Rat) (sr : Nat) (ops : List Op) (n : Nat) (t : Rat) (xs : List Rat)
    (hL : 1 ≤ maxDelay * sr) (hn : NonNeg ops) (ht : t * sr = n) (h2 : 2 ≤ n) (hlt : n < ⌊maxDelay * sr⌋.toNat)
    (s : Allpass) (o₀ : List Rat) (hs : (Allpass.init maxDelay sr).run sr ops = .ok (s, o₀)) :
    ∃ s' o, s.run sr (.time t :: xs.map .frame) = .ok (s', o) ∧ o.length = xs.length ∧
      ∀ j, 1 ≤ j → j < xs.length → o[j]? = some (if n ≤ (frameInputs ops).length + j then
        (frameInputs ops ++ xs).getD ((frameInputs ops).length + j - n) 0 else 0) := by
  obtain ⟨I₀, hl₀⟩ := init_inv hL
  obtain ⟨s₁, o₁, m₁, e₁, I₁, _, hl₁⟩ := run_inv sr ops I₀ hn
  rw [hs] at e₁
  simp only [Except.ok.injEq, Prod.mk.injEq] at e₁
  obtain ⟨rfl, rfl⟩ := e₁
  obtain ⟨k, rfl⟩ : ∃ k, n = k + 1 := ⟨n - 1, by omega⟩
  obtain ⟨s₂, e₂, I₂, ha, hb⟩ := setFrames_inv I₁ (n := t * sr) (by rw [ht]; exact split_whole) (by omega)
  rw [if_neg (by omega), List.append_nil] at I₂
  have hc : s₂.ap.coeff = 0 := by rw [ha]; simp [Interp.setDelta]
  obtain ⟨s', e⟩ := frames_out sr xs I₂
  have hd : s.delayTime sr t = .ok s₂ := by
    rw [Allpass.delayTime, if_pos ?_, e₂]
    rw [ht, asUsize, Int.floor_natCast, Int.toNat_natCast]; omega
  obtain ⟨hdl, hdg⟩ := delayed_get sr k xs (frameInputs ops).reverse
  refine ⟨s', _, (run_time hd _).trans e, ?_, ?_⟩
  · rw [hc, allpass_zero, List.length_take, List.length_cons, hdl]; omega
  · intro j h1 hj
    obtain ⟨i, rfl⟩ : ∃ i, j = i + 1 := ⟨j - 1, by omega⟩
    rw [hc, allpass_zero, List.getElem?_take_of_lt (by omega), List.getElem?_cons_succ, hdg i (by omega)]
    congr 1
    generalize frameInputs ops = ps
    by_cases hk : k ≤ i
    · rw [if_pos hk, if_pos (by omega), List.getD_eq_getElem?_getD, List.getD_eq_getElem?_getD,
        List.getElem?_append_right (by omega)]
      congr 2; omega
    · rw [if_neg hk]
      by_cases hp : k + 1 ≤ ps.length + (i + 1)
      · rw [if_pos hp, List.getD_eq_getElem?_getD, List.getD_eq_getElem?_getD, List.getElem?_append_left (by omega),
          List.getElem?_reverse (by omega)]
        congr 2; omega
      · rw [if_neg hp, List.getD_eq_getElem?_getD, List.getElem?_eq_none (by simp; omega)]; rfl

/-- A concrete case: two frames before, then a delay of three frames in a buffer of five. -/
example : ((Allpass.init (5 / 8) 8).run 8 ([.time (2 / 8), .frame 5, .frame 6] ++ [.time (3 / 8), .frame 7, .frame 8, .frame 9])).map (·.2) =
    .ok [1, 0, 5, 5, 6] := by decide +kernel

/-! #### Silence -/

theorem allpass_silent (c : Rat) (n : Nat) : ∀ (px py : Rat), ∀ k, k < n →
    (allpass c px py (List.replicate n 0))[k]? = some ((px - c * py) * (-c) ^ k) := by
  induction n with
  | zero => intro px py k hk; omega
  | succ n ih =>
    intro px py k hk
    cases k with
    | zero =>
      simp only [List.replicate_succ, allpass, List.getElem?_cons_zero, pow_zero, Option.some.injEq]; ring
    | succ k =>
      simp only [List.replicate_succ, allpass, List.getElem?_cons_succ]
      rw [ih _ _ k (by omega)]
      congr 1; rw [pow_succ]; ring

theorem delayed_silent (sr d n : Nat) : ∀ (past : List Rat), (∀ x ∈ past, x = 0) →
    delayed sr d past ((List.replicate n 0).map .frame) = List.replicate n 0 := by
  induction n with
  | zero => intro past _; rfl
  | succ n ih =>
    intro past hp
    have h' : ∀ x ∈ (0 : Rat) :: past, x = 0 := by simpa using hp
    simp only [List.replicate_succ, List.map_cons, delayed]
    rw [ih _ h']
    congr 1
    rw [List.getD_eq_getElem?_getD]
    cases hx : ((0 : Rat) :: past)[d]? with
    | none => rfl
    | some x => exact h' x (List.mem_of_getElem? hx)

theorem coeff_bound {delta : Rat} (h1 : 1 / 2 ≤ delta) (h2 : delta < 3 / 2) :
    -(1 / 3) ≤ (1 - delta) / (1 + delta) ∧ (1 - delta) / (1 + delta) ≤ 1 / 3 ∧ -(1 / 5) < (1 - delta) / (1 + delta) := by
  have hp : 0 < 1 + delta := by linarith
  refine ⟨?_, ?_, ?_⟩
  · rw [le_div_iff₀ hp]; linarith
  · rw [div_le_iff₀ hp]; linarith
  · rw [lt_div_iff₀ hp]; linarith

/-- C40, silence: for a delay of more than half a frame a new delay line with silence as input dies away at least as fast as the
powers of one third.

Missing: it is not silent from the start (`C40_first_violated`). -/
theorem C40_silence_partial (maxDelay : Rat) (sr : Nat) (t : Rat) (n : Nat) (hL : 1 ≤ maxDelay * sr) (h1 : 1 / 2 < t * sr)
    (hlt : ⌊t * sr⌋.toNat < ⌊maxDelay * sr⌋.toNat) :
    ∃ s' o, (Allpass.init maxDelay sr).run sr (.time t :: (List.replicate n 0).map .frame) = .ok (s', o) ∧
      ∀ k, k < n → ∃ y, o[k]? = some y ∧ |y| ≤ 6 / 5 * (1 / 3) ^ k := by
  obtain ⟨I₀, hl₀⟩ := init_inv hL
  obtain ⟨num, delta, hs, _, _, hle, hhalf⟩ := split_ok (show 0 ≤ t * sr by linarith)
  obtain ⟨s₂, e₂, I₂, ha, hb⟩ := setFrames_inv I₀ hs (by omega)
  obtain ⟨s', e⟩ := frames_out sr (List.replicate n 0) I₂
  have hd : (Allpass.init maxDelay sr).delayTime sr t = .ok s₂ := by
    rw [Allpass.delayTime, if_pos (by simp only [asUsize]; omega), e₂]
  refine ⟨s', _, (run_time hd _).trans e, fun k hk => ?_⟩
  rw [delayed_silent _ _ _ _ (by simp), ha]
  refine ⟨_, allpass_silent _ _ _ _ k hk, ?_⟩
  obtain ⟨hc1, hc2, hc3⟩ := coeff_bound (hhalf h1).1 (hhalf h1).2
  simp only [Interp.setDelta, Allpass.init, Interp.new]
  generalize (1 - delta) / (1 + delta) = c at *
  rw [abs_mul, abs_pow, abs_neg, mul_one]
  have ha1 : |1 - c| ≤ 6 / 5 := by rw [abs_le]; constructor <;> linarith
  have ha2 : |c| ≤ 1 / 3 := by rw [abs_le]; constructor <;> linarith
  exact mul_le_mul ha1 (pow_le_pow_left₀ (abs_nonneg c) ha2 k) (pow_nonneg (abs_nonneg c) k) (by norm_num)

example : 1 ≤ (5 / 8 : Rat) * (8 : Nat) ∧ 1 / 2 < (3 / 16 : Rat) * (8 : Nat) ∧
    ⌊(3 / 16 : Rat) * (8 : Nat)⌋.toNat < ⌊(5 / 8 : Rat) * (8 : Nat)⌋.toNat := by decide +kernel

/-! #### The interpolation filter is an allpass filter -/

/-- The state of the filter after some inputs: the last input and the last output. -/
def allpassEnd (c : Rat) : Rat → Rat → List Rat → Rat × Rat
  | px, py, [] => (px, py)
  | px, py, r :: rs => allpassEnd c r (c * (r - py) + px) rs

/-- Sum of squares. -/
def energy (xs : List Rat) : Rat := (xs.map (fun x => x ^ 2)).sum

/-- The interpolation neither adds nor removes energy, whatever the input: what comes out and what is left in the filter is what
went in and what was there at the start. -/
theorem C40_energy (c : Rat) (hc : c ^ 2 ≠ 1) (rs : List Rat) : ∀ (px py : Rat),
    energy (allpass c px py rs) + ((allpassEnd c px py rs).1 - c * (allpassEnd c px py rs).2) ^ 2 / (1 - c ^ 2) =
      energy rs + (px - c * py) ^ 2 / (1 - c ^ 2) := by
  have h1 : 1 - c ^ 2 ≠ 0 := sub_ne_zero.mpr (Ne.symm hc)
  induction rs with
  | nil => intro px py; simp [energy, allpass, allpassEnd]
  | cons r rs ih =>
    intro px py
    have := ih r (c * (r - py) + px)
    simp only [energy, allpass, allpassEnd, List.map_cons, List.sum_cons] at *
    rw [add_assoc, this]
    field_simp
    ring

/-- The output of an allpass delay never has more energy than its input and what was in the filter. -/
theorem C40_bounded (c : Rat) (hc : c ^ 2 < 1) (rs : List Rat) (px py : Rat) :
    energy (allpass c px py rs) ≤ energy rs + (px - c * py) ^ 2 / (1 - c ^ 2) := by
  rw [← C40_energy c (ne_of_lt hc) rs px py]
  have : 0 ≤ ((allpassEnd c px py rs).1 - c * (allpassEnd c px py rs).2) ^ 2 / (1 - c ^ 2) :=
    div_nonneg (sq_nonneg _) (by linarith)
  linarith

/-! #### Feedback -/

theorem feedback_out (xs : List Rat) : ∀ {s : Feedback} {h : List Rat} {m : Nat}, Inv s.dl h m → s.dl.ap.coeff = 0 →
    ∃ (s' : Feedback) (o ds ws : List Rat), s.run xs = .ok (s', o) ∧ o.length = xs.length ∧ ds.length = xs.length ∧ ws.length = xs.length ∧
      ds.take 1 = [s.dl.ap.prevIn].take xs.length ∧
      (∀ k, k < xs.length → ws.getD k 0 = ds.getD k 0 * s.fb + xs.getD k 0 ∧ o.getD k 0 = ds.getD k 0 - s.fb * ws.getD k 0) ∧
      ∀ k, k + 1 < xs.length → ds.getD (k + 1) 0 = if m ≤ k then ws.getD (k - m) 0 else h.getD (m - k - 1) 0 := by
  induction xs with
  | nil => intro s h m _ _; exact ⟨s, [], [], [], rfl, rfl, rfl, rfl, rfl, fun k h => absurd h (by simp), fun k h => absurd h (by simp)⟩
  | cons x xs ih =>
    intro s h m I hc
    have hr := read_inv I
    have hout : (s.dl.ap.process (h.getD (m - 1) 0)).2 = s.dl.ap.prevIn := by simp [Interp.process, hc]
    have hap : (s.dl.ap.process (h.getD (m - 1) 0)).1 = ⟨0, h.getD (m - 1) 0, s.dl.ap.prevIn⟩ := by simp [Interp.process, hc]
    obtain ⟨dl', ew, I', ha, _⟩ := write_inv I (s.dl.ap.process (h.getD (m - 1) 0)).1 (s.dl.ap.prevIn * s.fb + x)
    obtain ⟨s', o, ds, ws, e, l1, l2, l3, hd0, hw, hd⟩ := ih (s := { s with dl := dl' }) I' (by simp only [ha, hap])
    refine ⟨s', (s.dl.ap.prevIn - s.fb * (s.dl.ap.prevIn * s.fb + x)) :: o, s.dl.ap.prevIn :: ds,
      (s.dl.ap.prevIn * s.fb + x) :: ws, ?_, by simp [l1], by simp [l2], by simp [l3], by simp, ?_, ?_⟩
    · simp only [Feedback.run, Feedback.process, hr, bind_ok, hout, ew, pure_ok, e]
    · intro k hk
      cases k with
      | zero => simp
      | succ k => simpa using hw k (by simpa using hk)
    · intro k hk
      simp only [List.length_cons] at hk
      have hpos := I.pos
      cases k with
      | zero =>
        have : ds.take 1 = [h.getD (m - 1) 0] := by
          rw [hd0]; simp only [ha, hap]
          exact List.take_of_length_le (by simp; omega)
        rw [if_neg (by omega), List.getD_cons_succ]
        have h0 : ds.getD 0 0 = h.getD (m - 1) 0 := by
          cases ds with
          | nil => simp at this
          | cons d ds => simpa using this
        rw [h0]; simp
      | succ k =>
        rw [List.getD_cons_succ, hd k (by omega)]
        by_cases h1 : m ≤ k
        · rw [if_pos h1, if_pos (by omega), show k + 1 - m = (k - m) + 1 by omega, List.getD_cons_succ]
        · rw [if_neg h1]
          by_cases h2 : m = k + 1
          · subst h2; simp
          · rw [if_neg (by omega), show m - k - 1 = (m - (k + 1) - 1) + 1 by omega, List.getD_cons_succ]

/-- C40, with feedback: for a delay of a whole number `n` of frames, at least two, the output follows the difference equation of
the allpass section with that delay: `y k = g * y (k - n) + x (k - n) - g * x k`.

Missing: the first `n` frames, where the initial value of the interpolation is still heard (`C40_feedback_first_violated`), and
the other delay times. -/
theorem C40_feedback_partial (maxDelay : Rat) (sr : Nat) (n : Nat) (t g : Rat) (xs : List Rat) (hL : 1 ≤ maxDelay * sr)
    (ht : t * sr = n) (h2 : 2 ≤ n) (hlt : n ≤ ⌊maxDelay * sr⌋.toNat) :
    ∃ s s' o, (Feedback.init maxDelay sr).delayTime sr t = .ok s ∧ (s.feedback g).run xs = .ok (s', o) ∧ o.length = xs.length ∧
      ∀ k, n ≤ k → k < xs.length → o.getD k 0 = g * o.getD (k - n) 0 + xs.getD (k - n) 0 - g * xs.getD k 0 := by
  obtain ⟨I₀, hl₀⟩ := init_inv hL
  obtain ⟨m, rfl⟩ : ∃ m, n = m + 1 := ⟨n - 1, by omega⟩
  obtain ⟨s₂, e₂, I₂, ha, hb⟩ := setFrames_inv I₀ (n := t * sr) (by rw [ht]; exact split_whole) (by omega)
  rw [if_neg (by omega)] at I₂
  have hc : s₂.ap.coeff = 0 := by rw [ha]; simp [Interp.setDelta]
  obtain ⟨s', o, ds, ws, e, l1, l2, l3, hd0, hw, hd⟩ := feedback_out xs (s := ⟨g, s₂⟩) I₂ hc
  refine ⟨⟨0, s₂⟩, s', o, by simp only [Feedback.delayTime, Feedback.init, e₂, bind_ok, pure_ok], e, l1, fun k hk hx => ?_⟩
  have hdk : ds.getD k 0 = ws.getD (k - (m + 1)) 0 := by
    obtain ⟨i, rfl⟩ : ∃ i, k = i + 1 := ⟨k - 1, by omega⟩
    rw [hd i hx, if_pos (by omega)]; congr 1; omega
  obtain ⟨w1, o1⟩ := hw k hx
  obtain ⟨w2, o2⟩ := hw (k - (m + 1)) (by omega)
  simp only at w1 o1 w2 o2
  rw [o1, o2, w1, hdk, w2]; ring

/-- A concrete case: a delay of two frames with feedback one half. -/
example : ∃ s, (Feedback.init (1 / 2) 8).delayTime 8 (2 / 8) = .ok s ∧
    ((s.feedback (1 / 2)).run [0, 4, 0, 0, 0, 0]).map (·.2) = .ok [3 / 4, -2, 3 / 8, 3, 3 / 16, 3 / 2] :=
  ⟨⟨0, ⟨[0, 0, 0, 0], 0, 3, 1, 0, ⟨0, 1, 1⟩⟩⟩, by decide +kernel⟩

/-- With feedback, every delay time that is not negative and not longer than the buffer is accepted without a crash. -/
theorem C40_feedback_safe_partial (maxDelay : Rat) (sr : Nat) (t : Rat) (hL : 1 ≤ maxDelay * sr) (h0 : 0 ≤ t)
    (hle : ⌊t * sr⌋.toNat ≤ ⌊maxDelay * sr⌋.toNat) : ∃ s, (Feedback.init maxDelay sr).delayTime sr t = .ok s := by
  obtain ⟨I₀, hl₀⟩ := init_inv hL
  obtain ⟨num, delta, hs, _, _, hle', _⟩ := split_ok (mul_nonneg h0 (Nat.cast_nonneg sr) : 0 ≤ t * sr)
  obtain ⟨s₂, e₂, _⟩ := setFrames_inv I₀ hs (by omega)
  exact ⟨⟨0, s₂⟩, by simp only [Feedback.delayTime, Feedback.init, e₂, bind_ok, pure_ok]⟩

/-! ### Violations -/

/-- C40 is false at the start: silence goes in and the first frame that comes out is one. -/
theorem C40_first_violated : ((Allpass.init (1 / 2) 8).run 8 [.time (2 / 8), .frame 0, .frame 0]).map (·.2) = .ok [1, 0] := by
  decide +kernel

/-- A delay of one frame delays by one frame more than the length of the buffer. -/
theorem C40_one_violated : ((Allpass.init (1 / 2) 8).run 8
    [.time (1 / 8), .frame 5, .frame 6, .frame 7, .frame 8, .frame 9, .frame 10, .frame 11]).map (·.2) =
      .ok [1, 0, 0, 0, 0, 5, 6] := by decide +kernel

/-- A delay of zero frames delays by the length of the buffer. -/
theorem C40_zero_violated : ((Allpass.init (1 / 2) 8).run 8
    [.time 0, .frame 5, .frame 6, .frame 7, .frame 8, .frame 9, .frame 10]).map (·.2) = .ok [0, 0, 0, 0, 5, 6] := by decide +kernel

/-- A negative delay time crashes the audio thread. -/
theorem C40_negative_violated : (Allpass.init (1 / 2) 8).run 8 [.time (-1 / 8)] = .error .unwrap := by decide +kernel

/-- A delay line for less than one frame crashes on the first frame. -/
theorem C40_empty_violated : (Allpass.init 0 8).run 8 [.frame 0] = .error .index := by decide +kernel

/-- The delay with feedback accepts a delay time longer than its buffer and crashes. -/
theorem C40_feedback_long_violated : (Feedback.init (1 / 2) 8).delayTime 8 (6 / 8) = .error .overflow := by decide +kernel

/-- With feedback the one from the start comes back again and again. -/
theorem C40_feedback_first_violated : ∃ s, (Feedback.init (1 / 2) 8).delayTime 8 (2 / 8) = .ok s ∧
    ((s.feedback (1 / 2)).run [0, 0, 0, 0, 0]).map (·.2) = .ok [3 / 4, 0, 3 / 8, 0, 3 / 16] :=
  ⟨⟨0, ⟨[0, 0, 0, 0], 0, 3, 1, 0, ⟨0, 1, 1⟩⟩⟩, by decide +kernel⟩

/-- Clearing a delay line that is silent makes it put out a one. -/
theorem C40_clear_violated : ∃ s o, ((Allpass.init (1 / 2) 8).run 8 [.time (2 / 8), .frame 0, .frame 0, .frame 0]) = .ok (s, o) ∧
    (s.clear.run 8 [.frame 0, .frame 0, .frame 0]).map (·.2) = .ok [0, 1, 0] :=
  ⟨⟨[0, 0, 0, 0], 3, 2, 1, 0, ⟨0, 0, 0⟩⟩, [1, 0, 0], by decide +kernel⟩

end Verif.Dl
