import Verif.Lemmas.Delay

/-!
# C38: the sample delay line delays exactly
-/

namespace Verif.Dl

/-! ### Specification -/

/-- What a delay line puts out: `d` is the current delay in frames, `past` the inputs so far, latest first. -/
def delayed (sr : Nat) : Nat → List Rat → List Op → List Rat
  | _, _, [] => []
  | _, past, .time t :: ops => delayed sr ⌊t * sr⌋.toNat past ops
  | d, past, .frame x :: ops => (x :: past).getD d 0 :: delayed sr d (x :: past) ops

/-- All delay times that are set are at least zero and shorter than the `L` frames of the buffer. -/
def Within (sr L : Nat) (ops : List Op) : Prop := ∀ t, Op.time t ∈ ops → 0 ≤ t ∧ t * sr < L

/-! ### The sample delay follows the specification -/

theorem asUsize_lt {x : Rat} {n : Nat} (hx : 0 ≤ x) (h : x < n) : asUsize x < n := by
  have h1 : (⌊x⌋ : Rat) ≤ x := Int.floor_le x
  have h2 : 0 ≤ ⌊x⌋ := Int.floor_nonneg.mpr hx
  have h3 : ((⌊x⌋.toNat : Int) : Rat) = (⌊x⌋ : Rat) := by rw [Int.toNat_of_nonneg h2]
  have h4 : ((⌊x⌋.toNat : Nat) : Rat) < n := by
    rw [← Int.cast_natCast, h3]; linarith
  exact_mod_cast h4

theorem sample_process {s : Sample} {h : List Rat} (H : Holds s.buf s.wp h) (hd : s.delay < s.buf.length) (x : Rat) :
    ∃ s', s.process x = .ok (s', (x :: h).getD s.delay 0) ∧ Holds s'.buf s'.wp (x :: h) ∧ s'.delay = s.delay ∧
      s'.buf.length = s.buf.length := by
  have hL : 0 < s.buf.length := by omega
  have H' := holds_write H x
  have hr : (s.buf.set s.wp x)[(s.wp + s.buf.length - s.delay) % s.buf.length]? = some ((x :: h).getD s.delay 0) := by
    have := H'.get (s.delay + 1) (by omega) (by rw [List.length_set]; omega)
    rw [List.length_set, back_succ H.lt (by omega) (by omega)] at this
    simpa using this
  refine ⟨{ s with buf := s.buf.set s.wp x, wp := (s.wp + 1) % s.buf.length }, ?_, H', rfl, by simp⟩
  simp only [Sample.process, write_ok H.lt, bind_ok, List.length_set, subC_ok (show s.delay ≤ s.wp + s.buf.length by omega),
    modC_ok hL, read_ok hr, pure_ok]

theorem sample_run (sr : Nat) (ops : List Op) : ∀ (s : Sample) (h : List Rat), Holds s.buf s.wp h → s.delay < s.buf.length →
    Within sr s.buf.length ops → ∃ s', s.run sr ops = .ok (s', delayed sr s.delay h ops) := by
  induction ops with
  | nil => intro s h _ _ _; exact ⟨s, rfl⟩
  | cons op ops ih =>
    intro s h H hd hw
    cases op with
    | time t =>
      have ht := hw t (by simp)
      exact ih (s.delayTime sr t) h H (asUsize_lt (mul_nonneg ht.1 (Nat.cast_nonneg _)) ht.2)
        (fun t' h' => hw t' (List.mem_cons_of_mem _ h'))
    | frame x =>
      obtain ⟨s', e, H', hd', hl'⟩ := sample_process H hd x
      obtain ⟨s'', e'⟩ := ih s' (x :: h) H' (by omega) (by rw [hl']; exact fun t' h' => hw t' (List.mem_cons_of_mem _ h'))
      exact ⟨s'', by simp only [Sample.run, e, bind_ok, e', hd', pure_ok, delayed]⟩

/-- C38, for delay times below the length of the buffer: a sample delay puts out exactly its input the set number of frames
ago, and zero before, whatever the input and however often the delay time changes.

Missing: the delay time that equals the maximum, for which it is false (`C38_max_violated`), longer ones
(`C38_long_violated`) and buffers without frames (`C38_empty_violated`). -/
theorem C38_partial (maxDelay : Rat) (sr : Nat) (ops : List Op) (hL : 1 ≤ maxDelay * sr)
    (hw : Within sr ⌊maxDelay * sr⌋.toNat ops) :
    ∃ s', (Sample.init maxDelay sr).run sr ops = .ok (s', delayed sr 0 [] ops) := by
  have h0 : 0 < ⌊maxDelay * sr⌋.toNat := by
    have : (1 : Int) ≤ ⌊maxDelay * sr⌋ := Int.le_floor.mpr (by exact_mod_cast hL)
    omega
  refine sample_run sr ops _ [] ?_ ?_ ?_
  · exact holds_init h0
  · simpa [Sample.init, asUsize] using h0
  · simpa [Sample.init, asUsize] using hw

/-- One frame of a constant delay. -/
theorem delayed_get (sr d : Nat) : ∀ (xs past : List Rat), (delayed sr d past (xs.map .frame)).length = xs.length ∧
    ∀ n, n < xs.length → (delayed sr d past (xs.map .frame))[n]? =
      some (if d ≤ n then xs.getD (n - d) 0 else past.getD (d - n - 1) 0) := by
  intro xs
  induction xs with
  | nil => intro past; simp [delayed]
  | cons x xs ih =>
    intro past
    obtain ⟨hl, hg⟩ := ih (x :: past)
    refine ⟨by simp [delayed, hl], fun n hn => ?_⟩
    cases n with
    | zero =>
      rcases Nat.eq_zero_or_pos d with rfl | hd
      · simp [delayed]
      · obtain ⟨k, rfl⟩ : ∃ k, d = k + 1 := ⟨d - 1, by omega⟩
        simp [delayed]
    | succ n =>
      simp only [List.map_cons, delayed, List.getElem?_cons_succ]
      rw [hg n (by simpa using hn)]
      congr 1
      by_cases h1 : d ≤ n
      · rw [if_pos h1, if_pos (by omega), show n + 1 - d = (n - d) + 1 by omega]; simp
      · rw [if_neg h1]
        by_cases h2 : d = n + 1
        · subst h2; simp
        · rw [if_neg (by omega), show d - n - 1 = (d - (n + 1) - 1) + 1 by omega]; simp

/-- The same for one delay time: frame `n` is input `n - d`. -/
theorem C38_constant_partial (maxDelay : Rat) (sr : Nat) (t : Rat) (xs : List Rat) (hL : 1 ≤ maxDelay * sr) (h0 : 0 ≤ t)
    (ht : t * sr < ⌊maxDelay * sr⌋.toNat) :
    ∃ s' out, (Sample.init maxDelay sr).run sr (.time t :: xs.map .frame) = .ok (s', out) ∧ out.length = xs.length ∧
      ∀ n, n < xs.length → out[n]? = some (if ⌊t * sr⌋.toNat ≤ n then xs.getD (n - ⌊t * sr⌋.toNat) 0 else 0) := by
  obtain ⟨s', e⟩ := C38_partial maxDelay sr (.time t :: xs.map .frame) hL (by
    intro t' h'
    simp only [List.mem_cons, Op.time.injEq, List.mem_map, reduceCtorEq, and_false, exists_false, or_false] at h'
    subst h'; exact ⟨h0, ht⟩)
  refine ⟨s', _, e, ?_⟩
  simp only [delayed]
  generalize ⌊t * sr⌋.toNat = d
  have := delayed_get sr d xs []
  refine ⟨this.1, fun n hn => ?_⟩
  rw [this.2 n hn]; simp

/-- A concrete case: a buffer of four frames, a delay of one frame and then of three. -/
example : ((Sample.init (1 / 2) 8).run 8 [.time (1 / 8), .frame 5, .frame 6, .time (3 / 8), .frame 7, .frame 8]).map (·.2) =
    .ok [0, 5, 0, 5] := by decide +kernel

example : 1 ≤ (1 / 2 : Rat) * (8 : Nat) ∧ (3 / 8 : Rat) * (8 : Nat) < ⌊(1 / 2 : Rat) * (8 : Nat)⌋.toNat := by decide +kernel

/-! ### Violations -/

/-- C38 is false for a delay of the maximal delay time: the input comes out without any delay. -/
theorem C38_max_violated : ∃ (maxDelay : Rat) (sr : Nat) (x : Rat), 1 ≤ maxDelay * sr ∧
    ((Sample.init maxDelay sr).run sr [.time maxDelay, .frame x]).map (·.2) ≠ .ok (delayed sr 0 [] [.time maxDelay, .frame x]) ∧
    ((Sample.init maxDelay sr).run sr [.time maxDelay, .frame x]).map (·.2) = .ok [x] := by
  exact ⟨1 / 2, 8, 5, by decide +kernel⟩

/-- It is so for every maximal delay time. -/
theorem C38_max_never (maxDelay : Rat) (sr : Nat) (x : Rat) (h : 1 ≤ maxDelay * sr) :
    ((Sample.init maxDelay sr).run sr [.time maxDelay, .frame x]).map (·.2) = .ok [x] := by
  have h0 : 0 < asUsize (maxDelay * sr) := by
    have : (1 : Int) ≤ ⌊maxDelay * sr⌋ := Int.le_floor.mpr (by exact_mod_cast h)
    simp only [asUsize]; omega
  simp only [Sample.run, Sample.delayTime, Sample.init, Sample.process]
  generalize asUsize (maxDelay * sr) = L at *
  have hl : 0 < (List.replicate L (0 : Rat)).length := by simpa using h0
  have hr : ((List.replicate L (0 : Rat)).set 0 x)[0]? = some x := List.getElem?_set_self hl
  simp only [write_ok hl, bind_ok, List.length_set, List.length_replicate, subC_ok (show L ≤ 0 + L by omega),
    show 0 + L - L = 0 by omega, modC_ok h0, Nat.zero_mod, read_ok hr, pure_ok]
  rfl

/-- A delay time longer than the maximal one is accepted and crashes the audio thread. -/
theorem C38_long_violated : ∃ (maxDelay : Rat) (sr : Nat) (t x : Rat), 1 ≤ maxDelay * sr ∧ 0 ≤ t ∧
    (Sample.init maxDelay sr).run sr [.time t, .frame x] = .error .overflow := by
  exact ⟨1 / 2, 8, 5 / 8, 1, by decide +kernel⟩

/-- A sample delay for less than one frame crashes on the first frame, even with a delay of zero. -/
theorem C38_empty_violated : ∃ (maxDelay : Rat) (sr : Nat) (x : Rat), 0 ≤ maxDelay ∧
    (Sample.init maxDelay sr).run sr [.time 0, .frame x] = .error .index := by
  exact ⟨0, 8, 1, by decide +kernel⟩

end Verif.Dl
