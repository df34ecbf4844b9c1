import Verif.Model.FloatWt
import Verif.Lemmas.Ieee
import Verif.Lemmas.IeeeSigned
import Verif.Props.FloatFilter
import Verif.Props.Wavetable
import Mathlib.Analysis.SpecialFunctions.Trigonometric.Bounds

/-!
# C84: wavetable oscillators play the frequency they are set to
-/

namespace Verif.Fl

open Verif.Os (Table addPhase position C44_bounds)

/-! ## The specification -/

/-- What should have happened: how many cycles have gone by since the phase was last reset, during how many frames, at which frequency and
sample rate the oscillator is. -/
structure Ideal where
  cycles : ℚ
  frames : Nat
  freq : ℚ
  sr : Nat

/-- Every frame lasts `1 / sr` seconds, and `freq` is the number of cycles per second, rounded to the sample type. -/
def Ideal.op (fl : ℚ → ℚ) (i : Ideal) : WtOp → Ideal
  | .init sr => ⟨0, 0, i.freq, sr⟩
  | .freq x => { i with freq := fl x }
  | .reset => { i with cycles := 0, frames := 0 }
  | .frame => { i with cycles := i.cycles + i.freq / i.sr, frames := i.frames + 1 }

/-- Frames come after `init`, at frequencies from zero to three times the sample rate. -/
def Ideal.Fine (fl : ℚ → ℚ) : Ideal → List WtOp → Prop
  | _, [] => True
  | i, .frame :: os => (0 < i.sr ∧ i.sr < 4294967296 ∧ 0 ≤ i.freq ∧ i.freq ≤ 3 * i.sr) ∧ Ideal.Fine fl (i.op fl .frame) os
  | i, o :: os => Ideal.Fine fl (i.op fl o) os

/-- The state after some calls. -/
def Ideal.ops (fl : ℚ → ℚ) : Ideal → List WtOp → Ideal
  | i, [] => i
  | i, o :: os => Ideal.ops fl (i.op fl o) os

/-! ## The increment -/

theorem rnd64_small (x : ℚ) : |rnd64 x - x| ≤ 1 / 9007199254740992 * |x| + 1 / 1267650600228229401496703205376 := by
  have h := rnd_rel 53 (-1074) x
  have h1 : pow2 (-((53 : Nat) : Int)) = 1 / 9007199254740992 := by decide +kernel
  have h2 : pow2 (-1074 - 1) ≤ pow2 (-100) := pow2_le (by norm_num)
  have h3 : pow2 (-100) = 1 / 1267650600228229401496703205376 := by decide +kernel
  rw [h1] at h
  rw [h3] at h2
  exact h.trans (by gcongr)

/-- The factor from a frequency to an increment. -/
theorem phaseMult_near {sr : Nat} (h0 : 0 < sr) (h1 : sr < 4294967296) :
    |phaseMult sr - 1073741824 / sr| ≤ 1 / 1125899906842624 * (1073741824 / sr) := by
  have hs : (0 : ℚ) < sr := by exact_mod_cast h0
  have hs1 : (sr : ℚ) < 4294967296 := by exact_mod_cast h1
  have e : rnd64 ((Os.tableSize : ℚ) * Os.fractionalPart) = 1073741824 := by decide +kernel
  unfold phaseMult
  rw [e]
  set y : ℚ := 1 / sr with hy
  have hy0 : 0 < y := by positivity
  have hyl : 1 / 4294967296 < y := by
    rw [hy]
    exact one_div_lt_one_div_of_lt hs hs1
  have ey : (1073741824 : ℚ) / sr = 1073741824 * y := by rw [hy]; ring
  rw [ey]
  have a := rnd64_small y
  rw [abs_of_pos hy0] at a
  set r := rnd64 y
  have b := rnd64_small (1073741824 * r)
  have hr : |(1073741824 : ℚ) * r| ≤ 1073741824 * (2 * y) := by
    rw [abs_mul, abs_of_pos (by norm_num : (0 : ℚ) < 1073741824)]
    have : |r| ≤ 2 * y := by
      rw [abs_le] at a ⊢
      constructor <;> linarith
    linarith
  rw [abs_le] at a b ⊢
  constructor <;> linarith

/-- C84, the increment: for every sample rate and every frequency from zero to three times the sample rate, the phase goes forward by the
frequency, in units of `2 ^ -30` of a cycle per frame, rounded down: never faster than it should (except for `2 ^ -16` of a unit), and
less than one unit slower. -/
theorem C84_step {sr : Nat} (h0 : 0 < sr) (h1 : sr < 4294967296) {f : ℚ} (f0 : 0 ≤ f) (f1 : f ≤ 3 * sr) :
    (phaseInc f (phaseMult sr) : ℚ) ≤ 1073741824 * (f / sr) + 1 / 65536 ∧
      1073741824 * (f / sr) < phaseInc f (phaseMult sr) + 1 + 1 / 65536 := by
  have hs : (0 : ℚ) < sr := by exact_mod_cast h0
  set q : ℚ := f / sr with hq
  have q0 : 0 ≤ q := by positivity
  have q3 : q ≤ 3 := by rw [hq, div_le_iff₀ hs]; exact f1
  have m := phaseMult_near h0 h1
  set u := phaseMult sr
  have e : |f * u - 1073741824 * q| ≤ 1 / 1125899906842624 * (1073741824 * q) := by
    have : f * u - 1073741824 * q = f * (u - 1073741824 / sr) := by rw [hq]; ring
    rw [this, abs_mul, abs_of_nonneg f0]
    calc f * |u - 1073741824 / sr| ≤ f * (1 / 1125899906842624 * (1073741824 / sr)) := mul_le_mul_of_nonneg_left m f0
      _ = _ := by rw [hq]; ring
  have a := rnd64_small (f * u)
  have b : |f * u| ≤ 1073741824 * 4 := by
    rw [abs_le] at e ⊢
    constructor <;> linarith
  have c : |rnd64 (f * u) - 1073741824 * q| ≤ 1 / 65536 := by
    rw [abs_le] at a e ⊢
    constructor <;> linarith
  rw [abs_le] at c
  unfold phaseInc asU32
  set v := rnd64 (f * u)
  have fl1 := Int.floor_le v
  have fl2 := Int.lt_floor_add_one v
  have vt : v < 4294967295 := by linarith
  have v0 : 0 ≤ v := by
    have : 0 ≤ f * u := by
      have : 0 ≤ u := by
        have : (0 : ℚ) < 1073741824 / sr := by positivity
        rw [abs_le] at m
        linarith
      positivity
    exact rnd_nonneg this
  have n0 : 0 ≤ ⌊v⌋ := Int.floor_nonneg.2 v0
  have n1 : ⌊v⌋ < 4294967295 := by
    have : ((⌊v⌋ : Int) : ℚ) < ((4294967295 : Int) : ℚ) := by push_cast; linarith
    exact_mod_cast this
  rw [min_eq_right (by omega)]
  have ec : ((⌊v⌋.toNat : Nat) : ℚ) = ((⌊v⌋ : Int) : ℚ) := by
    have := Int.toNat_of_nonneg n0
    exact_mod_cast this
  rw [ec]
  constructor <;> linarith

example : phaseInc 440 (phaseMult 48000) = 9842633 := by decide +kernel
example : phaseInc 440 (phaseMult 44100) = 10713070 := by decide +kernel

/-- C84, in Hertz: the frequency played is the frequency set to within `sr / 2 ^ 30` (at 48 kHz, less than `0.00005` Hz). -/
theorem C84_hertz {sr : Nat} (h0 : 0 < sr) (h1 : sr < 4294967296) {f : ℚ} (f0 : 0 ≤ f) (f1 : f ≤ 3 * sr) :
    |(phaseInc f (phaseMult sr) : ℚ) * sr / 1073741824 - f| < (1 + 1 / 65536) * (sr / 1073741824) := by
  have hs : (0 : ℚ) < sr := by exact_mod_cast h0
  obtain ⟨a, b⟩ := C84_step h0 h1 f0 f1
  set n : ℚ := (phaseInc f (phaseMult sr) : ℚ)
  have e : n * sr / 1073741824 - f = (n - 1073741824 * (f / sr)) * (sr / 1073741824) := by
    field_simp
  rw [e, abs_mul, abs_of_pos (by positivity : (0 : ℚ) < sr / 1073741824)]
  refine mul_lt_mul_of_pos_right ?_ (by positivity)
  rw [abs_lt]
  constructor <;> linarith

/-! ## The phase -/

/-- What is known of an oscillator. -/
structure WtInv (p : Nat) (emin : Int) (s : SinWt) (i : Ideal) : Prop where
  freq : s.freq = i.freq
  rep : Rep p emin s.freq
  mult : s.mult = phaseMult i.sr
  inc : s.inc = phaseInc s.freq s.mult
  off : s.offset = 0
  lt : s.phase < 4294967296
  phase : ∃ k : Nat, |(s.phase : ℚ) + 4294967296 * k - 1073741824 * i.cycles| ≤ (1 + 1 / 65536) * i.frames

theorem wtInv_new {p : Nat} {emin : Int} {f : ℚ} (h : Rep p emin f) : WtInv p emin (.new f) ⟨0, 0, f, 0⟩ where
  freq := rfl
  rep := h
  mult := by
    show (0 : ℚ) = phaseMult 0
    decide +kernel
  inc := by
    show 0 = phaseInc f 0
    unfold phaseInc
    rw [mul_zero]
    decide +kernel
  off := rfl
  lt := Nat.zero_lt_succ _
  phase := ⟨0, by simp [SinWt.new]⟩

theorem wtInv_op {p : Nat} {emin : Int} (hp : 1 ≤ p) (t : Table) (ht : t.buf.length = 16384) {s : SinWt} {i : Ideal}
    (h : WtInv p emin s i) (o : WtOp) (os : List WtOp) (hf : i.Fine (rnd p emin) (o :: os)) :
    ∃ s', s.op (rnd p emin) t o = .ok s' ∧ WtInv p emin s' (i.op (rnd p emin) o) ∧ (i.op (rnd p emin) o).Fine (rnd p emin) os := by
  cases o with
  | init sr =>
    refine ⟨_, rfl, ⟨?_, rep_rnd hp _, rfl, rfl, h.off, Nat.zero_lt_succ _, 0, ?_⟩, hf⟩
    · show rnd p emin s.freq = i.freq
      rw [rnd_rep h.rep, h.freq]
    · simp [SinWt.init, SinWt.setFreq, SinWt.reset, Ideal.op]
  | freq x =>
    exact ⟨_, rfl, ⟨rfl, rep_rnd hp _, h.mult, rfl, h.off, h.lt, h.phase⟩, hf⟩
  | reset =>
    exact ⟨_, rfl, ⟨h.freq, h.rep, h.mult, h.inc, h.off, Nat.zero_lt_succ _, 0, by simp [SinWt.reset, Ideal.op]⟩, hf⟩
  | frame =>
    obtain ⟨⟨h0, h1, f0, f1⟩, hf⟩ := hf
    refine ⟨{ s with phase := addPhase s.phase s.inc }, ?_, ⟨h.freq, h.rep, h.mult, h.inc, h.off, Nat.mod_lt _ (by decide), ?_⟩, hf⟩
    · simp only [SinWt.op, SinWt.next, C44_bounds t ht, bind_ok, pure_ok]
    · obtain ⟨k, hk⟩ := h.phase
      obtain ⟨a, b⟩ := C84_step h0 h1 f0 f1
      rw [← h.freq, ← h.mult, ← h.inc] at a b
      refine ⟨k + (s.phase + s.inc) / 4294967296, ?_⟩
      have e : ((addPhase s.phase s.inc : Nat) : ℚ) + 4294967296 * ((k + (s.phase + s.inc) / 4294967296 : Nat) : ℚ) =
          s.phase + s.inc + 4294967296 * k := by
        have : addPhase s.phase s.inc + 4294967296 * (k + (s.phase + s.inc) / 4294967296) = s.phase + s.inc + 4294967296 * k := by
          unfold addPhase
          omega
        exact_mod_cast this
      rw [e]
      simp only [Ideal.op]
      push_cast
      rw [← h.freq]
      rw [abs_le] at hk ⊢
      constructor <;> linarith

theorem wtInv_ops {p : Nat} {emin : Int} (hp : Fmt p emin) (t : Table) (ht : t.buf.length = 16384) (os : List WtOp) :
    ∀ (s : SinWt) (i : Ideal), WtInv p emin s i → i.Fine (rnd p emin) os →
      ∃ s', s.ops (rnd p emin) t os = .ok s' ∧ WtInv p emin s' (Ideal.ops (rnd p emin) i os) := by
  induction os with
  | nil => intro s i h _; exact ⟨s, rfl, h⟩
  | cons o os ih =>
    intro s i h hf
    obtain ⟨s1, e1, h1, f1⟩ := wtInv_op hp.p1 t ht h o os hf
    obtain ⟨s2, e2, h2⟩ := ih s1 _ h1 f1
    exact ⟨s2, by rw [SinWt.ops, e1, bind_ok, e2], h2⟩

/-- C84, the phase over a whole performance: whatever is done with an oscillator (made with any frequency, initialised any number of
times, frequencies set at any time, reset at any time), and whatever its table, no call fails, and after every call the phase is, up to
whole turns of the counter, the number of cycles that should have gone by since the last reset, to within `1 + 2 ^ -16` units of
`2 ^ -30` of a cycle for each frame. -/
theorem C84_phase {p : Nat} {emin : Int} (hp : Fmt p emin) (t : Table) (ht : t.buf.length = 16384) (f : ℚ) (hr : Rep p emin f)
    (os : List WtOp) (hf : Ideal.Fine (rnd p emin) ⟨0, 0, f, 0⟩ os) :
    ∃ s, (SinWt.new f).ops (rnd p emin) t os = .ok s ∧ s.phase < 4294967296 ∧
      ∃ k : Nat, |(s.phase : ℚ) + 4294967296 * k - 1073741824 * (Ideal.ops (rnd p emin) ⟨0, 0, f, 0⟩ os).cycles| ≤
        (1 + 1 / 65536) * (Ideal.ops (rnd p emin) ⟨0, 0, f, 0⟩ os).frames := by
  obtain ⟨s, e, h⟩ := wtInv_ops hp t ht os _ _ (wtInv_new hr) hf
  exact ⟨s, e, h.lt, h.phase⟩

/-- A performance: 440 Hz, a frame, 441 Hz, a frame, a reset, a frame. -/
example : Ideal.Fine rnd32 ⟨0, 0, 440, 0⟩ [.init 48000, .frame, .freq 441, .frame, .reset, .frame] ∧
    (Ideal.ops rnd32 ⟨0, 0, 440, 0⟩ [.init 48000, .frame, .freq 441, .frame]).cycles = 881 / 48000 := by
  have e : rnd32 441 = 441 := by decide +kernel
  have e' : rnd 24 (-149) 441 = 441 := e
  constructor
  · simp only [Ideal.Fine, Ideal.op, e]
    norm_num
  · simp only [Ideal.ops, Ideal.op, e]
    norm_num

/-! ## The sine -/

theorem rep_f32 {p : Nat} {emin : Int} (hp : Fmt p emin) {x : ℚ} (h : Rep 24 (-149) x) : Rep p emin x := by
  obtain ⟨m, e, rfl, hm, he⟩ := h
  refine ⟨m, e, rfl, lt_of_lt_of_le hm (pow_le_pow_right₀ (by norm_num) ?_), ?_⟩
  · rcases hp with ⟨rfl, _⟩ | ⟨rfl, _⟩ <;> norm_num
  · rcases hp with ⟨_, rfl⟩ | ⟨_, rfl⟩ <;> omega

/-- C84, the sine: if the table holds a sine to within `d`, then after any performance the next sample is the sine of the number of cycles
that should have gone by, to within `d`, one sample of the table, and the drift of the phase. -/
theorem C84_sine {p : Nat} {emin : Int} (hp : Fmt p emin) (t : Table) (ht : t.buf.length = 16384) (d : ℝ)
    (hr : ∀ x ∈ t.buf, Rep 24 (-149) x)
    (hd : ∀ n < 16384, |((t.buf.getD n 0 : ℚ) : ℝ) - Real.sin (2 * Real.pi * (n / 16384))| ≤ d) (f : ℚ) (hf : Rep p emin f)
    (os : List WtOp) (ho : Ideal.Fine (rnd p emin) ⟨0, 0, f, 0⟩ os) :
    ∃ s s' v, (SinWt.new f).ops (rnd p emin) t os = .ok s ∧ s.next (rnd p emin) t = .ok (s', v) ∧
      |(v : ℝ) - Real.sin (2 * Real.pi * ((Ideal.ops (rnd p emin) ⟨0, 0, f, 0⟩ os).cycles : ℝ))| ≤
        d + 2 * Real.pi * (1 / 16384 + (1 + 1 / 65536) * (Ideal.ops (rnd p emin) ⟨0, 0, f, 0⟩ os).frames / 1073741824) := by
  obtain ⟨s, e, h⟩ := wtInv_ops hp t ht os _ _ (wtInv_new hf) ho
  generalize Ideal.ops (rnd p emin) ⟨0, 0, f, 0⟩ os = i at h ⊢
  set n := position (addPhase s.phase s.offset) with hn
  have nl : n < 16384 := Nat.mod_lt _ (by decide)
  set x := t.buf.getD n 0 with hx
  have xr : rnd p emin x = x := by
    refine rnd_rep (rep_f32 hp (hr _ ?_))
    have hl : n < t.buf.length := by omega
    rw [hx, List.getD_eq_getElem?_getD, List.getElem?_eq_getElem hl, Option.getD_some]
    exact List.getElem_mem _
  refine ⟨s, { s with phase := addPhase s.phase s.inc }, x, e, ?_, ?_⟩
  · simp only [SinWt.next, C44_bounds t ht, bind_ok, pure_ok]
    rw [← hn, ← hx, xr]
  obtain ⟨k, hk⟩ := h.phase
  -- the position in the table and the phase
  have hn2 : n = s.phase / 65536 % 16384 := by
    rw [hn, h.off]
    unfold position addPhase
    omega
  set q := s.phase / 65536 with hq
  have q1 : (q : ℝ) * 65536 ≤ s.phase := by
    have : q * 65536 ≤ s.phase := by omega
    exact_mod_cast this
  have q2 : (s.phase : ℝ) ≤ q * 65536 + 65536 := by
    have : s.phase ≤ q * 65536 + 65536 := by omega
    exact_mod_cast this
  have sn : Real.sin (2 * Real.pi * ((n : ℝ) / 16384)) = Real.sin (2 * Real.pi * ((q : ℝ) / 16384 + 4 * k)) := by
    have eq : (q : ℝ) = n + 16384 * (q / 16384 : Nat) := by
      have : q = n + 16384 * (q / 16384) := by omega
      exact_mod_cast this
    have : 2 * Real.pi * ((q : ℝ) / 16384 + 4 * k) =
        2 * Real.pi * ((n : ℝ) / 16384) + ((q / 16384 + 4 * k : Nat) : ℝ) * (2 * Real.pi) := by
      conv_lhs => rw [eq]
      push_cast
      ring
    rw [this, Real.sin_add_nat_mul_two_pi]
  have hk' : |(s.phase : ℝ) + 4294967296 * k - 1073741824 * (i.cycles : ℝ)| ≤ (1 + 1 / 65536) * i.frames := by
    have : (((|(s.phase : ℚ) + 4294967296 * k - 1073741824 * i.cycles| : ℚ)) : ℝ) ≤ (((1 + 1 / 65536) * i.frames : ℚ) : ℝ) :=
      Rat.cast_le.2 hk
    rw [Rat.cast_abs] at this
    push_cast at this
    exact this
  have hd' := hd n nl
  rw [← hx, sn] at hd'
  have lip := Real.abs_sin_sub_sin_le (2 * Real.pi * ((q : ℝ) / 16384 + 4 * k)) (2 * Real.pi * (i.cycles : ℝ))
  have arg : |2 * Real.pi * ((q : ℝ) / 16384 + 4 * k) - 2 * Real.pi * (i.cycles : ℝ)| ≤
      2 * Real.pi * (1 / 16384 + (1 + 1 / 65536) * i.frames / 1073741824) := by
    rw [← mul_sub, abs_mul, abs_of_pos (by positivity : 0 < 2 * Real.pi)]
    refine mul_le_mul_of_nonneg_left ?_ (by positivity)
    rw [abs_le] at hk' ⊢
    constructor <;> linarith
  have tri := abs_sub_le (x : ℝ) (Real.sin (2 * Real.pi * ((q : ℝ) / 16384 + 4 * k))) (Real.sin (2 * Real.pi * (i.cycles : ℝ)))
  linarith

/-- Such tables exist, with an error of `2 ^ -23`. -/
example : ∃ t : Table, t.buf.length = 16384 ∧ (∀ x ∈ t.buf, Rep 24 (-149) x) ∧
    ∀ n < 16384, |((t.buf.getD n 0 : ℚ) : ℝ) - Real.sin (2 * Real.pi * ((n : Nat) / 16384))| ≤ 1 / 8388608 := by
  have hq : ∀ n : Nat, ∃ q : ℚ, |(q : ℝ) - Real.sin (2 * Real.pi * (n / 16384))| ≤ 1 / 16777216 := by
    intro n
    obtain ⟨q, h1, h2⟩ := exists_rat_btwn (show Real.sin (2 * Real.pi * (n / 16384)) - 1 / 16777216 < Real.sin (2 * Real.pi * (n / 16384)) by linarith)
    exact ⟨q, by rw [abs_le]; constructor <;> linarith⟩
  choose q hq using hq
  refine ⟨⟨(List.range 16384).map (fun n => rnd 24 (-149) (q n)), []⟩, by simp, ?_, ?_⟩
  · intro x hx
    simp only [List.mem_map] at hx
    obtain ⟨n, _, e⟩ := hx
    rw [← e]
    exact rep_rnd (by norm_num) _
  · intro n hn
    rw [List.getD_eq_getElem?_getD, List.getElem?_map, List.getElem?_range hn, Option.map_some, Option.getD_some]
    have b : |q n| < pow2 1 := by
      have h1 := hq n
      have h2 := Real.sin_le_one (2 * Real.pi * (n / 16384))
      have h3 := Real.neg_one_le_sin (2 * Real.pi * (n / 16384))
      rw [abs_le] at h1
      have : |((q n : ℚ) : ℝ)| < ((2 : ℚ) : ℝ) := by
        rw [abs_lt]
        push_cast
        constructor <;> linarith
      rw [← Rat.cast_abs, Rat.cast_lt] at this
      rw [show pow2 1 = 2 by decide +kernel]
      exact this
    have h := rnd_err (p := 24) (emin := -149) b (by norm_num)
    rw [show pow2 (1 - ((24 : Nat) : Int) - 1) = 1 / 16777216 by decide +kernel] at h
    have h' : |((rnd 24 (-149) (q n) : ℚ) : ℝ) - q n| ≤ 1 / 16777216 := by
      have := (Rat.cast_le (K := ℝ)).2 h
      rw [Rat.cast_abs] at this
      push_cast at this
      exact this
    have := abs_sub_le ((rnd 24 (-149) (q n) : ℚ) : ℝ) (q n) (Real.sin (2 * Real.pi * (n / 16384)))
    have := hq n
    linarith

/-! ## What does not hold -/

theorem rnd_nonpos' {p : Nat} (hp : 1 ≤ p) {emin : Int} {x : ℚ} (h : x ≤ 0) : rnd p emin x ≤ 0 := by
  have := rnd_le hp (emin := emin) h
  rwa [rnd_zero] at this

theorem phaseInc_nonpos {f m : ℚ} (hm : 0 ≤ m) (hf : f ≤ 0) : phaseInc f m = 0 := by
  have : rnd64 (f * m) ≤ 0 := rnd_nonpos' (by norm_num) (mul_nonpos_of_nonpos_of_nonneg hf hm)
  have : ⌊rnd64 (f * m)⌋ ≤ 0 := by
    have h := Int.floor_mono this
    simpa using h
  unfold phaseInc asU32
  omega

theorem phaseMult_nonneg (sr : Nat) : 0 ≤ phaseMult sr := by
  unfold phaseMult
  refine rnd_nonneg (mul_nonneg (rnd_nonneg ?_) (rnd_nonneg ?_))
  · decide +kernel
  · positivity

/-- C84 is false for frequencies below zero, which frequency modulation produces: whatever the sample rate, instead of running backwards
the oscillator stands still, and every frame is the same. -/
theorem C84_negative_violated {p : Nat} {emin : Int} (hp : Fmt p emin) (t : Table) (ht : t.buf.length = 16384) (s : SinWt) (sr : Nat) (x : ℚ) (hx : x < 0)
    (s1 : SinWt) (h1 : s1 = (s.init (rnd p emin) sr).setFreq (rnd p emin) x) :
    ∃ v, s1.next (rnd p emin) t = .ok (s1, v) := by
  have hi : s1.inc = 0 := by
    rw [h1]
    exact phaseInc_nonpos (phaseMult_nonneg sr) (rnd_nonpos' hp.p1 hx.le)
  have hph : s1.phase = 0 := by rw [h1]; rfl
  refine ⟨rnd p emin (t.buf.getD (position (addPhase s1.phase s1.offset)) 0), ?_⟩
  simp only [SinWt.next, C44_bounds t ht, bind_ok, pure_ok]
  have : addPhase s1.phase s1.inc = s1.phase := by rw [hi, hph]; rfl
  rw [this]

/-- C84 is false for the phase offset, which is documented to go from zero to one: it moves the phase by at most `2 ^ 16`, one sample of
the table, and half a turn is not `2 ^ 29` but `2 ^ 15`. -/
theorem C84_offset_violated (s : SinWt) :
    (∀ x, x ≤ 1 → (s.setOffset x).offset ≤ 65536) ∧ (s.setOffset (1 / 2)).offset = 32768 := by
  refine ⟨fun x hx => ?_, ?_⟩
  · have h : rnd64 (x * Os.fractionalPart) ≤ rnd64 65536 := rnd_le (by norm_num) (by
      show x * ((65536 : Nat) : ℚ) ≤ 65536
      push_cast
      linarith)
    rw [show rnd64 65536 = 65536 by decide +kernel] at h
    have h2 : ⌊rnd64 (x * Os.fractionalPart)⌋ ≤ 65536 := by
      have := Int.floor_mono h
      rwa [show ⌊(65536 : ℚ)⌋ = 65536 by decide +kernel] at this
    simp only [SinWt.setOffset, asU32]
    omega
  · simp only [SinWt.setOffset]
    decide +kernel

/-- C84 is false for slow modulation as a ratio: at 48 kHz an oscillator of `1 / 1024` Hz goes forward by 21 units instead of 21.8, so
that when it should have finished its cycle, after 1024 seconds, it has not. -/
theorem C84_slow_violated : phaseInc (1 / 1024) (phaseMult 48000) = 21 ∧ 21 * (1024 * 48000) < 1073741824 * 97 / 100 :=
  ⟨by decide +kernel, by decide⟩

/-- Below `sr / 2 ^ 30` it stands still. -/
theorem C84_stuck_violated : phaseInc (1 / 32768) (phaseMult 48000) = 0 := by decide +kernel

/-- C84 is false from four times the sample rate: at five and a quarter times the sample rate a sampled sine goes forward by a quarter of a
cycle, the oscillator goes backwards by `2 ^ -30` of one. -/
theorem C84_high_violated : phaseInc 252000 (phaseMult 48000) = 4294967295 ∧ 1073741824 * 252000 / 48000 % 1073741824 = 268435456 :=
  ⟨by decide +kernel, by decide⟩

/-- C84 is false for `OscWt`: its `init` does not calculate the increment again, so that a frequency set before it is played at the wrong
rate: not at all if there was no earlier `init`, and at the old sample rate otherwise. -/
theorem C84_osc_init_violated (s : SinWt) (sr : Nat) :
    (s.initOsc sr).inc = s.inc ∧ (∀ (fl : ℚ → ℚ) x, (((SinWt.new 0).setFreq fl x).initOsc sr).inc = 0) ∧
      ((((SinWt.new 0).initOsc 48000).setFreq rnd32 440).initOsc 96000).inc = 2 * (((SinWt.new 440).init rnd32 96000)).inc + 1 := by
  refine ⟨rfl, ?_, by decide +kernel⟩
  intro fl x
  show phaseInc (fl x) 0 = 0
  exact phaseInc_nonpos le_rfl (le_refl _) |> fun h => by
    unfold phaseInc at h ⊢
    rw [mul_zero] at h ⊢
    exact h

end Verif.Fl
