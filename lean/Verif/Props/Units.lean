import Verif.Model.Units
import Verif.Props.Wrappers
import Verif.Props.Wavetable
import Mathlib.Analysis.SpecialFunctions.Trigonometric.Basic

/-!
# C66: the small unit generators, and C34 for the units with a block processing of their own
-/

namespace Verif.Un

open Verif.W (UGen Frame Block Lawful frames toBlock)

/-! ### C34 -/

section
variable {S V : Type}

theorem slice_length (old : Old S) (c n : Nat) : (old.slice c n).length = n := by simp [Old.slice]

theorem frames_const (s : S) (old : Old S) : ∀ xs : List Unit, frames (constant old).frame s xs =
    (s, xs.map fun _ => fun _ => s)
  | [] => rfl
  | x :: xs => by
    have := frames_const s old xs
    simp only [frames, List.map_cons]
    rw [show ((constant old).frame s x).1 = s from rfl, this]
    rfl

theorem const_block (s : S) (old : Old S) (c : Fin 1) (xs : List Unit) :
    (old.slice c xs.length).map (fun _ => s) = toBlock (xs.map fun _ => fun _ : Fin 1 => s) c := by
  unfold toBlock
  apply List.ext_getElem
  · simp [slice_length]
  · intro i h1 h2
    simp

/-- C34: `Constant`. -/
theorem C34_constant (old : Old S) : Lawful (constant old) := by
  intro s xs
  have h := frames_const (s : S) old xs
  refine Prod.ext (congrArg Prod.fst h).symm (funext fun c => ?_)
  refine Eq.trans ?_ (congrArg (fun r : S × List (Frame S 1) => toBlock r.2 c) h).symm
  exact const_block (s : S) old c xs

theorem apply2_spec (f : S → S → S) : ∀ (as bs os : List S), as.length = os.length → bs.length = os.length →
    apply2 f as bs os = List.zipWith f as bs
  | [], [], [], _, _ => rfl
  | a :: as, b :: bs, o :: os, h1, h2 => by
    simp only [apply2, List.zipWith_cons_cons]
    rw [apply2_spec f as bs os (by simpa using h1) (by simpa using h2)]
  | [], b :: bs, [], _, h2 => by simp at h2
  | a :: as, _, [], h1, _ => by simp at h1
  | [], _, o :: os, h1, _ => by simp at h1
  | a :: as, [], o :: os, _, h2 => by simp at h2

theorem apply1_spec (f : S → S) : ∀ (as os : List S), as.length = os.length → apply1 f as os = as.map f
  | [], [], _ => rfl
  | a :: as, o :: os, h1 => by
    simp only [apply1, List.map_cons]
    rw [apply1_spec f as os (by simpa using h1)]
  | [], o :: os, h1 => by simp at h1
  | a :: as, [], h1 => by simp at h1

theorem frames_stateless {I : Type} {outs : Nat} (g : I → Frame S outs) (u : UGen I S V outs) (hst : ∀ s x, u.frame s x = (s, g x)) :
    ∀ (xs : List I) (s : u.St), frames u.frame s xs = (s, xs.map g)
  | [], s => rfl
  | x :: xs, s => by
    simp only [frames, List.map_cons, hst]
    rw [frames_stateless g u hst xs s]

/-- C34: `MathUGen`, for any operation and number of channels, whatever was in the output before. -/
theorem C34_mathU (f : S → S → S) (z : S) (n : Nat) (old : Old S) : Lawful (mathU (V := V) f z n old) := by
  intro s xs
  rw [frames_stateless (fun x c => f (x c) (x (c + n))) _ (fun s x => rfl)]
  refine Prod.ext rfl (funext fun c => ?_)
  simp only [toBlock, List.map_map]
  change apply2 f _ _ _ = _
  rw [apply2_spec _ _ _ _ (by simp [slice_length]) (by simp [slice_length])]
  rw [List.zipWith_map_left, List.zipWith_map_right, List.zipWith_self]
  rfl

/-- C34: `Math1UGen`. -/
theorem C34_math1U (f : S → S) (z : S) (old : Old S) : Lawful (math1U (V := V) f z old) := by
  intro s xs
  rw [frames_stateless (fun x _ => f x) _ (fun s x => rfl)]
  refine Prod.ext rfl (funext fun c => ?_)
  simp only [toBlock, List.map_map]
  change apply1 f _ _ = _
  rw [apply1_spec _ _ _ (by simp [slice_length])]
  rfl

theorem fillWith_frames {σ : Type} (next : σ → σ × S) (apply : σ → Nat → V → σ) (old : Old S) :
    ∀ (xs : List Unit) (os : List S) (s : σ), os.length = xs.length →
    frames (nextU next apply old).frame s xs = ((fillWith next s os).1, (fillWith next s os).2.map fun v _ => v)
  | [], [], s, _ => rfl
  | x :: xs, o :: os, s, h => by
    have ih := fillWith_frames next apply old xs os (next s).1 (by simpa using h)
    simp only [frames, fillWith, List.map_cons]
    rw [show ((nextU next apply old).frame s x).1 = (next s).1 from rfl, ih]
    rfl
  | [], o :: os, s, h => by simp at h
  | x :: xs, [], s, h => by simp at h

theorem fillWith_slice {σ : Type} (next : σ → σ × S) : ∀ (os os' : List S) (s : σ), os.length = os'.length →
    fillWith next s os = fillWith next s os'
  | [], [], s, _ => rfl
  | o :: os, o' :: os', s, h => by
    simp only [fillWith]
    rw [fillWith_slice next os os' _ (by simpa using h)]
  | [], o :: os, s, h => by simp at h
  | x :: xs, [], s, h => by simp at h

theorem toBlock_mono (l : List S) (c : Fin 1) : l = toBlock (l.map fun v (_ : Fin 1) => v) c := by
  unfold toBlock
  rw [List.map_map]
  exact (List.map_id _).symm

/-- C34: every unit whose block processing calls the same function once for each frame, in order. -/
theorem C34_nextU {σ : Type} (next : σ → σ × S) (apply : σ → Nat → V → σ) (old : Old S) :
    Lawful (nextU next apply old) := by
  intro s xs
  have h := fillWith_frames next apply old xs (old.slice 0 xs.length) s (by rw [slice_length])
  refine Prod.ext (congrArg Prod.fst h).symm (funext fun c => ?_)
  refine Eq.trans ?_ (congrArg (fun r : σ × List (Frame S 1) => toBlock r.2 c) h).symm
  have e := fillWith_slice next (old.slice c xs.length) (old.slice 0 xs.length) s (by rw [slice_length, slice_length])
  exact (congrArg Prod.snd e).trans (toBlock_mono _ c)

end

/-- C34: the wavetable oscillators. -/
theorem C34_wavetable (t : Os.Table) (ts : List Os.Table) (sr : Nat) (old : Old (R Rat)) :
    Lawful (sinWt t sr old) ∧ Lawful (oscWt ts sr old) :=
  ⟨C34_nextU _ _ _, C34_nextU _ _ _⟩

/-- C34: the envelopes. -/
theorem C34_envelopes (sr : Nat) (old : Old Rat) : Lawful (envAsr sr old) ∧ Lawful (envAr sr old) :=
  ⟨C34_nextU _ _ _, C34_nextU _ _ _⟩

-- an envelope that was triggered does something in a block
example : ((envAr 4 fun _ _ => 7).block ((envAr 4 fun _ _ => 7).apply ((Env.Ar.new (1 / 2) 1).init 4) 2 0)
    [(), (), (), ()]).2 0 = [0, 1 / 2, 1, 27 / 64] := by decide +kernel

-- the operations: subtraction in two channels, whatever was in the output
example : ((mathU (V := Unit) (fun a b : Int => a - b) 0 2 fun _ _ => 99).block ()
    [fun c => [5, 6, 1, 2].getD c 0, fun c => [7, 8, 3, 3].getD c 0]).2 1 = [4, 5] := by decide

/-! ### `DoneOnTrig` -/

/-- C66, `DoneOnTrig`: frame by frame, a frame is marked done if and only if there was a trigger before it. -/
theorem C66_done (ops : List TrigOp) : ∀ t : Bool, trigRun t ops =
    (List.range ops.length).filterMap fun i =>
      if ops[i]? = some .frame then some (t || decide (TrigOp.trig ∈ ops.take i)) else none := by
  induction ops with
  | nil => intro t; rfl
  | cons o ops ih =>
    intro t
    rw [List.length_cons, List.range_succ_eq_map, List.filterMap_cons, List.filterMap_map]
    cases o with
    | trig =>
      simp only [trigRun, ih]
      simp only [List.getElem?_cons_zero, reduceCtorEq, Option.some.injEq, if_false]
      apply List.filterMap_congr
      intro i _
      simp only [Function.comp, List.getElem?_cons_succ, List.take_succ_cons]
      split <;> simp
    | frame =>
      simp only [trigRun, ih]
      simp only [List.getElem?_cons_zero, if_true, List.take_zero, List.not_mem_nil, decide_false, Bool.or_false]
      congr 1
      apply List.filterMap_congr
      intro i _
      simp only [Function.comp, List.getElem?_cons_succ, List.take_succ_cons]
      split <;> simp

example : trigRun false [.frame, .trig, .frame, .frame] = [false, true, true] := rfl

/-! ### `LogProbe` -/

theorem mem_probeRun (sr k : Nat) : ∀ n counter i : Nat,
    k ∈ probeRun sr counter i n ↔ k < i + n ∧ ∃ j, k = i + counter + j * (sr + 1)
  | 0, counter, i => by
    simp only [probeRun, List.not_mem_nil, Nat.add_zero, false_iff, not_and]
    rintro h ⟨j, hj⟩
    have : 0 ≤ j * (sr + 1) := Nat.zero_le _
    omega
  | n + 1, counter, i => by
    unfold probeRun
    simp only [probeStep]
    by_cases h : counter = 0
    · subst h
      simp only [if_true, List.cons_append, List.nil_append, List.mem_cons, mem_probeRun sr k n]
      constructor
      · rintro (rfl | ⟨h1, j, h2⟩)
        · exact ⟨by omega, 0, by omega⟩
        · refine ⟨by omega, j + 1, ?_⟩
          rw [Nat.add_mul]
          omega
      · rintro ⟨h1, j, h2⟩
        cases j with
        | zero => left; omega
        | succ j =>
          right
          refine ⟨by omega, j, ?_⟩
          rw [Nat.add_mul] at h2
          omega
    · simp only [h, if_false, Bool.false_eq_true, List.nil_append, mem_probeRun sr k n]
      constructor
      · rintro ⟨h1, j, h2⟩
        exact ⟨by omega, j, by omega⟩
      · rintro ⟨h1, j, h2⟩
        exact ⟨by omega, j, by omega⟩

theorem probeRun_sorted (sr : Nat) : ∀ n counter i : Nat,
    (probeRun sr counter i n).Pairwise (· < ·) ∧ ∀ k ∈ probeRun sr counter i n, i ≤ k
  | 0, counter, i => by simp [probeRun]
  | n + 1, counter, i => by
    obtain ⟨h1, h2⟩ := probeRun_sorted sr n (probeStep sr counter).1 (i + 1)
    unfold probeRun
    simp only
    split
    · refine ⟨?_, ?_⟩
      · rw [List.singleton_append, List.pairwise_cons]
        exact ⟨fun k hk => h2 k hk, h1⟩
      · intro k hk
        rcases List.mem_cons.1 hk with rfl | hk
        · exact le_refl _
        · have := h2 k hk
          omega
    · rw [List.nil_append]
      exact ⟨h1, fun k hk => by have := h2 k hk; omega⟩

/-- C66, `LogProbe`: exactly the multiples of the sample rate plus one are logged, each once and in order. -/
theorem C66_probe_partial (sr n : Nat) : (probe sr n).Pairwise (· < ·) ∧
    ∀ k, k ∈ probe sr n ↔ k < n ∧ (sr + 1) ∣ k := by
  refine ⟨(probeRun_sorted sr n 0 0).1, fun k => ?_⟩
  unfold probe
  rw [mem_probeRun]
  simp only [Nat.zero_add]
  constructor
  · rintro ⟨h1, j, h2⟩
    exact ⟨h1, j, by rw [h2, Nat.mul_comm]⟩
  · rintro ⟨h1, j, h2⟩
    exact ⟨h1, j, by rw [h2, Nat.mul_comm]⟩

/-- C66 violated: said to log every `N` samples, with `N` the sample rate, the probe is one sample late every time. -/
theorem C66_probe_violated (sr : Nat) (h : 0 < sr) : ∃ n k, ¬ (k ∈ probe sr n ↔ k < n ∧ sr ∣ k) := by
  refine ⟨sr + 1, sr, fun hk => ?_⟩
  have h1 := (C66_probe_partial sr (sr + 1)).2 sr
  have h2 := h1.1 (hk.2 ⟨by omega, dvd_refl _⟩)
  have := Nat.le_of_dvd h h2.2
  omega

example : probe 3 10 = [0, 4, 8] := rfl

/-! ### `SafetyLimiter` -/

/-- C66, `SafetyLimiter`: the output is a number between -1 and 1, numbers in that range pass unchanged, what is not a
number becomes 0 and everything else the nearer end of the range. -/
theorem C66_limiter (x : Fl) : (∃ y : Rat, limit x = .fin y ∧ -1 ≤ y ∧ y ≤ 1) ∧
    (∀ y : Rat, x = .fin y → -1 ≤ y → y ≤ 1 → limit x = .fin y) ∧
    (x = .nan → limit x = .fin 0) ∧
    (x = .posInf ∨ (∃ y : Rat, x = .fin y ∧ 1 < y) → limit x = .fin 1) ∧
    (x = .negInf ∨ (∃ y : Rat, x = .fin y ∧ y < -1) → limit x = .fin (-1)) := by
  cases x with
  | nan => simp [limit, Fl.clamp, Fl.lt]
  | posInf => simp [limit, Fl.clamp, Fl.lt]
  | negInf => simp [limit, Fl.clamp, Fl.lt]
  | fin y =>
    have key : limit (.fin y) = .fin (if y < -1 then -1 else if 1 < y then 1 else y) := by
      simp only [limit, Fl.clamp, Fl.lt, decide_eq_true_eq]
      split_ifs <;> simp_all
    rw [key]
    refine ⟨⟨_, rfl, ?_, ?_⟩, ?_, by simp, ?_, ?_⟩
    · split_ifs <;> linarith
    · split_ifs <;> linarith
    · rintro z hz h1 h2
      simp only [Fl.fin.injEq] at hz ⊢
      subst hz
      rw [if_neg (not_lt.2 h1), if_neg (not_lt.2 h2)]
    · rintro (h | ⟨z, hz, h⟩)
      · simp at h
      · simp only [Fl.fin.injEq] at hz ⊢
        subst hz
        rw [if_neg (by linarith), if_pos h]
    · rintro (h | ⟨z, hz, h⟩)
      · simp at h
      · simp only [Fl.fin.injEq] at hz ⊢
        subst hz
        rw [if_pos h]

example : limit (.fin (1 / 2)) = .fin (1 / 2) ∧ limit .nan = .fin 0 ∧ limit (.fin 3) = .fin 1 := by decide +kernel

/-! ### `Pan2` -/

/-- The real functions. -/
noncomputable def realFns : Fns ℝ := ⟨Real.sin, Real.cos, Real.pi⟩

/-- C66, `Pan2` with exact functions: the power of the two outputs together is the power of the input, hard left and hard
right give one output only, the centre gives equal outputs, and opposite positions give exchanged outputs. -/
theorem C66_pan (pan x : ℝ) :
    (pan2 realFns (panPos pan) x).1 ^ 2 + (pan2 realFns (panPos pan) x).2 ^ 2 = x ^ 2 ∧
    pan2 realFns (panPos (-1)) x = (x, 0) ∧ pan2 realFns (panPos 1) x = (0, x) ∧
    (pan2 realFns (panPos 0) x).1 = (pan2 realFns (panPos 0) x).2 ∧
    pan2 realFns (panPos (-pan)) x = ((pan2 realFns (panPos pan) x).2, (pan2 realFns (panPos pan) x).1) := by
  have swap : ∀ p : ℝ, pan2 realFns (panPos (-p)) x =
      ((pan2 realFns (panPos p) x).2, (pan2 realFns (panPos p) x).1) := by
    intro p
    simp only [pan2, panPos, realFns]
    have e : (-p * (1 / 2) + 1 / 2) * (Real.pi / 2) = Real.pi / 2 - (p * (1 / 2) + 1 / 2) * (Real.pi / 2) := by ring
    rw [e, Real.cos_pi_div_two_sub, Real.sin_pi_div_two_sub]
  refine ⟨?_, ?_, ?_, ?_, swap pan⟩
  · simp only [pan2, realFns]
    have := Real.sin_sq_add_cos_sq (panPos pan * (Real.pi / 2))
    calc (x * Real.cos (panPos pan * (Real.pi / 2))) ^ 2 + (x * Real.sin (panPos pan * (Real.pi / 2))) ^ 2 =
        x ^ 2 * (Real.sin (panPos pan * (Real.pi / 2)) ^ 2 + Real.cos (panPos pan * (Real.pi / 2)) ^ 2) := by ring
      _ = x ^ 2 := by rw [this, mul_one]
  · simp only [pan2, panPos, realFns]
    norm_num
  · simp only [pan2, panPos, realFns]
    norm_num
  · have := swap 0
    rw [neg_zero] at this
    exact congrArg Prod.fst this

/-- C66, `Pan2` with approximations of the functions that are wrong by at most `e`: the power is right up to
`4 e + 2 e²` of the power of the input. -/
theorem C66_pan_approx (F : Fns ℝ) (hpi : F.pi = Real.pi) (e : ℝ)
    (hs : ∀ a, 0 ≤ a → a ≤ Real.pi / 2 → |F.sin a - Real.sin a| ≤ e)
    (hc : ∀ a, 0 ≤ a → a ≤ Real.pi / 2 → |F.cos a - Real.cos a| ≤ e) (pan x : ℝ) (h1 : -1 ≤ pan) (h2 : pan ≤ 1) :
    |(pan2 F (panPos pan) x).1 ^ 2 + (pan2 F (panPos pan) x).2 ^ 2 - x ^ 2| ≤ (4 * e + 2 * e ^ 2) * x ^ 2 := by
  simp only [pan2, hpi]
  have hp := Real.pi_pos
  have ha0 : 0 ≤ panPos pan * (Real.pi / 2) := by
    unfold panPos
    exact mul_nonneg (by linarith) (by linarith)
  have ha1 : panPos pan * (Real.pi / 2) ≤ Real.pi / 2 := by
    have : panPos pan ≤ 1 := by unfold panPos; linarith
    exact mul_le_of_le_one_left (by linarith) this
  generalize panPos pan * (Real.pi / 2) = a at ha0 ha1
  have es := hs a ha0 ha1
  have ec := hc a ha0 ha1
  have he : 0 ≤ e := le_trans (abs_nonneg _) es
  have sq : ∀ u v : ℝ, |v| ≤ 1 → |u - v| ≤ e → |u ^ 2 - v ^ 2| ≤ 2 * e + e ^ 2 := by
    intro u v hv hu
    have : u ^ 2 - v ^ 2 = (u - v) * (u - v) + 2 * v * (u - v) := by ring
    rw [this]
    refine le_trans (abs_add_le _ _) ?_
    rw [abs_mul, abs_mul, abs_mul, abs_two]
    have h3 : |u - v| * |u - v| ≤ e * e := mul_le_mul hu hu (abs_nonneg _) he
    have h4 : 2 * |v| * |u - v| ≤ 2 * 1 * e :=
      mul_le_mul (by linarith) hu (abs_nonneg _) (by norm_num)
    nlinarith
  have q1 := sq _ _ (Real.abs_sin_le_one a) es
  have q2 := sq _ _ (Real.abs_cos_le_one a) ec
  have one := Real.sin_sq_add_cos_sq a
  have e1 : (x * F.cos a) ^ 2 + (x * F.sin a) ^ 2 - x ^ 2 =
      ((F.sin a ^ 2 - Real.sin a ^ 2) + (F.cos a ^ 2 - Real.cos a ^ 2)) * x ^ 2 := by
    have : x ^ 2 = (Real.sin a ^ 2 + Real.cos a ^ 2) * x ^ 2 := by rw [one, one_mul]
    linear_combination -this
  rw [e1, abs_mul, abs_of_nonneg (sq_nonneg x)]
  refine mul_le_mul_of_nonneg_right ?_ (sq_nonneg x)
  refine le_trans (abs_add_le _ _) ?_
  linarith

-- the exact functions meet the hypotheses of `C66_pan_approx`
example : ∀ a, 0 ≤ a → a ≤ Real.pi / 2 → |realFns.sin a - Real.sin a| ≤ 0 := by simp [realFns]

/-! ### `SinNumeric` -/

/-- What `SinNumeric` should do: the frequency, offset and phase (in periods, never wrapped) and the output. -/
noncomputable def sinSpec (sr : Nat) : ℝ → ℝ → ℝ → List (SinOp ℝ) → List ℝ
  | _, _, _, [] => []
  | _, o, p, .freq f :: ops => sinSpec sr f o p ops
  | f, _, p, .offset o :: ops => sinSpec sr f o p ops
  | f, o, _, .reset :: ops => sinSpec sr f o 0 ops
  | f, o, p, .frame :: ops => Real.sin (2 * Real.pi * (p + o)) :: sinSpec sr f o (p + f / sr) ops

theorem sin_run (sr : Nat) : ∀ (ops : List (SinOp ℝ)) (s : Sin ℝ) (f p : ℝ) (k : Int), s.inc = f / sr → s.phase = p - k →
    (s.run realFns sr ops).2 = sinSpec sr f s.offset p ops
  | [], s, f, p, k, _, _ => rfl
  | .freq g :: ops, s, f, p, k, hi, hp => by
    simp only [Sin.run, sinSpec]
    exact sin_run sr ops (s.freq sr g) g p k rfl hp
  | .offset o :: ops, s, f, p, k, hi, hp => by
    simp only [Sin.run, sinSpec]
    exact sin_run sr ops (s.phaseOffset o) f p k hi hp
  | .reset :: ops, s, f, p, k, hi, hp => by
    simp only [Sin.run, sinSpec]
    exact sin_run sr ops s.reset f 0 0 hi (by simp [Sin.reset])
  | .frame :: ops, s, f, p, k, hi, hp => by
    simp only [Sin.run, sinSpec, Sin.process]
    have e : realFns.sin ((s.phase + s.offset) * (2 * realFns.pi)) = Real.sin (2 * Real.pi * (p + s.offset)) := by
      simp only [realFns]
      rw [hp, show (p - k + s.offset) * (2 * Real.pi) = 2 * Real.pi * (p + s.offset) - k * (2 * Real.pi) by ring,
        Real.sin_sub_int_mul_two_pi]
    rw [e]
    congr 1
    by_cases h : 1 < s.phase + s.inc
    · simp only [if_pos h]
      exact sin_run sr ops { s with phase := s.phase + s.inc - 1 } f (p + f / sr) (k + 1) hi
        (by simp only; rw [hp, hi]; push_cast; ring)
    · simp only [if_neg h]
      exact sin_run sr ops { s with phase := s.phase + s.inc } f (p + f / sr) k hi (by simp only; rw [hp, hi]; ring)

/-- C66, `SinNumeric` over the real numbers: created and initialised, under every history of parameter changes and
frames, the output is the sine of the exact phase.  (`init` takes a new unit; see `C66_sine_init_violated`.) -/
theorem C66_sine_partial (f : ℝ) (sr : Nat) (ops : List (SinOp ℝ)) :
    (((Sin.new f).init sr).run realFns sr ops).2 = sinSpec sr f 0 0 ops := by
  refine sin_run sr ops _ f 0 0 ?_ ?_
  · simp [Sin.init, Sin.new]
  · simp [Sin.init]

/-- A frequency other than zero that is set before `init` is the one that is played. -/
theorem C66_sine_before_init (f g : ℝ) (hg : g ≠ 0) (sr : Nat) (hsr : 0 < sr) (ops : List (SinOp ℝ)) :
    ((((Sin.new f).freq sr g).init sr).run realFns sr ops).2 = sinSpec sr g 0 0 ops := by
  have hs : (sr : ℝ) ≠ 0 := by exact_mod_cast hsr.ne'
  refine sin_run sr ops _ g 0 0 ?_ ?_
  · exact if_neg (div_ne_zero hg hs)
  · simp [Sin.init]

/-- The phase stays between 0 and 1 as long as all frequencies are between 0 and the sample rate. -/
theorem C66_sine_phase_partial (sr : Nat) (hsr : 0 < sr) : ∀ (ops : List (SinOp ℝ)) (s : Sin ℝ),
    0 ≤ s.inc ∧ s.inc ≤ 1 → 0 ≤ s.phase ∧ s.phase ≤ 1 → (∀ f, SinOp.freq f ∈ ops → 0 ≤ f ∧ f ≤ sr) →
    0 ≤ (s.run realFns sr ops).1.phase ∧ (s.run realFns sr ops).1.phase ≤ 1
  | [], s, _, hp, _ => hp
  | .freq g :: ops, s, hi, hp, h => by
    have hg := h g (by simp)
    have hs : (0 : ℝ) < sr := by exact_mod_cast hsr
    refine C66_sine_phase_partial sr hsr ops (s.freq sr g) ⟨?_, ?_⟩ hp (fun f hf => h f (by simp [hf]))
    · exact div_nonneg hg.1 hs.le
    · exact (div_le_one hs).2 hg.2
  | .offset o :: ops, s, hi, hp, h =>
    C66_sine_phase_partial sr hsr ops (s.phaseOffset o) hi hp (fun f hf => h f (by simp [hf]))
  | .reset :: ops, s, hi, hp, h =>
    C66_sine_phase_partial sr hsr ops s.reset hi (by simp [Sin.reset]) (fun f hf => h f (by simp [hf]))
  | .frame :: ops, s, hi, hp, h => by
    refine C66_sine_phase_partial sr hsr ops (s.process realFns).1 hi ?_ (fun f hf => h f (by simp [hf]))
    simp only [Sin.process]
    split
    · next h1 => exact ⟨by linarith, by linarith [hp.2, hi.2]⟩
    · next h1 => exact ⟨by linarith [hp.1, hi.1], not_lt.1 h1⟩

theorem frames_phase (sr : Nat) (c : ℝ) (h0 : c < 0) : ∀ (n : Nat) (s : Sin ℝ), s.inc = c → s.phase ≤ 1 →
    (s.run realFns sr (List.replicate n .frame)).1.phase = s.phase + n * c
  | 0, s, _, _ => by simp [Sin.run]
  | n + 1, s, hi, hp => by
    simp only [List.replicate_succ, Sin.run, Sin.process]
    have : ¬ 1 < s.phase + s.inc := by rw [hi]; linarith
    rw [if_neg this]
    have ih := frames_phase sr c h0 n { s with phase := s.phase + s.inc } hi (by simp only; rw [hi]; linarith)
    refine ih.trans ?_
    simp only
    rw [hi]
    push_cast
    ring

/-- C66 violated: with a negative frequency the phase is never wrapped and exceeds every bound, so with floats the
accuracy is lost. -/
theorem C66_sine_negative_violated (f : ℝ) (hf : f < 0) (sr : Nat) (hsr : 0 < sr) (B : ℝ) : ∃ n,
    (((Sin.new f).init sr).run realFns sr (List.replicate n .frame)).1.phase < B := by
  have hs : (0 : ℝ) < sr := by exact_mod_cast hsr
  have hc : f / sr < 0 := div_neg_of_neg_of_pos hf hs
  obtain ⟨n, hn⟩ := exists_nat_gt (B / (f / sr))
  refine ⟨n, ?_⟩
  rw [frames_phase sr (f / sr) hc n _ (by simp [Sin.init, Sin.new]) (by simp [Sin.init])]
  have : ((Sin.new f).init sr).phase = 0 := rfl
  rw [this, zero_add]
  rwa [div_lt_iff_of_neg hc] at hn

/-- C66 violated: a frequency of zero set before `init` is replaced by the one of the constructor. -/
theorem C66_sine_init_violated : (((Sin.new (440 : ℝ)).freq 44100 0).init 44100).inc ≠ 0 := by
  simp only [Sin.init, Sin.freq, Sin.new]
  norm_num

-- the hypotheses of `C66_sine_phase_partial` are met by a new unit
example : 0 ≤ ((Sin.new (440 : ℝ)).init 44100).inc ∧ ((Sin.new (440 : ℝ)).init 44100).inc ≤ 1 := by
  simp only [Sin.init, Sin.new]
  norm_num

end Verif.Un
