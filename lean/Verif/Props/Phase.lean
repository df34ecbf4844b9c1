import Verif.Model.Osc
import Mathlib.Tactic.Ring
import Mathlib.Tactic.Linarith
import Mathlib.Tactic.FieldSimp
import Mathlib.Algebra.Order.Archimedean.Basic

/-!
# C45: the phases of the phasor and of the band-limited oscillators
-/

namespace Verif.Os

/-! ### Specification -/

/-- The phase after a whole number of frames, given the increments of the frames: everything that has been added so far without
its whole part. -/
def specPhase (steps : List Rat) : Rat := Int.fract steps.sum

/-- The increments of the frames of a list of operations, given the increment before the first one: `f / sr` after setting the
frequency to `f`. -/
def steps (sr : Nat) : Rat → List PhOp → List Rat
  | _, [] => []
  | _, .freq f :: ops => steps sr (f / sr) ops
  | s, .frame :: ops => s :: steps sr s ops
  | s, .sync _ :: ops => steps sr s ops

/-- The frequencies that are set are not negative. -/
def freqsOk (ops : List PhOp) : Prop := ∀ f : Rat, .freq f ∈ ops → 0 ≤ f

/-- The phases that an oscillator is moved to are not negative whole numbers. -/
def syncsOk (ops : List PhOp) : Prop := ∀ p : Rat, .sync p ∈ ops → 0 ≤ p ∨ ¬ ∃ k : Int, p = k

/-! ### The phasor -/

theorem wrap_fract (n : Nat) : ∀ p : Rat, 0 ≤ p → ⌊p⌋.toNat = n → wrap p = Int.fract p := by
  induction n with
  | zero =>
    intro p h0 hn
    have hf : ⌊p⌋ = 0 := by
      have := Int.floor_nonneg.mpr h0
      omega
    have h1 : p < 1 := by
      have := Int.lt_floor_add_one p
      rw [hf] at this; simpa using this
    rw [wrap, if_neg (not_le.mpr h1)]
    exact (Int.fract_eq_self.mpr ⟨h0, h1⟩).symm
  | succ n ih =>
    intro p h0 hn
    have h1 : 1 ≤ p := by
      have h2 : (1 : Int) ≤ ⌊p⌋ := by omega
      have := Int.le_floor.mp h2
      exact_mod_cast this
    rw [wrap, if_pos h1, ih (p - 1) (by linarith) (by rw [Int.floor_sub_one]; omega)]
    exact Int.fract_sub_one p

theorem phasor_run (sr : Nat) (ops : List PhOp) : ∀ p : Phasor, p.mult = 1 / sr → 0 < sr → 0 ≤ p.phase → p.phase < 1 →
    0 ≤ p.step → freqsOk ops →
    (p.run ops).2 = (List.range (steps sr p.step ops).length).map
        (fun k => Int.fract (p.phase + ((steps sr p.step ops).take k).sum)) ∧
      (p.run ops).1.phase = Int.fract (p.phase + (steps sr p.step ops).sum) := by
  induction ops with
  | nil =>
    intro p _ _ h0 h1 _ _
    refine ⟨rfl, ?_⟩
    simp only [Phasor.run, steps, List.sum_nil, add_zero]
    exact (Int.fract_eq_self.mpr ⟨h0, h1⟩).symm
  | cons o ops ih =>
    intro p hm hs h0 h1 hst hf
    have hf' : freqsOk ops := fun f h => hf f (List.mem_cons_of_mem _ h)
    have hsr : (0 : Rat) < sr := by exact_mod_cast hs
    cases o with
    | sync q => exact ih p hm hs h0 h1 hst hf'
    | freq f =>
      have e : (p.freq f).step = f / sr := by
        have : p.mult ≠ 0 := by rw [hm]; positivity
        simp only [Phasor.freq, if_neg this]
        rw [hm]; ring
      have := ih (p.freq f) hm hs h0 h1 (by rw [e]; exact div_nonneg (hf f (by simp)) hsr.le) hf'
      rw [e] at this
      exact this
    | frame =>
      have hw : p.process.1.phase = Int.fract (p.phase + p.step) := wrap_fract _ _ (by linarith) rfl
      obtain ⟨e1, e2⟩ := ih p.process.1 hm hs (by rw [hw]; exact Int.fract_nonneg _) (by rw [hw]; exact Int.fract_lt_one _) hst hf'
      have hst' : p.process.1.step = p.step := rfl
      have hstep : ∀ x : Rat, Int.fract (Int.fract (p.phase + p.step) + x) = Int.fract (p.phase + (p.step + x)) := by
        intro x
        rw [show Int.fract (p.phase + p.step) = p.phase + p.step - (⌊p.phase + p.step⌋ : Int) from rfl,
          show p.phase + p.step - (⌊p.phase + p.step⌋ : Int) + x = p.phase + (p.step + x) - (⌊p.phase + p.step⌋ : Int) by ring,
          Int.fract_sub_intCast]
      rw [hw, hst'] at e1 e2
      simp only [hstep] at e1 e2
      constructor
      · simp only [Phasor.run, steps, e1, List.length_cons]
        rw [List.range_succ_eq_map, List.map_cons, List.map_map]
        have hp : p.process.2 = Int.fract (p.phase + ((p.step :: steps sr p.step ops).take 0).sum) := by
          simp only [List.take_zero, List.sum_nil, add_zero]
          exact (Int.fract_eq_self.mpr ⟨h0, h1⟩).symm
        rw [hp]
        congr 1
      · simp only [Phasor.run, steps, e2, List.sum_cons]

/-- C45 for the phasor, as far as it holds: with frequencies that are not negative, set at any time, frame `k` is the sum of the
increments of the frames before it without its whole part.  Missing: negative frequencies, for which it is false
(`C45_phasor_violated`). -/
theorem C45_phasor_partial (sr : Nat) (hs : 0 < sr) (f : Rat) (hf : 0 ≤ f) (ops : List PhOp) (ho : freqsOk ops) :
    (((Phasor.new f).init sr).run ops).2 =
      (List.range (steps sr (f / sr) ops).length).map (fun k => specPhase ((steps sr (f / sr) ops).take k)) := by
  have hsr : (0 : Rat) < sr := by exact_mod_cast hs
  have hm : (1 : Rat) / sr ≠ 0 := by positivity
  have e : ((Phasor.new f).init sr).step = f / sr := by
    simp only [Phasor.init, Phasor.new, Phasor.freq, if_neg hm]; ring
  have e0 : ((Phasor.new f).init sr).phase = 0 := rfl
  have := (phasor_run sr ops ((Phasor.new f).init sr) rfl hs le_rfl (by rw [e0]; norm_num)
    (by rw [e]; exact div_nonneg hf hsr.le) ho).1
  rw [this, e, e0]
  simp only [zero_add, specPhase]

/-- C45: a frequency that is set before the phasor is initialised, any number of times, is the one it starts with. -/
theorem C45_phasor_before_init (sr : Nat) (f g : Rat) (fs : List Rat) :
    ((fs ++ [g]).foldl Phasor.freq (Phasor.new f)).init sr = (Phasor.new g).init sr := by
  have h : ∀ (fs : List Rat) (p : Phasor), p.mult = 0 → p.phase = 0 →
      (fs.foldl Phasor.freq p).mult = 0 ∧ (fs.foldl Phasor.freq p).phase = 0 := by
    intro fs
    induction fs with
    | nil => intro p h0 h1; exact ⟨h0, h1⟩
    | cons x fs ih => intro p h0 h1; exact ih (p.freq x) h0 h1
  obtain ⟨h0, h1⟩ := h fs (Phasor.new f) rfl rfl
  rw [List.foldl_append]
  generalize fs.foldl Phasor.freq (Phasor.new f) = p at h0 h1
  obtain ⟨ph, st, mu⟩ := p
  obtain rfl : mu = 0 := h0
  obtain rfl : ph = 0 := h1
  simp [Phasor.freq, Phasor.init, Phasor.new]

/-- Every output of the phasor is in the range. -/
theorem C45_phasor_range_partial (sr : Nat) (hs : 0 < sr) (f : Rat) (hf : 0 ≤ f) (ops : List PhOp) (ho : freqsOk ops) :
    ∀ x ∈ (((Phasor.new f).init sr).run ops).2, 0 ≤ x ∧ x < 1 := by
  rw [C45_phasor_partial sr hs f hf ops ho]
  intro x hx
  obtain ⟨k, _, rfl⟩ := List.mem_map.mp hx
  exact ⟨Int.fract_nonneg _, Int.fract_lt_one _⟩

example : freqsOk [.frame, .freq 3, .frame, .frame] := by
  intro f h
  simp at h
  rw [h]; norm_num

example : steps 4 (1 / 4) [.frame, .freq 3, .frame, .frame] = [1 / 4, 3 / 4, 3 / 4] := by decide +kernel

/-- A phasor of a negative frequency leaves the range and never comes back: frame `k` is `k` times the step. -/
theorem phasor_negative (k : Nat) : ∀ p : Phasor, p.phase ≤ 0 → p.step < 0 →
    (p.run (List.replicate k .frame)).1.phase = p.phase + k * p.step := by
  induction k with
  | zero => intro p _ _; simp [Phasor.run]
  | succ k ih =>
    intro p h0 hs
    have hw : p.process.1.phase = p.phase + p.step := by
      simp only [Phasor.process]
      rw [wrap, if_neg (by linarith)]
    rw [List.replicate_succ]
    simp only [Phasor.run]
    rw [ih p.process.1 (by rw [hw]; linarith) hs, hw]
    simp only [Phasor.process]
    push_cast; ring

/-- C45 is false for negative frequencies: for every bound there is a number of frames after which the phase is below it. -/
theorem C45_phasor_violated (sr : Nat) (hs : 0 < sr) (f : Rat) (hf : f < 0) (b : Rat) :
    ∃ k : Nat, (((Phasor.new f).init sr).run (List.replicate k .frame)).1.phase < b := by
  have hsr : (0 : Rat) < sr := by exact_mod_cast hs
  have hm : (1 : Rat) / sr ≠ 0 := by positivity
  have e : ((Phasor.new f).init sr).step = f / sr := by
    simp only [Phasor.init, Phasor.new, Phasor.freq, if_neg hm]; ring
  have hneg : f / sr < 0 := div_neg_of_neg_of_pos hf hsr
  obtain ⟨k, hk⟩ := exists_nat_gt (b / (f / sr))
  refine ⟨k, ?_⟩
  rw [phasor_negative k _ le_rfl (by rw [e]; exact hneg), e]
  have e0 : ((Phasor.new f).init sr).phase = 0 := rfl
  rw [e0, zero_add]
  exact (div_lt_iff_of_neg hneg).mp hk

/-! ### The band-limited oscillators -/

theorem trunc_nonneg {x : Rat} (h : 0 ≤ x) : x - trunc x = Int.fract x := by
  simp only [trunc, if_pos h]; rfl

theorem blep_sync {p : Rat} (hp : 0 ≤ p ∨ ¬ ∃ k : Int, p = k) (b : Blep) : (b.sync p).t = Int.fract p := by
  simp only [Blep.sync]
  by_cases h : 0 ≤ p
  · rw [if_pos h, trunc_nonneg h]
  · have hk := hp.resolve_left h
    rw [if_neg h]
    simp only [trunc, if_neg h]
    have hc : ⌈p⌉ = ⌊p⌋ + 1 := by
      rw [Int.ceil_eq_iff]
      have h1 := Int.floor_le p
      have h2 := Int.lt_floor_add_one p
      push_cast
      refine ⟨?_, h2.le⟩
      rcases lt_or_eq_of_le h1 with h3 | h3
      · linarith
      · exact absurd ⟨_, h3.symm⟩ hk
    rw [hc]; push_cast
    simp only [Int.fract]; ring

/-- The phase of an oscillator according to the specification: operations move it without leaving the range. -/
def specBlep (sr : Nat) : Rat × Rat → PhOp → Rat × Rat
  | (t, dt), .frame => (Int.fract (t + dt), dt)
  | (t, _), .freq f => (t, f / sr)
  | (_, dt), .sync p => (Int.fract p, dt)

theorem blep_run (sr : Nat) (ops : List PhOp) : ∀ b : Blep, 0 ≤ b.t → b.t < 1 → 0 ≤ b.dt → freqsOk ops → syncsOk ops →
    0 ≤ (b.run sr ops).t ∧ (b.run sr ops).t < 1 ∧
      ((b.run sr ops).t, (b.run sr ops).dt) = ops.foldl (specBlep sr) (b.t, b.dt) := by
  induction ops with
  | nil => intro b h0 h1 _ _ _; exact ⟨h0, h1, rfl⟩
  | cons o ops ih =>
    intro b h0 h1 hd hf hs
    have hf' : freqsOk ops := fun f h => hf f (List.mem_cons_of_mem _ h)
    have hs' : syncsOk ops := fun f h => hs f (List.mem_cons_of_mem _ h)
    have hrun : b.run sr (o :: ops) = (b.op sr o).run sr ops := rfl
    rw [hrun, List.foldl_cons]
    cases o with
    | freq f =>
      exact ih (b.freq sr f) h0 h1 (div_nonneg (hf f (by simp)) (Nat.cast_nonneg _)) hf' hs'
    | frame =>
      have e : b.inc.t = Int.fract (b.t + b.dt) := trunc_nonneg (by linarith)
      have := ih b.inc (by rw [e]; exact Int.fract_nonneg _) (by rw [e]; exact Int.fract_lt_one _) hd hf' hs'
      rw [e] at this
      exact this
    | sync p =>
      have e := blep_sync (hs p (by simp)) b
      have := ih (b.sync p) (by rw [e]; exact Int.fract_nonneg _) (by rw [e]; exact Int.fract_lt_one _) hd hf' hs'
      rw [e] at this
      exact this

/-- C45 for the band-limited oscillators, as far as it holds: with frequencies that are not negative, and unless the oscillator
is moved to a negative whole number, the phase stays in the range and is the one of the specification.  Missing: the excluded
values, for which it is false (`C45_blep_freq_violated`, `C45_blep_sync_violated`). -/
theorem C45_blep_partial (sr : Nat) (f : Rat) (hf : 0 ≤ f) (ops : List PhOp) (ho : freqsOk ops) (hs : syncsOk ops) :
    0 ≤ ((Blep.init sr f).run sr ops).t ∧ ((Blep.init sr f).run sr ops).t < 1 ∧
      (((Blep.init sr f).run sr ops).t, ((Blep.init sr f).run sr ops).dt) = ops.foldl (specBlep sr) (0, f / sr) :=
  blep_run sr ops _ le_rfl (by simp [Blep.init]) (div_nonneg hf (Nat.cast_nonneg _)) ho hs

example : syncsOk [.frame, .sync (-1 / 2), .frame, .sync 3] := by
  intro p h
  simp at h
  rcases h with h | h
  · right
    rintro ⟨k, hk⟩
    rw [h] at hk
    have h2 : (2 * k : Rat) = -1 := by rw [← hk]; norm_num
    have h3 : 2 * k = -1 := by exact_mod_cast h2
    omega
  · left; rw [h]; norm_num

/-- C45 is false when an oscillator is moved to a negative whole number: the phase becomes 1. -/
theorem C45_blep_sync_violated (b : Blep) (n : Nat) : (b.sync (-(n + 1 : Nat))).t = 1 := by
  have hneg : ¬ (0 : Rat) ≤ -(n + 1 : Nat) := by
    push_cast
    have : (0 : Rat) ≤ n := Nat.cast_nonneg n
    linarith
  simp only [Blep.sync, if_neg hneg, trunc]
  have : ⌈(-(n + 1 : Nat) : Rat)⌉ = -(n + 1 : Nat) := by exact_mod_cast Int.ceil_intCast (R := Rat) (-(n + 1 : Nat))
  rw [this]; push_cast; ring

/-- C45 is false for negative frequencies: the very first increment leaves the range. -/
theorem C45_blep_freq_violated (sr : Nat) (hs : 0 < sr) (f : Rat) (hf : f < 0) (h1 : -(sr : Rat) < f) :
    ((Blep.init sr f).run sr [.frame]).t < 0 := by
  have hsr : (0 : Rat) < sr := by exact_mod_cast hs
  have hneg : f / sr < 0 := div_neg_of_neg_of_pos hf hsr
  have hgt : -1 < f / sr := by rw [lt_div_iff₀ hsr]; linarith
  simp only [Blep.run, List.foldl, Blep.op, Blep.inc, Blep.init, zero_add, trunc, if_neg (not_le.mpr hneg)]
  have : ⌈f / (sr : Rat)⌉ = 0 := by
    rw [Int.ceil_eq_iff]; push_cast
    exact ⟨by linarith, hneg.le⟩
  rw [this]; simpa using hneg

example : ((Blep.init 4 (-1)).run 4 [.frame]).t = -1 / 4 := by decide +kernel

end Verif.Os
