import Verif.Lemmas.Blep
import Mathlib.Analysis.SpecialFunctions.Trigonometric.Basic
import Mathlib.Analysis.Real.Pi.Bounds

/-!
# C56: the band-limited waveforms

The specification is the plain waveform: a function of the phase with jumps and corners.  What the oscillator should produce is
the mean of the plain waveform over one sample to either side, with weights that fall linearly to zero (`Smoothed`).
-/

namespace Verif.Pb

open Set

/-- The functions of the maths library over the reals. -/
noncomputable def real : Fns ℝ := ⟨Real.sin, Real.cos, Real.pi⟩

/-! ## Specification -/

/-- A square wave. -/
noncomputable def square0 (x : ℝ) : ℝ := if Int.fract x < 1 / 2 then 1 else -1
/-- A triangle between −1 and 1 that starts at 0. -/
noncomputable def triangle0 (x : ℝ) : ℝ := 1 - 4 * |Int.fract (x + 1 / 4) - 1 / 2|
/-- The pulse widths that the waveforms allow for. -/
noncomputable def below1 (p : ℝ) : ℝ := min p (9999 / 10000)
/-- See `below1`. -/
noncomputable def inside (p : ℝ) : ℝ := max (below1 p) (1 / 10000)
/-- A triangle that rises for the part `p` of its period. -/
noncomputable def skewed0 (p x : ℝ) : ℝ :=
  if Int.fract (x + p / 2) < p then 2 * Int.fract (x + p / 2) / p - 1 else 1 - 2 * (Int.fract (x + p / 2) - p) / (1 - p)
/-- A triangular pulse of the width `p`, without mean. -/
noncomputable def pulse0 (p x : ℝ) : ℝ :=
  if Int.fract x < p then 2 * (1 - |2 * Int.fract x / p - 1|) - p else -p

/-- The plain waveforms; `half` and `full` are not smoothed as a whole and stand apart. -/
noncomputable def plain (w : Waveform) (p x : ℝ) : ℝ :=
  match w with
  | .saw => 2 * Int.fract (x + 1 / 2) - 1
  | .ramp => 1 - 2 * Int.fract x
  | .sqr => square0 x
  | .rect => if Int.fract x < p then 2 - 2 * p else -(2 * p)
  | .sqr2 => (square0 (x + (3 / 4 + p / 4)) + square0 (x + (5 / 4 - p / 4))) / 2
  | .tri => triangle0 x
  | .tri2 => skewed0 (inside p) x
  | .trip => pulse0 p (x + (3 / 4 + p / 2))
  | .trap => max (-1) (min 1 (2 * triangle0 x))
  | .trap2 => max (-1) (min 1 (triangle0 x / (1 - below1 p)))
  | .sine => Real.sin (2 * Real.pi * x)
  | .cosine => Real.cos (2 * Real.pi * x)
  | .half => 2 * max 0 (Real.sin (2 * Real.pi * x)) - 2 / Real.pi
  | .full => 2 * |Real.sin (Real.pi * (x + 1 / 4))| - 4 / Real.pi

/-- The waveforms made of straight lines. -/
def Waveform.straight : Waveform → Bool
  | .sine | .cosine | .half | .full => false
  | _ => true

/-! ## Waveforms with jumps -/

theorem fract_add (x c : ℝ) (h0 : 0 ≤ c) (h1 : c ≤ 1) :
    Int.fract (x + c) = if Int.fract x + c < 1 then Int.fract x + c else Int.fract x + c - 1 := by
  have hx0 := Int.fract_nonneg x
  have hx1 := Int.fract_lt_one x
  have e : Int.fract (x + c) = Int.fract (Int.fract x + c) := by
    conv_lhs => rw [← Int.fract_add_floor x]
    rw [show Int.fract x + (⌊x⌋ : ℝ) + c = Int.fract x + c + (⌊x⌋ : ℝ) by ring, Int.fract_add_intCast]
  rw [e]
  split
  · rename_i h
    exact Int.fract_eq_self.2 ⟨by linarith, h⟩
  · rename_i h
    rw [← Int.fract_sub_one (Int.fract x + c)]
    exact Int.fract_eq_self.2 ⟨by linarith, by linarith⟩

theorem fract_fract_add (x c : ℝ) : Int.fract (Int.fract x + c) = Int.fract (x + c) := by
  conv_rhs => rw [← Int.fract_add_floor x]
  rw [show Int.fract x + (⌊x⌋ : ℝ) + c = Int.fract x + c + (⌊x⌋ : ℝ) by ring, Int.fract_add_intCast]

theorem ramp0_eq (x : ℝ) : ramp0 x = 1 - 2 * Int.fract x := by rw [ramp0, per]; ring
theorem para_eq (x : ℝ) : para x = Int.fract x ^ 2 - Int.fract x := by rw [para, per]; ring

theorem square0_eq (x : ℝ) : square0 x = ramp0 x - ramp0 (x + 1 / 2) := by
  have hx0 := Int.fract_nonneg x
  have hx1 := Int.fract_lt_one x
  rw [ramp0_eq, ramp0_eq, fract_add x (1 / 2) (by norm_num) (by norm_num), square0]
  split_ifs <;> linarith

theorem square_smoothed (t d : ℝ) (hd : 0 ≤ d) (hd2 : d ≤ 1 / 2) :
    Smoothed square0 d t (square0 t + (blepR (Int.fract t) d - blepR (Int.fract (t + 1 / 2)) d)) := by
  have h1 := ramp_smoothed t d hd hd2
  have h2 := (ramp_smoothed (t + 1 / 2) d hd hd2).shift (1 / 2)
  have h := h1.sub h2
  rw [show (fun x => ramp0 x - ramp0 (x + 1 / 2)) = square0 from funext fun x => (square0_eq x).symm] at h
  rw [square0_eq t]
  convert h using 1
  ring

theorem rect_eq (p x : ℝ) (h0 : 0 ≤ p) (h1 : p ≤ 1) :
    (if Int.fract x < p then 2 - 2 * p else -(2 * p)) = ramp0 x - ramp0 (x + (1 - p)) := by
  have hx0 := Int.fract_nonneg x
  have hx1 := Int.fract_lt_one x
  rw [ramp0_eq, ramp0_eq, fract_add x (1 - p) (by linarith) (by linarith)]
  split_ifs <;> linarith

/-! ## Waveforms with corners -/

theorem para_sub_smoothed (a b t d : ℝ) (hd : 0 ≤ d) (hd2 : d ≤ 1 / 2) :
    Smoothed (fun x => para (x + a) - para (x + b)) d t (para (t + a) - para (t + b)
      - d * (blampR (Int.fract (t + a)) d - blampR (Int.fract (t + b)) d)) := by
  have h := ((para_smoothed (t + a) d hd hd2).shift a).sub ((para_smoothed (t + b) d hd hd2).shift b)
  convert h using 1
  ring

theorem triangle0_eq (x : ℝ) : triangle0 x = -4 * (para (x + 1 / 4) - para (x + 3 / 4)) := by
  have hx0 := Int.fract_nonneg x
  have hx1 := Int.fract_lt_one x
  rw [triangle0, para_eq, para_eq, fract_add x (1 / 4) (by norm_num) (by norm_num), fract_add x (3 / 4) (by norm_num) (by norm_num)]
  generalize Int.fract x = z at *
  split_ifs <;> rcases abs_cases (z + 1 / 4 - 1 / 2) with ⟨h, _⟩ | ⟨h, _⟩ <;>
    rcases abs_cases (z + 1 / 4 - 1 - 1 / 2) with ⟨h', _⟩ | ⟨h', _⟩ <;> first | (rw [h]; ring_nf; done) | (rw [h']; ring_nf; done) | skip
  all_goals (exfalso; linarith)

theorem fold_eq (t : ℝ) (h0 : 0 ≤ t) (h1 : t < 1) : fold (4 * t) = triangle0 t := by
  have e : Int.fract t = t := Int.fract_eq_self.2 ⟨h0, h1⟩
  rw [triangle0, fract_add t (1 / 4) (by norm_num) (by norm_num), e, fold]
  split_ifs <;> rcases abs_cases (t + 1 / 4 - 1 / 2) with ⟨h, _⟩ | ⟨h, _⟩ <;>
    rcases abs_cases (t + 1 / 4 - 1 - 1 / 2) with ⟨h', _⟩ | ⟨h', _⟩ <;> linarith

theorem skewed0_eq (p x : ℝ) (h0 : 0 < p) (h1 : p < 1) :
    skewed0 p x = -(1 / (p - p * p)) * (para (x + p / 2) - para (x + (1 - p / 2))) := by
  have e : x + (1 - p / 2) = (x + p / 2) + (1 - p) := by ring
  have hz0 := Int.fract_nonneg (x + p / 2)
  have hz1 := Int.fract_lt_one (x + p / 2)
  rw [skewed0, e, para_eq, para_eq, fract_add (x + p / 2) (1 - p) (by linarith) (by linarith)]
  generalize Int.fract (x + p / 2) = z at *
  have hp : p - p * p ≠ 0 := by
    have : 0 < p * (1 - p) := mul_pos h0 (by linarith)
    intro h; linarith
  have hq : 1 - p ≠ 0 := by linarith
  have hpe : p - p * p = p * (1 - p) := by ring
  rw [hpe]
  split_ifs
  · field_simp; ring
  · exfalso; linarith
  · exfalso; linarith
  · field_simp; ring

theorem pulse0_eq (p x : ℝ) (h0 : 0 < p) (h1 : p ≤ 1) :
    pulse0 p x = -(2 / p) * (para x - 2 * para (x + (1 - p / 2)) + para (x + (1 - p))) := by
  have hz0 := Int.fract_nonneg x
  have hz1 := Int.fract_lt_one x
  rw [pulse0, para_eq, para_eq, para_eq, fract_add x (1 - p / 2) (by linarith) (by linarith),
    fract_add x (1 - p) (by linarith) (by linarith)]
  generalize Int.fract x = z at *
  have hz : |2 * z / p - 1| = |2 * z - p| / p := by
    rw [← abs_of_pos h0, ← abs_div, abs_of_pos h0]
    congr 1
    field_simp
  rw [hz]
  split_ifs
  · rw [abs_of_neg (by linarith)]; field_simp; ring
  · exfalso; linarith
  · rw [abs_of_nonneg (by linarith)]; field_simp; ring
  · exfalso; linarith
  · exfalso; linarith
  · exfalso; linarith
  · exfalso; linarith
  · field_simp; ring

theorem cut_core {p T v : ℝ} (h1 : p < 1) (h : (T ≤ -(1 - p) ∧ v = -(1 - p)) ∨ (-(1 - p) ≤ T ∧ T ≤ 1 - p ∧ v = T) ∨ (1 - p ≤ T ∧ v = 1 - p)) :
    max (-(1 - p)) (min (1 - p) T) = v := by
  rcases h with ⟨h, rfl⟩ | ⟨h, h', rfl⟩ | ⟨h, rfl⟩
  · rw [min_eq_right (by linarith), max_eq_left h]
  · rw [min_eq_right h', max_eq_right h]
  · rw [min_eq_left h, max_eq_right (by linarith)]

/-- A triangle that is cut at the height `1 - p` is the mean of two triangles. -/
theorem cut_eq (p x : ℝ) (h0 : 0 ≤ p) (h1 : p < 1) :
    max (-(1 - p)) (min (1 - p) (triangle0 x)) = (triangle0 (x - p / 4) + triangle0 (x + p / 4)) / 2 := by
  have e1 : x - p / 4 + 1 / 4 = x + 1 / 4 - p / 4 := by ring
  have e2 : x + 1 / 4 = (x + 1 / 4 - p / 4) + p / 4 := by ring
  have e3 : x + p / 4 + 1 / 4 = (x + 1 / 4 - p / 4) + p / 2 := by ring
  simp only [triangle0]
  rw [e1, e3, e2]
  have e4 : x + 1 / 4 - p / 4 + p / 4 - p / 4 = x + 1 / 4 - p / 4 := by ring
  rw [show x + 1 / 4 - p / 4 + p / 4 - p / 4 + p / 2 = x + 1 / 4 - p / 4 + p / 2 by ring, e4]
  generalize x + 1 / 4 - p / 4 = y
  have hz0 := Int.fract_nonneg y
  have hz1 := Int.fract_lt_one y
  rw [fract_add y (p / 4) (by linarith) (by linarith), fract_add y (p / 2) (by linarith) (by linarith)]
  generalize Int.fract y = z at *
  split_ifs
  · apply cut_core h1
    rcases abs_cases (z - 1 / 2) with ⟨a, _⟩ | ⟨a, _⟩ <;> rcases abs_cases (z + p / 4 - 1 / 2) with ⟨b, _⟩ | ⟨b, _⟩ <;>
    rcases abs_cases (z + p / 2 - 1 / 2) with ⟨c, _⟩ | ⟨c, _⟩ <;> rw [a, b, c] <;> clear a b c
    all_goals first
      | (exfalso; linarith)
      | exact Or.inl ⟨by linarith, by linarith⟩
      | exact Or.inr (Or.inl ⟨by linarith, by linarith, by linarith⟩)
      | exact Or.inr (Or.inr ⟨by linarith, by linarith⟩)
  · apply cut_core h1
    rcases abs_cases (z - 1 / 2) with ⟨a, _⟩ | ⟨a, _⟩ <;> rcases abs_cases (z + p / 4 - 1 / 2) with ⟨b, _⟩ | ⟨b, _⟩ <;>
    rcases abs_cases (z + p / 2 - 1 - 1 / 2) with ⟨c, _⟩ | ⟨c, _⟩ <;> rw [a, b, c] <;> clear a b c
    all_goals first
      | (exfalso; linarith)
      | exact Or.inl ⟨by linarith, by linarith⟩
      | exact Or.inr (Or.inl ⟨by linarith, by linarith, by linarith⟩)
      | exact Or.inr (Or.inr ⟨by linarith, by linarith⟩)
  · exfalso; linarith
  · apply cut_core h1
    rcases abs_cases (z - 1 / 2) with ⟨a, _⟩ | ⟨a, _⟩ <;> rcases abs_cases (z + p / 4 - 1 - 1 / 2) with ⟨b, _⟩ | ⟨b, _⟩ <;>
    rcases abs_cases (z + p / 2 - 1 - 1 / 2) with ⟨c, _⟩ | ⟨c, _⟩ <;> rw [a, b, c] <;> clear a b c
    all_goals first
      | (exfalso; linarith)
      | exact Or.inl ⟨by linarith, by linarith⟩
      | exact Or.inr (Or.inl ⟨by linarith, by linarith, by linarith⟩)
      | exact Or.inr (Or.inr ⟨by linarith, by linarith⟩)

theorem cut_para (p x : ℝ) (h0 : 0 ≤ p) (h1 : p < 1) :
    max (-1) (min 1 (triangle0 x / (1 - p))) = -(2 * (1 / (1 - p)))
      * ((para (x + (1 / 4 - p / 4)) - para (x + (3 / 4 - p / 4))) + (para (x + (1 / 4 + p / 4)) - para (x + (3 / 4 + p / 4)))) := by
  have hp : 0 < 1 - p := by linarith
  have e : max (-1) (min 1 (triangle0 x / (1 - p))) = max (-(1 - p)) (min (1 - p) (triangle0 x)) / (1 - p) := by
    rw [← max_div_div_right hp.le, ← min_div_div_right hp.le, neg_div, div_self hp.ne']
  rw [e, cut_eq p x h0 h1, triangle0_eq, triangle0_eq]
  rw [show x - p / 4 + 1 / 4 = x + (1 / 4 - p / 4) by ring, show x - p / 4 + 3 / 4 = x + (3 / 4 - p / 4) by ring,
    show x + p / 4 + 1 / 4 = x + (1 / 4 + p / 4) by ring, show x + p / 4 + 3 / 4 = x + (3 / 4 + p / 4) by ring]
  field_simp
  ring

theorem clamp1_eq (x : ℝ) : clamp1 x = max (-1) (min 1 x) := by
  rw [clamp1]
  split_ifs
  · rw [min_eq_right (by linarith), max_eq_left (by linarith)]
  · rw [min_eq_left (by linarith), max_eq_right (by linarith)]
  · rw [min_eq_right (by linarith), max_eq_right (by linarith)]

/-! ## The waveforms of the code -/

theorem blep_fract (x d : ℝ) : blep (Int.fract x) d = some (blepR (Int.fract x) d) :=
  blep_eq (Int.fract_nonneg x) (Int.fract_lt_one x)
theorem blamp_fract (x d : ℝ) : blamp (Int.fract x) d = some (blampR (Int.fract x) d) :=
  blamp_eq (Int.fract_nonneg x) (Int.fract_lt_one x)

theorem inside_range (p : ℝ) : 0 < inside p ∧ inside p < 1 := by
  constructor
  · exact lt_of_lt_of_le (by norm_num) (le_max_right _ _)
  · exact max_lt (lt_of_le_of_lt (min_le_right _ _) (by norm_num)) (by norm_num)

theorem below1_range (p : ℝ) (h : 0 ≤ p) : 0 ≤ below1 p ∧ below1 p < 1 :=
  ⟨le_min h (by norm_num), lt_of_le_of_lt (min_le_right _ _) (by norm_num)⟩

/-- Every waveform made of straight lines, at a phase within the first turn. -/
theorem wave_straight (fn : Fns ℝ) (w : Waveform) (hw : w.straight = true) (p t d : ℝ) (hp0 : 0 ≤ p) (hp1 : p ≤ 1) (ht0 : 0 ≤ t) (ht1 : t < 1)
    (hd : 0 ≤ d) (hd2 : d ≤ 1 / 2) : ∃ y, wave fn w p t d = some y ∧ Smoothed (plain w p) d t y := by
  have ht : Int.fract t = t := Int.fract_eq_self.2 ⟨ht0, ht1⟩
  have hb : blep t d = some (blepR t d) := blep_eq ht0 ht1
  cases w with
  | sine => simp [Waveform.straight] at hw
  | cosine => simp [Waveform.straight] at hw
  | half => simp [Waveform.straight] at hw
  | full => simp [Waveform.straight] at hw
  | saw =>
    simp only [wave, saw]
    rw [wrapped_eq (by linarith), blep_fract]
    refine ⟨_, rfl, ?_⟩
    have h := ((ramp_smoothed (t + 1 / 2) d hd hd2).shift (1 / 2)).mul (-1)
    convert h using 1
    · funext x; rw [ramp0_eq]; simp only [plain]; ring
    · rw [ramp0_eq]; ring
  | ramp =>
    simp only [wave, ramp]
    rw [wrapped_eq ht0, blep_fract]
    refine ⟨_, rfl, ?_⟩
    have h := ramp_smoothed t d hd hd2
    convert h using 1
    · funext x; rw [ramp0_eq]; simp only [plain]
    · rw [ramp0_eq]
  | sqr =>
    simp only [wave, sqr]
    rw [wrapped_eq (by linarith), blep_fract, hb]
    refine ⟨_, rfl, ?_⟩
    have h := square_smoothed t d hd hd2
    rw [ht] at h
    have e : level t = square0 t := by rw [square0, level, ht]
    rw [e]
    exact h
  | rect =>
    simp only [wave, rect]
    rw [wrapped_eq (by linarith), blep_fract, hb]
    refine ⟨_, rfl, ?_⟩
    have h := (ramp_smoothed t d hd hd2).sub ((ramp_smoothed (t + (1 - p)) d hd hd2).shift (1 - p))
    have e := rect_eq p t hp0 hp1
    rw [ht] at e h
    rw [show t + 1 - p = t + (1 - p) by ring]
    convert h using 1
    · funext x; rw [← rect_eq p x hp0 hp1]; simp only [plain]
    · have : (if t < p then -2 * p + 2 else -2 * p) = if t < p then 2 - 2 * p else -(2 * p) := by
        split_ifs <;> ring
      rw [this, e]
      ring
  | sqr2 =>
    simp only [wave, sqr2]
    rw [wrapped_eq (x := t + 7 / 8 + 1 / 4 * (p - 1 / 2)) (by linarith), wrapped_eq (x := t + 3 / 8 + 1 / 4 * (p - 1 / 2)) (by linarith)]
    have h0 : 0 ≤ 1 / 2 * (1 - p) := by linarith
    rw [wrapped_eq (add_nonneg (Int.fract_nonneg _) h0), wrapped_eq (add_nonneg (Int.fract_nonneg _) h0)]
    rw [fract_fract_add, fract_fract_add, blep_fract, blep_fract, blep_fract, blep_fract]
    refine ⟨_, rfl, ?_⟩
    have e1 : t + 7 / 8 + 1 / 4 * (p - 1 / 2) = t + (3 / 4 + p / 4) := by ring
    have e2 : Int.fract (t + 3 / 8 + 1 / 4 * (p - 1 / 2)) = Int.fract (t + (3 / 4 + p / 4) + 1 / 2) := by
      rw [← Int.fract_add_one]; congr 1; ring
    have e3 : t + (3 / 4 + p / 4) + 1 / 2 * (1 - p) = t + (5 / 4 - p / 4) := by ring
    have e4 : Int.fract (t + 3 / 8 + 1 / 4 * (p - 1 / 2) + 1 / 2 * (1 - p)) = Int.fract (t + (5 / 4 - p / 4) + 1 / 2) := by
      rw [← Int.fract_add_one]; congr 1; ring
    have h := (((square_smoothed (t + (3 / 4 + p / 4)) d hd hd2).shift _).add
      ((square_smoothed (t + (5 / 4 - p / 4)) d hd hd2).shift _)).mul (1 / 2)
    rw [e1, e2, e3, e4]
    convert h using 1
    · funext x; simp only [plain]; ring
    · simp only [square0, level]; ring
  | tri =>
    simp only [wave, tri]
    rw [wrapped_eq (x := t + 1 / 4) (by linarith), wrapped_eq (x := t + 3 / 4) (by linarith), blamp_fract, blamp_fract]
    refine ⟨_, rfl, ?_⟩
    have h := (para_sub_smoothed (1 / 4) (3 / 4) t d hd hd2).mul (-4)
    convert h using 1
    · funext x; rw [← triangle0_eq]; simp only [plain]
    · rw [mul_comm t 4, fold_eq t ht0 ht1, triangle0_eq]; ring
  | tri2 =>
    obtain ⟨hi0, hi1⟩ := inside_range p
    have he : max (min p (9999 / 10000)) (1 / 10000) = inside p := rfl
    simp only [wave, tri2, he]
    generalize hq : inside p = q at *
    rw [wrapped_eq (x := t + 1 / 2 * q) (by linarith), wrapped_eq (x := t + 1 - 1 / 2 * q) (by linarith), blamp_fract, blamp_fract]
    have hqq : q - q * q ≠ 0 := by
      have : 0 < q * (1 - q) := mul_pos hi0 (by linarith)
      intro h; linarith
    have hy : tri2Level q t = some (skewed0 q t) := by
      have hq0 : q ≠ 0 := hi0.ne'
      have hq1 : 1 - q ≠ 0 := by linarith
      rw [skewed0, fract_add t (q / 2) (by linarith) (by linarith), ht]
      simp only [tri2Level, divO, if_neg hq0, if_neg hq1, Option.map_some]
      split_ifs <;> simp only [Option.some.injEq] <;> first | (exfalso; linarith) | (field_simp; ring)
    rw [hy]
    simp only [divO, if_neg hqq]
    refine ⟨_, rfl, ?_⟩
    have h := (para_sub_smoothed (q / 2) (1 - q / 2) t d hd hd2).mul (-(1 / (q - q * q)))
    convert h using 1
    · funext x; rw [← skewed0_eq q x hi0 hi1]; simp only [plain, hq]
    · rw [skewed0_eq q t hi0 hi1, show t + 1 - 1 / 2 * q = t + (1 - q / 2) by ring, show t + 1 / 2 * q = t + q / 2 by ring]
      ring
  | trip =>
    simp only [wave, trip]
    rw [show t + 3 / 4 + 1 / 2 * p = t + (3 / 4 + p / 2) by ring, wrapped_eq (x := t + (3 / 4 + p / 2)) (by linarith)]
    have hy : tripLevel p (Int.fract (t + (3 / 4 + p / 2))) = some (pulse0 p (t + (3 / 4 + p / 2))) := by
      have h0 := Int.fract_nonneg (t + (3 / 4 + p / 2))
      rw [pulse0, tripLevel]
      generalize Int.fract (t + (3 / 4 + p / 2)) = z at *
      by_cases hz : p ≤ z
      · rw [if_pos hz, if_neg (not_lt.2 hz)]
      · rw [if_neg hz, if_pos (not_le.1 hz)]
        have hp : 0 < p := by linarith [not_le.1 hz]
        have hz' : |2 * z / p - 1| = |2 * z - p| / p := by
          rw [← abs_of_pos hp, ← abs_div, abs_of_pos hp]
          congr 1
          field_simp
        simp only [divO, if_neg hp.ne', Option.map_some, hz']
        split_ifs <;> simp only [Option.some.injEq]
        · rw [abs_of_nonneg (by linarith)]; field_simp; ring
        · rw [abs_of_neg (by linarith)]; field_simp; ring
    rw [hy]
    by_cases hp : 0 < p
    · rw [Option.bind_eq_bind, Option.bind_some, if_pos hp]
      have h0 : 0 ≤ Int.fract (t + (3 / 4 + p / 2)) := Int.fract_nonneg _
      rw [wrapped_eq (by linarith), wrapped_eq (by linarith), add_sub_assoc, add_sub_assoc, fract_fract_add, fract_fract_add,
        blamp_fract, blamp_fract, blamp_fract]
      simp only [divO, if_neg hp.ne']
      refine ⟨_, rfl, ?_⟩
      have h1 := para_sub_smoothed (3 / 4 + p / 2) (3 / 4 + p / 2 + (1 - 1 / 2 * p)) t d hd hd2
      have h2 := para_sub_smoothed (3 / 4 + p / 2 + (1 - p)) (3 / 4 + p / 2 + (1 - 1 / 2 * p)) t d hd hd2
      have h := (h1.add h2).mul (-(2 / p))
      have e : (1 : ℝ) - 1 / 2 * p = 1 - p / 2 := by ring
      convert h using 1
      · funext x; simp only [plain]; rw [pulse0_eq p _ hp hp1, add_assoc, add_assoc, e]; ring_nf
      · rw [pulse0_eq p _ hp hp1, add_assoc, add_assoc, e]; ring_nf
    · have : p = 0 := le_antisymm (not_lt.1 hp) hp0
      subst this
      rw [Option.bind_eq_bind, Option.bind_some, if_neg hp]
      have e : ∀ x, pulse0 0 x = 0 := fun x => by
        rw [pulse0, if_neg (not_lt.2 (Int.fract_nonneg x)), neg_zero]
      refine ⟨_, rfl, ?_⟩
      have h := Smoothed.const 0 d t
      convert h using 1
      · funext x; simp only [plain]; rw [e]
      · rw [e]
  | trap =>
    simp only [wave, trap]
    have w1 : wrapped (t + 1 / 8) = Int.fract (t + (1 / 4 - 1 / 2 / 4)) := by rw [wrapped_eq (by linarith)]; congr 1; ring
    have w3 : wrapped (t + 3 / 8) = Int.fract (t + (1 / 4 + 1 / 2 / 4)) := by rw [wrapped_eq (by linarith)]; congr 1; ring
    have w2 : ∀ x : ℝ, wrapped (Int.fract x + 1 / 2) = Int.fract (x + 1 / 2) := fun x => by
      rw [wrapped_eq (by linarith [Int.fract_nonneg x]), fract_fract_add]
    rw [w1, w3, w2, w2, blamp_fract, blamp_fract, blamp_fract, blamp_fract]
    refine ⟨_, rfl, ?_⟩
    have h1 := para_sub_smoothed (1 / 4 - 1 / 2 / 4) (3 / 4 - 1 / 2 / 4) t d hd hd2
    have h2 := para_sub_smoothed (1 / 4 + 1 / 2 / 4) (3 / 4 + 1 / 2 / 4) t d hd hd2
    have h := (h1.add h2).mul (-(2 * (1 / (1 - 1 / 2))))
    have e : ∀ x : ℝ, max (-1) (min 1 (2 * triangle0 x)) = max (-1) (min 1 (triangle0 x / (1 - 1 / 2))) := fun x => by
      congr 2; ring
    convert h using 1
    · funext x; simp only [plain]; rw [e, cut_para _ _ (by norm_num) (by norm_num)]
    · rw [clamp1_eq, fold_eq t ht0 ht1, e, cut_para _ _ (by norm_num) (by norm_num),
        show t + (1 / 4 - 1 / 2 / 4) + 1 / 2 = t + (3 / 4 - 1 / 2 / 4) by ring,
        show t + (1 / 4 + 1 / 2 / 4) + 1 / 2 = t + (3 / 4 + 1 / 2 / 4) by ring]
      ring
  | trap2 =>
    obtain ⟨hi0, hi1⟩ := below1_range p hp0
    have he : min p (9999 / 10000) = below1 p := rfl
    simp only [wave, trap2, he]
    generalize hq : below1 p = q at *
    have hq1 : 1 - q ≠ 0 := by linarith
    simp only [divO, if_neg hq1]
    have w1 : wrapped (t + 1 / 4 - 1 / 4 * q) = Int.fract (t + (1 / 4 - q / 4)) := by rw [wrapped_eq (by linarith)]; congr 1; ring
    have w3 : wrapped (t + 1 / 4 + 1 / 4 * q) = Int.fract (t + (1 / 4 + q / 4)) := by rw [wrapped_eq (by linarith)]; congr 1; ring
    have w2 : ∀ x : ℝ, wrapped (Int.fract x + 1 / 2) = Int.fract (x + 1 / 2) := fun x => by
      rw [wrapped_eq (by linarith [Int.fract_nonneg x]), fract_fract_add]
    rw [w1, w3, w2, w2, blamp_fract, blamp_fract, blamp_fract, blamp_fract]
    refine ⟨_, rfl, ?_⟩
    have h1 := para_sub_smoothed (1 / 4 - q / 4) (3 / 4 - q / 4) t d hd hd2
    have h2 := para_sub_smoothed (1 / 4 + q / 4) (3 / 4 + q / 4) t d hd hd2
    have h := (h1.add h2).mul (-(2 * (1 / (1 - q))))
    convert h using 1
    · funext x; simp only [plain, hq]; rw [cut_para _ _ hi0 hi1]
    · rw [clamp1_eq, fold_eq t ht0 ht1, show 1 / (1 - q) * triangle0 t = triangle0 t / (1 - q) by ring,
        cut_para _ _ hi0 hi1, show t + (1 / 4 - q / 4) + 1 / 2 = t + (3 / 4 - q / 4) by ring,
        show t + (1 / 4 + q / 4) + 1 / 2 = t + (3 / 4 + q / 4) by ring]
      ring

/-! ## The phase only matters up to whole turns -/

theorem fract_turn (x c : ℝ) (n : ℤ) : Int.fract (x + n + c) = Int.fract (x + c) := by
  rw [show x + n + c = x + c + n by ring, Int.fract_add_intCast]

theorem square0_turn (x c : ℝ) (n : ℤ) : square0 (x + n + c) = square0 (x + c) := by
  simp only [square0, fract_turn]

theorem triangle0_turn (x : ℝ) (n : ℤ) : triangle0 (x + n) = triangle0 x := by
  simp only [triangle0, fract_turn]

theorem plain_turn (w : Waveform) (hw : w.straight = true) (p x : ℝ) (n : ℤ) : plain w p (x + n) = plain w p x := by
  cases w with
  | sine => simp [Waveform.straight] at hw
  | cosine => simp [Waveform.straight] at hw
  | half => simp [Waveform.straight] at hw
  | full => simp [Waveform.straight] at hw
  | saw => simp only [plain, fract_turn]
  | ramp => simp only [plain, Int.fract_add_intCast]
  | sqr => simp only [plain, square0, Int.fract_add_intCast]
  | rect => simp only [plain, Int.fract_add_intCast]
  | sqr2 => simp only [plain, square0_turn]
  | tri => simp only [plain, triangle0_turn]
  | tri2 => simp only [plain, skewed0, fract_turn]
  | trip => simp only [plain, pulse0, fract_turn]
  | trap => simp only [plain, triangle0_turn]
  | trap2 => simp only [plain, triangle0_turn]

/-! ## Sines -/

theorem sin_fract (x : ℝ) : Real.sin (Int.fract x * (2 * Real.pi)) = Real.sin (2 * Real.pi * x) := by
  have : Int.fract x * (2 * Real.pi) = 2 * Real.pi * x - ⌊x⌋ * (2 * Real.pi) := by rw [Int.fract]; ring
  rw [this, Real.sin_sub_int_mul_two_pi]

theorem cos_fract (x : ℝ) : Real.cos (Int.fract x * (2 * Real.pi)) = Real.cos (2 * Real.pi * x) := by
  have : Int.fract x * (2 * Real.pi) = 2 * Real.pi * x - ⌊x⌋ * (2 * Real.pi) := by rw [Int.fract]; ring
  rw [this, Real.cos_sub_int_mul_two_pi]

theorem abs_sin_fract (x : ℝ) : Real.sin (Int.fract x * Real.pi) = |Real.sin (Real.pi * x)| := by
  have e : Real.pi * x = Int.fract x * Real.pi + ⌊x⌋ * Real.pi := by rw [Int.fract]; ring
  have h0 := Int.fract_nonneg x
  have h1 := Int.fract_lt_one x
  have hs : 0 ≤ Real.sin (Int.fract x * Real.pi) :=
    Real.sin_nonneg_of_nonneg_of_le_pi (mul_nonneg h0 Real.pi_pos.le) (by nlinarith [Real.pi_pos])
  rw [e, Real.sin_add_int_mul_pi, abs_mul, abs_of_nonneg hs]
  have : |((-1 : ℝ)) ^ ⌊x⌋| = 1 := by rw [abs_zpow, abs_neg, abs_one, one_zpow]
  rw [this, one_mul]

theorem blampR_range {t d : ℝ} (h0 : 0 ≤ t) (h1 : t < 1) : 0 ≤ blampR t d ∧ blampR t d ≤ 1 / 3 := by
  have key : ∀ z : ℝ, 0 ≤ z → z ≤ 1 → 0 ≤ z ^ 3 / 3 ∧ z ^ 3 / 3 ≤ 1 / 3 := by
    intro z hz0 hz1
    have := pow_le_one₀ hz0 hz1 (n := 3)
    have := pow_nonneg hz0 3
    constructor <;> linarith
  unfold blampR
  split_ifs with ha hb
  · have hd : 0 < d := by linarith
    have : t / d ≤ 1 := (div_le_one hd).2 ha.le
    have : 0 ≤ t / d := by positivity
    exact key _ (by linarith) (by linarith)
  · have hd : 0 < d := by linarith
    have : (1 - t) / d ≤ 1 := (div_le_one hd).2 (by linarith)
    have : 0 ≤ (1 - t) / d := div_nonneg (by linarith) hd.le
    have e : (t - 1) / d = -((1 - t) / d) := by ring
    rw [e]
    exact key _ (by linarith) (by linarith)
  · norm_num

/-- The two corners of the half wave are never corrected at the same time. -/
theorem blampR_one {x d : ℝ} (hd : d ≤ 1 / 4) : blampR (Int.fract x) d = 0 ∨ blampR (Int.fract (x + 1 / 2)) d = 0 := by
  have h0 := Int.fract_nonneg x
  have h1 := Int.fract_lt_one x
  rw [fract_add x (1 / 2) (by norm_num) (by norm_num)]
  generalize Int.fract x = z at *
  by_cases ha : z < d
  · right
    rw [if_pos (by linarith), blampR, if_neg (by linarith), if_neg (by linarith)]
  · by_cases hb : 1 - d < z
    · right
      rw [if_neg (by linarith), blampR, if_neg (by linarith), if_neg (by linarith)]
    · left
      rw [blampR, if_neg ha, if_neg hb]

/-! ## Every history -/

/-- Specification: what may come out at the phase `θ` (which is never wrapped), `d` being the phase that passes in a sample.
The corners of the rectified sines are smoothed on one side: the output lies above, by at most `2πd/3`. -/
def Out (w : Waveform) (p d θ y : ℝ) : Prop :=
  if 1 / 4 ≤ d then y = Real.sin (2 * Real.pi * θ)
  else match w with
  | .sine | .cosine => y = plain w p θ
  | .half | .full => plain w p θ ≤ y ∧ y ≤ plain w p θ + 2 * Real.pi * d / 3
  | _ => Smoothed (plain w p) d θ y

theorem wave_out (w : Waveform) (p θ d : ℝ) (hp0 : 0 ≤ p) (hp1 : p ≤ 1) (hd : 0 ≤ d) (hd2 : d < 1 / 4) :
    ∃ y, wave real w p (Int.fract θ) d = some y ∧ Out w p d θ y := by
  have h0 := Int.fract_nonneg θ
  have h1 := Int.fract_lt_one θ
  have hpi := Real.pi_pos
  have hn : ¬ 1 / 4 ≤ d := not_le.2 hd2
  by_cases hw : w.straight = true
  · obtain ⟨y, h2, h3⟩ := wave_straight real w hw p (Int.fract θ) d hp0 hp1 h0 h1 hd (by linarith)
    have h4 := h3.turn (fun x n => plain_turn w hw p x n) ⌊θ⌋
    rw [Int.fract_add_floor] at h4
    refine ⟨y, h2, ?_⟩
    unfold Out
    rw [if_neg hn]
    cases w <;> first | exact h4 | simp [Waveform.straight] at hw
  · cases w <;> simp only [Waveform.straight, Bool.false_eq_true, not_true_eq_false, not_false_eq_true] at hw
    · refine ⟨_, rfl, ?_⟩
      simp only [Out, if_neg hn, plain]
      exact sin_fract θ
    · refine ⟨_, rfl, ?_⟩
      simp only [Out, if_neg hn, plain]
      exact cos_fract θ
    · simp only [wave, half]
      rw [wrapped_eq (by linarith), fract_fract_add, blamp_fract, blamp_fract]
      refine ⟨_, rfl, ?_⟩
      simp only [Out, if_neg hn]
      have e : (if Int.fract θ < 1 / 2 then 2 * real.sin (Int.fract θ * (2 * real.pi)) - 2 / real.pi else -2 / real.pi)
          = plain .half p θ := by
        simp only [plain, real, sin_fract]
        rw [← sin_fract]
        split_ifs with hc
        · rw [max_eq_right]
          exact Real.sin_nonneg_of_nonneg_of_le_pi (by positivity) (by nlinarith)
        · rw [max_eq_left, mul_zero, zero_sub, neg_div]
          have e : Int.fract θ * (2 * Real.pi) = (Int.fract θ * (2 * Real.pi) - 2 * Real.pi) + 2 * Real.pi := by ring
          rw [e, Real.sin_add_two_pi]
          exact Real.sin_nonpos_of_nonpos_of_neg_pi_le (by nlinarith) (by nlinarith)
      rw [e]
      have r1 := blampR_range (d := d) h0 h1
      have r2 := blampR_range (d := d) (Int.fract_nonneg (θ + 1 / 2)) (Int.fract_lt_one _)
      have hs : 0 ≤ blampR (Int.fract θ) d + blampR (Int.fract (θ + 1 / 2)) d ∧
          blampR (Int.fract θ) d + blampR (Int.fract (θ + 1 / 2)) d ≤ 1 / 3 := by
        rcases blampR_one (x := θ) hd2.le with h | h <;> rw [h] <;> constructor <;> linarith
      have hc : 0 ≤ 2 * Real.pi * d := by positivity
      constructor
      · have := mul_nonneg hc hs.1
        simp only [real]
        linarith
      · have := mul_le_mul_of_nonneg_left hs.2 hc
        simp only [real]
        linarith
    · simp only [wave, full]
      rw [wrapped_eq (by linarith), fract_fract_add, blamp_fract]
      refine ⟨_, rfl, ?_⟩
      simp only [Out, if_neg hn]
      have e : 2 * real.sin (Int.fract (θ + 1 / 4) * real.pi) - 4 / real.pi = plain .full p θ := by
        simp only [plain, real, abs_sin_fract]
      rw [e]
      have r1 := blampR_range (d := d) (Int.fract_nonneg (θ + 1 / 4)) (Int.fract_lt_one _)
      have hc : 0 ≤ 2 * Real.pi * d := by positivity
      constructor
      · have := mul_nonneg hc r1.1
        simp only [real]
        linarith
      · have := mul_le_mul_of_nonneg_left r1.2 hc
        simp only [real]
        linarith

/-- Specification: an oscillator whose phase runs on without end. -/
structure Ideal where
  w : Waveform
  /-- sample rate -/
  rate : ℝ
  /-- frequency in Hz -/
  hz : ℝ
  p : ℝ
  θ : ℝ

/-- The outputs that are right for a history. -/
def Ideal.Run : Ideal → List (Op ℝ) → List ℝ → Prop
  | _, [], ys => ys = []
  | i, .freq f :: ops, ys => Ideal.Run { i with hz := f } ops ys
  | i, .pulseWidth p :: ops, ys => Ideal.Run { i with p } ops ys
  | i, .waveform w :: ops, ys => Ideal.Run { i with w } ops ys
  | i, .setSampleRate rate :: ops, ys => Ideal.Run { i with rate } ops ys
  | i, .sync θ :: ops, ys => Ideal.Run { i with θ } ops ys
  | i, .sample :: ops, ys => ∃ y ys', ys = y :: ys' ∧ Out i.w i.p (i.hz / i.rate) i.θ y ∧
      Ideal.Run { i with θ := i.θ + i.hz / i.rate } ops ys'

/-- Values that the parameters are meant for: `sync` must not be given a negative whole number (see C45). -/
def Op.Ok : Op ℝ → Prop
  | .freq f => 0 ≤ f
  | .pulseWidth p => 0 ≤ p ∧ p ≤ 1
  | .setSampleRate sr => 0 < sr
  | .sync θ => 0 ≤ θ ∨ ¬ ∃ k : ℤ, θ = k
  | _ => True

/-- What connects the oscillator to the ideal one. -/
structure Sim (b : PolyBlep ℝ) (i : Ideal) : Prop where
  hw : b.waveform = i.w
  hsr : b.sr = i.rate
  hpw : b.pw = i.p
  hdt : b.dt = i.hz / i.rate
  ht : b.t = Int.fract i.θ
  hrate : 0 < i.rate
  hhz : 0 ≤ i.hz
  hp0 : 0 ≤ i.p
  hp1 : i.p ≤ 1

theorem sync_fract (θ : ℝ) (h : 0 ≤ θ ∨ ¬ ∃ k : ℤ, θ = k) :
    (if 0 ≤ θ then θ - trunc θ else θ + (1 - trunc θ)) = Int.fract θ := by
  by_cases h0 : 0 ≤ θ
  · rw [if_pos h0, trunc, if_pos h0]; rfl
  · have hn : ¬ ∃ k : ℤ, θ = k := h.resolve_left h0
    rw [if_neg h0, trunc, if_neg h0]
    have : ⌈θ⌉ = ⌊θ⌋ + 1 := by
      rw [Int.ceil_eq_iff]
      have h1 := Int.floor_le θ
      have h2 := Int.lt_floor_add_one θ
      have h3 : (⌊θ⌋ : ℝ) ≠ θ := fun h => hn ⟨_, h.symm⟩
      refine ⟨?_, ?_⟩
      · push_cast
        have := lt_of_le_of_ne h1 h3
        linarith
      · push_cast; exact h2.le
    rw [this, Int.fract]
    push_cast
    ring

/-- **C56**: for every history with values in the meant range, the oscillator produces numbers, and they are those of the
ideal oscillator: the plain waveform smoothed over one sample to either side (a sine from a quarter of the sample rate on). -/
theorem C56_waveform (ops : List (Op ℝ)) (hops : ∀ o ∈ ops, o.Ok) (b : PolyBlep ℝ) (i : Ideal) (h : Sim b i) :
    ∃ b' ys, run real b ops = some (b', ys) ∧ i.Run ops ys := by
  induction ops generalizing b i with
  | nil => exact ⟨b, [], rfl, rfl⟩
  | cons o ops ih =>
    have ho : o.Ok := hops o (by simp)
    have ih := fun b i h => ih (fun o h => hops o (by simp [h])) b i h
    have hne : i.rate ≠ 0 := h.hrate.ne'
    cases o with
    | freq f =>
      have hne' : b.sr ≠ 0 := by rw [h.hsr]; exact hne
      obtain ⟨b', ys, h1, h2⟩ := ih { b with freq := f, dt := f / b.sr } { i with hz := f }
        ⟨h.hw, h.hsr, h.hpw, by simp only [h.hsr], h.ht, h.hrate, ho, h.hp0, h.hp1⟩
      refine ⟨b', ys, ?_, h2⟩
      rw [run]
      · simp only [PolyBlep.op, PolyBlep.setFreq, divO, if_neg hne']
        exact h1
      · simp
    | pulseWidth p =>
      obtain ⟨b', ys, h1, h2⟩ := ih { b with pw := p } { i with p }
        ⟨h.hw, h.hsr, rfl, h.hdt, h.ht, h.hrate, h.hhz, ho.1, ho.2⟩
      exact ⟨b', ys, by rw [run] <;> first | exact h1 | simp, h2⟩
    | waveform w =>
      obtain ⟨b', ys, h1, h2⟩ := ih { b with waveform := w } { i with w }
        ⟨rfl, h.hsr, h.hpw, h.hdt, h.ht, h.hrate, h.hhz, h.hp0, h.hp1⟩
      exact ⟨b', ys, by rw [run] <;> first | exact h1 | simp, h2⟩
    | setSampleRate sr =>
      have hsr : 0 < sr := ho
      have e : b.hz = i.hz := by
        rw [PolyBlep.hz, h.hdt, h.hsr]; field_simp
      obtain ⟨b', ys, h1, h2⟩ := ih { b with sr, freq := i.hz, dt := i.hz / sr } { i with rate := sr }
        ⟨h.hw, rfl, h.hpw, rfl, h.ht, hsr, h.hhz, h.hp0, h.hp1⟩
      refine ⟨b', ys, ?_, h2⟩
      rw [run]
      · simp only [PolyBlep.op, PolyBlep.setSampleRate, PolyBlep.setFreq, divO, if_neg hsr.ne', e]
        exact h1
      · simp
    | sync θ =>
      obtain ⟨b', ys, h1, h2⟩ := ih (b.sync θ) { i with θ }
        ⟨h.hw, h.hsr, h.hpw, h.hdt, sync_fract θ ho, h.hrate, h.hhz, h.hp0, h.hp1⟩
      exact ⟨b', ys, by rw [run] <;> first | exact h1 | simp, h2⟩
    | sample =>
      have hd : 0 ≤ i.hz / i.rate := div_nonneg h.hhz h.hrate.le
      have hdt : 0 ≤ b.dt := by rw [h.hdt]; exact hd
      have ht : 0 ≤ b.t := by rw [h.ht]; exact Int.fract_nonneg _
      have hinc : b.inc.t = Int.fract (i.θ + i.hz / i.rate) := by
        simp only [PolyBlep.inc]
        rw [wrapped_eq (add_nonneg ht hdt), h.ht, h.hdt, fract_fract_add]
      obtain ⟨b', ys, h1, h2⟩ := ih b.inc { i with θ := i.θ + i.hz / i.rate }
        ⟨h.hw, h.hsr, h.hpw, h.hdt, hinc, h.hrate, h.hhz, h.hp0, h.hp1⟩
      have hy : ∃ y, b.next real = some y ∧ Out i.w i.p (i.hz / i.rate) i.θ y := by
        rw [PolyBlep.next, PolyBlep.hz, h.hdt, h.hsr, h.hw, h.hpw, h.ht]
        have e : i.rate / 4 ≤ i.hz / i.rate * i.rate ↔ 1 / 4 ≤ i.hz / i.rate := by
          rw [div_mul_cancel₀ _ hne, le_div_iff₀ h.hrate]
          constructor <;> intro h <;> linarith
        by_cases hq : 1 / 4 ≤ i.hz / i.rate
        · rw [if_pos (e.2 hq)]
          refine ⟨_, rfl, ?_⟩
          unfold Out
          rw [if_pos hq]
          exact sin_fract _
        · rw [if_neg (fun h => hq (e.1 h))]
          exact wave_out i.w i.p i.θ _ h.hp0 h.hp1 hd (not_le.1 hq)
      obtain ⟨y, hy1, hy2⟩ := hy
      refine ⟨b', y :: ys, ?_, y, ys, rfl, hy2, h2⟩
      rw [run, hy1, h1]
      rfl

/-- A new oscillator, after `init`, is connected to the ideal one. -/
theorem C56_init (w : Waveform) (f sr : ℝ) (hf : 0 ≤ f) (hs : 0 < sr) :
    ∃ b, (PolyBlep.new w f).init sr = some b ∧ Sim b ⟨w, sr, f, 1 / 2, 0⟩ := by
  rw [PolyBlep.init]
  by_cases h : f = 0
  · subst h
    refine ⟨_, if_neg (by simp [PolyBlep.new]), ?_⟩
    exact ⟨rfl, rfl, rfl, by simp [PolyBlep.new], by simp [PolyBlep.new], hs, le_rfl, by norm_num, by norm_num⟩
  · rw [if_pos ⟨rfl, h⟩]
    simp only [PolyBlep.setFreq, divO, if_neg hs.ne']
    refine ⟨_, rfl, ?_⟩
    exact ⟨rfl, rfl, rfl, rfl, by simp [PolyBlep.new], hs, hf, by norm_num, by norm_num⟩

/-- Specification: the range of a waveform. -/
def rangeOf (w : Waveform) (p : ℝ) : ℝ × ℝ :=
  match w with
  | .rect => (-(2 * p), 2 - 2 * p)
  | .trip => (-p, 2 - p)
  | .half | .full => (-2, 2)
  | _ => (-1, 1)

theorem triangle0_range (x : ℝ) : -1 ≤ triangle0 x ∧ triangle0 x ≤ 1 := by
  have h0 := Int.fract_nonneg (x + 1 / 4)
  have h1 := Int.fract_lt_one (x + 1 / 4)
  rw [triangle0]
  rcases abs_cases (Int.fract (x + 1 / 4) - 1 / 2) with ⟨h, _⟩ | ⟨h, _⟩ <;> constructor <;> linarith

theorem square0_range (x : ℝ) : -1 ≤ square0 x ∧ square0 x ≤ 1 := by
  rw [square0]; split_ifs <;> norm_num

theorem plain_range (w : Waveform) (hw : w.straight = true) (p x : ℝ) :
    (rangeOf w p).1 ≤ plain w p x ∧ plain w p x ≤ (rangeOf w p).2 := by
  cases w with
  | sine => simp [Waveform.straight] at hw
  | cosine => simp [Waveform.straight] at hw
  | half => simp [Waveform.straight] at hw
  | full => simp [Waveform.straight] at hw
  | saw =>
    have h0 := Int.fract_nonneg (x + 1 / 2)
    have h1 := Int.fract_lt_one (x + 1 / 2)
    simp only [plain, rangeOf]; constructor <;> linarith
  | ramp =>
    have h0 := Int.fract_nonneg x
    have h1 := Int.fract_lt_one x
    simp only [plain, rangeOf]; constructor <;> linarith
  | sqr => exact square0_range x
  | rect => simp only [plain, rangeOf]; split_ifs <;> constructor <;> linarith
  | sqr2 =>
    have h0 := square0_range (x + (3 / 4 + p / 4))
    have h1 := square0_range (x + (5 / 4 - p / 4))
    simp only [plain, rangeOf]; constructor <;> linarith [h0.1, h0.2, h1.1, h1.2]
  | tri => exact triangle0_range x
  | tri2 =>
    obtain ⟨h0, h1⟩ := inside_range p
    simp only [plain, rangeOf, skewed0]
    generalize inside p = q at *
    have h2 := Int.fract_nonneg (x + q / 2)
    have h3 := Int.fract_lt_one (x + q / 2)
    generalize Int.fract (x + q / 2) = z at *
    split_ifs with hz
    · have a : 2 * z / q ≤ 2 := (div_le_iff₀ h0).2 (by linarith)
      have b : 0 ≤ 2 * z / q := by positivity
      constructor <;> linarith
    · have hq : 0 < 1 - q := by linarith
      have a : 2 * (z - q) / (1 - q) ≤ 2 := (div_le_iff₀ hq).2 (by linarith)
      have b : 0 ≤ 2 * (z - q) / (1 - q) := div_nonneg (by linarith) hq.le
      constructor <;> linarith
  | trip =>
    simp only [plain, rangeOf, pulse0]
    have h2 := Int.fract_nonneg (x + (3 / 4 + p / 2))
    generalize Int.fract (x + (3 / 4 + p / 2)) = z at *
    split_ifs with hz
    · have hp : 0 < p := by linarith
      have a : 2 * z / p ≤ 2 := (div_le_iff₀ hp).2 (by linarith)
      have b : 0 ≤ 2 * z / p := by positivity
      rcases abs_cases (2 * z / p - 1) with ⟨h, _⟩ | ⟨h, _⟩ <;> constructor <;> linarith
    · constructor <;> linarith
  | trap => exact ⟨le_max_left _ _, max_le (by simp [rangeOf]) (min_le_left _ _)⟩
  | trap2 => exact ⟨le_max_left _ _, max_le (by simp [rangeOf]) (min_le_left _ _)⟩

/-- **C56, range**: what the ideal oscillator may produce stays within the range of the waveform. -/
theorem C56_range (w : Waveform) (p d θ y : ℝ) (h : Out w p d θ y) :
    (if 1 / 4 ≤ d then -1 else (rangeOf w p).1) ≤ y ∧ y ≤ (if 1 / 4 ≤ d then 1 else (rangeOf w p).2) := by
  have hpi := Real.pi_pos
  unfold Out at h
  by_cases hq : 1 / 4 ≤ d
  · rw [if_pos hq] at h
    rw [if_pos hq, if_pos hq, h]
    exact ⟨Real.neg_one_le_sin _, Real.sin_le_one _⟩
  · rw [if_neg hq] at h
    rw [if_neg hq, if_neg hq]
    have hpi2 : 2 / Real.pi ≤ 1 := (div_le_one hpi).2 Real.two_le_pi
    have hpi0 : 0 ≤ 2 / Real.pi := by positivity
    have h4 : 4 / Real.pi = 2 * (2 / Real.pi) := by ring
    have hdd : 2 * Real.pi * d / 3 ≤ Real.pi / 6 := by
      have : Real.pi * d ≤ Real.pi * (1 / 4) := mul_le_mul_of_nonneg_left (not_le.1 hq).le hpi.le
      linarith
    have hsq : Real.pi / 6 ≤ 2 / Real.pi := by
      rw [le_div_iff₀ hpi]
      have := Real.pi_le_four
      have h3 : Real.pi < 3.15 := Real.pi_lt_d2
      nlinarith
    by_cases hw : w.straight = true
    · have h' : Smoothed (plain w p) d θ y := by
        cases w <;> first | exact h | simp [Waveform.straight] at hw
      exact h'.range fun x => plain_range w hw p x
    · cases w <;> simp only [Waveform.straight, Bool.false_eq_true, not_true_eq_false, not_false_eq_true] at hw
      · rw [h]; exact ⟨Real.neg_one_le_sin _, Real.sin_le_one _⟩
      · rw [h]; exact ⟨Real.neg_one_le_cos _, Real.cos_le_one _⟩
      · simp only [plain, rangeOf] at *
        have a := le_max_left 0 (Real.sin (2 * Real.pi * θ))
        have b : max 0 (Real.sin (2 * Real.pi * θ)) ≤ 1 := max_le (by norm_num) (Real.sin_le_one _)
        constructor <;> linarith [h.1, h.2]
      · simp only [plain, rangeOf] at *
        have a := abs_nonneg (Real.sin (Real.pi * (θ + 1 / 4)))
        have b : |Real.sin (Real.pi * (θ + 1 / 4))| ≤ 1 := Real.abs_sin_le_one _
        constructor <;> linarith [h.1, h.2]

/-- A history that meets the conditions. -/
example : ∀ o ∈ [Op.freq 440, .sample, .pulseWidth (1 / 4), .waveform .rect, .sample, .sync (-1 / 2), .sample], o.Ok := by
  intro o ho
  simp only [List.mem_cons, List.not_mem_nil, or_false] at ho
  rcases ho with rfl | rfl | rfl | rfl | rfl | rfl | rfl <;> simp only [Op.Ok]
  · norm_num
  · norm_num
  · right
    rintro ⟨k, hk⟩
    have h1 : ((2 * k : ℤ) : ℝ) = ((-1 : ℤ) : ℝ) := by push_cast; linarith
    have h2 : 2 * k = -1 := by exact_mod_cast h1
    omega

/-! ## Violations: values that the parameters do not check -/

/-- The state after some samples of a sawtooth that runs backwards, before the phase reaches −1. -/
theorem backwards (b : PolyBlep ℝ) (hw : b.waveform = .saw) (hsr : 0 < b.sr) (hd : b.dt < 0) (k : Nat) :
    ∀ t : ℝ, t ≤ 0 → -1 < t + k * b.dt → ∃ ys, run real { b with t } (List.replicate k .sample) = some ({ b with t := t + k * b.dt }, ys) := by
  induction k with
  | zero => intro t _ _; exact ⟨[], by simp [run]⟩
  | succ k ih =>
    intro t ht h
    push_cast at h
    have hk : (k : ℝ) * b.dt ≤ 0 := mul_nonpos_of_nonneg_of_nonpos (Nat.cast_nonneg k) hd.le
    have hneg : t + b.dt < 0 := by linarith
    have hw' : wrapped (t + b.dt) = t + b.dt := by
      rw [wrapped, trunc, if_neg (not_le.2 hneg)]
      have : ⌈t + b.dt⌉ = 0 := by
        rw [Int.ceil_eq_iff]
        constructor
        · push_cast; linarith
        · push_cast; exact hneg.le
      rw [this]; simp
    obtain ⟨ys, hys⟩ := ih (t + b.dt) hneg.le (by linarith)
    have hs : ∃ y, ({ b with t } : PolyBlep ℝ).next real = some y := by
      rw [PolyBlep.next, if_neg, hw]
      · simp only [wave, saw, blep, divO, if_neg hd.ne]
        split_ifs
        · exact ⟨_, rfl⟩
        · exact ⟨_, rfl⟩
        · exact ⟨_, rfl⟩
      · rw [PolyBlep.hz]
        have := mul_neg_of_neg_of_pos hd hsr
        simp only [not_le]
        linarith
    obtain ⟨y, hy⟩ := hs
    refine ⟨y :: ys, ?_⟩
    rw [List.replicate_succ, run, hy]
    simp only [PolyBlep.inc, hw']
    rw [hys]
    simp only [Option.bind_eq_bind, Option.bind_some, Option.pure_def, Option.some.injEq, Prod.mk.injEq, and_true]
    push_cast
    congr 1
    ring

theorem run_append (fn : Fns ℝ) (ops ops' : List (Op ℝ)) (b b' b'' : PolyBlep ℝ) (ys ys' : List ℝ)
    (h : run fn b ops = some (b', ys)) (h' : run fn b' ops' = some (b'', ys')) : run fn b (ops ++ ops') = some (b'', ys ++ ys') := by
  induction ops generalizing b ys with
  | nil =>
    simp only [run, Option.some.injEq, Prod.mk.injEq] at h
    obtain ⟨rfl, rfl⟩ := h
    simpa using h'
  | cons o ops ih =>
    cases o with
    | sample =>
      rw [run] at h
      cases hy : b.next fn with
      | none => rw [hy] at h; cases h
      | some y =>
        cases hr : run fn b.inc ops with
        | none => rw [hy, hr] at h; cases h
        | some r =>
          rw [hy, hr] at h
          simp only [Option.bind_eq_bind, Option.bind_some, Option.pure_def, Option.some.injEq, Prod.mk.injEq] at h
          obtain ⟨h1, h2⟩ := h
          rw [List.cons_append, run, hy, ih b.inc r.2 (by rw [hr, ← h1]), ← h2]
          rfl
    | freq f =>
      rw [run] at h <;> [skip; simp]
      rw [List.cons_append, run] <;> [skip; simp]
      cases hb : b.op (.freq f) with
      | none => rw [hb] at h; cases h
      | some b1 => rw [hb] at h; exact ih b1 ys h
    | pulseWidth f =>
      rw [run] at h <;> [skip; simp]
      rw [List.cons_append, run] <;> [skip; simp]
      exact ih _ ys h
    | waveform f =>
      rw [run] at h <;> [skip; simp]
      rw [List.cons_append, run] <;> [skip; simp]
      exact ih _ ys h
    | setSampleRate f =>
      rw [run] at h <;> [skip; simp]
      rw [List.cons_append, run] <;> [skip; simp]
      cases hb : b.op (.setSampleRate f) with
      | none => rw [hb] at h; cases h
      | some b1 => rw [hb] at h; exact ih b1 ys h
    | sync f =>
      rw [run] at h <;> [skip; simp]
      rw [List.cons_append, run] <;> [skip; simp]
      exact ih _ ys h

/-- **C56, violated**: with a negative frequency (as frequency modulation makes them) the samples of a sawtooth exceed every
bound. -/
theorem C56_negative_violated (B : ℝ) : ∃ (f : ℝ) (n : Nat) (b : PolyBlep ℝ) (b' : PolyBlep ℝ) (ys : List ℝ), f < 0 ∧ -48000 < f ∧
    (PolyBlep.new .saw f).init 48000 = some b ∧ run real b (List.replicate n .sample) = some (b', ys) ∧ ∃ y ∈ ys, B < y := by
  obtain ⟨m0, hm0⟩ := exists_nat_gt B
  let m := m0 + 4
  have hm : (4 : ℝ) ≤ m := by simp [m]
  have hB : B + 4 < m := by simp [m]; exact hm0
  have hmp : (0 : ℝ) < m := by linarith
  let d : ℝ := -1 / (5 * m)
  have hd : d < 0 := div_neg_of_neg_of_pos (by norm_num) (by linarith)
  have hmd : (m : ℝ) * d = -1 / 5 := by simp only [d]; field_simp
  have hd1 : -1 / 20 ≤ d := by
    have : 0 ≤ -d * (m - 4) := mul_nonneg (by linarith) (by linarith)
    nlinarith
  let b : PolyBlep ℝ := { PolyBlep.new .saw (48000 * d) with sr := 48000, dt := d }
  have hb : (PolyBlep.new Waveform.saw (48000 * d)).init 48000 = some b := by
    rw [PolyBlep.init, if_pos ⟨rfl, by simp only [PolyBlep.new]; linarith⟩]
    simp only [PolyBlep.setFreq, divO, if_neg (show (48000 : ℝ) ≠ 0 by norm_num)]
    have e : 48000 * d / 48000 = d := by field_simp
    simp only [PolyBlep.new, b, e]
    rfl
  obtain ⟨ys, hys⟩ := backwards b rfl (by simp [b]) hd (4 * m) 0 le_rfl (by
    push_cast
    simp only [b]
    linarith)
  have ht : (0 : ℝ) + ((4 * m : Nat) : ℝ) * b.dt = -4 / 5 := by
    push_cast
    simp only [b]
    linarith
  rw [ht] at hys
  have hn : run real { b with t := -4 / 5 } [.sample] = some (({ b with t := -4 / 5 } : PolyBlep ℝ).inc,
      [2 * (-3 / 10) - 1 + (3 / 2 * (m : ℝ) - 1) ^ 2]) := by
    have hne : ({ b with t := -4 / 5 } : PolyBlep ℝ).next real = some (2 * (-3 / 10) - 1 + (3 / 2 * (m : ℝ) - 1) ^ 2) := by
      rw [PolyBlep.next, if_neg]
      · have hw : wrapped ((-4 / 5 : ℝ) + 1 / 2) = -3 / 10 := by
          have : ⌈(-4 / 5 : ℝ) + 1 / 2⌉ = 0 := by
            rw [Int.ceil_eq_iff]; norm_num
          rw [wrapped, trunc, if_neg (by norm_num), this]
          norm_num
        have hlt : (-3 / 10 : ℝ) < d := by linarith
        have hq : (-3 / 10 : ℝ) / d = 3 / 2 * m := by
          rw [div_eq_iff hd.ne]
          linear_combination (-3 / 2) * hmd
        simp only [wave, saw, b, PolyBlep.new, hw, blep, if_pos hlt, divO, if_neg hd.ne, hq, square]
        simp only [Option.map_some, Option.bind_eq_bind, Option.bind_some, Option.pure_def]
        congr 1
        ring
      · simp only [PolyBlep.hz, b, not_le]
        linarith
    rw [run, hne]
    rfl
  have hall := run_append real _ _ _ _ _ _ _ hys hn
  rw [← List.replicate_succ'] at hall
  have hf1 : 48000 * d < 0 := by linarith
  have hf2 : -48000 < 48000 * d := by linarith
  refine ⟨48000 * d, 4 * m + 1, b, _, _, hf1, hf2, hb, hall, _, List.mem_append_right _ (List.mem_singleton.2 rfl), ?_⟩
  nlinarith

/-- **C56, violated**: with a pulse width above one the first sample of a rectangle exceeds every bound. -/
theorem C56_pulse_violated (B : ℝ) : ∃ (f : ℝ) (b : PolyBlep ℝ) (b' : PolyBlep ℝ) (y : ℝ), 0 < f ∧ f < 12000 ∧
    (PolyBlep.new .rect f).init 48000 = some b ∧ run real b [.pulseWidth (3 / 2), .sample] = some (b', [y]) ∧ B < y := by
  obtain ⟨m0, hm0⟩ := exists_nat_gt B
  let m := m0 + 5
  have hm : (5 : ℝ) ≤ m := by simp [m]
  have hB : B + 5 < m := by simp [m]; exact hm0
  have hmp : (0 : ℝ) < m := by linarith
  let d : ℝ := 1 / m
  have hd : 0 < d := by positivity
  have hmd : (m : ℝ) * d = 1 := by simp only [d]; field_simp
  have hd1 : d ≤ 1 / 5 := one_div_le_one_div_of_le (by norm_num) hm
  let b : PolyBlep ℝ := { PolyBlep.new .rect (48000 * d) with sr := 48000, dt := d }
  have hb : (PolyBlep.new Waveform.rect (48000 * d)).init 48000 = some b := by
    rw [PolyBlep.init, if_pos ⟨rfl, by simp only [PolyBlep.new]; positivity⟩]
    simp only [PolyBlep.setFreq, divO, if_neg (show (48000 : ℝ) ≠ 0 by norm_num)]
    have e : 48000 * d / 48000 = d := by field_simp
    simp only [PolyBlep.new, b, e]
    rfl
  have hne : ({ b with pw := 3 / 2 } : PolyBlep ℝ).next real = some (-2 + ((m : ℝ) / 2 + 1) ^ 2) := by
    rw [PolyBlep.next, if_neg]
    · have hw : wrapped ((0 : ℝ) + 1 - 3 / 2) = -1 / 2 := by
        have : ⌈(0 : ℝ) + 1 - 3 / 2⌉ = 0 := by
          rw [Int.ceil_eq_iff]; norm_num
        rw [wrapped, trunc, if_neg (by norm_num), this]
        norm_num
      have hlt : (-1 / 2 : ℝ) < d := by linarith
      have h32 : (0 : ℝ) < 3 / 2 := by norm_num
      have hq : (-1 / 2 : ℝ) / d = -(m / 2) := by
        rw [div_eq_iff hd.ne']
        linear_combination (1 / 2) * hmd
      change wave real .rect (3 / 2) 0 d = _
      simp only [wave, rect, hw, blep, if_pos h32, if_pos hlt, if_pos hd, divO, if_neg hd.ne', hq, square, zero_div]
      simp only [Option.map_some, Option.bind_eq_bind, Option.bind_some, Option.pure_def]
      congr 1
      ring
    · simp only [PolyBlep.hz, b, not_le]
      linarith
  have hrun : run real b [.pulseWidth (3 / 2), .sample] = some (({ b with pw := 3 / 2 } : PolyBlep ℝ).inc, [-2 + ((m : ℝ) / 2 + 1) ^ 2]) := by
    rw [run]
    · simp only [PolyBlep.op]
      rw [Option.bind_eq_bind, Option.bind_some, run, hne]
      rfl
    · simp
  have hf1 : 0 < 48000 * d := by linarith
  have hf2 : 48000 * d < 12000 := by linarith
  exact ⟨48000 * d, b, _, _, hf1, hf2, hb, hrun, by nlinarith⟩

/-- **C56, violated**: a frequency that is set before `init` divides by a sample rate of zero; `init` does not repair it. -/
theorem C56_before_init_violated (w : Waveform) (f g : ℝ) : (PolyBlep.new w f).op (.freq g) = none := by
  simp [PolyBlep.op, PolyBlep.setFreq, PolyBlep.new, divO]

end Verif.Pb
