import Verif.Lemmas.IeeeSigned
import Verif.Model.FloatEnv
import Verif.Props.Segments

/-!
# C95, C96: segment envelopes with rounding, and in a loop
-/

namespace Verif.Fl

open Verif.Env (Seg Seq State SegOp)
open Verif.Sm (F)

variable {p : Nat} {emin : Int}

/-! ### Rounding -/

/-- A power of two and half a unit in its last place rounds down. -/
theorem rnd_tie (hp : 2 ≤ p) {k : Int} (hk : emin ≤ k - p) : rnd p emin (pow2 k + pow2 (k - p)) = pow2 k := by
  have h0 := pow2_pos k
  have h1 := pow2_pos (k - p)
  have hx : pow2 k + pow2 (k - p) ≠ 0 := by positivity
  have hlt : pow2 (k - p) < pow2 k := pow2_lt.2 (by omega)
  have h2 : pow2 (k + 1) = 2 * pow2 k := by
    rw [show k + 1 = 1 + k by ring, pow2_add]
    norm_num [pow2_eq]
  have ha : |pow2 k + pow2 (k - p)| = pow2 k + pow2 (k - p) := abs_of_pos (by linarith)
  have he : elog (pow2 k + pow2 (k - p)) = k := by
    have a := elog_lt hx (k := k + 1) (by rw [ha]; linarith)
    have b := le_elog hx (k := k) (by rw [ha]; linarith)
    omega
  rw [rnd_of_ne hx, ulpExp, he, max_eq_left (by omega)]
  have hq : k - ((p : Int) - 1) = k - p + 1 := by ring
  rw [hq]
  have e1 : pow2 (k - p + 1) = 2 * pow2 (k - p) := by
    rw [show k - p + 1 = 1 + (k - p) by ring, pow2_add]
    norm_num [pow2_eq]
  obtain ⟨q, rfl⟩ : ∃ q, p = q + 2 := ⟨p - 2, by omega⟩
  have e2 : pow2 k = 2 * (2 ^ q : Nat) * pow2 (k - (q + 2 : Nat) + 1) := by
    rw [← pow2_nat, show (2 : ℚ) = pow2 1 from by decide +kernel, ← pow2_add, ← pow2_add]
    congr 1
    push_cast
    ring
  have e3 : (pow2 k + pow2 (k - (q + 2 : Nat))) / pow2 (k - (q + 2 : Nat) + 1) = ((2 * (2 ^ q : Nat) : Int) : ℚ) + 1 / 2 := by
    have hpos := pow2_pos (k - (q + 2 : Nat) + 1)
    rw [div_eq_iff hpos.ne', e2]
    push_cast at e1 ⊢
    linarith
  rw [e3]
  have e4 : rne (((2 * (2 ^ q : Nat) : Int) : ℚ) + 1 / 2) = 2 * (2 ^ q : Nat) := by
    have hf : ⌊((2 * (2 ^ q : Nat) : Int) : ℚ) + 1 / 2⌋ = 2 * (2 ^ q : Nat) := by
      rw [Int.floor_eq_iff]
      constructor <;> linarith
    rw [rne, hf]
    simp only [add_sub_cancel_left, lt_irrefl, if_false]
    rw [if_pos (by omega)]
  rw [e4, e2]
  push_cast
  ring

/-- The relative error of a number that is not too small. -/
theorem rnd_relN {x : ℚ} (h : pow2 (emin + p - 1) ≤ |x|) : |rnd p emin x - x| ≤ pow2 (-p) * |x| := by
  have hx : x ≠ 0 := by
    rintro rfl
    have := pow2_pos (emin + p - 1)
    simp at h
    linarith
  have hn := rnd_near (p := p) (emin := emin) hx
  have hs := (elog_spec hx).1
  have hle := le_elog hx h
  rw [ulpExp, max_eq_left (by omega)] at hn
  have e : pow2 (elog x - ((p : Int) - 1)) = 2 * (pow2 (-p) * pow2 (elog x)) := by
    rw [show (2 : ℚ) = pow2 1 from by decide +kernel, ← pow2_add, ← pow2_add]
    congr 1
    ring
  rw [e] at hn
  have := mul_le_mul_of_nonneg_left hs (pow2_pos (-(p : Int))).le
  linarith

/-- The position in a segment is at most one. -/
theorem seg_ratio (hp : 2 ≤ p) (he : emin ≤ -p) {t d : ℚ} (h0 : 0 ≤ t) (hd : 0 < d) (h1 : t ≤ d)
    (hbig : pow2 (emin + p - 1) ≤ 1 / d) :
    0 ≤ rnd p emin (t * rnd p emin (1 / d)) ∧ rnd p emin (t * rnd p emin (1 / d)) ≤ 1 := by
  have hpos : 0 < 1 / d := by positivity
  have hr := rnd_relN (p := p) (emin := emin) (x := 1 / d) (by rwa [abs_of_pos hpos])
  rw [abs_of_pos hpos] at hr
  have h2 := (abs_le.1 hr).2
  have hn : 0 ≤ rnd p emin (1 / d) := rnd_nonneg hpos.le
  refine ⟨rnd_nonneg (mul_nonneg h0 hn), ?_⟩
  have a : t * rnd p emin (1 / d) ≤ d * rnd p emin (1 / d) := mul_le_mul_of_nonneg_right h1 hn
  have b : d * rnd p emin (1 / d) ≤ d * (1 / d + pow2 (-p) * (1 / d)) := mul_le_mul_of_nonneg_left (by linarith) hd.le
  have c : d * (1 / d + pow2 (-p) * (1 / d)) = pow2 0 + pow2 (0 - p) := by
    rw [show pow2 0 = 1 from by decide +kernel, zero_sub]
    field_simp
  have := rnd_le (p := p) (by omega) (emin := emin) (show t * rnd p emin (1 / d) ≤ pow2 0 + pow2 (0 - p) by linarith)
  rw [rnd_tie hp (by omega)] at this
  rwa [show pow2 0 = 1 from by decide +kernel] at this

/-- The line between two numbers up to a power of two in size does not go over it. -/
theorem line_hi (hp : 2 ≤ p) {k : Int} (hk : emin ≤ k - p) {x v r : ℚ} (hx : x ≤ pow2 k) (hv : v ≤ pow2 k)
    (hd : |v - x| ≤ 2 * pow2 k) (h0 : 0 ≤ r) (h1 : r ≤ 1) :
    rnd p emin (x + rnd p emin (r * rnd p emin (v - x))) ≤ pow2 k := by
  have hrep : Rep p emin (pow2 k) := by
    have := rep_mul (p := p) (by omega) (emin := emin) (e := k) (by omega) (m := 1) (by
      rw [abs_one]
      exact_mod_cast Nat.one_le_two_pow)
    simpa using this
  have h2k : pow2 (k + 1) = 2 * pow2 k := by
    rw [show k + 1 = 1 + k by ring, pow2_add]
    norm_num [pow2_eq]
  rcases le_or_gt x v with hc | hc
  · have hd0 : 0 ≤ rnd p emin (v - x) := rnd_nonneg (by linarith)
    have hle : rnd p emin (r * rnd p emin (v - x)) ≤ rnd p emin (v - x) :=
      rnd_le_rep (by omega) (rep_rnd (by omega) _) (by nlinarith)
    have herr : rnd p emin (v - x) ≤ v - x + pow2 (k - p) := by
      rcases lt_or_eq_of_le hd with h | h
      · have := rnd_err (p := p) (emin := emin) (x := v - x) (k := k + 1) (by rwa [h2k]) (by omega)
        rw [show k + 1 - (p : Int) - 1 = k - p by ring] at this
        linarith [(abs_le.1 this).2]
      · rw [abs_of_nonneg (by linarith)] at h
        have hr2 : Rep p emin (pow2 (k + 1)) := by
          have := rep_mul (p := p) (by omega) (emin := emin) (e := k + 1) (by omega) (m := 1) (by
            rw [abs_one]
            exact_mod_cast Nat.one_le_two_pow)
          simpa using this
        rw [h, ← h2k, rnd_rep hr2]
        linarith [pow2_pos (k - p)]
    have := rnd_le (p := p) (by omega) (emin := emin)
      (show x + rnd p emin (r * rnd p emin (v - x)) ≤ pow2 k + pow2 (k - p) by linarith)
    rwa [rnd_tie hp hk] at this
  · have hd0 : rnd p emin (v - x) ≤ 0 := rnd_le_rep (by omega) ⟨0, emin, by simp, by simp, le_rfl⟩ (by linarith)
    have hle : rnd p emin (r * rnd p emin (v - x)) ≤ 0 :=
      rnd_le_rep (by omega) ⟨0, emin, by simp, by simp, le_rfl⟩ (mul_nonpos_of_nonneg_of_nonpos h0 hd0)
    exact rnd_le_rep (by omega) hrep (by linarith)

theorem line_neg (x v r : ℚ) : rnd p emin (-x + rnd p emin (r * rnd p emin (-v - -x))) =
    -rnd p emin (x + rnd p emin (r * rnd p emin (v - x))) := by
  rw [show -v - -x = -(v - x) by ring, rnd_neg, mul_neg, rnd_neg, ← neg_add, rnd_neg]

theorem line_lo (hp : 2 ≤ p) {k : Int} (hk : emin ≤ k - p) {x v r : ℚ} (hx : -pow2 k ≤ x) (hv : -pow2 k ≤ v)
    (hd : |v - x| ≤ 2 * pow2 k) (h0 : 0 ≤ r) (h1 : r ≤ 1) :
    -pow2 k ≤ rnd p emin (x + rnd p emin (r * rnd p emin (v - x))) := by
  have := line_hi hp hk (x := -x) (v := -v) (by linarith) (by linarith) (by rwa [show -v - -x = -(v - x) by ring, abs_neg]) h0 h1
  rw [line_neg] at this
  linarith

/-- Nor below zero when both are not. -/
theorem line_nonneg (hp : 2 ≤ p) {x v r : ℚ} (hrep : Rep p emin x) (hx : 0 ≤ x) (hv : 0 ≤ v) (h0 : 0 ≤ r) (h1 : r ≤ 1) :
    0 ≤ rnd p emin (x + rnd p emin (r * rnd p emin (v - x))) := by
  apply rnd_nonneg
  have a : -x ≤ rnd p emin (v - x) := rep_le_rnd (by omega) (rep_neg hrep) (by linarith)
  have b : -x ≤ rnd p emin (r * rnd p emin (v - x)) := by
    apply rep_le_rnd (by omega) (rep_neg hrep)
    rcases le_or_gt 0 (rnd p emin (v - x)) with h | h
    · have := mul_nonneg h0 h
      linarith
    · nlinarith
  linarith

/-- The ranges that rounding respects: from minus a power of two to the power of two, and the two halves. -/
inductive Span (p : Nat) (emin : Int) : ℚ → ℚ → Prop
  | both {k : Int} (hk : emin ≤ k - p) : Span p emin (-pow2 k) (pow2 k)
  | pos {k : Int} (hk : emin ≤ k - p) : Span p emin 0 (pow2 k)
  | neg {k : Int} (hk : emin ≤ k - p) : Span p emin (-pow2 k) 0

theorem line_span (hp : 2 ≤ p) {lo hi : ℚ} (hs : Span p emin lo hi) {x v r : ℚ} (hrep : Rep p emin x)
    (hx : lo ≤ x ∧ x ≤ hi) (hv : lo ≤ v ∧ v ≤ hi) (h0 : 0 ≤ r) (h1 : r ≤ 1) :
    lo ≤ rnd p emin (x + rnd p emin (r * rnd p emin (v - x))) ∧
      rnd p emin (x + rnd p emin (r * rnd p emin (v - x))) ≤ hi := by
  cases hs with
  | @both k hk =>
    have hd : |v - x| ≤ 2 * pow2 k := by rw [abs_le]; constructor <;> linarith
    exact ⟨line_lo hp hk hx.1 hv.1 hd h0 h1, line_hi hp hk hx.2 hv.2 hd h0 h1⟩
  | @pos k hk =>
    have := pow2_pos k
    have hd : |v - x| ≤ 2 * pow2 k := by rw [abs_le]; constructor <;> linarith
    exact ⟨line_nonneg hp hrep hx.1 hv.1 h0 h1, line_hi hp hk hx.2 hv.2 hd h0 h1⟩
  | @neg k hk =>
    have := pow2_pos k
    have hd : |v - x| ≤ 2 * pow2 k := by rw [abs_le]; constructor <;> linarith
    refine ⟨line_lo hp hk hx.1 hv.1 hd h0 h1, ?_⟩
    have := line_nonneg hp (x := -x) (v := -v) (rep_neg hrep) (by linarith) (by linarith) h0 h1
    rw [line_neg] at this
    linarith

/-! ### Range -/

/-- One operation: the new state and the output if there is one. -/
def segApply (fl flo : ℚ → ℚ) (e : Seq) : SegOp → R (Seq × Option F)
  | .timeScale x => .ok (segSetTimeScale flo e x, none)
  | .jump k => match e.jump k with
    | .error p => .error p
    | .ok e => .ok (e, none)
  | .restart => .ok (e.restart, none)
  | .stop => match segStop fl e with
    | .error p => .error p
    | .ok e => .ok (e, none)
  | .frame => match segNext fl flo e with
    | .error p => .error p
    | .ok r => .ok (r.1, some r.2.1)

/-- Several operations: the final state and the outputs. -/
def segRun (fl flo : ℚ → ℚ) (e : Seq) : List SegOp → R (Seq × List F)
  | [] => .ok (e, [])
  | op :: ops => match segApply fl flo e op with
    | .error p => .error p
    | .ok r => match segRun fl flo r.1 ops with
      | .error p => .error p
      | .ok r' => .ok (r'.1, r.2.toList ++ r'.2)

/-- A history without negative time scales in which the envelope is not stopped while it is past the end of a segment. -/
def SegQuiet (fl flo : ℚ → ℚ) : Seq → List SegOp → Prop
  | _, [] => True
  | e, op :: ops =>
    (match op with
      | .timeScale x => 0 ≤ x
      | .stop => ¬ e.late
      | _ => True) ∧ ∀ r, segApply fl flo e op = .ok r → SegQuiet fl flo r.1 ops

/-- A segment whose duration is positive, and not so small or large that its reciprocal leaves the normal numbers of `f64`. -/
structure SegNormal (s : Seg) : Prop where
  lo : pow2 (-1022) ≤ s.dur
  hi : s.dur ≤ pow2 1022

/-- The invariant. -/
structure SegFine (lo hi : ℚ) (e : Seq) : Prop where
  segs : ∀ s ∈ e.segs, SegNormal s ∧ Rep 53 (-1074) s.value ∧ lo ≤ s.value ∧ s.value ≤ hi
  ne : e.segs ≠ []
  start : Rep 53 (-1074) e.start ∧ lo ≤ e.start ∧ e.start ≤ hi
  from_ : ∃ x, e.from_ = some x ∧ Rep 53 (-1074) x ∧ lo ≤ x ∧ x ≤ hi
  time : 0 ≤ e.timeScale ∧ 0 ≤ e.baseScale
  running : ∀ k t, e.state = .running k t → k < e.segs.length ∧ 0 ≤ t

theorem SegNormal.pos {s : Seg} (h : SegNormal s) : 0 < s.dur := lt_of_lt_of_le (pow2_pos _) h.lo

theorem SegNormal.recip {s : Seg} (h : SegNormal s) : pow2 (-1074 + (53 : Nat) - 1) ≤ 1 / s.dur := by
  rw [le_div_iff₀ h.pos]
  have e : pow2 (-1074 + (53 : Nat) - 1) * pow2 1022 = 1 := by
    rw [← pow2_add, show (-1074 + ((53 : Nat) : Int) - 1 + 1022) = 0 by norm_num]
    decide +kernel
  have := mul_le_mul_of_nonneg_left h.hi (pow2_pos (-1074 + (53 : Nat) - 1)).le
  linarith

theorem segInterp_some {fl : ℚ → ℚ} {s : Seg} (h : 0 < s.dur) (x t : ℚ) : segInterp fl (some x) t s =
    some (fl (x + fl (fl (t * fl (1 / s.dur)) * fl (s.value - x)))) := by
  rw [segInterp, if_neg h.ne']
  rfl

theorem segInterp_range {lo hi : ℚ} (hspan : Span 53 (-1074) lo hi) {s : Seg} (hs : SegNormal s)
    (hv : lo ≤ s.value ∧ s.value ≤ hi) {x t : ℚ} (hrep : Rep 53 (-1074) x) (hx : lo ≤ x ∧ x ≤ hi)
    (ht : 0 ≤ t ∧ t ≤ s.dur) :
    ∃ y, segInterp rnd64 (some x) t s = some y ∧ Rep 53 (-1074) y ∧ lo ≤ y ∧ y ≤ hi := by
  have hr := seg_ratio (p := 53) (emin := -1074) (by norm_num) (by norm_num) ht.1 hs.pos ht.2 hs.recip
  exact ⟨_, segInterp_some hs.pos x t, rep_rnd (by norm_num) _, line_span (by norm_num) hspan hrep hx hv hr.1 hr.2⟩

/-- At the end of a segment the output is its value. -/
theorem segInterp_end {s : Seg} (hs : 0 < s.dur) (hv : Rep 53 (-1074) s.value) (t : ℚ) :
    segInterp rnd64 (some s.value) t s = some s.value := by
  rw [segInterp_some hs, sub_self]
  simp only [rnd64, rnd_zero, mul_zero, add_zero, rnd_rep hv]

theorem Span.rep {q : Nat} {emin' : Int} (hq : 2 ≤ q) {lo hi : ℚ} (hs : Span q emin' lo hi) : Rep q emin' lo ∧ Rep q emin' hi := by
  have key : ∀ k : Int, emin' ≤ k - q → Rep q emin' (pow2 k) := by
    intro k hk
    have := rep_mul (p := q) (by omega) (emin := emin') (e := k) (by omega) (m := 1) (by
      rw [abs_one]
      exact_mod_cast Nat.one_le_two_pow)
    simpa using this
  have z : Rep q emin' 0 := ⟨0, emin', by simp, by simp, le_rfl⟩
  cases hs with
  | both hk => exact ⟨rep_neg (key _ hk), key _ hk⟩
  | pos hk => exact ⟨z, key _ hk⟩
  | neg hk => exact ⟨rep_neg (key _ hk), z⟩

/-- The rounding of the output. -/
theorem span_out {q : Nat} {emin' : Int} (hq : 2 ≤ q) {lo hi : ℚ} (hs : Span q emin' lo hi) {x : ℚ} (hx : lo ≤ x ∧ x ≤ hi) :
    lo ≤ rnd q emin' x ∧ rnd q emin' x ≤ hi :=
  ⟨rep_le_rnd (by omega) (hs.rep hq).1 hx.1, rnd_le_rep (by omega) (hs.rep hq).2 hx.2⟩

theorem segNext_fine {q : Nat} {emin' : Int} (hq : 2 ≤ q) {lo hi : ℚ} (h64 : Span 53 (-1074) lo hi) (hout : Span q emin' lo hi)
    {e : Seq} (h : SegFine lo hi e) :
    ∃ r, segNext rnd64 (rnd q emin') e = .ok r ∧ SegFine lo hi r.1 ∧ ∃ x, r.2.1 = some x ∧ lo ≤ x ∧ x ≤ hi := by
  obtain ⟨hsegs, hne, hstart, ⟨x, hx, hxr⟩, htime, hrun⟩ := h
  have hdt : 0 ≤ segDt rnd64 e := rnd_nonneg (mul_nonneg htime.1 htime.2)
  rw [segNext]
  cases hst : e.state with
  | stopped =>
    refine ⟨_, rfl, ⟨hsegs, hne, hstart, ⟨x, hx, hxr⟩, htime, ?_⟩, rnd q emin' x, by rw [hx]; rfl, span_out hq hout hxr.2⟩
    intro k t h
    rw [hst] at h
    simp at h
  | running k t =>
    obtain ⟨hk, ht⟩ := hrun k t hst
    simp only [List.getElem?_eq_getElem hk]
    have hmem := hsegs e.segs[k] (List.getElem_mem hk)
    generalize e.segs[k] = s at hmem
    by_cases h1 : t < s.dur
    · rw [if_pos h1, hx]
      refine ⟨_, rfl, ⟨hsegs, hne, hstart, ⟨x, by simp, hxr⟩, htime, ?_⟩, ?_⟩
      · intro k' t' h
        simp only [State.running.injEq] at h
        exact ⟨h.1 ▸ hk, by rw [← h.2]; exact rnd_nonneg (by linarith)⟩
      · obtain ⟨y, hy, -, hyr⟩ := segInterp_range h64 hmem.1 hmem.2.2 hxr.1 hxr.2 ⟨ht, h1.le⟩
        exact ⟨_, by rw [hy]; rfl, span_out hq hout hyr⟩
    · rw [if_neg h1]
      by_cases h2 : k + 1 < e.segs.length
      · rw [if_pos h2]
        refine ⟨_, rfl, ⟨hsegs, hne, hstart, ⟨s.value, rfl, hmem.2⟩, htime, ?_⟩, ?_⟩
        · intro k' t' h
          simp only [State.running.injEq] at h
          refine ⟨h.1 ▸ h2, ?_⟩
          rw [← h.2]
          have : 0 ≤ rnd64 (t - s.dur) := rnd_nonneg (by linarith)
          exact rnd_nonneg (by linarith)
        · exact ⟨_, by rw [segInterp_end hmem.1.pos hmem.2.1]; rfl, span_out hq hout hmem.2.2⟩
      · rw [if_neg h2]
        split
        · refine ⟨_, rfl, ⟨hsegs, hne, hstart, ⟨s.value, rfl, hmem.2⟩, htime, ?_⟩, _, rfl, span_out hq hout hmem.2.2⟩
          intro k' t' h
          simp only [State.running.injEq] at h
          exact ⟨by rw [← h.1]; exact List.length_pos_of_ne_nil hne, by rw [← h.2]⟩
        · refine ⟨_, rfl, ⟨hsegs, hne, hstart, ⟨s.value, rfl, hmem.2⟩, htime, ?_⟩, _, rfl, span_out hq hout hmem.2.2⟩
          intro k' t' h
          simp at h

theorem segApply_fine {q : Nat} {emin' : Int} (hq : 2 ≤ q) {lo hi : ℚ} (h64 : Span 53 (-1074) lo hi) (hout : Span q emin' lo hi)
    {e : Seq} (h : SegFine lo hi e) (op : SegOp) (ops : List SegOp) (hc : SegQuiet rnd64 (rnd q emin') e (op :: ops)) :
    ∃ r, segApply rnd64 (rnd q emin') e op = .ok r ∧ SegFine lo hi r.1 ∧
      ∀ v, r.2 = some v → ∃ x, v = some x ∧ lo ≤ x ∧ x ≤ hi := by
  obtain ⟨hsegs, hne, hstart, ⟨x, hx, hxr⟩, htime, hrun⟩ := h
  have hlen : 0 < e.segs.length := List.length_pos_of_ne_nil hne
  cases op with
  | timeScale y =>
    exact ⟨_, rfl, ⟨hsegs, hne, hstart, ⟨x, hx, hxr⟩, ⟨rnd_nonneg hc.1, htime.2⟩, hrun⟩, fun v hv => by simp at hv⟩
  | jump k =>
    simp only [segApply, Seq.jump]
    by_cases h1 : e.segs.length ≤ k
    · rw [if_pos h1, if_neg (by omega)]
      refine ⟨_, rfl, ⟨hsegs, hne, hstart, ⟨x, hx, hxr⟩, htime, ?_⟩, fun v hv => by simp at hv⟩
      intro k' t' h
      simp only [State.running.injEq] at h
      exact ⟨by rw [← h.1]; simp only; omega, by rw [← h.2]⟩
    · rw [if_neg h1]
      refine ⟨_, rfl, ⟨hsegs, hne, hstart, ⟨x, hx, hxr⟩, htime, ?_⟩, fun v hv => by simp at hv⟩
      intro k' t' h
      simp only [State.running.injEq] at h
      exact ⟨by rw [← h.1]; simp only; omega, by rw [← h.2]⟩
  | restart =>
    refine ⟨_, rfl, ⟨hsegs, hne, hstart, ⟨e.start, rfl, hstart⟩, htime, ?_⟩, fun v hv => by simp at hv⟩
    intro k' t' h
    simp only [Seq.restart, State.running.injEq] at h
    exact ⟨by rw [← h.1]; exact hlen, by rw [← h.2]⟩
  | stop =>
    simp only [segApply, segStop]
    cases hst : e.state with
    | stopped => exact ⟨_, rfl, ⟨hsegs, hne, hstart, ⟨x, hx, hxr⟩, htime, hrun⟩, fun v hv => by simp at hv⟩
    | running k t =>
      obtain ⟨hk, ht⟩ := hrun k t hst
      have hlate : ¬ e.segs[k].dur < t := by
        intro hlt
        apply hc.1
        rw [Seq.late, hst]
        exact ⟨e.segs[k], List.getElem?_eq_getElem hk, hlt⟩
      simp only [List.getElem?_eq_getElem hk]
      have hmem := hsegs e.segs[k] (List.getElem_mem hk)
      refine ⟨_, rfl, ⟨hsegs, hne, hstart, ?_, htime, ?_⟩, fun v hv => by simp at hv⟩
      · simp only [hx]
        exact segInterp_range h64 hmem.1 hmem.2.2 hxr.1 hxr.2 ⟨ht, not_lt.1 hlate⟩
      · intro k' t' h
        simp at h
  | frame =>
    obtain ⟨r, hr, hg, y, hy⟩ := segNext_fine hq h64 hout ⟨hsegs, hne, hstart, ⟨x, hx, hxr⟩, htime, hrun⟩
    refine ⟨(r.1, some r.2.1), by simp only [segApply, hr], hg, ?_⟩
    intro v hv
    simp only [Option.some.injEq] at hv
    exact ⟨y, hv ▸ hy.1, hy.2⟩

/-- C95, range.  A segment envelope with `f64` values in one of the ranges `[-2^k, 2^k]`, `[0, 2^k]` or `[-2^k, 0]` never panics
and never outputs anything else than a number in that range, with all roundings (also that of the output to the sample type),
in every history in which `t_stop` does not come while the time is past the end of a segment.

Missing: such a stop (`Verif.Env.C43_stop_violated`) and ranges of other numbers, see `C95_overshoot_violated`. -/
theorem C95_range_partial {q : Nat} {emin' : Int} (hq : 2 ≤ q) {lo hi : ℚ} (h64 : Span 53 (-1074) lo hi)
    (hout : Span q emin' lo hi) (start : ℚ) (segs : List Seg) (ts : ℚ) (looping : Bool) (sr : Nat)
    (hsegs : ∀ s ∈ segs, SegNormal s ∧ Rep 53 (-1074) s.value ∧ lo ≤ s.value ∧ s.value ≤ hi) (hne : segs ≠ [])
    (hstart : Rep 53 (-1074) start ∧ lo ≤ start ∧ start ≤ hi) (hts : 0 ≤ ts) (ops : List SegOp)
    (hc : SegQuiet rnd64 (rnd q emin') (segInit rnd64 (Seq.new start segs ts looping) sr) ops) :
    ∃ r, segRun rnd64 (rnd q emin') (segInit rnd64 (Seq.new start segs ts looping) sr) ops = .ok r ∧
      ∀ v ∈ r.2, ∃ x, v = some x ∧ lo ≤ x ∧ x ≤ hi := by
  have key : ∀ (ops : List SegOp) (e : Seq), SegFine lo hi e → SegQuiet rnd64 (rnd q emin') e ops →
      ∃ r, segRun rnd64 (rnd q emin') e ops = .ok r ∧ ∀ v ∈ r.2, ∃ x, v = some x ∧ lo ≤ x ∧ x ≤ hi := by
    intro ops
    induction ops with
    | nil => intro e _ _; exact ⟨_, rfl, fun v hv => by simp at hv⟩
    | cons op ops ih =>
      intro e hg hc
      obtain ⟨r, hr, hg', hv⟩ := segApply_fine hq h64 hout hg op ops hc
      obtain ⟨r', hr', hv'⟩ := ih r.1 hg' (hc.2 r hr)
      refine ⟨(r'.1, r.2.toList ++ r'.2), by rw [segRun, hr]; simp only [hr'], ?_⟩
      intro v hm
      rcases List.mem_append.1 hm with hm | hm
      · exact hv v (by simpa using hm)
      · exact hv' v hm
  refine key ops _ ⟨hsegs, hne, hstart, ⟨start, rfl, hstart⟩, ⟨hts, ?_⟩, ?_⟩ hc
  · exact rnd_nonneg (by positivity)
  · intro k t h
    simp [segInit, Seq.new] at h

/-! ### The line -/

theorem line_arith {u M x v r rho D P y : ℚ} (hu : 0 ≤ u) (hrho : 0 ≤ rho) (hrho1 : rho ≤ 1)
    (h1 : |r - rho| ≤ 2 * u) (h2 : |D - (v - x)| ≤ u * M) (h3 : |D| ≤ 2 * M) (h4 : |P - r * D| ≤ 2 * (u * M))
    (h5 : |y - (x + P)| ≤ 2 * (u * M)) : |y - (x + rho * (v - x))| ≤ 9 * (u * M) := by
  have a : |(r - rho) * D| ≤ 2 * u * (2 * M) := by
    rw [abs_mul]
    exact mul_le_mul h1 h3 (abs_nonneg _) (by linarith)
  have b : |rho * (D - (v - x))| ≤ u * M := by
    rw [abs_mul, abs_of_nonneg hrho]
    calc rho * |D - (v - x)| ≤ 1 * |D - (v - x)| := mul_le_mul_of_nonneg_right hrho1 (abs_nonneg _)
      _ ≤ u * M := by linarith
  have e : y - (x + rho * (v - x)) = (y - (x + P)) + (P - r * D) + (r - rho) * D + rho * (D - (v - x)) := by ring
  rw [e]
  have t1 := abs_add_le ((y - (x + P)) + (P - r * D) + (r - rho) * D) (rho * (D - (v - x)))
  have t2 := abs_add_le ((y - (x + P)) + (P - r * D)) ((r - rho) * D)
  have t3 := abs_add_le (y - (x + P)) (P - r * D)
  have : 2 * u * (2 * M) = 4 * (u * M) := by ring
  linarith

/-- How far the rounded line is from the line. -/
theorem line_near (hp : 2 ≤ p) (he : emin ≤ -p) {m : Int} (hm : emin ≤ m - p) {x v t d : ℚ} (hd : 0 < d)
    (hbig : pow2 (emin + p - 1) ≤ 1 / d) (h0 : 0 ≤ t) (h1 : t ≤ d) (hx : |x| ≤ pow2 m) (hv : |v| ≤ pow2 m) :
    |rnd p emin (x + rnd p emin (rnd p emin (t * rnd p emin (1 / d)) * rnd p emin (v - x))) - (x + t / d * (v - x))| ≤
      pow2 (m - p + 4) := by
  have dbl : ∀ k : Int, pow2 (k + 1) = 2 * pow2 k := fun k => by
    rw [show k + 1 = 1 + k by ring, pow2_add]
    norm_num [pow2_eq]
  have hu0 := pow2_pos (-(p : Int))
  have hM0 := pow2_pos m
  have hpos : 0 < 1 / d := by positivity
  have hr := rnd_relN (p := p) (emin := emin) (x := 1 / d) (by rwa [abs_of_pos hpos])
  rw [abs_of_pos hpos] at hr
  have hrat := seg_ratio hp he h0 hd h1 hbig
  have hrho0 : 0 ≤ t / d := by positivity
  have hrho1 : t / d ≤ 1 := by rw [div_le_one hd]; exact h1
  have hu1 : pow2 (-(p : Int)) ≤ 1 / 2 := by
    have := pow2_le (show -(p : Int) ≤ -1 by omega)
    rwa [show pow2 (-1) = 1 / 2 from by decide +kernel] at this
  have hta : |t * rnd p emin (1 / d) - t / d| ≤ pow2 (-p) := by
    rw [show t * rnd p emin (1 / d) - t / d = t * (rnd p emin (1 / d) - 1 / d) by ring, abs_mul, abs_of_nonneg h0]
    calc t * |rnd p emin (1 / d) - 1 / d| ≤ t * (pow2 (-p) * (1 / d)) := mul_le_mul_of_nonneg_left hr h0
      _ = pow2 (-p) * (t / d) := by ring
      _ ≤ pow2 (-p) * 1 := mul_le_mul_of_nonneg_left hrho1 hu0.le
      _ = pow2 (-p) := mul_one _
  have hr2 : |rnd p emin (t * rnd p emin (1 / d)) - t / d| ≤ 2 * pow2 (-p) := by
    have := rnd_err (p := p) (emin := emin) (x := t * rnd p emin (1 / d)) (k := 1) (by
      rw [show pow2 1 = 2 from by decide +kernel]
      have := abs_le.1 hta
      rw [abs_lt]
      constructor <;> linarith [this.1, this.2]) (by omega)
    rw [show (1 : Int) - p - 1 = -p by ring] at this
    have t3 := abs_add_le (rnd p emin (t * rnd p emin (1 / d)) - t * rnd p emin (1 / d)) (t * rnd p emin (1 / d) - t / d)
    rw [sub_add_sub_cancel] at t3
    linarith
  have hxv : |v - x| ≤ 2 * pow2 m := by
    have := abs_sub v x
    linarith
  have hrep2 : Rep p emin (2 * pow2 m) := by
    have := rep_mul (p := p) (by omega) (emin := emin) (e := m + 1) (by omega) (m := 1) (by
      rw [abs_one]
      exact_mod_cast Nat.one_le_two_pow)
    rw [← dbl]
    simpa using this
  have hD : |rnd p emin (v - x) - (v - x)| ≤ pow2 (-p) * pow2 m := by
    rw [← pow2_add]
    rcases lt_or_eq_of_le hxv with h | h
    · have := rnd_err (p := p) (emin := emin) (x := v - x) (k := m + 1) (by rwa [dbl]) (by omega)
      rwa [show m + 1 - (p : Int) - 1 = -p + m by ring] at this
    · have : Rep p emin (v - x) := by
        rcases abs_choice (v - x) with h' | h'
        · rw [← h', h]; exact hrep2
        · rw [show v - x = -(-(v - x)) by ring, ← h', h]; exact rep_neg hrep2
      rw [rnd_rep this, sub_self, abs_zero]
      exact (pow2_pos _).le
  have hDa : |rnd p emin (v - x)| ≤ 2 * pow2 m := rnd_abs_le (by omega) hrep2 hxv
  generalize rnd p emin (v - x) = D at hD hDa
  generalize rnd p emin (t * rnd p emin (1 / d)) = r at hrat hr2
  have hrD : |r * D| ≤ 2 * pow2 m := by
    rw [abs_mul, abs_of_nonneg hrat.1]
    calc r * |D| ≤ 1 * |D| := mul_le_mul_of_nonneg_right hrat.2 (abs_nonneg _)
      _ ≤ 2 * pow2 m := by linarith
  have hP : |rnd p emin (r * D) - r * D| ≤ 2 * (pow2 (-p) * pow2 m) := by
    have := rnd_err (p := p) (emin := emin) (x := r * D) (k := m + 1 + 1) (by rw [dbl, dbl]; linarith) (by omega)
    rwa [show m + 1 + 1 - (p : Int) - 1 = (-p + m) + 1 by ring, dbl, pow2_add] at this
  have hPa : |rnd p emin (r * D)| ≤ 2 * pow2 m := rnd_abs_le (by omega) hrep2 hrD
  generalize rnd p emin (r * D) = P at hP hPa
  have hy : |rnd p emin (x + P) - (x + P)| ≤ 2 * (pow2 (-p) * pow2 m) := by
    have := rnd_err (p := p) (emin := emin) (x := x + P) (k := m + 1 + 1) (by
      rw [dbl, dbl]
      have := abs_add_le x P
      linarith) (by omega)
    rwa [show m + 1 + 1 - (p : Int) - 1 = (-p + m) + 1 by ring, dbl, pow2_add] at this
  have := line_arith hu0.le hrho0 hrho1 hr2 hD hDa hP hy
  have e16 : pow2 (m - p + 4) = 16 * (pow2 (-p) * pow2 m) := by
    rw [show (16 : ℚ) = pow2 4 from by decide +kernel, ← pow2_add, ← pow2_add]
    congr 1
    ring
  rw [e16]
  have : 0 < pow2 (-p) * pow2 m := mul_pos hu0 hM0
  linarith

/-- C95, accuracy.  Between two numbers of size up to `2^m` the output is within `2^(m-49)` of the straight line, and
within the error of the sample type.  At the end of a segment it is exactly the value of the segment (as a sample). -/
theorem C95_line {q : Nat} {emin' : Int} {m : Int} (hm : -1000 ≤ m) (hm' : emin' ≤ m - q) {e : Seq} {k : Nat} {t x : ℚ}
    {s : Seg} (hst : e.state = .running k t) (hk : e.segs[k]? = some s) (hs : SegNormal s) (hv : Rep 53 (-1074) s.value)
    (hv' : |s.value| ≤ pow2 m) (hx : e.from_ = some x) (hx' : |x| ≤ pow2 m) (ht : 0 ≤ t) :
    ∃ r y, segNext rnd64 (rnd q emin') e = .ok r ∧ r.2.1 = some y ∧
      (t < s.dur → |y - (x + t / s.dur * (s.value - x))| ≤ pow2 (m - 49) + pow2 (m - q)) ∧
      (s.dur ≤ t → y = rnd q emin' s.value) := by
  rw [segNext, hst]
  simp only [hk]
  by_cases h1 : t < s.dur
  · rw [if_pos h1]
    refine ⟨_, _, rfl, by simp only [hx, segInterp_some hs.pos]; rfl, fun _ => ?_, fun h => absurd h1 (not_lt.2 h)⟩
    have a := line_near (p := 53) (emin := -1074) (by norm_num) (by norm_num) (m := m) (by push_cast; omega) hs.pos hs.recip ht h1.le hx' hv'
    rw [show m - ((53 : Nat) : Int) + 4 = m - 49 by push_cast; ring] at a
    have hr := seg_ratio (p := 53) (emin := -1074) (by norm_num) (by norm_num) ht hs.pos h1.le hs.recip
    have hy : |rnd 53 (-1074) (x + rnd 53 (-1074) (rnd 53 (-1074) (t * rnd 53 (-1074) (1 / s.dur)) * rnd 53 (-1074) (s.value - x)))| ≤ pow2 m := by
      have hd : |s.value - x| ≤ 2 * pow2 m := by
        have := abs_sub s.value x
        linarith
      exact abs_le.2 ⟨line_lo (by norm_num) (by push_cast; omega) (abs_le.1 hx').1 (abs_le.1 hv').1 hd hr.1 hr.2,
        line_hi (by norm_num) (by push_cast; omega) (abs_le.1 hx').2 (abs_le.1 hv').2 hd hr.1 hr.2⟩
    simp only [rnd64]
    generalize rnd 53 (-1074) (x + rnd 53 (-1074) (rnd 53 (-1074) (t * rnd 53 (-1074) (1 / s.dur)) * rnd 53 (-1074) (s.value - x))) = w at a hy
    have b := rnd_err (p := q) (emin := emin') (x := w) (k := m + 1) (by
      rw [show m + 1 = 1 + m by ring, pow2_add, show pow2 1 = 2 from by decide +kernel]
      linarith [pow2_pos m]) (by omega)
    rw [show m + 1 - (q : Int) - 1 = m - q by ring] at b
    have c := abs_add_le (rnd q emin' w - w) (w - (x + t / s.dur * (s.value - x)))
    rw [sub_add_sub_cancel] at c
    linarith
  · rw [if_neg h1]
    by_cases h2 : k + 1 < e.segs.length
    · rw [if_pos h2]
      refine ⟨_, _, rfl, by simp only [segInterp_end hs.pos hv]; rfl, fun h => absurd h h1, fun _ => rfl⟩
    · rw [if_neg h2]
      split
      · exact ⟨_, _, rfl, rfl, fun h => absurd h h1, fun _ => rfl⟩
      · exact ⟨_, _, rfl, rfl, fun h => absurd h h1, fun _ => rfl⟩

/-! ### Time -/

/-- What a rounding of times up to `B` needs to have. -/
structure Clock (fl : ℚ → ℚ) (h B : ℚ) : Prop where
  nonneg : ∀ x, 0 ≤ x → 0 ≤ fl x
  err : ∀ x, 0 ≤ x → x ≤ B → |fl x - x| ≤ h

/-- Times below `2^k` in `f64`. -/
theorem clock64 {k : Int} (hk : -1000 ≤ k) {B : ℚ} (hB : B < pow2 k) : Clock rnd64 (pow2 (k - 54)) B where
  nonneg := fun _ => rnd_nonneg
  err := fun x h0 h1 => by
    have := rnd_err (p := 53) (emin := -1074) (x := x) (k := k) (by rw [abs_of_nonneg h0]; linarith) (by push_cast; omega)
    rwa [show k - ((53 : Nat) : Int) - 1 = k - 54 by push_cast; ring] at this

/-- No rounding. -/
theorem clockExact (B : ℚ) : Clock id 0 B where
  nonneg := fun _ h => h
  err := fun x _ _ => by simp

/-- `n` frames: the final state, and the outputs with whether the envelope reports being done. -/
def segFrames (fl flo : ℚ → ℚ) : Seq → Nat → R (Seq × List (F × Bool))
  | e, 0 => .ok (e, [])
  | e, n + 1 => match segNext fl flo e with
    | .error p => .error p
    | .ok r => match segFrames fl flo r.1 n with
      | .error p => .error p
      | .ok r' => .ok (r'.1, r.2 :: r'.2)

theorem segFrames_add {fl flo : ℚ → ℚ} : ∀ (m n : Nat) {e e' e'' : Seq} {os os'}, segFrames fl flo e m = .ok (e', os) →
    segFrames fl flo e' n = .ok (e'', os') → segFrames fl flo e (m + n) = .ok (e'', os ++ os') := by
  intro m
  induction m with
  | zero =>
    intro n e e' e'' os os' h1 h2
    simp only [segFrames, Except.ok.injEq, Prod.mk.injEq] at h1
    obtain ⟨rfl, rfl⟩ := h1
    rw [Nat.zero_add, h2]
    rfl
  | succ m ih =>
    intro n e e' e'' os os' h1 h2
    rw [Nat.succ_add]
    simp only [segFrames] at h1 ⊢
    cases hn : segNext fl flo e with
    | error p => rw [hn] at h1; simp at h1
    | ok r =>
      rw [hn] at h1
      simp only at h1 ⊢
      cases hr : segFrames fl flo r.1 m with
      | error p => rw [hr] at h1; simp at h1
      | ok r' =>
        rw [hr] at h1
        simp only [Except.ok.injEq, Prod.mk.injEq] at h1
        obtain ⟨rfl, rfl⟩ := h1
        rw [ih n hr h2]
        rfl

/-- The time that is left of the envelope, in seconds of its own time. -/
def segLeft (e : Seq) (k : Nat) (t : ℚ) : ℚ := ((e.segs.drop k).map Seg.dur).sum - t

/-- The segments last longer than a frame, and not longer than the clock can count. -/
def SegSizes (fl : ℚ → ℚ) (h B : ℚ) (e : Seq) : Prop :=
  ∀ s ∈ e.segs, segDt fl e + 2 * h < s.dur ∧ s.dur + 2 * segDt fl e + 2 * h ≤ B

theorem segLeft_cons {e : Seq} {k : Nat} {s : Seg} (hk : e.segs[k]? = some s) (t : ℚ) :
    segLeft e k t = s.dur + ((e.segs.drop (k + 1)).map Seg.dur).sum - t := by
  obtain ⟨hlt, rfl⟩ := List.getElem?_eq_some_iff.1 hk
  rw [segLeft, List.drop_eq_getElem_cons hlt, List.map_cons, List.sum_cons]

theorem segs_sum_nonneg {l : List Seg} (h : ∀ s ∈ l, 0 ≤ s.dur) : 0 ≤ (l.map Seg.dur).sum := by
  induction l with
  | nil => simp
  | cons a l ih =>
    rw [List.map_cons, List.sum_cons]
    have := h a (List.mem_cons_self ..)
    have := ih (fun s hs => h s (List.mem_cons_of_mem _ hs))
    linarith

/-- As long as the end of the last segment is not reached there is time left. -/
theorem segLeft_pos {fl : ℚ → ℚ} {h B : ℚ} (h0 : 0 ≤ h) {e : Seq} {k : Nat} {t : ℚ} {s : Seg} (hd0 : 0 ≤ segDt fl e)
    (hsz : SegSizes fl h B e) (hk : e.segs[k]? = some s) (ht' : t ≤ s.dur + segDt fl e + 2 * h)
    (hend : ¬ (k + 1 = e.segs.length ∧ s.dur ≤ t)) : 0 < segLeft e k t := by
  have hlen := (List.getElem?_eq_some_iff.1 hk).1
  have hnn : ∀ s ∈ e.segs, 0 ≤ s.dur := fun s hs => by
    have := (hsz s hs).1
    linarith
  rw [segLeft_cons hk]
  by_cases h1 : t < s.dur
  · have := segs_sum_nonneg (l := e.segs.drop (k + 1)) (fun s hs => hnn s (List.mem_of_mem_drop hs))
    linarith
  · have h2 : k + 1 < e.segs.length := by
      rcases Nat.lt_or_ge (k + 1) e.segs.length with h | h
      · exact h
      · exact absurd ⟨by omega, not_lt.1 h1⟩ hend
    rw [List.drop_eq_getElem_cons h2, List.map_cons, List.sum_cons]
    have := segs_sum_nonneg (l := e.segs.drop (k + 1 + 1)) (fun s hs => hnn s (List.mem_of_mem_drop hs))
    have := (hsz _ (List.getElem_mem h2)).1
    linarith

/-- One frame before the end of the last segment. -/
theorem seg_tick {fl flo : ℚ → ℚ} {h B : ℚ} (C : Clock fl h B) (h0 : 0 ≤ h) {e : Seq} {k : Nat} {t : ℚ} {s : Seg}
    (hsz : SegSizes fl h B e) (hst : e.state = .running k t) (hk : e.segs[k]? = some s) (hd0 : 0 ≤ segDt fl e) (ht : 0 ≤ t)
    (ht' : t ≤ s.dur + segDt fl e + 2 * h) (hend : ¬ (k + 1 = e.segs.length ∧ s.dur ≤ t)) :
    ∃ k' t' s' x o, segNext fl flo e = .ok ({ e with state := .running k' t', from_ := x }, o, false) ∧
      e.segs[k']? = some s' ∧ 0 ≤ t' ∧ t' ≤ s'.dur + segDt fl e + 2 * h ∧
      |segLeft e k' t' - (segLeft e k t - segDt fl e)| ≤ 2 * h := by
  have hlen := (List.getElem?_eq_some_iff.1 hk).1
  have hmem := hsz s (List.mem_of_getElem? hk)
  rw [segNext, hst]
  simp only [hk]
  by_cases h1 : t < s.dur
  · rw [if_pos h1]
    have e1 := C.err (t + segDt fl e) (by linarith) (by linarith)
    have e2 := abs_le.1 e1
    refine ⟨k, fl (t + segDt fl e), s, e.from_, _, rfl, hk, C.nonneg _ (by linarith), by linarith, ?_⟩
    rw [segLeft, segLeft, abs_le]
    constructor <;> linarith
  · rw [if_neg h1]
    have h2 : k + 1 < e.segs.length := by
      rcases Nat.lt_or_ge (k + 1) e.segs.length with h | h
      · exact h
      · exact absurd ⟨by omega, not_lt.1 h1⟩ hend
    rw [if_pos h2]
    have h1' := not_lt.1 h1
    have hmem' := hsz _ (List.getElem_mem h2)
    have e1 := abs_le.1 (C.err (t - s.dur) (by linarith) (by linarith))
    have n1 := C.nonneg (t - s.dur) (by linarith)
    have e2 := abs_le.1 (C.err (fl (t - s.dur) + segDt fl e) (by linarith) (by linarith))
    refine ⟨k + 1, fl (fl (t - s.dur) + segDt fl e), e.segs[k + 1], some s.value, _, rfl, List.getElem?_eq_getElem h2,
      C.nonneg _ (by linarith), by linarith, ?_⟩
    rw [segLeft_cons hk, segLeft, abs_le]
    constructor <;> linarith

/-- The frames of one round: from somewhere in the envelope to the frame at which the last segment ends, which is still to
come. -/
theorem seg_round {fl flo : ℚ → ℚ} {h B : ℚ} (C : Clock fl h B) (h0 : 0 ≤ h) {dt : ℚ} (hdt : 2 * h < dt) :
    ∀ (n : Nat) {e : Seq} {k : Nat} {t : ℚ} {s : Seg}, segDt fl e = dt → SegSizes fl h B e → e.state = .running k t →
    e.segs[k]? = some s → 0 ≤ t → t ≤ s.dur + dt + 2 * h → segLeft e k t ≤ n * (dt - 2 * h) →
    ∃ N x os t' s', segFrames fl flo e N = .ok ({ e with state := .running (e.segs.length - 1) t', from_ := x }, os) ∧
      e.segs.getLast? = some s' ∧ s'.dur ≤ t' ∧ os.map (·.2) = List.replicate N false ∧
      segLeft e k t ≤ N * (dt + 2 * h) ∧ (N = 0 ∨ (N - 1 : ℚ) * (dt - 2 * h) < segLeft e k t) := by
  intro n
  induction n with
  | zero =>
    intro e k t s hd hsz hst hk ht ht' hleft
    have hend : k + 1 = e.segs.length ∧ s.dur ≤ t := by
      by_contra hc
      have := segLeft_pos h0 (by rw [hd]; linarith) hsz hk (by rw [hd]; exact ht') hc
      simp at hleft
      linarith
    have hl : e.segs.length - 1 = k := by omega
    refine ⟨0, e.from_, [], t, s, ?_, ?_, hend.2, rfl, by simpa using hleft, .inl rfl⟩
    · rw [hl, ← hst]
      rfl
    · rw [List.getLast?_eq_getElem?, hl, hk]
  | succ n ih =>
    intro e k t s hd hsz hst hk ht ht' hleft
    by_cases hend : k + 1 = e.segs.length ∧ s.dur ≤ t
    · have hl : e.segs.length - 1 = k := by omega
      refine ⟨0, e.from_, [], t, s, ?_, ?_, hend.2, rfl, ?_, .inl rfl⟩
      · rw [hl, ← hst]
        rfl
      · rw [List.getLast?_eq_getElem?, hl, hk]
      · rw [segLeft_cons hk, List.drop_eq_nil_of_le (by omega)]
        simp
        linarith [hend.2]
    · have hd0 : 0 ≤ segDt fl e := by rw [hd]; linarith
      have hpos := segLeft_pos h0 hd0 hsz hk (by rw [hd]; exact ht') hend
      obtain ⟨k', t', s', x, o, hn, hk', ht0, ht1, hw⟩ := seg_tick (flo := flo) C h0 hsz hst hk hd0 ht (by rw [hd]; exact ht') hend
      rw [hd] at ht1 hw
      have hw' := abs_le.1 hw
      push_cast at hleft
      obtain ⟨N, y, os, t2, s2, g1, g2, g3, g4, g5, g6⟩ := ih (e := { e with state := .running k' t', from_ := x }) (k := k') (t := t')
        (s := s') hd hsz rfl hk' ht0 ht1 (by
          show segLeft e k' t' ≤ _
          linarith)
      replace g5 : segLeft e k' t' ≤ N * (dt + 2 * h) := g5
      replace g6 : N = 0 ∨ (N - 1 : ℚ) * (dt - 2 * h) < segLeft e k' t' := g6
      refine ⟨N + 1, y, (o, false) :: os, t2, s2, ?_, g2, g3, ?_, ?_, .inr ?_⟩
      · rw [segFrames, hn]
        simp only [g1]
      · rw [List.map_cons, g4, List.replicate_succ]
      · push_cast
        linarith
      · push_cast
        rcases g6 with g6 | g6
        · subst g6
          simp
          exact hpos
        · linarith

theorem stopped_segFrames {fl flo : ℚ → ℚ} {e : Seq} (hs : e.state = .stopped) :
    ∀ n, segFrames fl flo e n = .ok (e, List.replicate n (e.from_.map flo, false)) := by
  intro n
  induction n with
  | zero => rfl
  | succ n ih =>
    have : segNext fl flo e = .ok (e, e.from_.map flo, false) := by rw [segNext, hs]
    rw [segFrames, this]
    simp only [ih]
    rfl

theorem segs_last {l : List Seg} {s : Seg} (h : l.getLast? = some s) : l[l.length - 1]? = some s ∧ ¬ l.length - 1 + 1 < l.length := by
  rw [List.getLast?_eq_getElem?] at h
  have := (List.getElem?_eq_some_iff.1 h).1
  exact ⟨h, by omega⟩

/-- C95, time.  An envelope that is started and left alone has a frame `N` at which it ends: until then it reports nothing,
there it outputs the value of its last segment and reports being done, and from then on it outputs exactly that value and
reports nothing.  `N` frames, each of length `dt` up to twice the rounding error `h` of the clock, are the total duration of
the segments: `N` is the first whole number for which that is possible.  Without rounding (`h = 0`) it is the total
duration divided by `dt`, rounded up. -/
theorem C95_time {fl flo : ℚ → ℚ} {h B : ℚ} (C : Clock fl h B) (h0 : 0 ≤ h) {e : Seq} (hdt : 2 * h < segDt fl e)
    (hsz : SegSizes fl h B e) (hst : e.state = .running 0 0) (hne : e.segs ≠ []) (hl : e.looping = false) :
    ∃ N s os e', e.segs.getLast? = some s ∧ segFrames fl flo e (N + 1) = .ok (e', os) ∧
      os.map (·.2) = List.replicate N false ++ [true] ∧ os.getLast? = some (some (flo s.value), true) ∧ e'.state = .stopped ∧
      (∀ m, segFrames fl flo e' m = .ok (e', List.replicate m (some (flo s.value), false))) ∧
      (e.segs.map Seg.dur).sum ≤ N * (segDt fl e + 2 * h) ∧ (N - 1 : ℚ) * (segDt fl e - 2 * h) < (e.segs.map Seg.dur).sum := by
  obtain ⟨s, hs⟩ : ∃ s, e.segs[0]? = some s := ⟨_, List.getElem?_eq_getElem (List.length_pos_of_ne_nil hne)⟩
  have hsd := (hsz s (List.mem_of_getElem? hs)).1
  obtain ⟨n, hn⟩ := exists_nat_gt ((e.segs.map Seg.dur).sum / (segDt fl e - 2 * h))
  rw [div_lt_iff₀ (by linarith)] at hn
  have hleft : segLeft e 0 0 = (e.segs.map Seg.dur).sum := by simp [segLeft]
  obtain ⟨N, x, os, t', s', g1, g2, g3, g4, g5, g6⟩ := seg_round (flo := flo) C h0 hdt n rfl hsz hst hs le_rfl (by linarith) (by rw [hleft]; exact hn.le)
  rw [hleft] at g5 g6
  obtain ⟨k1, k2⟩ := segs_last g2
  have hnext : segNext fl flo { e with state := .running (e.segs.length - 1) t', from_ := x } =
      .ok ({ e with state := .stopped, from_ := some s'.value }, some (flo s'.value), true) := by
    rw [segNext]
    simp only [k1, if_neg (not_lt.2 g3), if_neg k2, hl]
    simp
  have h1 : segFrames fl flo { e with state := .running (e.segs.length - 1) t', from_ := x } 1 =
      .ok ({ e with state := .stopped, from_ := some s'.value }, [(some (flo s'.value), true)]) := by
    rw [segFrames, hnext]
    rfl
  refine ⟨N, s', _, _, g2, segFrames_add N 1 g1 h1, ?_, ?_, rfl, ?_, g5, ?_⟩
  · rw [List.map_append, g4]
    rfl
  · simp
  · intro m
    rw [stopped_segFrames rfl]
    rfl
  · rcases g6 with rfl | g6
    · have : 0 < (e.segs.map Seg.dur).sum := by
        rw [← hleft]
        refine segLeft_pos h0 (by linarith) hsz hs (by linarith) ?_
        rintro ⟨-, hc⟩
        linarith
      push_cast
      linarith
    · exact g6

/-- C95: the time of a frame is the time scale divided by the sample rate, up to a relative error of `3 · 2^-53`. -/
theorem C95_step (e : Seq) {sr : Nat} (h1 : 1 ≤ sr) (h2 : sr < 2 ^ 32) (hlo : pow2 (-900) ≤ e.timeScale) :
    |segDt rnd64 (segInit rnd64 e sr) - e.timeScale / sr| ≤ 3 * pow2 (-53) * (e.timeScale / sr) := by
  have hs1 : (1 : ℚ) ≤ sr := by exact_mod_cast h1
  have hs2 : (sr : ℚ) ≤ pow2 32 := by
    have : (sr : ℚ) < ((2 ^ 32 : Nat) : ℚ) := by exact_mod_cast h2
    rw [show ((32 : Int)) = ((32 : Nat) : Int) from rfl, pow2_nat]
    exact this.le
  have hts : 0 < e.timeScale := lt_of_lt_of_le (pow2_pos _) hlo
  have hinv : pow2 (-32) ≤ 1 / (sr : ℚ) := by
    rw [le_div_iff₀ (by linarith)]
    have := mul_le_mul_of_nonneg_left hs2 (pow2_pos (-32)).le
    rw [← pow2_add, show (-32 : Int) + 32 = 0 by norm_num, show pow2 0 = 1 from by decide +kernel] at this
    exact this
  have hinv0 : 0 < 1 / (sr : ℚ) := lt_of_lt_of_le (pow2_pos _) hinv
  have a := rnd_relN (p := 53) (emin := -1074) (x := 1 / (sr : ℚ)) (by
    rw [abs_of_pos hinv0]
    exact (pow2_le (by norm_num)).trans hinv)
  rw [abs_of_pos hinv0] at a
  have hu : pow2 (-((53 : Nat) : Int)) = pow2 (-53) := rfl
  rw [hu] at a
  have hu0 := pow2_pos (-53)
  have hu1 : pow2 (-53) ≤ 1 / 8 := by decide +kernel
  have a' := abs_le.1 a
  have hb1 : pow2 (-33) ≤ rnd 53 (-1074) (1 / (sr : ℚ)) := by
    have : pow2 (-33) = pow2 (-32) / 2 := by decide +kernel
    have : pow2 (-53) * (1 / (sr : ℚ)) ≤ 1 / 8 * (1 / (sr : ℚ)) := mul_le_mul_of_nonneg_right hu1 hinv0.le
    linarith [a'.1]
  have hb0 : 0 < rnd 53 (-1074) (1 / (sr : ℚ)) := lt_of_lt_of_le (pow2_pos _) hb1
  have hprod : pow2 (-933) ≤ e.timeScale * rnd 53 (-1074) (1 / (sr : ℚ)) := by
    have := mul_le_mul hlo hb1 (pow2_pos _).le hts.le
    rwa [← pow2_add] at this
  have hprod0 : 0 < e.timeScale * rnd 53 (-1074) (1 / (sr : ℚ)) := mul_pos hts hb0
  have b := rnd_relN (p := 53) (emin := -1074) (x := e.timeScale * rnd 53 (-1074) (1 / (sr : ℚ))) (by
    rw [abs_of_pos hprod0]
    exact (pow2_le (by norm_num)).trans hprod)
  rw [abs_of_pos hprod0, hu] at b
  show |rnd 53 (-1074) (e.timeScale * rnd 53 (-1074) (1 / (sr : ℚ))) - e.timeScale / sr| ≤ _
  generalize rnd 53 (-1074) (e.timeScale * rnd 53 (-1074) (1 / (sr : ℚ))) = w at b
  have c : |e.timeScale * rnd 53 (-1074) (1 / (sr : ℚ)) - e.timeScale / sr| ≤ pow2 (-53) * (e.timeScale / sr) := by
    rw [show e.timeScale * rnd 53 (-1074) (1 / (sr : ℚ)) - e.timeScale / sr = e.timeScale * (rnd 53 (-1074) (1 / (sr : ℚ)) - 1 / sr) by ring,
      abs_mul, abs_of_pos hts]
    have := mul_le_mul_of_nonneg_left a hts.le
    calc _ ≤ e.timeScale * (pow2 (-53) * (1 / (sr : ℚ))) := this
      _ = _ := by ring
  generalize e.timeScale * rnd 53 (-1074) (1 / (sr : ℚ)) = v at b c
  have hq : 0 < e.timeScale / (sr : ℚ) := by positivity
  have c' := abs_le.1 c
  have d := abs_add_le (w - v) (v - e.timeScale / sr)
  rw [sub_add_sub_cancel] at d
  have f : pow2 (-53) * v ≤ pow2 (-53) * (2 * (e.timeScale / sr)) := by
    apply mul_le_mul_of_nonneg_left _ hu0.le
    have : pow2 (-53) * (e.timeScale / sr) ≤ 1 / 8 * (e.timeScale / sr) := mul_le_mul_of_nonneg_right hu1 hq.le
    linarith [c'.2]
  linarith

example : |segDt rnd64 (segInit rnd64 (Seq.new 0 [⟨1, 1⟩] 1 false) 48000) - 1 / (48000 : Nat)| ≤ 3 * pow2 (-53) * (1 / (48000 : Nat)) :=
  C95_step (Seq.new 0 [⟨1, 1⟩] 1 false) (by norm_num) (by norm_num) (by decide +kernel)

/-- A started envelope at 48 kHz with two segments. -/
def twoSegs : Seq := (segInit rnd64 (Seq.new 0 [⟨1, 1⟩, ⟨2, rnd64 (3 / 10)⟩] 1 false) 48000).restart

-- `C95_time` for it: three seconds are between 143999.99 and 144000.01 frames
example : ∃ N s os e', twoSegs.segs.getLast? = some s ∧ segFrames rnd64 rnd32 twoSegs (N + 1) = .ok (e', os) ∧
      os.map (·.2) = List.replicate N false ++ [true] ∧ os.getLast? = some (some (rnd32 s.value), true) ∧ e'.state = .stopped ∧
      (∀ m, segFrames rnd64 rnd32 e' m = .ok (e', List.replicate m (some (rnd32 s.value), false))) ∧
      (twoSegs.segs.map Seg.dur).sum ≤ N * (segDt rnd64 twoSegs + 2 * pow2 (3 - 54)) ∧
      (N - 1 : ℚ) * (segDt rnd64 twoSegs - 2 * pow2 (3 - 54)) < (twoSegs.segs.map Seg.dur).sum :=
  C95_time (clock64 (k := 3) (by norm_num) (B := 7) (by decide +kernel)) (pow2_pos _).le (by decide +kernel)
    (by unfold SegSizes; decide +kernel) rfl (by decide +kernel) rfl

-- the hypotheses of `C95_range_partial`: a range and a history with a stop
example : Span 53 (-1074) 0 (pow2 0) ∧ Span 24 (-149) 0 (pow2 0) := ⟨.pos (by norm_num), .pos (by norm_num)⟩

example : SegQuiet rnd64 rnd32 (segInit rnd64 (Seq.new 0 [⟨1, 1⟩] 1 false) 2) [.restart, .timeScale 3, .stop, .jump 0, .frame] := by
  refine ⟨trivial, fun r hr => ⟨by norm_num, fun r' hr' => ⟨?_, fun _ _ => ⟨trivial, fun _ _ => ⟨trivial, fun _ _ => trivial⟩⟩⟩⟩⟩
  simp only [segApply, Except.ok.injEq] at hr
  rw [← hr] at hr'
  simp only [segApply, Except.ok.injEq] at hr'
  rw [← hr']
  simp only [Seq.late, Seq.restart, segSetTimeScale]
  rintro ⟨s, h1, h2⟩
  simp only [segInit, Seq.new, List.getElem?_cons_zero, Option.some.injEq] at h1
  rw [← h1] at h2
  exact absurd h2 (by norm_num)

-- the state of `C95_line`
example : SegNormal ⟨1, 1⟩ ∧ Rep 53 (-1074) (1 : ℚ) ∧ |(1 : ℚ)| ≤ pow2 0 :=
  ⟨⟨by decide +kernel, by decide +kernel⟩, ⟨1, 0, by decide +kernel, by norm_num, by norm_num⟩, by decide +kernel⟩

/-- C95 is violated for the number of frames: at 48 kHz a segment of five frames lasts six (`5.0 / 48000.0` seconds; five
times the time of a frame, rounded, is less).  Without rounding it lasts five. -/
theorem C95_frames_violated :
    (segFrames rnd64 rnd32 (segInit rnd64 (Seq.new 0 [⟨rnd64 (5 / 48000), 1⟩] 1 false) 48000).restart 7).map (fun r => r.2.map (·.2)) =
        .ok [false, false, false, false, false, false, true] ∧
      (segFrames id id (segInit id (Seq.new 0 [⟨5 / 48000, 1⟩] 1 false) 48000).restart 6).map (fun r => r.2.map (·.2)) =
        .ok [false, false, false, false, false, true] := by decide +kernel

/-- C95 is violated for the range: an envelope from `-1` to `0.3` outputs `0.30000000000000004`, more than any of its values. -/
theorem C95_overshoot_violated :
    let d := rnd64 (165 / 48000)
    (segFrames rnd64 rnd64 (segInit rnd64 (Seq.new (-1) [⟨d, rnd64 (3 / 10)⟩] (d - pow2 (-61)) false) 1).restart 3).map (fun r => r.2.map (·.1)) =
        .ok [some (-1), some (rnd64 (3 / 10) + pow2 (-54)), some (rnd64 (3 / 10))] := by decide +kernel

/-! ### Looping -/

/-- C96: one round of a looping envelope.  It takes `N + 1` frames, where `N` is as in `C95_time`: the end of the round
costs a frame, and the time past the end is dropped.  Nothing is reported, the last output is the value of the last segment,
and the next round begins with that value instead of the start value. -/
theorem C96_round {fl flo : ℚ → ℚ} {h B : ℚ} (C : Clock fl h B) (h0 : 0 ≤ h) {e : Seq} (hdt : 2 * h < segDt fl e)
    (hsz : SegSizes fl h B e) (hst : e.state = .running 0 0) (hne : e.segs ≠ []) (hl : e.looping = true) :
    ∃ N s os, e.segs.getLast? = some s ∧ segFrames fl flo e (N + 1) = .ok ({ e with from_ := some s.value }, os) ∧
      os.map (·.2) = List.replicate (N + 1) false ∧ os.getLast? = some (some (flo s.value), false) ∧
      (e.segs.map Seg.dur).sum ≤ N * (segDt fl e + 2 * h) ∧ (N - 1 : ℚ) * (segDt fl e - 2 * h) < (e.segs.map Seg.dur).sum := by
  obtain ⟨s, hs⟩ : ∃ s, e.segs[0]? = some s := ⟨_, List.getElem?_eq_getElem (List.length_pos_of_ne_nil hne)⟩
  have hsd := (hsz s (List.mem_of_getElem? hs)).1
  obtain ⟨n, hn⟩ := exists_nat_gt ((e.segs.map Seg.dur).sum / (segDt fl e - 2 * h))
  rw [div_lt_iff₀ (by linarith)] at hn
  have hleft : segLeft e 0 0 = (e.segs.map Seg.dur).sum := by simp [segLeft]
  obtain ⟨N, x, os, t', s', g1, g2, g3, g4, g5, g6⟩ := seg_round (flo := flo) C h0 hdt n rfl hsz hst hs le_rfl (by linarith) (by rw [hleft]; exact hn.le)
  rw [hleft] at g5 g6
  obtain ⟨k1, k2⟩ := segs_last g2
  have hnext : segNext fl flo { e with state := .running (e.segs.length - 1) t', from_ := x } =
      .ok ({ e with from_ := some s'.value }, some (flo s'.value), false) := by
    rw [segNext]
    simp only [k1, if_neg (not_lt.2 g3), if_neg k2, hl, if_true]
    rw [← hst]
  have h1 : segFrames fl flo { e with state := .running (e.segs.length - 1) t', from_ := x } 1 =
      .ok ({ e with from_ := some s'.value }, [(some (flo s'.value), false)]) := by
    rw [segFrames, hnext]
    rfl
  refine ⟨N, s', _, g2, segFrames_add N 1 g1 h1, ?_, ?_, g5, ?_⟩
  · rw [List.map_append, g4, List.replicate_succ']
    rfl
  · simp
  · rcases g6 with rfl | g6
    · have : 0 < (e.segs.map Seg.dur).sum := by
        rw [← hleft]
        refine segLeft_pos h0 (by linarith) hsz hs (by linarith) ?_
        rintro ⟨-, hc⟩
        linarith
      push_cast
      linarith
    · exact g6

/-- C96, partial: from its second round on a looping envelope that is left alone repeats the same frames for ever.

Missing: the first round is different unless the start value is the last value (`C96_saw_violated`), and a round takes at
least a frame more than the total duration (`C96_late_violated`). -/
theorem C96_repeats_partial {fl flo : ℚ → ℚ} {h B : ℚ} (C : Clock fl h B) (h0 : 0 ≤ h) {e : Seq} (hdt : 2 * h < segDt fl e)
    (hsz : SegSizes fl h B e) (hst : e.state = .running 0 0) (hne : e.segs ≠ []) (hl : e.looping = true) :
    ∃ first round e', segFrames fl flo e first.length = .ok (e', first) ∧
      ∀ j, segFrames fl flo e' (j * round.length) = .ok (e', (List.replicate j round).flatten) := by
  have hfl : ∀ {e : Seq} {n : Nat} {r}, segFrames fl flo e n = .ok r → r.2.length = n := by
    intro e n
    induction n generalizing e with
    | zero => intro r hr; simp only [segFrames, Except.ok.injEq] at hr; rw [← hr]; rfl
    | succ n ih =>
      intro r hr
      simp only [segFrames] at hr
      cases hn : segNext fl flo e with
      | error p => rw [hn] at hr; simp at hr
      | ok q =>
        rw [hn] at hr
        simp only at hr
        cases hq : segFrames fl flo q.1 n with
        | error p => rw [hq] at hr; simp at hr
        | ok q' =>
          rw [hq] at hr
          simp only [Except.ok.injEq] at hr
          rw [← hr, List.length_cons, ih hq]
  obtain ⟨N, s, os, g1, g2, -⟩ := C96_round (flo := flo) C h0 hdt hsz hst hne hl
  obtain ⟨N', s', os', k1, k2, -⟩ := C96_round (flo := flo) (e := { e with from_ := some s.value }) C h0 hdt hsz hst hne hl
  have hs : s' = s := by
    have : some s' = some s := k1.symm.trans g1
    simpa using this
  subst hs
  refine ⟨os, os', _, by rw [hfl g2]; exact g2, ?_⟩
  intro j
  induction j with
  | zero => simp [segFrames]
  | succ j ih =>
    rw [Nat.succ_mul, List.replicate_succ', List.flatten_append]
    refine segFrames_add _ _ ih ?_
    rw [hfl k2]
    simpa using k2

/-- C96 is violated: without rounding, and with segments that last `m` frames together, a round takes `m + 1` frames. -/
theorem C96_late_violated {flo : ℚ → ℚ} {e : Seq} {m : Nat} (hdt : 0 < e.timeScale * e.baseScale)
    (hsz : ∀ s ∈ e.segs, e.timeScale * e.baseScale < s.dur) (hst : e.state = .running 0 0) (hne : e.segs ≠ []) (hl : e.looping = true)
    (hm : (e.segs.map Seg.dur).sum = m * (e.timeScale * e.baseScale)) :
    ∃ s os, e.segs.getLast? = some s ∧ segFrames id flo e (m + 1) = .ok ({ e with from_ := some s.value }, os) := by
  have hd : segDt id e = e.timeScale * e.baseScale := rfl
  have hle : ∀ (l : List Seg), (∀ s ∈ l, 0 ≤ s.dur) → ∀ s ∈ l, s.dur ≤ (l.map Seg.dur).sum := by
    intro l hl
    induction l with
    | nil => simp
    | cons a l ih =>
      have n1 := segs_sum_nonneg (l := l) (fun s hs => hl s (List.mem_cons_of_mem _ hs))
      have n2 := hl a (List.mem_cons_self ..)
      intro s hs
      rw [List.map_cons, List.sum_cons]
      rcases List.mem_cons.1 hs with rfl | hs
      · linarith
      · have := ih (fun s hs => hl s (List.mem_cons_of_mem _ hs)) s hs
        linarith
  have hle' := hle e.segs (fun s hs => by
    have := hsz s hs
    linarith)
  obtain ⟨N, s, os, g1, g2, -, -, g3, g4⟩ := C96_round (flo := flo) (clockExact ((e.segs.map Seg.dur).sum + 2 * segDt id e)) le_rfl (e := e)
    (by rw [hd]; linarith) (fun s hs => by
      have a := hsz s hs
      have b := hle' s hs
      rw [hd]
      constructor <;> linarith) hst hne hl
  rw [hm, hd] at g3 g4
  have a : (m : ℚ) ≤ N := by
    have : (m : ℚ) * (e.timeScale * e.baseScale) ≤ N * (e.timeScale * e.baseScale) := by linarith
    exact le_of_mul_le_mul_right this hdt
  have b : (N - 1 : ℚ) < m := by
    have : (N - 1 : ℚ) * (e.timeScale * e.baseScale) < m * (e.timeScale * e.baseScale) := by linarith
    exact lt_of_mul_lt_mul_right this hdt.le
  have hN : N = m := by
    have a' : m ≤ N := by exact_mod_cast a
    have b' : N < m + 1 := by
      have : (N : ℚ) < m + 1 := by linarith
      exact_mod_cast this
    omega
  subst hN
  exact ⟨s, os, g1, g2⟩

/-- C96 is violated: a looping ramp, once at its end, stays there for ever. -/
theorem C96_saw_violated {flo : ℚ → ℚ} {s : Seg} (hs : 0 < s.dur) (hv : Rep 53 (-1074) s.value) {e : Seq} (hsegs : e.segs = [s])
    (hl : e.looping = true) (hf : e.from_ = some s.value) {t : ℚ} (hst : e.state = .running 0 t) (n : Nat) :
    ∃ e', segFrames rnd64 flo e n = .ok (e', List.replicate n (some (flo s.value), false)) := by
  induction n generalizing e t with
  | zero => exact ⟨e, rfl⟩
  | succ n ih =>
    by_cases h1 : t < s.dur
    · have hn : segNext rnd64 flo e = .ok ({ e with state := .running 0 (rnd64 (t + segDt rnd64 e)) }, some (flo s.value), false) := by
        rw [segNext, hst]
        simp only [hsegs, List.getElem?_cons_zero, if_pos h1, hf, segInterp_end hs hv]
        rfl
      obtain ⟨e', he'⟩ := ih (e := { e with state := .running 0 (rnd64 (t + segDt rnd64 e)) }) hsegs hl hf rfl
      refine ⟨e', ?_⟩
      rw [segFrames, hn]
      simp only [he', List.replicate_succ]
    · have hn : segNext rnd64 flo e = .ok ({ e with from_ := some s.value, state := .running 0 0 }, some (flo s.value), false) := by
        rw [segNext, hst]
        simp only [hsegs, List.getElem?_cons_zero, if_neg h1, hl]
        simp
      obtain ⟨e', he'⟩ := ih (e := { e with from_ := some s.value, state := .running 0 0 }) hsegs hl rfl rfl
      refine ⟨e', ?_⟩
      rw [segFrames, hn]
      simp only [he', List.replicate_succ]

-- a ramp of four frames in a loop: the first round, and then nothing but its end
example : (segFrames rnd64 rnd32 (segInit rnd64 (Seq.new 0 [⟨1, 1⟩] 1 true) 4).restart 9).map (fun r => (r.1.from_, r.1.state, r.2.map (·.1))) =
    .ok (some 1, .running 0 1, [some 0, some (1 / 4), some (1 / 2), some (3 / 4), some 1, some 1, some 1, some 1, some 1]) := by decide +kernel

-- two segments that last four frames together repeat every five frames
example : (segFrames id id (segInit id (Seq.new 0 [⟨1 / 2, 1⟩, ⟨1 / 2, 0⟩] 1 true) 4).restart 10).map (fun r => r.2.map (·.1)) =
    .ok [some 0, some (1 / 2), some 1, some (1 / 2), some 0, some 0, some (1 / 2), some 1, some (1 / 2), some 0] := by decide +kernel

end Verif.Fl
