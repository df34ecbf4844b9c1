import Verif.Model.BufferFile
import Verif.Props.FloatFilter
import Mathlib.Tactic.Linarith
import Mathlib.Tactic.Ring
import Mathlib.Tactic.FieldSimp
import Mathlib.Tactic.Positivity

/-!
# C82: what saving and loading a buffer does to it
-/

namespace Verif.Bu

open Verif.Os (trunc)
open Verif.Fl

/-! ### Truncation -/

theorem trunc_neg' (x : ℚ) : trunc (-x) = -trunc x := by
  unfold trunc
  rcases lt_trichotomy x 0 with h | h | h
  · rw [if_pos (by linarith), if_neg (by linarith), Int.floor_neg]
  · subst h; simp
  · rw [if_neg (by linarith), if_pos (by linarith), Int.ceil_neg]

theorem trunc_mono {x y : ℚ} (h : x ≤ y) : trunc x ≤ trunc y := by
  unfold trunc
  split_ifs with a b b
  · exact Int.floor_le_floor h
  · linarith
  · have h1 : ⌈x⌉ ≤ 0 := Int.ceil_le.2 (by push_cast; linarith)
    have h2 : 0 ≤ ⌊y⌋ := Int.floor_nonneg.2 b
    omega
  · exact Int.ceil_le_ceil h

theorem trunc_int (n : Int) : trunc (n : ℚ) = n := by
  unfold trunc
  split_ifs <;> simp

/-- Truncation is towards zero. -/
theorem trunc_spec (x : ℚ) : |(trunc x : ℚ)| ≤ |x| ∧ |(trunc x : ℚ) - x| < 1 ∧ 0 ≤ (trunc x : ℚ) * x := by
  unfold trunc
  split_ifs with a
  · have h0 : (0 : ℚ) ≤ ⌊x⌋ := by exact_mod_cast Int.floor_nonneg.2 a
    have h1 := Int.floor_le x
    have h2 := Int.lt_floor_add_one x
    rw [abs_of_nonneg h0, abs_of_nonneg a, abs_lt]
    exact ⟨h1, ⟨by linarith, by linarith⟩, mul_nonneg h0 a⟩
  · have a' : x < 0 := lt_of_not_ge a
    have h0 : (⌈x⌉ : ℚ) ≤ 0 := by exact_mod_cast Int.ceil_le.2 (by push_cast; linarith)
    have h1 := Int.le_ceil x
    have h2 := Int.ceil_lt_add_one x
    rw [abs_of_nonpos h0, abs_of_neg a', abs_lt]
    exact ⟨by linarith, ⟨by linarith, by linarith⟩, mul_nonneg_of_nonpos_of_nonpos h0 a'.le⟩

theorem asI16_neg {x : ℚ} (h : |x| ≤ 32767) : asI16 (-x) = -asI16 x := by
  have h1 := (trunc_spec x).1.trans h
  have h2 : |trunc x| ≤ 32767 := by exact_mod_cast h1
  rw [abs_le] at h2
  unfold asI16
  rw [trunc_neg']
  omega

theorem asI16_of {x : ℚ} (h : |x| ≤ 32767) : asI16 x = trunc x := by
  have h1 := (trunc_spec x).1.trans h
  have h2 : |trunc x| ≤ 32767 := by exact_mod_cast h1
  rw [abs_le] at h2
  unfold asI16
  omega

/-! ### One sample -/

/-- The product that is truncated. -/
theorem scaled {p : Nat} {emin : Int} (hf : Fmt p emin) (x : ℚ) (h : |x| ≤ 1) :
    |rnd32 (rnd p emin (x * 32767))| ≤ 32767 ∧ |rnd32 (rnd p emin (x * 32767)) - x * 32767| ≤ 1 / 512 := by
  have hl := hf.low
  have hp24 : 24 ≤ p := by rcases hf with ⟨rfl, _⟩ | ⟨rfl, _⟩ <;> norm_num
  have hr : ∀ (q : Nat) (e : Int), 24 ≤ q → e ≤ 0 → Rep q e 32767 := by
    intro q e hq he
    have := rep_nat (p := q) (emin := e) (n := 32767)
      (lt_of_lt_of_le (by norm_num) (Nat.pow_le_pow_right (by norm_num : 0 < 2) (show 24 ≤ q from hq))) he
    simpa using this
  have hx : |x * 32767| ≤ 32767 := by rw [abs_mul, abs_of_pos (by norm_num : (0 : ℚ) < 32767)]; linarith
  have h1 : |rnd p emin (x * 32767)| ≤ 32767 := rnd_abs_le hf.p1 (hr p emin hp24 (by omega)) hx
  have h2 : |rnd32 (rnd p emin (x * 32767))| ≤ 32767 := rnd_abs_le (by norm_num) (hr 24 (-149) le_rfl (by norm_num)) h1
  have p15 : pow2 15 = 32768 := by rw [pow2_eq]; norm_num
  have e1 := rnd_err (p := p) (emin := emin) (x := x * 32767) (k := 15) (by rw [p15]; linarith) (by omega)
  have e2 := rnd_err (p := 24) (emin := -149) (x := rnd p emin (x * 32767)) (k := 15) (by rw [p15]; linarith) (by norm_num)
  have b1 : pow2 (15 - p - 1) ≤ 1 / 1024 := by
    have := pow2_le (a := 15 - p - 1) (b := -10) (by omega)
    rw [pow2_eq (-10)] at this
    norm_num at this ⊢
    linarith
  have b2 : pow2 (15 - (24 : Nat) - 1) = 1 / 1024 := by rw [pow2_eq]; norm_num
  rw [b2] at e2
  refine ⟨h2, ?_⟩
  have := abs_sub_le (rnd32 (rnd p emin (x * 32767))) (rnd p emin (x * 32767)) (x * 32767)
  have e2' : |rnd32 (rnd p emin (x * 32767)) - rnd p emin (x * 32767)| ≤ 1 / 1024 := e2
  linarith

/-- Specification: the signed number one step closer to zero, as often as `n`. -/
def shrink (n : Nat) (k : Int) : Int := if 0 ≤ k then max (k - n) 0 else min (k + n) 0

/-- The value that is saved for a sample that was loaded: one step less. -/
theorem again_pos {p : Nat} {emin : Int} (hf : Fmt p emin) {k : Nat} (h0 : 0 < k) (h1 : k ≤ 32768) :
    trunc (rnd32 (rnd p emin (loadSample k * 32767))) = (k : Int) - 1 ∧
    |rnd32 (rnd p emin (loadSample k * 32767))| ≤ 32767 := by
  have hl := hf.low
  have hp24 : 24 ≤ p := by rcases hf with ⟨rfl, _⟩ | ⟨rfl, _⟩ <;> norm_num
  obtain ⟨n, rfl⟩ : ∃ n, k = n + 1 := ⟨k - 1, by omega⟩
  set x := loadSample ((n + 1 : Nat) : Int) * 32767 with hxd
  have hx : x = (n + 1) - (n + 1) / 32768 := by
    rw [hxd, loadSample]
    push_cast
    ring
  set j := Nat.log2 (n + 1) with hj
  have hj1 : 2 ^ j ≤ n + 1 := Nat.log2_self_le (by omega)
  have hj2 : n + 1 < 2 ^ (j + 1) := Nat.lt_log2_self
  have hj15 : j ≤ 15 := by
    by_contra hc
    have : 2 ^ 16 ≤ 2 ^ j := Nat.pow_le_pow_right (by norm_num) (by omega)
    omega
  -- the bounds that are numbers of both formats
  set r : ℚ := (((n : Int) + 1) * 2 ^ (15 - j) - 1 : Int) * pow2 ((j : Int) - 15) with hr
  have hpp : ((2 : ℚ) ^ (15 - j)) * pow2 ((j : Int) - 15) = 1 := by
    have : ((2 : ℚ) ^ (15 - j)) = pow2 ((15 - j : Nat) : Int) := by rw [pow2_nat]; push_cast; rfl
    rw [this, ← pow2_add, show ((15 - j : Nat) : Int) + ((j : Int) - 15) = 0 by omega]
    rfl
  have hr' : r = (n + 1) - pow2 ((j : Int) - 15) := by
    rw [hr]
    push_cast
    rw [sub_mul, mul_assoc, hpp]
    ring
  have hjq : pow2 (j : Int) ≤ (n : ℚ) + 1 := by
    rw [pow2_nat]
    exact_mod_cast hj1
  have hxr : x ≤ r := by
    rw [hx, hr']
    have : pow2 ((j : Int) - 15) = pow2 j / 32768 := by
      rw [sub_eq_add_neg, pow2_add]
      rw [show pow2 (-15) = 1 / 32768 by rw [pow2_eq]; norm_num]
      ring
    rw [this]
    linarith
  have hrep : ∀ (q : Nat) (e : Int), 24 ≤ q → e ≤ -15 → Rep q e r := by
    intro q e hq he
    refine ⟨_, _, hr, ?_, by omega⟩
    have a1 : ((n : Int) + 1) * 2 ^ (15 - j) < 2 ^ 16 := by
      have : (n + 1) * 2 ^ (15 - j) < 2 ^ (j + 1) * 2 ^ (15 - j) := Nat.mul_lt_mul_of_pos_right hj2 (by positivity)
      rw [← pow_add, show j + 1 + (15 - j) = 16 by omega] at this
      exact_mod_cast this
    have a2 : (0 : Int) < ((n : Int) + 1) * 2 ^ (15 - j) := by positivity
    have a3 : (2 : Int) ^ 16 ≤ 2 ^ q := pow_le_pow_right₀ (by norm_num) (by omega)
    rw [abs_of_nonneg (by omega)]
    omega
  have hlow : ∀ (q : Nat) (e : Int), 24 ≤ q → e ≤ 0 → Rep q e n := fun q e hq he =>
    rep_nat (lt_of_lt_of_le (by omega : n < 2 ^ 24) (Nat.pow_le_pow_right (by norm_num) hq)) he
  have hnx : (n : ℚ) ≤ x := by
    rw [hx]
    have : ((n : ℚ) + 1) / 32768 ≤ 1 := by
      rw [div_le_one (by norm_num)]
      exact_mod_cast h1
    linarith
  have l1 : (n : ℚ) ≤ rnd p emin x := rep_le_rnd hf.p1 (hlow p emin hp24 (by omega)) hnx
  have u1 : rnd p emin x ≤ r := rnd_le_rep hf.p1 (hrep p emin hp24 (by omega)) hxr
  have l2 : (n : ℚ) ≤ rnd32 (rnd p emin x) := rep_le_rnd (by norm_num) (hlow 24 (-149) le_rfl (by norm_num)) l1
  have u2 : rnd32 (rnd p emin x) ≤ r := rnd_le_rep (by norm_num) (hrep 24 (-149) le_rfl (by norm_num)) u1
  have hpj := pow2_pos ((j : Int) - 15)
  have hn0 : (0 : ℚ) ≤ n := Nat.cast_nonneg n
  refine ⟨?_, ?_⟩
  · have : ⌊rnd32 (rnd p emin x)⌋ = (n : Int) := by
      rw [Int.floor_eq_iff]
      push_cast
      constructor <;> linarith
    rw [trunc, if_pos (by linarith), this]
    push_cast
    ring
  · rw [abs_of_nonneg (by linarith)]
    rcases Nat.lt_or_ge (n + 1) 32768 with hc | hc
    · have : ((n : ℚ) + 1) ≤ 32767 := by exact_mod_cast (by omega : n + 1 ≤ 32767)
      linarith
    · have hn : n + 1 = 32768 := by omega
      have hn' : (n : ℚ) = 32767 := by exact_mod_cast (by omega : n = 32767)
      have hjj : j = 15 := by rw [hj, hn]; rfl
      rw [hr', hjj, hn'] at u2
      have : pow2 ((15 : Nat) - 15 : Int) = 1 := rfl
      rw [this] at u2
      linarith

theorem again {p : Nat} {emin : Int} (hf : Fmt p emin) {k : Int} (h : |k| ≤ 32768) :
    saveSample (rnd p emin) (loadSample k) = shrink 1 k := by
  unfold saveSample shrink
  rcases lt_trichotomy k 0 with h0 | h0 | h0
  · obtain ⟨n, rfl⟩ : ∃ n : Nat, k = -(n : Int) := ⟨k.natAbs, by omega⟩
    rw [abs_neg, abs_of_nonneg (by omega)] at h
    obtain ⟨a, b⟩ := again_pos hf (k := n) (by omega) (by omega)
    have : loadSample (-(n : Int)) * 32767 = -(loadSample n * 32767) := by unfold loadSample; push_cast; ring
    rw [this, rnd_neg, rnd32, rnd_neg, ← rnd32, asI16_neg b, asI16_of b, a, if_neg (by omega)]
    omega
  · subst h0
    have : loadSample 0 * 32767 = 0 := by unfold loadSample; norm_num
    rw [this, rnd_zero, rnd32, rnd_zero]
    decide
  · obtain ⟨n, rfl⟩ : ∃ n : Nat, k = (n : Int) := ⟨k.natAbs, by omega⟩
    rw [abs_of_nonneg (by omega)] at h
    obtain ⟨a, b⟩ := again_pos hf (k := n) (by omega) (by omega)
    rw [asI16_of b, a, if_pos (by omega)]
    omega

theorem shrink_succ (n : Nat) (k : Int) : shrink n (shrink 1 k) = shrink (n + 1) k := by
  unfold shrink
  push_cast
  split_ifs <;> omega

theorem shrink_abs (n : Nat) (k : Int) : |shrink n k| ≤ |k| := by
  unfold shrink
  split_ifs with h
  · rw [abs_of_nonneg h, abs_of_nonneg (by omega)]; omega
  · rw [abs_of_neg (by omega : k < 0), abs_of_nonpos (by omega)]; omega

/-! ### The property -/

/-- Specification: a file that `save_to_disk` can have written for a buffer with at least one channel. -/
structure Wav.Ok (w : Wav) : Prop where
  chan : 1 ≤ w.channels ∧ w.channels < 65536
  rate : w.rate < U32
  range : ∀ k ∈ w.samples, -32768 ≤ k ∧ k ≤ 32767

theorem saveSample_range (fl : ℚ → ℚ) (x : ℚ) : -32768 ≤ saveSample fl x ∧ saveSample fl x ≤ 32767 := by
  unfold saveSample asI16
  omega

/-- C82: saving never panics or leaves the range of the format, and number of channels (if there are not too many), sample rate (if it is
a whole number) and number of samples survive saving and loading. -/
theorem C82_format {fl : ℚ → ℚ} (b : Buffer) (hc : 1 ≤ b.nc ∧ b.nc < 65536) (m : Nat) (hm : m < U32) (hr : b.sr = m) :
    (b.save fl).Ok ∧ ∃ b', (b.save fl).load = .ok b' ∧ b'.nc = b.nc ∧ b'.sr = b.sr ∧ b'.frames = (b.buf.length / b.nc : Nat) ∧
      b'.buf = b.buf.map fun x => loadSample (saveSample fl x) := by
  have h1 : b.nc % 65536 = b.nc := Nat.mod_eq_of_lt hc.2
  have h2 : Os.asU32 b.sr = m := by
    rw [Os.asU32, hr, show ⌊((m : Nat) : ℚ)⌋.toNat = m by rw [Int.floor_natCast]; rfl]
    omega
  refine ⟨⟨by rw [Buffer.save, h1]; exact hc, by rw [Buffer.save, h2]; exact hm, ?_⟩, ?_⟩
  · intro k hk
    obtain ⟨x, _, rfl⟩ := List.mem_map.1 hk
    exact saveSample_range fl x
  · refine ⟨⟨b.buf.map fun x => loadSample (saveSample fl x), b.nc, (b.buf.length / b.nc : Nat), b.sr⟩, ?_, rfl, rfl, rfl, rfl⟩
    simp only [Wav.load, Buffer.save, Buffer.fromVecInterleaved, h1, h2, divC]
    rw [if_neg (by omega), hr]
    simp [List.map_map, Function.comp_def]

/-- C82: a sample between -1 and 1 comes back with an error of at most a little more than two steps of the format, with the same sign, and
never louder. -/
theorem C82_close_partial {p : Nat} {emin : Int} (hf : Fmt p emin) (x : ℚ) (h : |x| ≤ 1) :
    |loadSample (saveSample (rnd p emin) x) - x| ≤ (2 + 1 / 512) / 32768 ∧
    |loadSample (saveSample (rnd p emin) x)| ≤ |x| ∧ 0 ≤ loadSample (saveSample (rnd p emin) x) * x := by
  obtain ⟨a1, a2⟩ := scaled hf x h
  set z := rnd32 (rnd p emin (x * 32767)) with hz
  have hs : saveSample (rnd p emin) x = trunc z := asI16_of a1
  obtain ⟨t1, t2, t3⟩ := trunc_spec z
  rw [hs, loadSample]
  refine ⟨?_, ?_, ?_⟩
  · rw [abs_le] at a2 h ⊢
    rw [abs_lt] at t2
    constructor <;> linarith
  · by_cases hb : |z| < 1
    · have : |trunc z| < 1 := by exact_mod_cast lt_of_le_of_lt t1 hb
      rw [Int.abs_lt_one_iff.1 this]
      simp
    · rw [not_lt] at hb
      have hp24 : 24 ≤ p := by rcases hf with ⟨rfl, _⟩ | ⟨rfl, _⟩ <;> norm_num
      have hl := hf.low
      have r1 := rnd_rel p emin (x * 32767)
      have r2 := rnd_rel 24 (-149) (rnd p emin (x * 32767))
      have q1 : pow2 (-p) ≤ 1 / 16777216 := by
        have := pow2_le (a := -p) (b := -24) (by omega)
        rw [pow2_eq (-24)] at this
        norm_num at this ⊢
        linarith
      have q2 : pow2 (-(24 : Nat)) = 1 / 16777216 := by rw [pow2_eq]; norm_num
      have q3 : pow2 (emin - 1) ≤ 1 / 16777216 := by
        have := pow2_le (a := emin - 1) (b := -24) (by omega)
        rw [pow2_eq (-24)] at this
        norm_num at this ⊢
        linarith
      have q4 : pow2 (-149 - 1) ≤ 1 / 16777216 := by
        have := pow2_le (a := -149 - 1) (b := -24) (by norm_num)
        rw [pow2_eq (-24)] at this
        norm_num at this ⊢
        linarith
      rw [q2] at r2
      have s1 := abs_sub_abs_le_abs_sub (rnd p emin (x * 32767)) (x * 32767)
      have s2 := abs_sub_abs_le_abs_sub (rnd 24 (-149) (rnd p emin (x * 32767))) (rnd p emin (x * 32767))
      have hz' : rnd 24 (-149) (rnd p emin (x * 32767)) = z := rfl
      rw [hz'] at s2 r2
      have hxa : |x * 32767| = |x| * 32767 := by rw [abs_mul, abs_of_pos (by norm_num : (0 : ℚ) < 32767)]
      rw [hxa] at r1 s1
      have q5 : pow2 (-p) * (|x| * 32767) ≤ 1 / 16777216 * (|x| * 32767) :=
        mul_le_mul_of_nonneg_right q1 (by positivity)
      rw [abs_div, abs_of_pos (by norm_num : (0 : ℚ) < 32768), div_le_iff₀ (by norm_num)]
      have hx0 := abs_nonneg x
      linarith
  · by_cases hx : 0 ≤ x
    · have : 0 ≤ z := rnd_nonneg (rnd_nonneg (by linarith))
      have h0 : 0 ≤ trunc z := by
        have := trunc_mono this
        rwa [show trunc 0 = 0 by simp [trunc]] at this
      have h0' : (0 : ℚ) ≤ trunc z := by exact_mod_cast h0
      positivity
    · rw [not_le] at hx
      have : z ≤ 0 := rnd_neg_le (rnd_neg_le (by linarith))
      have h0 : trunc z ≤ 0 := by
        have := trunc_mono this
        rwa [show trunc 0 = 0 by simp [trunc]] at this
      have h0' : (trunc z : ℚ) / 32768 ≤ 0 := div_nonpos_of_nonpos_of_nonneg (by exact_mod_cast h0) (by norm_num)
      exact mul_nonneg_of_nonpos_of_nonpos h0' hx.le

/-- C82, "within half a step of the format" is false: just below 1 almost two steps are lost. -/
theorem C82_close_violated : ∃ x : ℚ, Rep 24 (-149) x ∧ |x| ≤ 1 ∧ 199 / 100 / 32768 < x - loadSample (saveSample rnd32 x) ∧
    199 / 100 / 32768 < x - loadSample (saveSample rnd64 x) :=
  ⟨1 - pow2 (-24), ⟨2 ^ 24 - 1, -24, by decide +kernel, by norm_num, by norm_num⟩, by decide +kernel, by decide +kernel, by decide +kernel⟩

/-- C82: the order of samples is kept, and from 1 on everything is cut off. -/
theorem C82_order {p : Nat} {emin : Int} (hf : Fmt p emin) {x y : ℚ} (h : x ≤ y) :
    saveSample (rnd p emin) x ≤ saveSample (rnd p emin) y ∧ (1 ≤ x → saveSample (rnd p emin) x = 32767) ∧
    (y ≤ -1 → saveSample (rnd p emin) y = -32768 ∨ saveSample (rnd p emin) y = -32767) := by
  have mono : ∀ {x y : ℚ}, x ≤ y → saveSample (rnd p emin) x ≤ saveSample (rnd p emin) y := by
    intro x y h
    have := trunc_mono (rnd_le (p := 24) (emin := -149) (by norm_num)
      (rnd_le (p := p) (emin := emin) hf.p1 (mul_le_mul_of_nonneg_right h (by norm_num : (0 : ℚ) ≤ 32767))))
    unfold saveSample asI16
    simp only [rnd32]
    omega
  have one : saveSample (rnd p emin) 1 = 32767 := by
    rcases hf with ⟨rfl, rfl⟩ | ⟨rfl, rfl⟩ <;> decide +kernel
  have neg : saveSample (rnd p emin) (-1) = -32767 := by
    rcases hf with ⟨rfl, rfl⟩ | ⟨rfl, rfl⟩ <;> decide +kernel
  refine ⟨mono h, fun h1 => ?_, fun h1 => ?_⟩
  · have := mono h1
    have := saveSample_range (rnd p emin) x
    omega
  · have := mono h1
    have := saveSample_range (rnd p emin) y
    omega

/-- C82, what loading and saving does to a file: every sample loses one step each time. -/
theorem C82_generations {p : Nat} {emin : Int} (hf : Fmt p emin) (n : Nat) (w : Wav) (hw : w.Ok) :
    w.copies (rnd p emin) n = .ok { w with samples := w.samples.map (shrink n) } := by
  induction n generalizing w with
  | zero =>
    have : w.samples.map (shrink 0) = w.samples := by
      conv_rhs => rw [← List.map_id w.samples]
      refine List.map_congr_left fun k _ => ?_
      unfold shrink
      simp only [id]
      split_ifs <;> omega
    rw [Wav.copies, this]
  | succ n ih =>
    have hc : w.copy (rnd p emin) = .ok { w with samples := w.samples.map (shrink 1) } := by
      have h2 : Os.asU32 (w.rate : ℚ) = w.rate := by
        have := hw.rate
        rw [Os.asU32, show ⌊((w.rate : Nat) : ℚ)⌋.toNat = w.rate by rw [Int.floor_natCast]; rfl]
        omega
      have h0 := hw.chan
      rw [Wav.copy, Wav.load, Buffer.fromVecInterleaved, divC, if_neg (by omega)]
      simp only [bind_ok, pure_ok, Buffer.save, h2, Nat.mod_eq_of_lt h0.2, List.map_map]
      congr 2
      refine List.map_congr_left fun k hk => ?_
      have := hw.range k hk
      exact again hf (by rw [abs_le]; omega)
    rw [Wav.copies, hc, bind_ok, ih]
    · simp only [List.map_map]
      congr 2
      exact List.map_congr_left fun k _ => shrink_succ n k
    · refine ⟨hw.chan, hw.rate, fun k hk => ?_⟩
      obtain ⟨j, hj, rfl⟩ := List.mem_map.1 hk
      have := hw.range j hj
      unfold shrink
      split_ifs <;> omega

/-- C82, as one would expect it, is false for every file that is not silent: loading and saving changes it, and in the end nothing is
left. -/
theorem C82_copy_violated {p : Nat} {emin : Int} (hf : Fmt p emin) (w : Wav) (hw : w.Ok) :
    (w.copy (rnd p emin) = .ok w ↔ ∀ k ∈ w.samples, k = 0) ∧
    (∀ n : Nat, (∀ k ∈ w.samples, |k| ≤ n) → w.copies (rnd p emin) n = .ok { w with samples := w.samples.map fun _ => 0 }) := by
  have h1 := C82_generations hf 1 w hw
  have h1' : w.copy (rnd p emin) = .ok { w with samples := w.samples.map (shrink 1) } := by
    rw [← h1, Wav.copies]
    cases w.copy (rnd p emin) <;> rfl
  refine ⟨?_, fun n hn => ?_⟩
  · rw [h1']
    constructor
    · intro h k hk
      have h2 : w.samples.map (shrink 1) = w.samples := by
        have := Except.ok.inj h
        exact congrArg Wav.samples this
      have h3 : w.samples.map (shrink 1) = w.samples.map id := by rw [h2, List.map_id]
      have h4 := List.map_inj_left.1 h3 k hk
      unfold shrink at h4
      simp only [id] at h4
      split_ifs at h4 <;> omega
    · intro h
      have : w.samples.map (shrink 1) = w.samples := by
        conv_rhs => rw [← List.map_id w.samples]
        refine List.map_congr_left fun k hk => ?_
        rw [h k hk]
        rfl
      rw [this]
  · rw [C82_generations hf n w hw]
    congr 2
    refine List.map_congr_left fun k hk => ?_
    have := hn k hk
    rw [abs_le] at this
    unfold shrink
    split_ifs <;> omega

/-- C82, the sample rate: only the whole part is stored, and with 65536 channels the header says that there are none. -/
theorem C82_meta_violated :
    (∃ b : Buffer, b.nc = 1 ∧ ((b.save rnd32).load.toOption.map Buffer.sr) = some 11025 ∧ b.sr = 11025 + 1 / 2) ∧
    (∃ b : Buffer, b.nc = 65536 ∧ (b.save rnd32).channels = 0) :=
  ⟨⟨⟨[1, 0], 1, 2, 11025 + 1 / 2⟩, rfl, by decide +kernel, rfl⟩, ⟨⟨[], 65536, 0, 48000⟩, rfl, by decide +kernel⟩⟩

/-- The hypotheses are met, and a stereo file of a click is silent after three copies. -/
example : Fmt 24 (-149) ∧ (⟨2, 44100, [3, -2, 0, 1]⟩ : Wav).Ok ∧
    (⟨2, 44100, [3, -2, 0, 1]⟩ : Wav).copies rnd32 1 = .ok ⟨2, 44100, [2, -1, 0, 0]⟩ ∧
    (⟨2, 44100, [3, -2, 0, 1]⟩ : Wav).copies rnd32 3 = .ok ⟨2, 44100, [0, 0, 0, 0]⟩ :=
  ⟨.inl ⟨rfl, rfl⟩, ⟨by decide, by decide, by decide⟩, by decide +kernel, by decide +kernel⟩

example : saveSample rnd32 (1 / 2) = 16383 ∧ saveSample rnd32 (3 / 2) = 32767 ∧ saveSample rnd32 (-3 / 2) = -32768 := by
  decide +kernel

example : ∃ b : Buffer, (1 ≤ b.nc ∧ b.nc < 65536) ∧ b.sr = (48000 : Nat) ∧ b.buf = [1 / 2, -1] :=
  ⟨⟨[1 / 2, -1], 2, 1, 48000⟩, by decide, by norm_num, rfl⟩

end Verif.Bu
