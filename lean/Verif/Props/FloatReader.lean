import Verif.Model.FloatReader
import Verif.Props.FloatWt
import Verif.Props.FloatSmooth
import Verif.Props.Buffer
import Verif.Props.Playback

/-!
# C85: playing a buffer with rounding
-/

namespace Verif.Fl

open Verif.Bu (Buffer Reader asUsize)

/-! ### The end of the buffer -/

theorem rep64_nat {n : Nat} (h : n < 2 ^ 53) : Rep64 (n : ℚ) := rep_nat h (by norm_num)

theorem rep64_sixteenth {n : Nat} (h0 : 0 < n) (h : 16 * n < 2 ^ 53) : Rep64 ((n : ℚ) - 1 / 16) := by
  refine ⟨16 * n - 1, -4, ?_, ?_, by norm_num⟩
  · rw [show pow2 (-4) = 1 / 16 by decide +kernel]
    push_cast
    ring
  · rw [abs_of_nonneg (by omega)]
    omega

/-- How many frames a reader takes `N` frames at a common sample rate to be: at most `N`, and less than one frame fewer. -/
theorem rdFrames_whole {s N : Nat} (hs0 : 0 < s) (hd : s ∣ 282240000) (hs : s ≤ 16777216) (hN : N ≤ 1048576 * s) :
    (N : ℚ) - 1 / 16 ≤ rdFrames (rnd64 ((N : ℚ) / s)) s ∧ rdFrames (rnd64 ((N : ℚ) / s)) s ≤ N := by
  have hsq : (0 : ℚ) < s := by exact_mod_cast hs0
  have hq : N / s ≤ 1048576 := Nat.div_le_of_le_mul (by rw [mul_comm]; exact hN)
  have hN2 : 16 * N < 2 ^ 53 := by
    have : N ≤ 1048576 * 16777216 := hN.trans (Nat.mul_le_mul_left _ hs)
    omega
  have hdm := Nat.div_add_mod N s
  have hml := Nat.mod_lt N hs0
  generalize hqd : N / s = q at *
  generalize hrd : N % s = r at *
  have hqs : s * q < 2 ^ 53 := by omega
  have hA : rnd64 ((q : ℚ) * s) = (s * q : Nat) := by
    rw [show (q : ℚ) * s = (s * q : Nat) by push_cast; ring]
    exact rnd64_fix (rep64_nat hqs)
  have hNs : (N : ℚ) / s = q + r / s := by
    rw [← hdm]
    push_cast
    field_simp
  unfold rdFrames toSamplesF fromSecs
  rcases Nat.eq_zero_or_pos r with hr | hr
  · subst hr
    have hx : rnd64 ((N : ℚ) / s) = (q : Nat) := by
      rw [hNs]
      simp only [Nat.cast_zero, zero_div, add_zero]
      exact rnd64_fix (rep64_nat (by omega))
    have hf : fract ((q : Nat) : ℚ) = 0 := by
      rw [fract, if_pos (by positivity)]
      simp
    have hu : asU32 ((⌊((q : Nat) : ℚ)⌋ : Int) : ℚ) = q := by
      rw [asU32_eq]
      · simp
      · simp only [Int.floor_natCast, Int.cast_natCast]
        have : q < U32 := by omega
        exact_mod_cast this
    have hz : asU32 0 = 0 := by decide +kernel
    rw [hx, hf, hu, zero_mul, rnd64_zero, hz]
    simp only [Nat.cast_zero, zero_mul, rnd64_zero, zero_div, add_zero]
    have e : s * q = N := by omega
    rw [hA, rnd64_fix (rep64_nat hqs), e]
    constructor <;> linarith
  · obtain ⟨D, hD⟩ := hd
    have hD0 : 16 ≤ D := by
      by_contra hc
      have : s * D ≤ 16777216 * 15 := Nat.mul_le_mul hs (by omega)
      omega
    have hDq : (s : ℚ) * D = 282240000 := by exact_mod_cast hD.symm
    have hT : (tesPerSec : ℚ) = 282240000 := by norm_num
    have hxe : |rnd64 ((N : ℚ) / s) - (N : ℚ) / s| ≤ 1 / 8589934592 := by
      have hlt : |(N : ℚ) / s| < pow2 21 := by
        rw [abs_of_nonneg (by positivity), show pow2 21 = 2097152 by decide +kernel, div_lt_iff₀ hsq]
        have : (N : ℚ) ≤ 1048576 * s := by exact_mod_cast hN
        linarith
      have := rnd_err (p := 53) (emin := -1074) hlt (by norm_num)
      rwa [show pow2 (21 - (53 : Nat) - 1) = 1 / 8589934592 by decide +kernel] at this
    have hxr : Rep64 (rnd64 ((N : ℚ) / s)) := rnd64_isRep _
    generalize rnd64 ((N : ℚ) / s) = x at *
    have hr1 : (1 : ℚ) / 16777216 ≤ r / s := by
      rw [div_le_div_iff₀ (by norm_num) hsq]
      have h1 : (s : ℚ) ≤ 16777216 := by exact_mod_cast hs
      have h2 : (1 : ℚ) ≤ r := by exact_mod_cast hr
      linarith
    have hr2 : (r : ℚ) / s ≤ 1 - 1 / 16777216 := by
      rw [div_le_iff₀ hsq]
      have h1 : (s : ℚ) ≤ 16777216 := by exact_mod_cast hs
      have h2 : (r : ℚ) + 1 ≤ s := by exact_mod_cast hml
      linarith
    rw [hNs] at hxe
    obtain ⟨hx1, hx2⟩ := abs_le.1 hxe
    have hq0 : (0 : ℚ) ≤ q := by positivity
    have hfl : ⌊x⌋ = (q : Int) := by
      rw [Int.floor_eq_iff]
      push_cast
      constructor <;> linarith
    have hx0 : 0 ≤ x := by linarith
    have hu : asU32 ((⌊x⌋ : Int) : ℚ) = q := by
      rw [hfl, asU32_eq]
      · simp
      · have : q < U32 := by omega
        simp only [Int.cast_natCast]
        exact_mod_cast this
    have hfr : fract x = x - q := by
      rw [fract, if_pos hx0, hfl]
      push_cast
      rfl
    have hst := sub_near (p := 53) (emin := -1074) (by norm_num) (by norm_num) hx0 hxr (B := tesPerSec) (k := 29)
      (by decide) (by decide) (by norm_num) (by norm_num) (by norm_num) (by decide +kernel)
    obtain ⟨h1, h2, h3⟩ := hst
    rw [show (rnd 53 (-1074) (fract x * (tesPerSec : ℚ))) = rnd64 (fract x * (tesPerSec : ℚ)) from rfl] at h1 h2 h3
    rw [hu]
    generalize asU32 (rnd64 (fract x * (tesPerSec : ℚ))) = u at *
    rw [show pow2 (((29 : Nat) : Int) - (53 : Nat) - 1) = 1 / 33554432 by decide +kernel] at h3
    rw [hfr, hT] at h2 h3
    have hrD : (r : ℚ) / s * 282240000 = r * D := by
      rw [← hDq]
      field_simp
    have hlo : (r : ℚ) * D - 1 - 1 < u := by linarith
    have hhi : (u : ℚ) < r * D + 1 := by linarith
    have hlo' : r * D ≤ u + 1 := by
      have : (r * D : Nat) < ((u + 2 : Nat) : ℚ) := by push_cast; linarith
      have : r * D < u + 2 := by exact_mod_cast this
      omega
    have hhi' : u ≤ r * D := by
      have : (u : ℚ) < ((r * D + 1 : Nat) : ℚ) := by push_cast; linarith
      have : u < r * D + 1 := by exact_mod_cast this
      omega
    have hus : u * s < 2 ^ 53 := by
      have : u * s ≤ 282240000 * 16777216 := Nat.mul_le_mul h1.le hs
      omega
    have hB : rnd64 ((u : ℚ) * s) = (u * s : Nat) := by
      rw [← Nat.cast_mul]
      exact rnd64_fix (rep64_nat hus)
    rw [hA, hB, hT]
    have c1 : ((u * s : Nat) : ℚ) / 282240000 ≤ r := by
      rw [div_le_iff₀ (by norm_num), ← hDq]
      have : u * s ≤ r * D * s := Nat.mul_le_mul_right _ hhi'
      have : ((u * s : Nat) : ℚ) ≤ ((r * D * s : Nat) : ℚ) := by exact_mod_cast this
      push_cast at this ⊢
      linarith
    have c2 : (r : ℚ) - 1 / 16 ≤ ((u * s : Nat) : ℚ) / 282240000 := by
      rw [le_div_iff₀ (by norm_num), ← hDq]
      have : r * D * s ≤ (u + 1) * s := Nat.mul_le_mul_right _ hlo'
      have h5 : ((r * D * s : Nat) : ℚ) ≤ (((u + 1) * s : Nat) : ℚ) := by exact_mod_cast this
      have h6 : (16 : ℚ) * s ≤ D * s := mul_le_mul_of_nonneg_right (by exact_mod_cast hD0) hsq.le
      push_cast at h5 ⊢
      linarith
    have d1 : rnd64 (((u * s : Nat) : ℚ) / 282240000) ≤ r := rnd_le_rep (by norm_num) (rep64_nat (by omega)) c1
    have d2 : (r : ℚ) - 1 / 16 ≤ rnd64 (((u * s : Nat) : ℚ) / 282240000) :=
      rep_le_rnd (by norm_num) (rep64_sixteenth hr (by omega)) c2
    have hNq : (N : ℚ) = (s * q : Nat) + r := by rw [← hdm]; push_cast; ring
    constructor
    · exact rep_le_rnd (by norm_num) (rep64_sixteenth (by omega) hN2) (by linarith)
    · exact rnd_le_rep (by norm_num) (rep64_nat (by omega)) (by linarith)

/-! ### Reading -/

/-- A sound of `N` frames at one of the common sample rates, at most 2 ^ 20 seconds long, whose samples are numbers of the sample type. -/
structure Sound (p : Nat) (emin : Int) (b : Buffer) (s N : Nat) : Prop where
  rate : b.sr = s
  frames : b.frames = N
  len : b.buf.length = N * b.nc
  pos : 0 < N
  s0 : 0 < s
  s1 : s ≤ 16777216
  common : s ∣ 282240000
  long : N ≤ 1048576 * s
  rep : ∀ x ∈ b.buf, Rep p emin x

/-- The samples of a frame in the first `ch` channels. -/
def frameAt (b : Buffer) (ch k : Nat) : List ℚ := (List.range ch).map fun c => b.buf.getD (k * b.nc + c) 0

/-- What is computed from two samples. -/
def interp (fl : ℚ → ℚ) (x y t : ℚ) : ℚ := fl (fl (x * fl (1 - fl t)) + fl (y * fl t))

theorem mod_frame (i n c N : Nat) (hc : c < n) (hN : 0 < N) : (i * n + c + n) % (N * n) = (i + 1) % N * n + c := by
  rw [show i * n + c + n = c + (i + 1) * n by ring]
  have h1 : (i + 1) * n = N * n * ((i + 1) / N) + (i + 1) % N * n := by
    conv_lhs => rw [← Nat.div_add_mod (i + 1) N]
    ring
  rw [h1, show c + (N * n * ((i + 1) / N) + (i + 1) % N * n) = c + (i + 1) % N * n + N * n * ((i + 1) / N) by ring, Nat.add_mul_mod_self_left,
    Nat.mod_eq_of_lt, Nat.add_comm]
  have : (i + 1) % N + 1 ≤ N := Nat.mod_lt _ hN
  calc c + (i + 1) % N * n < n + (i + 1) % N * n := by omega
    _ = ((i + 1) % N + 1) * n := by ring
    _ ≤ N * n := Nat.mul_le_mul_right _ this

theorem bufGet_eq (fl : ℚ → ℚ) {b : Buffer} {N : Nat} (hl : b.buf.length = N * b.nc) {q : ℚ} (hq : asUsize q < N) {c : Nat} (hc : c < b.nc) :
    bufGet fl b q c = .ok (interp fl (b.buf.getD (asUsize q * b.nc + c) 0) (b.buf.getD ((asUsize q + 1) % N * b.nc + c) 0) (fract q)) := by
  have h2 : asUsize q * b.nc + c < b.buf.length := by
    rw [hl]
    calc asUsize q * b.nc + c < asUsize q * b.nc + b.nc := by omega
      _ = (asUsize q + 1) * b.nc := by ring
      _ ≤ N * b.nc := Nat.mul_le_mul_right _ hq
  have h3 : (asUsize q * b.nc + c + b.nc) % b.buf.length < b.buf.length := Nat.mod_lt _ (by omega)
  unfold bufGet
  rw [List.getElem?_eq_getElem h2]
  simp only [modC]
  rw [if_neg (by omega)]
  simp only [bind_ok]
  rw [List.getElem?_eq_getElem h3]
  rw [List.getD_eq_getElem?_getD, List.getElem?_eq_getElem h2, Option.getD_some]
  have e := mod_frame (asUsize q) b.nc c N hc (by omega)
  rw [← hl] at e
  rw [← e, List.getD_eq_getElem?_getD, List.getElem?_eq_getElem h3]
  rfl

theorem interp_zero {p : Nat} {emin : Int} (hf : Fmt p emin) {x : ℚ} (hx : Rep p emin x) (y : ℚ) : interp (rnd p emin) x y 0 = x := by
  have h1 : Rep p emin 1 := by
    have := rep_nat (p := p) (emin := emin) (n := 1) (Nat.one_lt_two_pow (by have := hf.p1; omega)) (by have := hf.low; omega)
    simpa using this
  unfold interp
  rw [rnd_zero, sub_zero, rnd_rep h1, mul_one, mul_zero, rnd_zero, add_zero, rnd_rep hx, rnd_rep hx]

theorem fract_range {q : ℚ} (h : 0 ≤ q) : 0 ≤ fract q ∧ fract q < 1 := by
  rw [fract, if_pos h]
  have := Int.floor_le q
  have := Int.lt_floor_add_one q
  constructor <;> linarith

theorem tuned_mix {p : Nat} {emin : Int} (hf : Fmt p emin) {t : ℚ} (h0 : 0 ≤ t) (h1 : t < 1) (y : ℚ) :
    TunedF p emin ⟨y, rnd p emin (1 - rnd p emin t), rnd p emin t⟩ := by
  have hr1 : Rep p emin 1 := by
    have := rep_nat (p := p) (emin := emin) (n := 1) (Nat.one_lt_two_pow (by have := hf.p1; omega)) (by have := hf.low; omega)
    simpa using this
  exact ⟨rnd_nonneg h0, rnd_le_rep hf.p1 hr1 h1.le, rep_rnd hf.p1 _, rfl⟩

theorem interp_range {p : Nat} {emin : Int} (hf : Fmt p emin) {x y t : ℚ} (h0 : 0 ≤ t) (h1 : t < 1) {k : Int} (hk : 0 ≤ k)
    (hx : |x| ≤ pow2 k) (hy : |y| ≤ pow2 k) : |interp (rnd p emin) x y t| ≤ pow2 k :=
  lp_le hf (tuned_mix hf h0 h1 y) hk hx hy

theorem interp_near {p : Nat} {emin : Int} (hf : Fmt p emin) {x y t : ℚ} (h0 : 0 ≤ t) (h1 : t < 1) {k : Int} (hk : 0 ≤ k)
    (hx : |x| ≤ pow2 k) (hy : |y| ≤ pow2 k) : |interp (rnd p emin) x y t - ((1 - t) * x + t * y)| ≤ pow2 (k + 3 - p) := by
  have hT := tuned_mix hf h0 h1 y
  obtain ⟨a0, a1, a2⟩ := hT.a0 hf
  have hs := sum_le hf hT hk hx hy
  have hlow := hf.low
  have hp1 := hf.p1
  have ht := rnd_err (p := p) (emin := emin) (x := t) (k := 0) (by rw [abs_of_nonneg h0]; simpa [pow2_eq] using h1) (by omega)
  rw [show (0 : Int) - p - 1 = -p - 1 by ring] at ht
  have hr1 : rnd p emin t ≤ 1 := hT.2.1
  have hr0 : 0 ≤ rnd p emin t := hT.1
  have hM := pow2_pos k
  have hu := pow2_pos (-(p : Int) - 1)
  have hu1 : pow2 (-(p : Int) - 1) ≤ 1 := by
    have := pow2_le (a := -(p : Int) - 1) (b := 0) (by omega)
    simpa [pow2_eq] using this
  have e1 : pow2 (k + 3 - p) = 16 * (pow2 k * pow2 (-(p : Int) - 1)) := by
    rw [show k + 3 - (p : Int) = 4 + (k + (-p - 1)) by ring, pow2_add, pow2_add, show pow2 4 = 16 by decide +kernel]
  have e2 : pow2 ((k + 1) - p - 1) = 2 * (pow2 k * pow2 (-(p : Int) - 1)) := by
    rw [show (k + 1) - (p : Int) - 1 = 1 + (k + (-p - 1)) by ring, pow2_add, pow2_add, show pow2 1 = 2 by decide +kernel]
  have e3 : pow2 (k + 1) = 2 * pow2 k := by rw [pow2_add, show pow2 1 = 2 by decide +kernel]; ring
  have e4 : pow2 (k - p - 1) = pow2 k * pow2 (-(p : Int) - 1) := by
    rw [show k - (p : Int) - 1 = k + (-p - 1) by ring, pow2_add]
  simp only at a0 a1 a2 hs
  unfold interp
  set m := rnd p emin t
  set a := rnd p emin (1 - m)
  have hR1 : Rep p emin 1 := by
    have := rep_nat (p := p) (emin := emin) (n := 1) (Nat.one_lt_two_pow (by omega)) (by omega)
    simpa using this
  have ha1 : a ≤ 1 := rnd_le_rep hp1 hR1 (by linarith)
  have hmul : ∀ {v w : ℚ}, |v| ≤ pow2 k → 0 ≤ w → w ≤ 1 → |v * w| < pow2 (k + 1) := by
    intro v w hv hw0 hw1
    rw [abs_mul, abs_of_nonneg hw0, e3]
    have := mul_le_mul hv hw1 hw0 hM.le
    linarith
  have b1 := rnd_err (p := p) (emin := emin) (hmul hx a0 ha1) (by omega)
  have b2 := rnd_err (p := p) (emin := emin) (hmul hy hr0 hr1) (by omega)
  have hMu : pow2 k * pow2 (-(p : Int) - 1) ≤ pow2 k / 2 := by
    have : pow2 (-(p : Int) - 1) ≤ pow2 (-1) := pow2_le (by omega)
    rw [show pow2 (-1) = 1 / 2 by decide +kernel] at this
    have := mul_le_mul_of_nonneg_left this hM.le
    linarith
  have b3 := rnd_err (p := p) (emin := emin) (x := rnd p emin (x * a) + rnd p emin (y * m)) (k := k + 1)
    (lt_of_le_of_lt hs (by rw [e3, e4]; linarith)) (by omega)
  rw [e2] at b1 b2 b3
  rw [e1]
  set S := rnd p emin (rnd p emin (x * a) + rnd p emin (y * m))
  set A := rnd p emin (x * a)
  set B := rnd p emin (y * m)
  have c1 : |x * (a - (1 - t))| ≤ 2 * (pow2 k * pow2 (-(p : Int) - 1)) := by
    rw [abs_mul]
    have : |a - (1 - t)| ≤ 2 * pow2 (-(p : Int) - 1) := by
      have := abs_add_le (a - (1 - m)) (t - m)
      rw [show a - (1 - m) + (t - m) = a - (1 - t) by ring, abs_sub_comm t m] at this
      linarith
    have := mul_le_mul hx this (abs_nonneg _) hM.le
    linarith
  have c2 : |y * (m - t)| ≤ pow2 k * pow2 (-(p : Int) - 1) := by
    rw [abs_mul]
    exact mul_le_mul hy ht (abs_nonneg _) hM.le
  have hpos : 0 < pow2 k * pow2 (-(p : Int) - 1) := mul_pos hM hu
  obtain ⟨b11, b12⟩ := abs_le.1 b1
  obtain ⟨b21, b22⟩ := abs_le.1 b2
  obtain ⟨b31, b32⟩ := abs_le.1 b3
  obtain ⟨c11, c12⟩ := abs_le.1 c1
  obtain ⟨c21, c22⟩ := abs_le.1 c2
  rw [abs_le]
  constructor <;> nlinarith

theorem getD_mem {l : List ℚ} {P : ℚ → Prop} (h : ∀ x ∈ l, P x) (h0 : P 0) (i : Nat) : P (l.getD i 0) := by
  rw [List.getD_eq_getElem?_getD]
  cases e : l[i]? with
  | none => exact h0
  | some v => exact h v (List.mem_of_getElem? e)

theorem asUsize_nat {k : Nat} (h : k < U64) : asUsize (k : ℚ) = k := by
  unfold asUsize
  simp only [Int.floor_natCast, Int.toNat_natCast]
  omega

/-- Between the frames of a sound every sample is close to the mixture of the frame before and the frame after, and never louder
than the sound. -/
theorem C85_value {p : Nat} {emin : Int} (hf : Fmt p emin) {b : Buffer} {s N : Nat} (hb : Sound p emin b s N) {k : Int} (hk : 0 ≤ k)
    (hx : ∀ x ∈ b.buf, |x| ≤ pow2 k) {q : ℚ} (q0 : 0 ≤ q) (qN : q < N) {c : Nat} (hc : c < b.nc) :
    ∃ v, bufGet (rnd p emin) b q c = .ok v ∧ |v| ≤ pow2 k ∧ |v - Bu.specAt b N q c| ≤ pow2 (k + 3 - p) := by
  refine ⟨_, bufGet_eq _ hb.len (Bu.asUsize_lt qN hb.pos) hc, ?_, ?_⟩
  all_goals
    obtain ⟨t0, t1⟩ := fract_range q0
    have hM := (pow2_pos k).le
    have g1 := fun i => getD_mem (P := fun x => |x| ≤ pow2 k) hx (by simpa using hM) i
  · exact interp_range hf t0 t1 hk (g1 _) (g1 _)
  · have h := interp_near hf t0 t1 hk (g1 (asUsize q * b.nc + c)) (g1 ((asUsize q + 1) % N * b.nc + c))
    have e1 : asUsize q = ⌊q⌋.toNat := by
      unfold asUsize
      have h2 : ⌊q⌋ < (N : Int) := Int.floor_lt.2 (by exact_mod_cast qN)
      have h3 : N ≤ 1048576 * 16777216 := hb.long.trans (Nat.mul_le_mul_left _ hb.s1)
      omega
    have e2 : fract q = Int.fract q := by rw [fract, if_pos q0, Int.fract]
    rw [e2, e1] at h
    unfold Bu.specAt
    rw [e2, e1]
    exact h

/-! ### Playing whole frames -/

theorem bufGet_whole {p : Nat} {emin : Int} (hf : Fmt p emin) {b : Buffer} {s N : Nat} (hb : Sound p emin b s N) {k : Nat} (hk : k < N)
    {c : Nat} (hc : c < b.nc) : bufGet (rnd p emin) b k c = .ok (b.buf.getD (k * b.nc + c) 0) := by
  have h3 : N ≤ 1048576 * 16777216 := hb.long.trans (Nat.mul_le_mul_left _ hb.s1)
  have e : asUsize (k : ℚ) = k := asUsize_nat (by omega)
  rw [bufGet_eq _ hb.len (by rwa [e]) hc, e]
  have e2 : fract (k : ℚ) = 0 := by rw [fract, if_pos (by positivity)]; simp
  rw [e2, interp_zero hf]
  refine getD_mem (P := Rep p emin) hb.rep ?_ _
  exact ⟨0, 0, by simp, by positivity, by have := hf.low; omega⟩

/-- A reader that plays every `m`th frame of a sound of `N` frames. -/
structure Plays (r : Reader) (b : Buffer) (ch N m : Nat) : Prop where
  b : r.b = b
  ch : r.channels = ch
  step : rnd64 (r.base * r.rate) = m
  start : r.start = 0
  low : (N : ℚ) - 1 / 16 ≤ r.fin
  high : r.fin ≤ N
  going : r.finished = false

/-- The state after the frame at `j * m`. -/
def moved (r : Reader) (N m j : Nat) : Reader :=
  if (j + 1) * m < N then { r with ptr := ((j + 1) * m : Nat) }
  else if r.looping then { r with ptr := 0 } else { r with ptr := rdNext r, finished := true }

theorem process_at {p : Nat} {emin : Int} (hf : Fmt p emin) {b : Buffer} {s N ch m : Nat} (hb : Sound p emin b s N) (hc : ch ≤ b.nc)
    {r : Reader} (hr : Plays r b ch N m) {j : Nat} (hp : r.ptr = (j * m : Nat)) (hj : j * m < N) :
    rdProcess (rnd p emin) r = .ok (moved r N m j, frameAt b ch (j * m), decide (N ≤ (j + 1) * m) && !r.looping) := by
  have hN : N ≤ 1048576 * 16777216 := hb.long.trans (Nat.mul_le_mul_left _ hb.s1)
  unfold rdProcess
  rw [if_neg (by rw [hr.going]; decide), hr.b, hr.ch, hp]
  rw [Bu.mapM_eq _ (fun c => b.buf.getD (j * m * b.nc + c) 0) _ (fun c hcm => bufGet_whole hf hb hj
    (lt_of_lt_of_le (List.mem_range.1 hcm) hc))]
  simp only [bind_ok, pure_ok, frameAt]
  have hn : rdNext r = rnd64 (((j + 1) * m : Nat) : ℚ) := by
    unfold rdNext
    rw [hr.step, hp]
    congr 1
    push_cast
    ring
  have hl := hr.low
  have hh := hr.high
  unfold rdAdvance moved
  by_cases h : (j + 1) * m < N
  · have e : rdNext r = (((j + 1) * m : Nat) : ℚ) := by
      rw [hn]
      exact rnd64_fix (rep64_nat (by omega))
    have hlt : ¬ rdNext r ≥ r.fin := by
      rw [e]
      have : (((j + 1) * m + 1 : Nat) : ℚ) ≤ N := by exact_mod_cast h
      push_cast at this ⊢
      linarith
    rw [if_neg hlt, if_pos h, e]
    have : ¬ N ≤ (j + 1) * m := by omega
    simp [this]
  · have hge : rdNext r ≥ r.fin := by
      rw [hn]
      have h1 : (N : ℚ) ≤ (((j + 1) * m : Nat) : ℚ) := by exact_mod_cast not_lt.1 h
      have := rep_le_rnd (p := 53) (emin := -1074) (by norm_num) (rep64_nat (n := N) (by omega)) h1
      exact hh.trans this
    rw [if_pos hge, if_neg h]
    have h' : N ≤ (j + 1) * m := by omega
    cases e : r.looping
    · simp [h']
    · have hg := hr.going
      have hs := hr.start
      simp [Reader.restart, hs, hg]

theorem run_cons (fl : ℚ → ℚ) {r r' : Reader} {o : List ℚ × Bool} (h : rdProcess fl r = .ok (r', o)) (ops : List RdOp) :
    rdRun fl r (.frame :: ops) = (do let y ← rdRun fl r' ops; return (y.1, o :: y.2)) := by
  rw [rdRun, rdOp, h]
  rfl

theorem run_finished (fl : ℚ → ℚ) {r : Reader} (h : r.finished = true) (n : Nat) :
    rdRun fl r (List.replicate n .frame) = .ok (r, List.replicate n (List.replicate r.channels 0, false)) := by
  induction n with
  | zero => rfl
  | succ n ih =>
    rw [List.replicate_succ, run_cons fl (r' := r) (o := (List.replicate r.channels 0, false)), ih]
    · rfl
    · unfold rdProcess
      rw [if_pos h]

theorem Plays.at {r : Reader} {b : Buffer} {ch N m : Nat} (h : Plays r b ch N m) (q : ℚ) : Plays { r with ptr := q } b ch N m :=
  ⟨h.b, h.ch, h.step, h.start, h.low, h.high, h.going⟩

theorem range_from {α : Type} (f : Nat → α) (j n : Nat) :
    (List.range (n + 1)).map (fun i => f (j + i)) = f j :: (List.range n).map (fun i => f (j + 1 + i)) := by
  rw [List.range_succ_eq_map, List.map_cons, List.map_map]
  congr 1
  apply List.map_congr_left
  intro i _
  simp only [Function.comp]
  congr 1
  omega

/-- Playing once from the frame `j * m` on. -/
theorem once_from {p : Nat} {emin : Int} (hf : Fmt p emin) {b : Buffer} {s N ch m : Nat} (hb : Sound p emin b s N) (hc : ch ≤ b.nc)
    (n : Nat) : ∀ (r : Reader) (j : Nat), Plays r b ch N m → r.looping = false → r.ptr = (j * m : Nat) → j * m < N →
    ∃ r', rdRun (rnd p emin) r (List.replicate n .frame) = .ok (r', (List.range n).map fun i =>
      (if (j + i) * m < N then frameAt b ch ((j + i) * m) else List.replicate ch 0,
        decide ((j + i) * m < N ∧ N ≤ (j + i + 1) * m))) := by
  induction n with
  | zero => exact fun r _ _ _ _ _ => ⟨r, rfl⟩
  | succ n ih =>
    intro r j hr hlo hp hj
    have hpr := process_at hf hb hc hr hp hj
    rw [List.replicate_succ, run_cons _ hpr,
      range_from (fun k => (if k * m < N then frameAt b ch (k * m) else List.replicate ch 0, decide (k * m < N ∧ N ≤ (k + 1) * m))) j n]
    unfold moved
    by_cases h : (j + 1) * m < N
    · rw [if_pos h]
      obtain ⟨r', e⟩ := ih { r with ptr := ((j + 1) * m : Nat) } (j + 1) (hr.at _) hlo rfl h
      rw [e]
      refine ⟨r', ?_⟩
      simp [hj, hlo]
    · rw [if_neg h, hlo]
      simp only [Bool.false_eq_true, if_false]
      rw [run_finished _ rfl]
      refine ⟨{ r with ptr := rdNext r, finished := true, looping := false }, ?_⟩
      simp only [bind_ok, pure_ok, hj, if_true, true_and, Bool.not_false, Bool.and_true]
      congr 3
      rw [hr.ch]
      refine (List.eq_replicate_iff.2 ⟨by simp, ?_⟩).symm
      intro x hx
      simp only [List.mem_map, List.mem_range] at hx
      obtain ⟨i, _, rfl⟩ := hx
      have h1 : (j + 1) * m ≤ (j + 1 + i) * m := Nat.mul_le_mul_right _ (by omega)
      have h2 : ¬ (j + 1 + i) * m < N := by omega
      simp [h2]

/-- How many steps of `m` frames a sound of `N` frames has. -/
def steps (N m : Nat) : Nat := (N + m - 1) / m

theorem steps_spec {N m : Nat} (hm : 0 < m) (j : Nat) : j < steps N m ↔ j * m < N := by
  unfold steps
  rw [Nat.lt_iff_add_one_le, Nat.le_div_iff_mul_le hm, add_mul]
  omega

/-- Playing repeatedly. -/
theorem loop_from {p : Nat} {emin : Int} (hf : Fmt p emin) {b : Buffer} {s N ch m : Nat} (hb : Sound p emin b s N) (hc : ch ≤ b.nc)
    (hm : 0 < m) (n : Nat) : ∀ (r : Reader) (j : Nat), Plays r b ch N m → r.looping = true → r.ptr = (j % steps N m * m : Nat) →
    ∃ r', rdRun (rnd p emin) r (List.replicate n .frame) = .ok (r', (List.range n).map fun i =>
      (frameAt b ch ((j + i) % steps N m * m), false)) := by
  have hL : 0 < steps N m := (steps_spec hm 0).2 (by have := hb.pos; omega)
  induction n with
  | zero => exact fun r _ _ _ _ => ⟨r, rfl⟩
  | succ n ih =>
    intro r j hr hlo hp
    have hj : j % steps N m * m < N := (steps_spec hm _).1 (Nat.mod_lt _ hL)
    have hpr := process_at hf hb hc hr hp hj
    rw [List.replicate_succ, run_cons _ hpr, range_from (fun k => (frameAt b ch (k % steps N m * m), false)) j n]
    have hadd : (j + 1) % steps N m = if (j % steps N m + 1) * m < N then j % steps N m + 1 else 0 := by
      rw [Nat.add_mod]
      by_cases h1 : steps N m = 1
      · have h2 : j % steps N m = 0 := by rw [h1, Nat.mod_one]
        have h3 : ¬ (j % steps N m + 1) * m < N := by
          rw [← steps_spec hm, h1]
          omega
        rw [if_neg h3, h1, Nat.mod_one]
      · rw [Nat.mod_eq_of_lt (show 1 < steps N m by omega)]
        have h2 := Nat.mod_lt j hL
        split
        next h3 =>
          rw [← steps_spec hm] at h3
          exact Nat.mod_eq_of_lt h3
        next h3 =>
          rw [← steps_spec hm] at h3
          rw [show j % steps N m + 1 = steps N m by omega, Nat.mod_self]
    have hst : moved r N m (j % steps N m) = { r with ptr := ((j + 1) % steps N m * m : Nat) } := by
      unfold moved
      rw [hadd]
      split
      · rfl
      · simp
    rw [hst]
    obtain ⟨r', e⟩ := ih { r with ptr := ((j + 1) % steps N m * m : Nat) } (j + 1) (hr.at _) hlo rfl
    rw [e]
    exact ⟨r', by simp [hlo]⟩

theorem init_eq {p : Nat} {emin : Int} {b : Buffer} {s N : Nat} (hb : Sound p emin b s N) (ch : Nat) (v : ℚ) (l : Bool) (sr : Nat) :
    rdInit (rdNew b ch v l) sr = ⟨b, ch, 0, v, rnd64 ((s : ℚ) / sr), false, l, 0, rdFrames (rnd64 ((N : ℚ) / s)) s,
      rdFrames (rnd64 ((N : ℚ) / s)) s⟩ := by
  have h0 : ∀ x : ℚ, rdFrames 0 x = 0 := by
    intro x
    have : fromSecs 0 = ⟨0, 0⟩ := by decide +kernel
    unfold rdFrames toSamplesF
    rw [this]
    simp [rnd64_zero]
  unfold rdInit rdNew
  simp only [hb.rate, hb.frames, h0, zero_add, Reader.restart]
  congr 1
  unfold rdFrames toSamplesF
  exact rnd64_fix (rnd64_isRep _)

theorem plays_init {p : Nat} {emin : Int} {b : Buffer} {s N : Nat} (hb : Sound p emin b s N) (ch : Nat) {sr u v : Nat}
    (h0 : 0 < sr) (hs : s = u * sr) (hm : u * v < 2 ^ 53) (l : Bool) : Plays (rdInit (rdNew b ch v l) sr) b ch N (u * v) := by
  rw [init_eq hb]
  obtain ⟨e1, e2⟩ := rdFrames_whole hb.s0 hb.common hb.s1 hb.long
  have hbase : rnd64 ((s : ℚ) / sr) = u := by
    have : (s : ℚ) / sr = u := by
      rw [hs]
      have : (sr : ℚ) ≠ 0 := by exact_mod_cast h0.ne'
      push_cast
      field_simp
    rw [this]
    have hu : u ≤ s := by rw [hs]; exact Nat.le_mul_of_pos_right _ h0
    have := hb.s1
    exact rnd64_fix (rep64_nat (by omega))
  refine ⟨rfl, rfl, ?_, rfl, e1, e2, rfl⟩
  simp only [hbase]
  rw [← Nat.cast_mul]
  exact rnd64_fix (rep64_nat hm)

/-- A sound that is played once at its own speed or a whole multiple of it comes out as it is stored, every `m`th frame, exactly; the
reader is marked done with the last frame and is silent afterwards. -/
theorem C85_once {p : Nat} {emin : Int} (hf : Fmt p emin) {b : Buffer} {s N : Nat} (hb : Sound p emin b s N) {ch : Nat} (hc : ch ≤ b.nc)
    {sr u v : Nat} (h0 : 0 < sr) (hs : s = u * sr) (hm : u * v < 2 ^ 53) (n : Nat) :
    ∃ r', rdRun (rnd p emin) (rdInit (rdNew b ch v false) sr) (List.replicate n .frame) = .ok (r', (List.range n).map fun i =>
      (if i * (u * v) < N then frameAt b ch (i * (u * v)) else List.replicate ch 0,
        decide (i * (u * v) < N ∧ N ≤ (i + 1) * (u * v)))) := by
  have h := once_from hf hb hc n _ 0 (plays_init hb ch h0 hs hm false) (by rw [init_eq hb]) (by rw [init_eq hb]; simp)
    (by have := hb.pos; omega)
  simpa only [Nat.zero_add] using h

/-- The same with looping: the frames come out again and again and the reader is never done. -/
theorem C85_loop {p : Nat} {emin : Int} (hf : Fmt p emin) {b : Buffer} {s N : Nat} (hb : Sound p emin b s N) {ch : Nat} (hc : ch ≤ b.nc)
    {sr u v : Nat} (h0 : 0 < sr) (hs : s = u * sr) (hv : 0 < v) (hm : u * v < 2 ^ 53) (n : Nat) :
    ∃ r', rdRun (rnd p emin) (rdInit (rdNew b ch v true) sr) (List.replicate n .frame) = .ok (r', (List.range n).map fun i =>
      (frameAt b ch (i % ((N + u * v - 1) / (u * v)) * (u * v)), false)) := by
  have hu : 0 < u := by
    have := hb.s0
    rcases Nat.eq_zero_or_pos u with h | h
    · subst h
      omega
    · exact h
  have h := loop_from hf hb hc (Nat.mul_pos hu hv) n _ 0 (plays_init hb ch h0 hs hm true) (by rw [init_eq hb]) (by rw [init_eq hb]; simp)
  simpa only [Nat.zero_add, steps] using h

/-! ### Reading stays inside the buffer -/

/-- What may happen to a reader without changing the window that is played. -/
def RdOp.simple : RdOp → Prop
  | .frame | .rate _ | .looping _ | .restart => True
  | _ => False

/-- None of the rates is negative. -/
def RdOp.forward : RdOp → Prop
  | .rate v => 0 ≤ v
  | _ => True

theorem run_inside {p : Nat} {emin : Int} (hf : Fmt p emin) {b : Buffer} {s N : Nat} (hb : Sound p emin b s N) {ch : Nat} (hc : ch ≤ b.nc)
    {k : Int} (hk : 0 ≤ k) (hx : ∀ x ∈ b.buf, |x| ≤ pow2 k) (ops : List RdOp) : ∀ r : Reader, r.b = b → r.channels = ch → r.start = 0 →
    0 < r.fin → r.fin ≤ N → (r.finished = false → r.ptr < r.fin) → (∀ o ∈ ops, o.simple) →
    ∃ r' out, rdRun (rnd p emin) r ops = .ok (r', out) ∧ (∀ o ∈ out, o.1.length = ch) ∧
      (0 ≤ r.base → 0 ≤ r.rate → 0 ≤ r.ptr → (∀ o ∈ ops, o.forward) → ∀ o ∈ out, ∀ x ∈ o.1, |x| ≤ pow2 k) := by
  induction ops with
  | nil => exact fun r _ _ _ _ _ _ _ => ⟨r, [], rfl, by simp, by simp⟩
  | cons op ops ih =>
    intro r e1 e2 e3 e4 e5 e6 hs
    have hs' : ∀ o ∈ ops, o.simple := fun o ho => hs o (by simp [ho])
    have hso := hs op (by simp)
    cases op with
    | startS v => exact hso.elim
    | durS v => exact hso.elim
    | endS v => exact hso.elim
    | rate v =>
      obtain ⟨r', out, h1, h2, h3⟩ := ih { r with rate := v } e1 e2 e3 e4 e5 e6 hs'
      refine ⟨r', out, ?_, h2, fun g1 _ g3 g4 => h3 g1 (g4 (.rate v) (by simp)) g3 fun o ho => g4 o (by simp [ho])⟩
      rw [rdRun, rdOp, bind_ok, h1]
      rfl
    | looping v =>
      obtain ⟨r', out, h1, h2, h3⟩ := ih { r with looping := v } e1 e2 e3 e4 e5 e6 hs'
      refine ⟨r', out, ?_, h2, fun g1 g2 g3 g4 => h3 g1 g2 g3 fun o ho => g4 o (by simp [ho])⟩
      rw [rdRun, rdOp, bind_ok, h1]
      rfl
    | restart =>
      obtain ⟨r', out, h1, h2, h3⟩ := ih r.restart e1 e2 e3 e4 e5 (fun _ => by rw [Reader.restart, e3]; exact e4) hs'
      refine ⟨r', out, ?_, h2, fun g1 g2 _ g4 => h3 g1 g2 (by rw [Reader.restart, e3]) fun o ho => g4 o (by simp [ho])⟩
      rw [rdRun, rdOp, bind_ok, h1]
      rfl
    | frame =>
      by_cases hfin : r.finished = true
      · obtain ⟨r', out, h1, h2, h3⟩ := ih r e1 e2 e3 e4 e5 e6 hs'
        refine ⟨r', (List.replicate r.channels 0, false) :: out, ?_, ?_, ?_⟩
        · rw [run_cons _ (r' := r) (o := (List.replicate r.channels 0, false)), h1]
          · rfl
          · unfold rdProcess
            rw [if_pos hfin]
        · intro o ho
          rcases List.mem_cons.1 ho with rfl | ho
          · simp [e2]
          · exact h2 o ho
        · intro g1 g2 g3 g4 o ho
          rcases List.mem_cons.1 ho with rfl | ho
          · intro x hxm
            rw [(List.mem_replicate.1 hxm).2, abs_zero]
            exact (pow2_pos k).le
          · exact h3 g1 g2 g3 (fun o ho => g4 o (by simp [ho])) o ho
      · have hff : r.finished = false := by simpa using hfin
        have hpt := e6 hff
        have hptN : r.ptr < N := lt_of_lt_of_le hpt e5
        have hu := Bu.asUsize_lt hptN hb.pos
        set g : Nat → ℚ := fun c => interp (rnd p emin) (b.buf.getD (asUsize r.ptr * b.nc + c) 0)
          (b.buf.getD ((asUsize r.ptr + 1) % N * b.nc + c) 0) (fract r.ptr) with hg
        have hread : (List.range r.channels).mapM (bufGet (rnd p emin) r.b r.ptr) = .ok ((List.range ch).map g) := by
          rw [e1, e2]
          exact Bu.mapM_eq _ g _ fun c hcm => bufGet_eq _ hb.len hu (lt_of_lt_of_le (List.mem_range.1 hcm) hc)
        have hpr : rdProcess (rnd p emin) r = .ok ((rdAdvance r).1, (List.range ch).map g, (rdAdvance r).2) := by
          unfold rdProcess
          rw [if_neg hfin, hread]
          rfl
        have hadv : (rdAdvance r).1.b = b ∧ (rdAdvance r).1.channels = ch ∧ (rdAdvance r).1.start = 0 ∧ (rdAdvance r).1.fin = r.fin ∧
            ((rdAdvance r).1.finished = false → (rdAdvance r).1.ptr < r.fin) ∧ (rdAdvance r).1.base = r.base ∧
            (rdAdvance r).1.rate = r.rate ∧ (0 ≤ r.base → 0 ≤ r.rate → 0 ≤ r.ptr → 0 ≤ (rdAdvance r).1.ptr) := by
          have hn : 0 ≤ r.base → 0 ≤ r.rate → 0 ≤ r.ptr → 0 ≤ rdNext r := fun a1 a2 a3 =>
            rnd64_nn (add_nonneg a3 (rnd64_nn (mul_nonneg a1 a2)))
          unfold rdAdvance
          split
          · split
            · refine ⟨e1, e2, e3, rfl, fun _ => ?_, rfl, rfl, fun _ _ _ => ?_⟩
              · rw [Reader.restart]
                simp only [e3]
                exact e4
              · rw [Reader.restart]
                simp only [e3]
                exact le_rfl
            · exact ⟨e1, e2, e3, rfl, fun h => by simp at h, rfl, rfl, hn⟩
          next h => exact ⟨e1, e2, e3, rfl, fun _ => lt_of_not_ge h, rfl, rfl, hn⟩
        obtain ⟨a1, a2, a3, a4, a5, a6, a7, a8⟩ := hadv
        obtain ⟨r', out, h1, h2, h3⟩ := ih _ a1 a2 a3 (by rw [a4]; exact e4) (by rw [a4]; exact e5) (by rw [a4]; exact a5) hs'
        refine ⟨r', ((List.range ch).map g, (rdAdvance r).2) :: out, ?_, ?_, ?_⟩
        · rw [run_cons _ hpr, h1]
          rfl
        · intro o ho
          rcases List.mem_cons.1 ho with rfl | ho
          · simp
          · exact h2 o ho
        · intro g1 g2 g3 g4 o ho
          rcases List.mem_cons.1 ho with rfl | ho
          · intro x hxm
            simp only [List.mem_map] at hxm
            obtain ⟨c, _, rfl⟩ := hxm
            obtain ⟨t0, t1⟩ := fract_range g3
            have gg := fun i => getD_mem (P := fun x => |x| ≤ pow2 k) hx (by simpa using (pow2_pos k).le) i
            exact interp_range hf t0 t1 hk (gg _) (gg _)
          · exact h3 (by rwa [a6]) (by rwa [a7]) (a8 g1 g2 g3) (fun o ho => g4 o (by simp [ho])) o ho

/-- However a sound at a common sample rate is played, at any sample rate of the system and with any changes of rate, looping and
restarts, nothing outside the buffer is read; as long as no rate is negative no sample is louder than the sound. -/
theorem C85_inside {p : Nat} {emin : Int} (hf : Fmt p emin) {b : Buffer} {s N : Nat} (hb : Sound p emin b s N) {ch : Nat} (hc : ch ≤ b.nc)
    (v : ℚ) (l : Bool) (sr : Nat) {k : Int} (hk : 0 ≤ k) (hx : ∀ x ∈ b.buf, |x| ≤ pow2 k) (ops : List RdOp) (hs : ∀ o ∈ ops, o.simple) :
    ∃ r' out, rdRun (rnd p emin) (rdInit (rdNew b ch v l) sr) ops = .ok (r', out) ∧ (∀ o ∈ out, o.1.length = ch) ∧
      (0 ≤ v → (∀ o ∈ ops, o.forward) → ∀ o ∈ out, ∀ x ∈ o.1, |x| ≤ pow2 k) := by
  obtain ⟨e1, e2⟩ := rdFrames_whole hb.s0 hb.common hb.s1 hb.long
  have hpos : (1 : ℚ) ≤ N := by exact_mod_cast hb.pos
  have hfin : 0 < rdFrames (rnd64 ((N : ℚ) / s)) s := by linarith
  rw [init_eq hb]
  obtain ⟨r', out, h1, h2, h3⟩ := run_inside hf hb hc hk hx ops ⟨b, ch, 0, v, rnd64 ((s : ℚ) / sr), false, l, 0,
    rdFrames (rnd64 ((N : ℚ) / s)) s, rdFrames (rnd64 ((N : ℚ) / s)) s⟩ rfl rfl rfl hfin e2 (fun _ => hfin) hs
  exact ⟨r', out, h1, h2, fun hv hfw => h3 (rnd64_nn (by positivity)) hv le_rfl hfw⟩

theorem run_fields (fl : ℚ → ℚ) (ops : List RdOp) : ∀ (r r' : Reader) (out : List (List ℚ × Bool)), (∀ o ∈ ops, o.simple) →
    rdRun fl r ops = .ok (r', out) → r'.b = r.b ∧ r'.channels = r.channels ∧ r'.base = r.base ∧ r'.start = r.start ∧ r'.dur = r.dur ∧
      r'.fin = r.fin := by
  induction ops with
  | nil =>
    intro r r' out _ h
    simp only [rdRun, Except.ok.injEq, Prod.mk.injEq] at h
    rw [← h.1]
    exact ⟨rfl, rfl, rfl, rfl, rfl, rfl⟩
  | cons op ops ih =>
    intro r r' out hs h
    rw [rdRun] at h
    cases hm : rdOp fl r op with
    | error x =>
      rw [hm] at h
      simp at h
    | ok y =>
      rw [hm, bind_ok] at h
      cases hm2 : rdRun fl y.1 ops with
      | error x =>
        rw [hm2] at h
        simp at h
      | ok z =>
        rw [hm2] at h
        simp only [bind_ok, pure_ok, Except.ok.injEq, Prod.mk.injEq] at h
        obtain ⟨a1, a2, a3, a4, a5, a6⟩ := ih y.1 z.1 z.2 (fun o ho => hs o (by simp [ho])) hm2
        have hy : y.1.b = r.b ∧ y.1.channels = r.channels ∧ y.1.base = r.base ∧ y.1.start = r.start ∧ y.1.dur = r.dur ∧ y.1.fin = r.fin := by
          have hso := hs op (by simp)
          cases op with
          | startS v => exact hso.elim
          | durS v => exact hso.elim
          | endS v => exact hso.elim
          | rate v => simp only [rdOp, Except.ok.injEq] at hm; rw [← hm]; exact ⟨rfl, rfl, rfl, rfl, rfl, rfl⟩
          | looping v => simp only [rdOp, Except.ok.injEq] at hm; rw [← hm]; exact ⟨rfl, rfl, rfl, rfl, rfl, rfl⟩
          | restart => simp only [rdOp, Except.ok.injEq] at hm; rw [← hm]; exact ⟨rfl, rfl, rfl, rfl, rfl, rfl⟩
          | frame =>
            rw [rdOp, rdProcess] at hm
            split at hm
            · simp only [bind_ok, pure_ok, Except.ok.injEq] at hm
              rw [← hm]
              exact ⟨rfl, rfl, rfl, rfl, rfl, rfl⟩
            · cases hm3 : (List.range r.channels).mapM (bufGet fl r.b r.ptr) with
              | error x =>
                rw [hm3] at hm
                simp at hm
              | ok o =>
                rw [hm3] at hm
                simp only [bind_ok, pure_ok, Except.ok.injEq] at hm
                rw [← hm]
                simp only [rdAdvance, Reader.restart]
                split
                · split <;> exact ⟨rfl, rfl, rfl, rfl, rfl, rfl⟩
                · exact ⟨rfl, rfl, rfl, rfl, rfl, rfl⟩
        obtain ⟨c1, c2, c3, c4, c5, c6⟩ := hy
        rw [← h.1]
        exact ⟨a1.trans c1, a2.trans c2, a3.trans c3, a4.trans c4, a5.trans c5, a6.trans c6⟩

/-- Nothing is left of what has been played: setting the rate and looping and restarting makes a reader play what a new one plays. -/
theorem C85_again {p : Nat} {emin : Int} {b : Buffer} {s N : Nat} (hb : Sound p emin b s N) (ch : Nat) (v w : ℚ) (l q : Bool) (sr : Nat)
    (ops : List RdOp) (hs : ∀ o ∈ ops, o.simple) {r' : Reader} {out : List (List ℚ × Bool)}
    (h : rdRun (rnd p emin) (rdInit (rdNew b ch v l) sr) ops = .ok (r', out)) (more : List RdOp) :
    rdRun (rnd p emin) r' (.looping q :: .rate w :: .restart :: more) = rdRun (rnd p emin) (rdInit (rdNew b ch w q) sr) more := by
  obtain ⟨a1, a2, a3, a4, a5, a6⟩ := run_fields _ ops _ _ _ hs h
  rw [init_eq hb] at a1 a2 a3 a4 a5 a6 ⊢
  obtain ⟨c1, c2, c3, c4, c5, c6, c7, c8, c9, c10⟩ := r'
  simp only at a1 a2 a3 a4 a5 a6
  subst a1 a2 a3 a4 a5 a6
  simp only [rdRun, rdOp, bind_ok, Reader.restart]
  cases rdRun (rnd p emin) _ more with
  | error x => rfl
  | ok y => rfl

/-! ### How far the read pointer is off -/

theorem run_drift (fl : ℚ → ℚ) {e : Nat} (he : e ≤ 53) {d ε : ℚ} (n : Nat) : ∀ (r r' : Reader) (out : List (List ℚ × Bool)) (c E : ℚ),
    r.looping = false → r.fin ≤ pow2 e → 0 ≤ r.ptr → 0 ≤ rnd64 (r.base * r.rate) → |rnd64 (r.base * r.rate) - d| ≤ ε → |r.ptr - c| ≤ E →
    rdRun fl r (List.replicate n .frame) = .ok (r', out) → r'.finished = false →
    |r'.ptr - (c + n * d)| ≤ E + n * (pow2 ((e : Int) - 54) + ε) := by
  induction n with
  | zero =>
    intro r r' out c E _ _ _ _ _ hE hrun _
    simp only [List.replicate_zero, rdRun, Except.ok.injEq, Prod.mk.injEq] at hrun
    rw [← hrun.1]
    simpa using hE
  | succ n ih =>
    intro r r' out c E hlo hfin hp hst hd hE hrun hgo
    by_cases hf : r.finished = true
    · rw [run_finished fl hf] at hrun
      simp only [Except.ok.injEq, Prod.mk.injEq] at hrun
      rw [← hrun.1, hf] at hgo
      simp at hgo
    rw [List.replicate_succ] at hrun
    have hpr : ∃ o, rdProcess fl r = .ok ((rdAdvance r).1, o) := by
      unfold rdProcess
      rw [if_neg hf]
      rw [rdRun, rdOp, rdProcess, if_neg hf] at hrun
      cases hm : (List.range r.channels).mapM (bufGet fl r.b r.ptr) with
      | error x =>
        rw [hm] at hrun
        simp at hrun
      | ok o => exact ⟨_, rfl⟩
    obtain ⟨o, hpr⟩ := hpr
    rw [run_cons fl hpr] at hrun
    cases hm : rdRun fl (rdAdvance r).1 (List.replicate n .frame) with
    | error x =>
      rw [hm] at hrun
      simp at hrun
    | ok y =>
      rw [hm] at hrun
      simp only [bind_ok, pure_ok, Except.ok.injEq, Prod.mk.injEq] at hrun
      obtain ⟨hr', _⟩ := hrun
      by_cases hge : rdNext r ≥ r.fin
      · have hdone : (rdAdvance r).1.finished = true := by
          unfold rdAdvance
          rw [if_pos hge, if_neg (by rw [hlo]; decide)]
        rw [run_finished fl hdone] at hm
        simp only [Except.ok.injEq] at hm
        rw [← hr', ← hm, hdone] at hgo
        simp at hgo
      · have hadv : (rdAdvance r).1 = { r with ptr := rdNext r } := by
          unfold rdAdvance
          rw [if_neg hge]
        rw [hadv] at hm
        have hlt : r.ptr + rnd64 (r.base * r.rate) < pow2 e := by
          by_contra hc
          have := rep_le_rnd (p := 53) (emin := -1074) (by norm_num) (rep64_pow2 (k := (e : Int)) (by omega)) (not_lt.1 hc)
          exact hge (hfin.trans this)
        have herr := rnd_err (p := 53) (emin := -1074) (x := r.ptr + rnd64 (r.base * r.rate)) (k := e)
          (by rwa [abs_of_nonneg (add_nonneg hp hst)]) (by omega)
        rw [show (e : Int) - (53 : Nat) - 1 = e - 54 by push_cast; ring] at herr
        have hE' : |rdNext r - (c + d)| ≤ E + (pow2 ((e : Int) - 54) + ε) := by
          have herr' : |rdNext r - (r.ptr + rnd64 (r.base * r.rate))| ≤ pow2 ((e : Int) - 54) := herr
          obtain ⟨q1, q2⟩ := abs_le.1 herr'
          obtain ⟨q3, q4⟩ := abs_le.1 hd
          obtain ⟨q5, q6⟩ := abs_le.1 hE
          rw [abs_le]
          constructor <;> linarith
        have := ih { r with ptr := rdNext r } y.1 y.2 (c + d) _ hlo hfin (rnd64_nn (add_nonneg hp hst)) hst hd hE' hm (by rw [hr']; exact hgo)
        rw [hr'] at this
        push_cast
        rw [show c + ((n : ℚ) + 1) * d = c + d + n * d by ring]
        refine this.trans (le_of_eq ?_)
        ring

/-- While a sound of at most 2 ^ e frames is played at a constant rate the read pointer is off by at most 2 ^ (e - 54) frames for every
frame that has been played, plus what rounding the step does. -/
theorem C85_drift {p : Nat} {emin : Int} {b : Buffer} {s N : Nat} (hb : Sound p emin b s N) (ch : Nat)
    {e : Nat} (he : e ≤ 53) (hN : N ≤ 2 ^ e) {v : ℚ} {sr : Nat} (h0 : 0 < sr) (h1 : sr ≤ 16777216) (hv : 1 / 1048576 ≤ v) (n : Nat)
    {r' : Reader} {out : List (List ℚ × Bool)}
    (hrun : rdRun (rnd p emin) (rdInit (rdNew b ch v false) sr) (List.replicate n .frame) = .ok (r', out)) (hgo : r'.finished = false) :
    |r'.ptr - n * ((s : ℚ) / sr * v)| ≤ n * (pow2 ((e : Int) - 54) + pow2 (-51) * ((s : ℚ) / sr * v)) := by
  rw [init_eq hb] at hrun
  obtain ⟨_, e2⟩ := rdFrames_whole hb.s0 hb.common hb.s1 hb.long
  have hsr : (0 : ℚ) < sr := by exact_mod_cast h0
  have hv0 : 0 < v := lt_of_lt_of_le (by norm_num) hv
  have hd : (1 : ℚ) / 16777216 ≤ (s : ℚ) / sr := by
    rw [div_le_div_iff₀ (by norm_num) hsr]
    have g1 : (sr : ℚ) ≤ 16777216 := by exact_mod_cast h1
    have g2 : (1 : ℚ) ≤ s := by exact_mod_cast hb.s0
    linarith
  generalize hw : (s : ℚ) / sr = w at *
  have hw0 : 0 < w := lt_of_lt_of_le (by norm_num) hd
  have a := rnd64_small w
  rw [abs_of_pos hw0] at a
  have hB0 : 0 ≤ rnd64 w := rnd64_nn hw0.le
  generalize hB : rnd64 w = B at *
  have c := rnd64_small (B * v)
  rw [abs_of_nonneg (mul_nonneg hB0 hv0.le)] at c
  have hstep : |rnd64 (B * v) - w * v| ≤ pow2 (-51) * (w * v) := by
    rw [show pow2 (-51) = 1 / 2251799813685248 by decide +kernel]
    obtain ⟨a1, a2⟩ := abs_le.1 a
    obtain ⟨c1, c2⟩ := abs_le.1 c
    have hB1 : B ≤ w + 1 / 4503599627370496 * w := by linarith
    have hB2 : w - 1 / 9007199254740992 * w - 1 / 1267650600228229401496703205376 ≤ B := by linarith
    have hB3 : B ≤ w + 1 / 9007199254740992 * w + 1 / 1267650600228229401496703205376 := by linarith
    have m1 := mul_le_mul_of_nonneg_right hB3 hv0.le
    have m2 := mul_le_mul_of_nonneg_right hB2 hv0.le
    have m3 : 1 / 16777216 * v ≤ w * v := mul_le_mul_of_nonneg_right hd hv0.le
    have m4 : (1 / 16777216 : ℚ) * (1 / 1048576) ≤ w * v := mul_le_mul hd hv (by norm_num) hw0.le
    have m5 := mul_le_mul_of_nonneg_right hB1 hv0.le
    rw [abs_le]
    constructor <;> linarith
  have hfin : rdFrames (rnd64 ((N : ℚ) / s)) s ≤ pow2 e := by
    refine e2.trans ?_
    rw [pow2_nat]
    exact_mod_cast hN
  have := run_drift (rnd p emin) he n ⟨b, ch, 0, v, B, false, false, 0, rdFrames (rnd64 ((N : ℚ) / s)) s,
    rdFrames (rnd64 ((N : ℚ) / s)) s⟩ r' out 0 0 rfl hfin le_rfl (rnd64_nn (mul_nonneg hB0 hv0.le)) hstep (by simp) hrun hgo
  simpa using this

/-! ### Examples -/

/-- Two channels, three frames, 48000 Hz. -/
def sound3 : Buffer := ⟨[1, -1, 1 / 2, -1 / 2, 1 / 4, -1 / 4], 2, 3, 48000⟩

theorem sound3_ok : Sound 24 (-149) sound3 48000 3 := by
  refine ⟨by norm_num [sound3], by norm_num [sound3], rfl, by norm_num, by norm_num, by norm_num, by norm_num, by norm_num, ?_⟩
  intro x hx
  have h : ∀ y ∈ sound3.buf, rnd 24 (-149) y = y := by decide +kernel
  rw [← h x hx]
  exact rep_rnd (by norm_num) _

-- The hypotheses of `C85_once` and `C85_loop` are met, also at twice the speed.
example : ∃ r', rdRun (rnd 24 (-149)) (rdInit (rdNew sound3 2 1 false) 48000) (List.replicate 4 .frame) =
    .ok (r', [([1, -1], false), ([1 / 2, -1 / 2], false), ([1 / 4, -1 / 4], true), ([0, 0], false)]) := by
  have h := C85_once (Or.inl ⟨rfl, rfl⟩) sound3_ok (ch := 2) le_rfl (sr := 48000) (u := 1) (v := 1) (by norm_num) (by norm_num) (by norm_num) 4
  simpa [List.range_succ, frameAt, sound3] using h
example : ∃ r', rdRun (rnd 24 (-149)) (rdInit (rdNew sound3 1 2 true) 48000) (List.replicate 3 .frame) =
    .ok (r', [([1], false), ([1 / 4], false), ([1], false)]) := by
  have h := C85_loop (Or.inl ⟨rfl, rfl⟩) sound3_ok (ch := 1) (by decide) (sr := 48000) (u := 1) (v := 2) (by norm_num) (by norm_num) (by norm_num)
    (by norm_num) 3
  simpa [List.range_succ, frameAt, sound3] using h
-- Those of `C85_inside`, `C85_value` and `C85_drift`.
example : ∀ o ∈ [RdOp.frame, .rate (1 / 3), .frame, .looping true, .frame, .restart, .frame], o.simple ∧ o.forward := by
  simp [RdOp.simple, RdOp.forward]
example : ∀ x ∈ sound3.buf, |x| ≤ pow2 0 := by decide +kernel
example : (rdRun rnd32 (rdInit (rdNew sound3 2 (1 / 2) false) 48000) (List.replicate 5 .frame)).map (fun x => (x.1.finished, x.1.ptr)) =
    .ok (false, 5 / 2) := by decide +kernel

/-! ### What is wrong -/

/-- When the end is rounded above the number of frames, the reader reads the frame after the last one. -/
theorem read_past {p : Nat} {emin : Int} (b : Buffer) (N : Nat) (hl : b.buf.length = N) (hc : b.nc = 1) (hN : N < 2 ^ 52) (n : Nat) :
    ∀ (j : Nat) (r : Reader), r.b = b → r.channels = 1 → r.finished = false → rnd64 (r.base * r.rate) = 1 → (N : ℚ) < r.fin → r.ptr = j →
    j + n = N → rdRun (rnd p emin) r (List.replicate (n + 1) .frame) = .error .index := by
  induction n with
  | zero =>
    intro j r e1 e2 e3 _ _ e6 hj
    have hu : asUsize ((j : Nat) : ℚ) = N := by rw [asUsize_nat (by omega)]; omega
    have : bufGet (rnd p emin) b j 0 = .error .index := by
      unfold bufGet
      rw [hu, hc, List.getElem?_eq_none (by omega)]
    rw [List.replicate_succ, rdRun, rdOp, rdProcess, if_neg (by rw [e3]; decide), e1, e2, e6]
    simp [this]
  | succ n ih =>
    intro j r e1 e2 e3 e4 e5 e6 hj
    have hu : asUsize ((j : Nat) : ℚ) = j := asUsize_nat (by omega)
    have hg := bufGet_eq (rnd p emin) (b := b) (N := N) (by rw [hl, hc, mul_one]) (q := j) (by rw [hu]; omega) (c := 0) (by rw [hc]; norm_num)
    have hn : rdNext r = ((j + 1 : Nat) : ℚ) := by
      unfold rdNext
      rw [e4, e6, ← Nat.cast_succ]
      exact rnd64_fix (rep64_nat (by omega))
    have hlt : ¬ rdNext r ≥ r.fin := by
      rw [hn]
      have : ((j + 1 : Nat) : ℚ) ≤ N := by
        have : j + 1 ≤ N := by omega
        exact_mod_cast this
      linarith
    have hadv : rdAdvance r = ({ r with ptr := ((j + 1 : Nat) : ℚ) }, false) := by
      unfold rdAdvance
      rw [if_neg hlt, hn]
    have hpr : ∃ o, rdProcess (rnd p emin) r = .ok ({ r with ptr := ((j + 1 : Nat) : ℚ) }, o) := by
      refine ⟨([interp (rnd p emin) (b.buf.getD (asUsize ((j : Nat) : ℚ) * b.nc + 0) 0)
          (b.buf.getD ((asUsize ((j : Nat) : ℚ) + 1) % N * b.nc + 0) 0) (fract ((j : Nat) : ℚ))], false), ?_⟩
      unfold rdProcess
      rw [if_neg (by rw [e3]; decide), hadv, e1, e2, e6]
      simp [hg]
    obtain ⟨o, hpr⟩ := hpr
    rw [List.replicate_succ, run_cons _ hpr, ih (j + 1) { r with ptr := ((j + 1 : Nat) : ℚ) } e1 e2 e3 e4 e5 rfl (by omega)]
    rfl

/-- At other sample rates the end can be rounded above the number of frames: a sound of 32116932 frames at 125407 Hz, played at its own
speed by a system at that sample rate, is read past its end without a check. -/
theorem C85_outside_violated {p : Nat} {emin : Int} :
    rdRun (rnd p emin) (rdInit (rdNew (Buffer.fromVec (List.replicate 32116932 0) 125407) 1 1 false) 125407) (List.replicate 32116933 .frame) =
      .error .index := by
  have hlen : (List.replicate 32116932 (0 : ℚ)).length = 32116932 := List.length_replicate
  have h0 : rdFrames 0 125407 = 0 := by decide +kernel
  have hfin : (32116932 : ℚ) < rnd64 (rdFrames 0 125407 + rdFrames (rnd64 (32116932 / 125407)) 125407) := by decide +kernel
  have hstep : rnd64 (rnd64 ((125407 : ℚ) / (125407 : Nat)) * 1) = 1 := by decide +kernel
  have hb : Buffer.fromVec (List.replicate 32116932 0) 125407 = ⟨List.replicate 32116932 0, 1, 32116932, 125407⟩ := by
    unfold Buffer.fromVec
    rw [hlen]
    norm_num
  rw [hb]
  generalize hL : List.replicate 32116932 (0 : ℚ) = L at *
  refine read_past (p := p) (emin := emin) ⟨L, 1, 32116932, 125407⟩ 32116932 hlen rfl (by norm_num) 32116932 0 _ rfl rfl rfl hstep ?_ ?_ (by norm_num)
  · exact_mod_cast hfin
  · exact h0

/-- Ten steps of a tenth are not one: a sound of one frame that is played at a tenth of its speed lasts eleven frames, although ten
times the rate is at least one frame. -/
theorem C85_extra_violated : 1 ≤ 10 * rnd64 (1 / 10) ∧
    (rdRun rnd32 (rdInit (rdNew (Buffer.fromVec [1] 48000) 1 (rnd64 (1 / 10)) false) 48000) (List.replicate 11 .frame)).map
      (fun x => x.2.map (·.2)) = .ok [false, false, false, false, false, false, false, false, false, false, true] := by
  decide +kernel

/-- Thirty steps of three tenths are more than nine: a sound of nine frames that is played at that rate is cut off, although the exact
position of the next frame is still inside the sound. -/
theorem C85_cut_violated : 30 * rnd64 (3 / 10) < 9 ∧
    (rdRun rnd32 (rdInit (rdNew (Buffer.fromVec [1, 1, 1, 1, 1, 1, 1, 1, 1] 48000) 1 (rnd64 (3 / 10)) false) 48000) (List.replicate 30 .frame)).map
      (fun x => x.1.finished) = .ok true := by
  decide +kernel

/-- A small rate stops the reader: from the second frame on it repeats the same sample for ever and is never done. -/
theorem C85_stuck_violated (n : Nat) :
    ∃ r, rdRun rnd32 (rdInit (rdNew (Buffer.fromVec [1 / 4, 1 / 2] 48000) 1 1 false) 48000)
      ([.frame, .rate (pow2 (-60))] ++ List.replicate n .frame) = .ok (r, ([1 / 4], false) :: List.replicate n ([1 / 2], false)) := by
  let r1 : Reader := ⟨Buffer.fromVec [1 / 4, 1 / 2] 48000, 1, 1, pow2 (-60), 1, false, false, 0, 2, 2⟩
  have h1 : rdProcess rnd32 (rdInit (rdNew (Buffer.fromVec [1 / 4, 1 / 2] 48000) 1 1 false) 48000) = .ok ({ r1 with rate := 1 }, [1 / 4], false) := by
    decide +kernel
  have h2 : rdProcess rnd32 r1 = .ok (r1, [1 / 2], false) := by decide +kernel
  have h3 : rdRun rnd32 r1 (List.replicate n .frame) = .ok (r1, List.replicate n ([1 / 2], false)) := by
    induction n with
    | zero => rfl
    | succ n ih => rw [List.replicate_succ, run_cons _ h2, ih]; rfl
  refine ⟨r1, ?_⟩
  rw [List.cons_append, run_cons _ h1, List.cons_append, List.nil_append, rdRun, rdOp, bind_ok]
  simp only
  rw [show ({ r1 with rate := pow2 (-60) } : Reader) = r1 from rfl, h3]
  rfl

/-- Backwards the reader leaves the sound at its start: between the first two frames of a sound within one it plays two. -/
theorem C85_backwards_violated :
    (rdRun rnd32 (rdInit (rdNew (Buffer.fromVec [1, -1] 48000) 1 (-1 / 2) false) 48000) [.frame, .frame]).map (fun x => x.2.map (·.1)) =
      .ok [[1], [2]] := by
  decide +kernel

end Verif.Fl
