import Verif.Props.Svf

/-!
# C60: the state variable filter under modulation and input at the same time

`C60_modulation` (energy never grows in silence) and `C60_bounded` (fixed settings, any input) do not imply that a
filter whose settings move while a signal passes through it stays bounded.  Here is a measure of the state that falls
for all settings of a box at once.
-/

namespace Verif.Fi

/-- The measure: the energy, tilted a little. -/
def tilt (ε : ℝ) (s : Ic ℝ) : ℝ := s.s1 ^ 2 + s.s2 ^ 2 + 2 * ε * (s.s1 * s.s2)

/-- The exact balance of the measure. -/
theorem tilt_step (ε : ℝ) (c : Coef ℝ) (g k : ℝ) (h : c.From g k) (s : Ic ℝ) (v0 : ℝ) :
    tilt ε (step c s v0).1 = tilt ε s
      - 4 * g * ((k - ε) * v1 g k s v0 ^ 2 + ε * k * (v1 g k s v0 * v2 g k s v0) + ε * v2 g k s v0 ^ 2)
      + 4 * g * v0 * (v1 g k s v0 + ε * v2 g k s v0) := by
  rw [step_eq c g k h]
  have h1 := old_s1 g k h.1 s v0
  have h2 := old_s2 g k s v0
  simp only [tilt]
  generalize v1 g k s v0 = a at *
  generalize v2 g k s v0 = b at *
  rw [h1, h2]
  ring

/-- A box of settings, in terms of `g` and `k`. -/
structure Box where
  g0 : ℝ
  g1 : ℝ
  k0 : ℝ
  k1 : ℝ
  hg : 0 < g0
  hg' : g0 ≤ g1
  hk : 0 < k0
  hk' : k0 ≤ k1

/-- `g` and `k` are in the box. -/
def Box.In (b : Box) (g k : ℝ) : Prop := b.g0 ≤ g ∧ g ≤ b.g1 ∧ b.k0 ≤ k ∧ k ≤ b.k1

/-- The tilt for a box. -/
noncomputable def Box.eps (b : Box) : ℝ := b.k0 / (2 + b.k1 ^ 2)

/-- How much of the measure the integrator outputs account for, at most. -/
noncomputable def Box.span (b : Box) : ℝ := 2 * (3 * (1 + b.g1 * b.k1) ^ 2 + 5 * b.g1 ^ 2 + 2)

/-- The factor by which the measure falls. -/
noncomputable def Box.rho (b : Box) : ℝ := 1 - b.g0 * b.eps / b.span

/-- How much the input adds. -/
noncomputable def Box.drive (b : Box) : ℝ := 4 * b.g1 * (1 + b.eps ^ 2) / b.eps + 6 * b.g1 ^ 2 * (b.g0 * b.eps / b.span)

theorem Box.g1_pos (b : Box) : 0 < b.g1 := lt_of_lt_of_le b.hg b.hg'

theorem Box.k1_pos (b : Box) : 0 < b.k1 := lt_of_lt_of_le b.hk b.hk'

theorem Box.eps_pos (b : Box) : 0 < b.eps := by
  have := b.hk
  simp only [Box.eps]
  positivity

theorem Box.eps_le (b : Box) {k : ℝ} (h0 : b.k0 ≤ k) (h1 : k ≤ b.k1) : b.eps * (2 + k ^ 2) ≤ k := by
  have hk := b.hk
  have hk1 := b.k1_pos
  have h2 : k ^ 2 ≤ b.k1 ^ 2 := by
    have : 0 < k := by linarith
    exact pow_le_pow_left₀ this.le h1 2
  have h3 : b.eps * (2 + b.k1 ^ 2) = b.k0 := by
    simp only [Box.eps]
    field_simp
  have := b.eps_pos
  nlinarith

theorem Box.eps_half (b : Box) : b.eps ≤ 1 / 2 := by
  have h := b.eps_le (le_refl b.k0) b.hk'
  have hk := b.hk
  have h2 : b.k0 ≤ (2 + b.k0 ^ 2) / 2 := by nlinarith [sq_nonneg (b.k0 - 1)]
  have h3 : 0 < 2 + b.k0 ^ 2 := by positivity
  by_contra hc
  rw [not_le] at hc
  nlinarith

theorem Box.span_pos (b : Box) : 0 < b.span := by
  have := b.g1_pos
  simp only [Box.span]
  positivity

/-- The measure is the energy up to a factor. -/
theorem tilt_energy (b : Box) (s : Ic ℝ) : energy s / 2 ≤ tilt b.eps s ∧ tilt b.eps s ≤ 2 * energy s := by
  have h0 := b.eps_pos
  have h1 := b.eps_half
  have p1 : 0 ≤ b.eps * (s.s1 + s.s2) ^ 2 := by positivity
  have p2 : 0 ≤ b.eps * (s.s1 - s.s2) ^ 2 := by positivity
  have p3 : b.eps * (s.s1 ^ 2 + s.s2 ^ 2) ≤ 1 / 2 * (s.s1 ^ 2 + s.s2 ^ 2) := by gcongr
  have p4 : 0 ≤ s.s1 ^ 2 + s.s2 ^ 2 := by positivity
  simp only [tilt, energy]
  constructor <;> nlinarith

/-- What a step takes from the measure, in terms of the integrator outputs. -/
theorem tilt_falls_mid (b : Box) (c : Coef ℝ) {g k : ℝ} (hb : b.In g k) (h : c.From g k) (s : Ic ℝ) (v0 : ℝ) :
    tilt b.eps (step c s v0).1 ≤ tilt b.eps s - b.g0 * b.eps * (v1 g k s v0 ^ 2 + v2 g k s v0 ^ 2)
      + 4 * b.g1 * (1 + b.eps ^ 2) / b.eps * v0 ^ 2 := by
  obtain ⟨hg0, hg1, hk0, hk1⟩ := hb
  have h1 := tilt_step b.eps c g k h s v0
  have he := b.eps_pos
  have hle := b.eps_le hk0 hk1
  have hg := b.hg
  have hk := b.hk
  have hgp : 0 < g := by linarith
  have hkp : 0 < k := by linarith
  generalize v1 g k s v0 = x at *
  generalize v2 g k s v0 = y at *
  generalize b.eps = ε at *
  have e1 : ε / 2 * (x ^ 2 + y ^ 2) ≤ (k - ε) * x ^ 2 + ε * k * (x * y) + ε * y ^ 2 := by
    have p1 : 0 ≤ ε * (k * x + y) ^ 2 := by positivity
    have p2 : (ε * (2 + k ^ 2)) * x ^ 2 ≤ k * x ^ 2 := by gcongr
    have p3 : ε * 2 ≤ k := by nlinarith [mul_pos he (pow_pos hkp 2)]
    have p4 : (ε * 2) * x ^ 2 ≤ k * x ^ 2 := by gcongr
    nlinarith
  have e2 : 4 * g * v0 * (x + ε * y) ≤ g * ε * (x ^ 2 + y ^ 2) + 4 * g * (1 + ε ^ 2) / ε * v0 ^ 2 := by
    have q1 : 0 ≤ g / ε * (ε * x - 2 * v0) ^ 2 := by positivity
    have q2 : 0 ≤ g / ε * (ε * y - 2 * ε * v0) ^ 2 := by positivity
    have q3 : g * ε * (x ^ 2 + y ^ 2) + 4 * g * (1 + ε ^ 2) / ε * v0 ^ 2 - 4 * g * v0 * (x + ε * y)
        = g / ε * (ε * x - 2 * v0) ^ 2 + g / ε * (ε * y - 2 * ε * v0) ^ 2 := by
      field_simp
      ring
    linarith
  have e3 : 4 * g * (ε / 2 * (x ^ 2 + y ^ 2)) ≤ 4 * g * ((k - ε) * x ^ 2 + ε * k * (x * y) + ε * y ^ 2) := by gcongr
  have e4 : b.g0 * ε * (x ^ 2 + y ^ 2) ≤ g * ε * (x ^ 2 + y ^ 2) := by gcongr
  have e5 : 4 * g * (1 + ε ^ 2) / ε * v0 ^ 2 ≤ 4 * b.g1 * (1 + ε ^ 2) / ε * v0 ^ 2 := by gcongr
  rw [h1]
  linarith

/-- The measure in terms of the integrator outputs. -/
theorem tilt_mid (b : Box) {g k : ℝ} (hb : b.In g k) (h : 1 + g * (g + k) ≠ 0) (s : Ic ℝ) (v0 : ℝ) :
    tilt b.eps s ≤ b.span * (v1 g k s v0 ^ 2 + v2 g k s v0 ^ 2) + 6 * b.g1 ^ 2 * v0 ^ 2 := by
  obtain ⟨hg0, hg1, hk0, hk1⟩ := hb
  have h1 := old_s1 g k h s v0
  have h2 := old_s2 g k s v0
  have ht := (tilt_energy b s).2
  have hg := b.hg
  have hk := b.hk
  have hgp : 0 < g := by linarith
  have hkp : 0 < k := by linarith
  have hG := b.g1_pos
  have hK := b.k1_pos
  generalize v1 g k s v0 = x at *
  generalize v2 g k s v0 = y at *
  have e1 : s.s1 ^ 2 ≤ 3 * ((1 + g * k) ^ 2 * x ^ 2 + g ^ 2 * y ^ 2 + g ^ 2 * v0 ^ 2) := by
    have : s.s1 = (1 + g * k) * x + g * y - g * v0 := by rw [h1]; ring
    rw [this]
    nlinarith [sq_nonneg ((1 + g * k) * x - g * y), sq_nonneg ((1 + g * k) * x + g * v0), sq_nonneg (g * y + g * v0)]
  have e2 : s.s2 ^ 2 ≤ 2 * (y ^ 2 + g ^ 2 * x ^ 2) := by
    rw [h2]
    nlinarith [sq_nonneg (y + g * x)]
  have f1 : (1 + g * k) ^ 2 * x ^ 2 ≤ (1 + b.g1 * b.k1) ^ 2 * x ^ 2 := by gcongr
  have f2 : g ^ 2 * y ^ 2 ≤ b.g1 ^ 2 * y ^ 2 := by gcongr
  have f3 : g ^ 2 * x ^ 2 ≤ b.g1 ^ 2 * x ^ 2 := by gcongr
  have f4 : g ^ 2 * v0 ^ 2 ≤ b.g1 ^ 2 * v0 ^ 2 := by gcongr
  have f5 : 0 ≤ (1 + b.g1 * b.k1) ^ 2 * y ^ 2 := by positivity
  have f6 : 0 ≤ b.g1 ^ 2 * x ^ 2 := by positivity
  have f7 : 0 ≤ b.g1 ^ 2 * y ^ 2 := by positivity
  have f8 : 0 ≤ x ^ 2 := by positivity
  simp only [energy] at ht
  simp only [Box.span]
  nlinarith

theorem Box.rho_range (b : Box) : 0 ≤ b.rho ∧ b.rho < 1 := by
  have hs := b.span_pos
  have hg := b.hg
  have hG := b.g1_pos
  have hK := b.k1_pos
  have he := b.eps_pos
  have h : b.g0 * b.eps / b.span ≤ 1 := by
    rw [div_le_one hs]
    have h1 := b.eps_half
    have h2 := b.hg'
    have h3 : b.g0 * b.eps ≤ b.g1 * (1 / 2) := mul_le_mul h2 h1 he.le hG.le
    simp only [Box.span]
    nlinarith [sq_nonneg (b.g1 - 1), sq_nonneg (1 + b.g1 * b.k1)]
  have h' : 0 < b.g0 * b.eps / b.span := by positivity
  simp only [Box.rho]
  constructor <;> linarith

/-- The measure falls by a fixed factor, up to what the input adds, for all settings of the box. -/
theorem tilt_falls (b : Box) (c : Coef ℝ) {g k : ℝ} (hb : b.In g k) (h : c.From g k) (s : Ic ℝ) (v0 : ℝ) :
    tilt b.eps (step c s v0).1 ≤ b.rho * tilt b.eps s + b.drive * v0 ^ 2 := by
  have h1 := tilt_falls_mid b c hb h s v0
  have h2 := tilt_mid b hb h.1 s v0
  have hs := b.span_pos
  have hg := b.hg
  have he := b.eps_pos
  generalize v1 g k s v0 ^ 2 + v2 g k s v0 ^ 2 = w at *
  have h3 : b.g0 * b.eps / b.span * tilt b.eps s ≤ b.g0 * b.eps / b.span * (b.span * w + 6 * b.g1 ^ 2 * v0 ^ 2) := by gcongr
  have h4 : b.g0 * b.eps / b.span * (b.span * w + 6 * b.g1 ^ 2 * v0 ^ 2)
      = b.g0 * b.eps * w + 6 * b.g1 ^ 2 * (b.g0 * b.eps / b.span) * v0 ^ 2 := by
    field_simp
  simp only [Box.rho, Box.drive]
  nlinarith

/-- What the output is at most. -/
theorem tilt_out (b : Box) (c : Coef ℝ) {g k N : ℝ} (hb : b.In g k) (h : c.From g k) (s : Ic ℝ) (v0 : ℝ)
    (hN : c.m0 ^ 2 + c.m1 ^ 2 + c.m2 ^ 2 ≤ N) :
    (step c s v0).2 ^ 2 ≤ 3 * N *
      (v0 ^ 2 + (tilt b.eps s + 4 * b.g1 * (1 + b.eps ^ 2) / b.eps * v0 ^ 2) / (b.g0 * b.eps)) := by
  have h1 := tilt_falls_mid b c hb h s v0
  have hg := b.hg
  have hG := b.g1_pos
  have he := b.eps_pos
  have hl : 0 ≤ tilt b.eps (step c s v0).1 := by
    have := (tilt_energy b (step c s v0).1).1
    have h0 : 0 ≤ energy (step c s v0).1 := by simp only [energy]; positivity
    linarith
  have ho : (step c s v0).2 = c.m0 * v0 + c.m1 * v1 g k s v0 + c.m2 * v2 g k s v0 := by rw [step_eq c g k h]
  rw [ho]
  generalize v1 g k s v0 = x at *
  generalize v2 g k s v0 = y at *
  have e2 : x ^ 2 + y ^ 2 ≤ (tilt b.eps s + 4 * b.g1 * (1 + b.eps ^ 2) / b.eps * v0 ^ 2) / (b.g0 * b.eps) := by
    rw [le_div_iff₀ (by positivity)]
    linarith
  have e3 : (c.m0 * v0 + c.m1 * x + c.m2 * y) ^ 2 ≤ 3 * (c.m0 ^ 2 + c.m1 ^ 2 + c.m2 ^ 2) * (v0 ^ 2 + (x ^ 2 + y ^ 2)) := by
    have p1 : 0 ≤ (c.m0 * v0 - c.m1 * x) ^ 2 := sq_nonneg _
    have p2 : 0 ≤ (c.m0 * v0 - c.m2 * y) ^ 2 := sq_nonneg _
    have p3 : 0 ≤ (c.m1 * x - c.m2 * y) ^ 2 := sq_nonneg _
    have q1 : 0 ≤ c.m0 ^ 2 * x ^ 2 := by positivity
    have q2 : 0 ≤ c.m0 ^ 2 * y ^ 2 := by positivity
    have q3 : 0 ≤ c.m1 ^ 2 * v0 ^ 2 := by positivity
    have q4 : 0 ≤ c.m1 ^ 2 * y ^ 2 := by positivity
    have q5 : 0 ≤ c.m2 ^ 2 * v0 ^ 2 := by positivity
    have q6 : 0 ≤ c.m2 ^ 2 * x ^ 2 := by positivity
    have q7 : 0 ≤ c.m0 ^ 2 * v0 ^ 2 := by positivity
    have q8 : 0 ≤ c.m1 ^ 2 * x ^ 2 := by positivity
    have q9 : 0 ≤ c.m2 ^ 2 * y ^ 2 := by positivity
    nlinarith
  refine le_trans e3 ?_
  have hN0 : 0 ≤ N := le_trans (by positivity) hN
  have e4 : v0 ^ 2 + (x ^ 2 + y ^ 2) ≤ v0 ^ 2 + (tilt b.eps s + 4 * b.g1 * (1 + b.eps ^ 2) / b.eps * v0 ^ 2) / (b.g0 * b.eps) := by
    linarith
  have e5 : 0 ≤ v0 ^ 2 + (x ^ 2 + y ^ 2) := by positivity
  exact mul_le_mul (by linarith) e4 e5 (by positivity)

/-! ## The settings -/

/-- Limits for the settings and for the input: frequency, resonance, gain and the square of a sample. -/
structure Limits where
  sr : ℝ
  f0 : ℝ
  f1 : ℝ
  q0 : ℝ
  q1 : ℝ
  d0 : ℝ
  d1 : ℝ
  B : ℝ
  hsr : 0 < sr
  hf0 : 0 < f0
  hf1 : f1 < sr / 2
  hq0 : 0 < q0

/-- The settings are within the limits. -/
def Limits.In (l : Limits) (cutoff q gain : ℝ) : Prop :=
  l.f0 ≤ cutoff ∧ cutoff ≤ l.f1 ∧ l.q0 ≤ q ∧ q ≤ l.q1 ∧ l.d0 ≤ gain ∧ gain ≤ l.d1

/-- The operation stays within the limits. -/
def SvOp.Within (l : Limits) : SvOp ℝ → Prop
  | .cutoff x => l.f0 ≤ x ∧ x ≤ l.f1
  | .q x => l.q0 ≤ x ∧ x ≤ l.q1
  | .gain x => l.d0 ≤ x ∧ x ≤ l.d1
  | .filter _ => True
  | .calculate => True
  | .sample x => x ^ 2 ≤ l.B

theorem Limits.valid (l : Limits) {cutoff q gain : ℝ} (h : l.In cutoff q gain) : Valid cutoff q l.sr := by
  obtain ⟨h1, h2, h3, h4, h5, h6⟩ := h
  exact ⟨l.hsr, by linarith [l.hf0], by linarith [l.hf1], by linarith [l.hq0]⟩

theorem tan_mono (l : Limits) {x y : ℝ} (h0 : l.f0 ≤ x) (h1 : x ≤ y) (h2 : y ≤ l.f1) :
    Real.tan (Real.pi * x / l.sr) ≤ Real.tan (Real.pi * y / l.sr) := by
  have hp := Real.pi_pos
  have hs := l.hsr
  have hf := l.hf0
  have hf1 := l.hf1
  have hx : 0 ≤ x := by linarith
  have e0 : 0 ≤ Real.pi * x / l.sr := by positivity
  have e1 : Real.pi * x / l.sr ≤ Real.pi * y / l.sr := by gcongr
  have e2 : Real.pi * y / l.sr < Real.pi / 2 := by
    rw [div_lt_iff₀ hs]
    have : Real.pi * y < Real.pi * (l.sr / 2) := by
      apply mul_lt_mul_of_pos_left _ hp
      linarith
    linarith
  rcases eq_or_lt_of_le e1 with e | e
  · rw [e]
  · exact (Real.tan_lt_tan_of_nonneg_of_lt_pi_div_two e0 e2 e).le

theorem amp_mono {x y : ℝ} (h : x ≤ y) : amp x ≤ amp y := by
  simp only [amp]
  apply Real.rpow_le_rpow_of_exponent_le (by norm_num)
  linarith

/-- The mix is bounded. -/
theorem mix_le (ty : Ty) {q gain A K : ℝ} (ha : 0 < amp gain) (a1 : amp gain ≤ A) (hk : 0 < kOf ty q gain) (k1 : kOf ty q gain ≤ K) :
    |(mixOf ty q gain).1| ≤ (2 + 2 * K) * (2 + A + A ^ 2) ∧ |(mixOf ty q gain).2.1| ≤ (2 + 2 * K) * (2 + A + A ^ 2) ∧
      |(mixOf ty q gain).2.2| ≤ (2 + 2 * K) * (2 + A + A ^ 2) := by
  have hA : 0 < A := by linarith
  have hK : 0 < K := by linarith
  have aa : amp gain * amp gain ≤ A ^ 2 := by
    rw [pow_two]
    exact mul_le_mul a1 a1 ha.le hA.le
  have aa0 : 0 < amp gain * amp gain := mul_pos ha ha
  have p1 : 0 < K * A := mul_pos hK hA
  have p2 : 0 < K * A ^ 2 := by positivity
  have p3 : 0 < A ^ 2 := by positivity
  have k2 : kOf ty q gain * amp gain ≤ K * A := mul_le_mul k1 a1 ha.le hK.le
  have k3 : kOf ty q gain * (amp gain * amp gain) ≤ K * A ^ 2 := mul_le_mul k1 aa aa0.le hK.le
  have k4 : 0 < kOf ty q gain * amp gain := mul_pos hk ha
  have k5 : 0 < kOf ty q gain * (amp gain * amp gain) := mul_pos hk aa0
  have sum : (2 + 2 * K) * (2 + A + A ^ 2) = 4 + 2 * A + 2 * A ^ 2 + 4 * K + 2 * (K * A) + 2 * (K * A ^ 2) := by ring
  rw [sum]
  cases ty <;> simp only [mixOf] <;> (generalize kOf _ q gain = k at *) <;> (generalize amp gain = a at *) <;>
    refine ⟨abs_le.2 ⟨?_, ?_⟩, abs_le.2 ⟨?_, ?_⟩, abs_le.2 ⟨?_, ?_⟩⟩ <;> linarith

/-- All coefficients within the limits come from one box and have a bounded mix. -/
theorem Limits.box (l : Limits) (hf : l.f0 ≤ l.f1) (hq : l.q0 ≤ l.q1) (hd : l.d0 ≤ l.d1) :
    ∃ (b : Box) (N : ℝ), ∀ (ty : Ty) (cutoff q gain : ℝ), l.In cutoff q gain →
      b.In (gOf ty cutoff gain l.sr) (kOf ty q gain) ∧
      (mixOf ty q gain).1 ^ 2 + (mixOf ty q gain).2.1 ^ 2 + (mixOf ty q gain).2.2 ^ 2 ≤ N := by
  have hin0 : l.In l.f0 l.q0 l.d0 := ⟨le_refl _, hf, le_refl _, hq, le_refl _, hd⟩
  have hT0 : 0 < Real.tan (Real.pi * l.f0 / l.sr) := tan_pos _ _ _ (l.valid hin0)
  have hT01 := tan_mono l (le_refl _) hf (le_refl _)
  have hA0 := amp_pos l.d0
  have hA01 := amp_mono hd
  have hS0 := Real.sqrt_pos.2 hA0
  have hS01 := Real.sqrt_le_sqrt hA01
  have hq0 := l.hq0
  obtain ⟨T0, hT0e⟩ : ∃ T0, T0 = Real.tan (Real.pi * l.f0 / l.sr) := ⟨_, rfl⟩
  obtain ⟨T1, hT1e⟩ : ∃ T1, T1 = Real.tan (Real.pi * l.f1 / l.sr) := ⟨_, rfl⟩
  obtain ⟨A0, hA0e⟩ : ∃ A0, A0 = amp l.d0 := ⟨_, rfl⟩
  obtain ⟨A1, hA1e⟩ : ∃ A1, A1 = amp l.d1 := ⟨_, rfl⟩
  obtain ⟨S0, hS0e⟩ : ∃ S0, S0 = Real.sqrt A0 := ⟨_, rfl⟩
  obtain ⟨S1, hS1e⟩ : ∃ S1, S1 = Real.sqrt A1 := ⟨_, rfl⟩
  rw [← hT0e] at hT0 hT01
  rw [← hT1e] at hT01
  rw [← hA0e] at hA0 hA01 hS0 hS01
  rw [← hA1e] at hA01 hS01
  rw [← hS0e] at hS0 hS01
  rw [← hS1e] at hS01
  have hS1 : 0 < S1 := by linarith
  have hT1 : 0 < T1 := by linarith
  have hA1 : 0 < A1 := by linarith
  have hq1 : 0 < l.q1 := by linarith
  have ek0 : 1 / l.q1 ≤ 1 / l.q0 := one_div_le_one_div_of_le hq0 hq
  let K1 := max (1 / l.q0) (1 / (l.q0 * A0))
  have hK1 : 0 < K1 := lt_of_lt_of_le (by positivity) (le_max_left _ _)
  refine ⟨⟨min T0 (min (T0 / S1) (T0 * S0)), max T1 (max (T1 / S0) (T1 * S1)), min (1 / l.q1) (1 / (l.q1 * A1)), K1,
    lt_min hT0 (lt_min (by positivity) (by positivity)), le_trans (min_le_left _ _) (le_trans hT01 (le_max_left _ _)),
    lt_min (by positivity) (by positivity), le_trans (min_le_left _ _) (le_trans ek0 (le_max_left _ _))⟩,
    3 * ((2 + 2 * K1) * (2 + A1 + A1 ^ 2)) ^ 2, ?_⟩
  intro ty cutoff q gain ⟨c1, c2, c3, c4, c5, c6⟩
  have t0 : T0 ≤ Real.tan (Real.pi * cutoff / l.sr) := by rw [hT0e]; exact tan_mono l (le_refl _) c1 c2
  have t1 : Real.tan (Real.pi * cutoff / l.sr) ≤ T1 := by rw [hT1e]; exact tan_mono l c1 c2 (le_refl _)
  have a0 : A0 ≤ amp gain := by rw [hA0e]; exact amp_mono c5
  have a1 : amp gain ≤ A1 := by rw [hA1e]; exact amp_mono c6
  have s0 : S0 ≤ Real.sqrt (amp gain) := by rw [hS0e]; exact Real.sqrt_le_sqrt a0
  have s1 : Real.sqrt (amp gain) ≤ S1 := by rw [hS1e]; exact Real.sqrt_le_sqrt a1
  have hqp : 0 < q := by linarith
  have ha := amp_pos gain
  have htp : 0 ≤ Real.tan (Real.pi * cutoff / l.sr) := by linarith
  have hk : min (1 / l.q1) (1 / (l.q1 * A1)) ≤ kOf ty q gain ∧ kOf ty q gain ≤ K1 := by
    have r0 : 1 / l.q1 ≤ 1 / q := one_div_le_one_div_of_le hqp c4
    have r1 : 1 / q ≤ 1 / l.q0 := one_div_le_one_div_of_le hq0 c3
    have r2 : 1 / (l.q1 * A1) ≤ 1 / (q * amp gain) :=
      one_div_le_one_div_of_le (by positivity) (mul_le_mul c4 a1 ha.le hq1.le)
    have r3 : 1 / (q * amp gain) ≤ 1 / (l.q0 * A0) :=
      one_div_le_one_div_of_le (by positivity) (mul_le_mul c3 a0 hA0.le hqp.le)
    cases ty <;> simp only [kOf] <;>
      first
      | exact ⟨le_trans (min_le_left _ _) r0, le_trans r1 (le_max_left _ _)⟩
      | exact ⟨le_trans (min_le_right _ _) r2, le_trans r3 (le_max_right _ _)⟩
  have hkp : 0 < kOf ty q gain := kOf_pos ty cutoff q gain l.sr (l.valid ⟨c1, c2, c3, c4, c5, c6⟩)
  refine ⟨⟨?_, ?_, hk.1, hk.2⟩, ?_⟩
  · have r1 : T0 / S1 ≤ Real.tan (Real.pi * cutoff / l.sr) / Real.sqrt (amp gain) := by gcongr
    have r2 : T0 * S0 ≤ Real.tan (Real.pi * cutoff / l.sr) * Real.sqrt (amp gain) := by gcongr
    cases ty <;> simp only [gOf] <;>
      first
      | exact le_trans (min_le_left _ _) t0
      | exact le_trans (min_le_right _ _) (le_trans (min_le_left _ _) r1)
      | exact le_trans (min_le_right _ _) (le_trans (min_le_right _ _) r2)
  · have r1 : Real.tan (Real.pi * cutoff / l.sr) / Real.sqrt (amp gain) ≤ T1 / S0 := by gcongr
    have r2 : Real.tan (Real.pi * cutoff / l.sr) * Real.sqrt (amp gain) ≤ T1 * S1 := by gcongr
    cases ty <;> simp only [gOf] <;>
      first
      | exact le_trans t1 (le_max_left _ _)
      | exact le_trans r1 (le_trans (le_max_left _ _) (le_max_right _ _))
      | exact le_trans r2 (le_trans (le_max_right _ _) (le_max_right _ _))
  · have key : |(mixOf ty q gain).1| ≤ (2 + 2 * K1) * (2 + A1 + A1 ^ 2) ∧
        |(mixOf ty q gain).2.1| ≤ (2 + 2 * K1) * (2 + A1 + A1 ^ 2) ∧
        |(mixOf ty q gain).2.2| ≤ (2 + 2 * K1) * (2 + A1 + A1 ^ 2) := by
      exact mix_le ty ha a1 hkp hk.2
    obtain ⟨m1, m2, m3⟩ := key
    have hn : 0 ≤ (2 + 2 * K1) * (2 + A1 + A1 ^ 2) := by positivity
    have q1 := sq_le_sq' (abs_le.1 m1).1 (abs_le.1 m1).2
    have q2 := sq_le_sq' (abs_le.1 m2).1 (abs_le.1 m2).2
    have q3 := sq_le_sq' (abs_le.1 m3).1 (abs_le.1 m3).2
    linarith

/-- The filter is within the limits and has the coefficients for its settings. -/
def Svf.Tuned (l : Limits) (f : Svf ℝ) : Prop :=
  l.In f.cutoff f.q f.gain ∧ setCoeffs real f.ty f.cutoff f.q f.gain l.sr = some f.c

theorem calc_tuned (l : Limits) (f : Svf ℝ) (h : l.In f.cutoff f.q f.gain) :
    ∃ f', f.calc real l.sr = some f' ∧ f'.Tuned l ∧ f'.s = f.s ∧
      (∀ g : Svf ℝ, g.ty = f.ty → g.cutoff = f.cutoff → g.q = f.q → g.gain = f.gain → g.calc real l.sr = some { f' with s := g.s }) := by
  obtain ⟨c, h1, -⟩ := setCoeffs_spec f.ty f.cutoff f.q f.gain l.sr (l.valid h)
  refine ⟨{ f with c }, by simp [Svf.calc, h1], ⟨h, h1⟩, rfl, ?_⟩
  intro g e1 e2 e3 e4
  obtain ⟨ty, cu, qq, ga, s, cc⟩ := g
  simp only at e1 e2 e3 e4
  subst e1 e2 e3 e4
  simp [Svf.calc, h1]

/-- A setting keeps the filter tuned and leaves the state alone; the result depends on the settings only. -/
theorem set_tuned (l : Limits) (f : Svf ℝ) (h : f.Tuned l) (o : SvOp ℝ) (ho : o.Within l) (hne : ∀ x, o ≠ .sample x) :
    ∃ f', f.set real l.sr o = some f' ∧ f'.Tuned l ∧ f'.s = f.s ∧
      ∀ s, ({ f with s } : Svf ℝ).set real l.sr o = some { f' with s } := by
  obtain ⟨⟨c1, c2, c3, c4, c5, c6⟩, hc⟩ := h
  cases o with
  | cutoff x =>
    obtain ⟨f', h1, h2, h3, h4⟩ := calc_tuned l { f with cutoff := x } ⟨ho.1, ho.2, c3, c4, c5, c6⟩
    exact ⟨f', h1, h2, h3, fun s => h4 { f with cutoff := x, s } rfl rfl rfl rfl⟩
  | q x =>
    obtain ⟨f', h1, h2, h3, h4⟩ := calc_tuned l { f with q := x } ⟨c1, c2, ho.1, ho.2, c5, c6⟩
    exact ⟨f', h1, h2, h3, fun s => h4 { f with q := x, s } rfl rfl rfl rfl⟩
  | gain x =>
    obtain ⟨f', h1, h2, h3, h4⟩ := calc_tuned l { f with gain := x } ⟨c1, c2, c3, c4, ho.1, ho.2⟩
    exact ⟨f', h1, h2, h3, fun s => h4 { f with gain := x, s } rfl rfl rfl rfl⟩
  | filter ty =>
    obtain ⟨f', h1, h2, h3, h4⟩ := calc_tuned l { f with ty } ⟨c1, c2, c3, c4, c5, c6⟩
    exact ⟨f', h1, h2, h3, fun s => h4 { f with ty, s } rfl rfl rfl rfl⟩
  | calculate =>
    obtain ⟨f', h1, h2, h3, h4⟩ := calc_tuned l f ⟨c1, c2, c3, c4, c5, c6⟩
    exact ⟨f', h1, h2, h3, fun s => h4 { f with s } rfl rfl rfl rfl⟩
  | sample x => exact absurd rfl (hne x)

theorem svRun_set (sr : ℝ) (f f' : Svf ℝ) (o : SvOp ℝ) (ops : List (SvOp ℝ)) (hne : ∀ x, o ≠ .sample x)
    (h : f.set real sr o = some f') : svRun real sr f (o :: ops) = svRun real sr f' ops := by
  have : svRun real sr f (o :: ops) = (do
      let f ← f.set real sr o
      svRun real sr f ops) := by
    cases o <;> first | rfl | exact absurd rfl (hne _)
  rw [this, h]
  rfl

/-- The number of samples in a history. -/
def frames : List (SvOp ℝ) → Nat
  | [] => 0
  | .sample _ :: ops => frames ops + 1
  | _ :: ops => frames ops

theorem samples_set (o : SvOp ℝ) (ops : List (SvOp ℝ)) (hne : ∀ x, o ≠ .sample x) : frames (o :: ops) = frames ops := by
  cases o <;> first | rfl | exact absurd rfl (hne _)

/-- **C60, modulation and input together**: for all limits on frequency (below half of the sample rate), resonance, gain and
input there is one bound that no output exceeds, however the settings and the type of the filter are changed while the
signal passes through, from sample to sample and for ever. -/
theorem C60_modulated (l : Limits) (f : Svf ℝ) (hf : f.Tuned l) :
    ∃ M : ℝ, ∀ ops : List (SvOp ℝ), (∀ o ∈ ops, o.Within l) →
      ∃ f' out, svRun real l.sr f ops = some (f', out) ∧ f'.Tuned l ∧ out.length = frames ops ∧ ∀ y ∈ out, y ^ 2 ≤ M := by
  obtain ⟨c1, c2, c3, c4, c5, c6⟩ := hf.1
  obtain ⟨b, N, hb⟩ := l.box (by linarith) (by linarith) (by linarith)
  obtain ⟨hr0, hr1⟩ := b.rho_range
  have hg := b.hg
  have hG := b.g1_pos
  have he := b.eps_pos
  have hsp := b.span_pos
  have hd : 0 ≤ b.drive := by
    simp only [Box.drive]
    positivity
  have hN : 0 ≤ N := le_trans (by positivity) (hb f.ty f.cutoff f.q f.gain hf.1).2
  have tuned : ∀ f : Svf ℝ, f.Tuned l → ∃ g k, b.In g k ∧ f.c.From g k ∧ f.c.m0 ^ 2 + f.c.m1 ^ 2 + f.c.m2 ^ 2 ≤ N := by
    intro f h
    obtain ⟨c, h1, h2, h3, h4, h5⟩ := setCoeffs_spec f.ty f.cutoff f.q f.gain l.sr (l.valid h.1)
    rw [h.2] at h1
    cases h1
    obtain ⟨h6, h7⟩ := hb f.ty f.cutoff f.q f.gain h.1
    exact ⟨_, _, h6, h2, by rw [h3, h4, h5]; exact h7⟩
  have key : ∀ (ops : List (SvOp ℝ)) (f : Svf ℝ) (L : ℝ), f.Tuned l → tilt b.eps f.s ≤ L → b.drive * |l.B| / (1 - b.rho) ≤ L →
      (∀ o ∈ ops, o.Within l) → ∃ f' out, svRun real l.sr f ops = some (f', out) ∧ f'.Tuned l ∧ out.length = frames ops ∧
        ∀ y ∈ out, y ^ 2 ≤ 3 * N * (|l.B| + (L + 4 * b.g1 * (1 + b.eps ^ 2) / b.eps * |l.B|) / (b.g0 * b.eps)) := by
    intro ops
    induction ops with
    | nil => exact fun f L h _ _ _ => ⟨f, [], rfl, h, rfl, fun y hy => by simp at hy⟩
    | cons o ops ih =>
      intro f L ht hL hD hops
      have ho := hops o List.mem_cons_self
      have hops' := fun o h => hops o (List.mem_cons_of_mem _ h)
      by_cases hne : ∀ x, o ≠ .sample x
      · obtain ⟨f1, h1, h2, h3, -⟩ := set_tuned l f ht o ho hne
        obtain ⟨f', out, h4, h5, h6⟩ := ih f1 L h2 (by rw [h3]; exact hL) hD hops'
        exact ⟨f', out, by rw [svRun_set _ _ _ _ _ hne h1, h4], h5, by rw [samples_set o ops hne]; exact h6⟩
      · have hx : ∃ x, o = .sample x := by
          by_contra hc
          exact hne fun x hx => hc ⟨x, hx⟩
        obtain ⟨x, rfl⟩ := hx
        obtain ⟨g, k, i1, i2, i3⟩ := tuned f ht
        have hxB : x ^ 2 ≤ |l.B| := le_trans ho (le_abs_self _)
        have h1 := tilt_falls b f.c i1 i2 f.s x
        have h2 := tilt_out b f.c i1 i2 f.s x i3
        have hstep : tilt b.eps (step f.c f.s x).1 ≤ L := by
          have e1 : b.rho * tilt b.eps f.s ≤ b.rho * L := mul_le_mul_of_nonneg_left hL hr0
          have e2 : b.drive * x ^ 2 ≤ b.drive * |l.B| := mul_le_mul_of_nonneg_left hxB hd
          have e3 : b.drive * |l.B| ≤ L * (1 - b.rho) := (div_le_iff₀ (by linarith)).1 hD
          linarith
        obtain ⟨f', out, h4, h5, h6, h7⟩ := ih { f with s := (step f.c f.s x).1 } L ht hstep hD hops'
        refine ⟨f', (step f.c f.s x).2 :: out, by simp [svRun, h4], h5, by simp [frames, h6], fun y hy => ?_⟩
        rcases List.mem_cons.1 hy with rfl | hy
        · refine le_trans h2 ?_
          gcongr
        · exact h7 y hy
  exact ⟨_, fun ops hops => key ops f _ hf (le_max_left _ (b.drive * |l.B| / (1 - b.rho))) (le_max_right _ _) hops⟩

/-- **C60, forgetting under modulation**: two filters with the same settings and different states, given the same input and the
same changes of the settings, approach each other at a rate that depends on the limits only. -/
theorem C60_forgets_modulated (l : Limits) (hf : l.f0 ≤ l.f1) (hq : l.q0 ≤ l.q1) (hd : l.d0 ≤ l.d1) :
    ∃ r : ℝ, 0 ≤ r ∧ r < 1 ∧ ∀ (f : Svf ℝ) (t : Ic ℝ) (ops : List (SvOp ℝ)), f.Tuned l → (∀ o ∈ ops, o.Within l) →
      ∃ f' out f'' out', svRun real l.sr f ops = some (f', out) ∧ svRun real l.sr { f with s := t } ops = some (f'', out') ∧
        energy (f'.s.sub f''.s) ≤ 4 * r ^ frames ops * energy (f.s.sub t) := by
  obtain ⟨b, N, hb⟩ := l.box hf hq hd
  obtain ⟨hr0, hr1⟩ := b.rho_range
  refine ⟨b.rho, hr0, hr1, ?_⟩
  have key : ∀ (ops : List (SvOp ℝ)) (f : Svf ℝ) (t : Ic ℝ), f.Tuned l → (∀ o ∈ ops, o.Within l) →
      ∃ f' out f'' out', svRun real l.sr f ops = some (f', out) ∧ svRun real l.sr { f with s := t } ops = some (f'', out') ∧
        tilt b.eps (f'.s.sub f''.s) ≤ b.rho ^ frames ops * tilt b.eps (f.s.sub t) := by
    intro ops
    induction ops with
    | nil => exact fun f t _ _ => ⟨f, [], { f with s := t }, [], rfl, rfl, by simp [frames]⟩
    | cons o ops ih =>
      intro f t ht hops
      have ho := hops o List.mem_cons_self
      have hops' := fun o h => hops o (List.mem_cons_of_mem _ h)
      by_cases hne : ∀ x, o ≠ .sample x
      · obtain ⟨f1, h1, h2, h3, h4⟩ := set_tuned l f ht o ho hne
        obtain ⟨f', out, f'', out', h5, h6, h7⟩ := ih f1 t h2 hops'
        refine ⟨f', out, f'', out', by rw [svRun_set _ _ _ _ _ hne h1, h5], ?_, ?_⟩
        · rw [svRun_set _ _ _ _ _ hne (h4 t), h6]
        · rw [samples_set o ops hne, ← h3]
          exact h7
      · have hx : ∃ x, o = .sample x := by
          by_contra hc
          exact hne fun x hx => hc ⟨x, hx⟩
        obtain ⟨x, rfl⟩ := hx
        obtain ⟨c, e1, e2, -⟩ := setCoeffs_spec f.ty f.cutoff f.q f.gain l.sr (l.valid ht.1)
        rw [ht.2] at e1
        cases e1
        obtain ⟨f', out, f'', out', h5, h6, h7⟩ :=
          ih { f with s := (step f.c f.s x).1 } (step f.c t x).1 ht hops'
        refine ⟨f', (step f.c f.s x).2 :: out, f'', (step f.c t x).2 :: out', by simp [svRun, h5], by simp [svRun, h6], ?_⟩
        refine le_trans h7 ?_
        have h8 := tilt_falls b f.c (hb f.ty f.cutoff f.q f.gain ht.1).1 e2 (f.s.sub t) 0
        have e := step_sub f.c f.s t x x
        rw [sub_self] at e
        rw [e] at h8
        have h9 : tilt b.eps ((step f.c f.s x).1.sub (step f.c t x).1) ≤ b.rho * tilt b.eps (f.s.sub t) := by
          simp only at h8
          linarith
        rw [frames, pow_succ, mul_assoc]
        exact mul_le_mul_of_nonneg_left h9 (pow_nonneg hr0 _)
  intro f t ops ht hops
  obtain ⟨f', out, f'', out', h5, h6, h7⟩ := key ops f t ht hops
  refine ⟨f', out, f'', out', h5, h6, ?_⟩
  have t1 := (tilt_energy b (f'.s.sub f''.s)).1
  have t2 := (tilt_energy b (f.s.sub t)).2
  have t3 : b.rho ^ frames ops * tilt b.eps (f.s.sub t) ≤ b.rho ^ frames ops * (2 * energy (f.s.sub t)) :=
    mul_le_mul_of_nonneg_left t2 (pow_nonneg hr0 _)
  linarith

/-- The hypotheses are met: limits for a synthesiser voice, and a filter made with settings inside of them. -/
example : ∃ (l : Limits) (f : Svf ℝ), l.sr = 48000 ∧ l.f1 = 20000 ∧ (Svf.new .bell 1000 2 6).calc real l.sr = some f ∧ f.Tuned l ∧
    (∀ o ∈ [SvOp.sample 1, .cutoff 15000, .sample (-1), .filter .low, .q (1 / 2), .sample (1 / 2)], o.Within l) := by
  let l : Limits := ⟨48000, 20, 20000, 1 / 2, 20, -24, 24, 1, by norm_num, by norm_num, by norm_num, by norm_num⟩
  obtain ⟨f, h1, h2, -⟩ := calc_tuned l (Svf.new .bell 1000 2 6) (by
    simp only [Limits.In, Svf.new, l]
    norm_num)
  refine ⟨l, f, rfl, rfl, h1, h2, ?_⟩
  simp only [List.mem_cons, List.not_mem_nil, or_false, forall_eq_or_imp, forall_eq, SvOp.Within, l]
  norm_num

end Verif.Fi
