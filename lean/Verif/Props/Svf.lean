import Verif.Props.OnePole

/-!
# C60: the state variable filter is stable
-/

namespace Verif.Fi

/-! ## What a step is -/

/-- The coefficients made from `g` and `k`. -/
def Coef.From (c : Coef ℝ) (g k : ℝ) : Prop :=
  1 + g * (g + k) ≠ 0 ∧ c.a1 = 1 / (1 + g * (g + k)) ∧ c.a2 = g * c.a1 ∧ c.a3 = g * (g * c.a1)

/-- The two integrator outputs in a step. -/
noncomputable def v1 (g k : ℝ) (s : Ic ℝ) (v0 : ℝ) : ℝ := (s.s1 + g * (v0 - s.s2)) / (1 + g * (g + k))
/-- The second one. -/
noncomputable def v2 (g k : ℝ) (s : Ic ℝ) (v0 : ℝ) : ℝ := s.s2 + g * v1 g k s v0

/-- A step of the filter in terms of `g` and `k`. -/
theorem step_eq (c : Coef ℝ) (g k : ℝ) (h : c.From g k) (s : Ic ℝ) (v0 : ℝ) :
    step c s v0 = (⟨2 * v1 g k s v0 - s.s1, 2 * v2 g k s v0 - s.s2⟩, c.m0 * v0 + c.m1 * v1 g k s v0 + c.m2 * v2 g k s v0) := by
  obtain ⟨h0, h1, h2, h3⟩ := h
  have e1 : c.a1 * s.s1 + c.a2 * (v0 - s.s2) = v1 g k s v0 := by
    rw [v1, h2, h1]; field_simp
  have e2 : s.s2 + c.a2 * s.s1 + c.a3 * (v0 - s.s2) = v2 g k s v0 := by
    rw [v2, ← e1, h2, h3]; ring
  simp only [step, e1, e2]

/-- The old state in terms of the integrator outputs. -/
theorem old_s1 (g k : ℝ) (h : 1 + g * (g + k) ≠ 0) (s : Ic ℝ) (v0 : ℝ) :
    s.s1 = v1 g k s v0 + g * (k * v1 g k s v0 + v2 g k s v0 - v0) := by
  have : (1 + g * (g + k)) * v1 g k s v0 = s.s1 + g * (v0 - s.s2) := by
    rw [v1]; field_simp
  rw [v2]
  linarith

theorem old_s2 (g k : ℝ) (s : Ic ℝ) (v0 : ℝ) : s.s2 = v2 g k s v0 - g * v1 g k s v0 := by
  rw [v2]; ring

/-! ## Energy -/

/-- The energy in the two integrators. -/
def energy (s : Ic ℝ) : ℝ := s.s1 ^ 2 + s.s2 ^ 2

/-- The exact energy balance of a step. -/
theorem energy_step (c : Coef ℝ) (g k : ℝ) (h : c.From g k) (s : Ic ℝ) (v0 : ℝ) :
    energy (step c s v0).1 = energy s - 4 * g * k * v1 g k s v0 ^ 2 + 4 * g * v1 g k s v0 * v0 := by
  rw [step_eq c g k h]
  have h1 := old_s1 g k h.1 s v0
  have h2 := old_s2 g k s v0
  simp only [energy]
  generalize v1 g k s v0 = a at *
  generalize v2 g k s v0 = b at *
  rw [h1, h2]
  ring

/-! ## The coefficients of all filter types -/

/-- The amplitude for a gain in dB. -/
noncomputable def amp (gain : ℝ) : ℝ := (10 : ℝ) ^ (gain / 40)

theorem amp_pos (gain : ℝ) : 0 < amp gain := Real.rpow_pos_of_pos (by norm_num) _

/-- Specification: `g` of a filter. -/
noncomputable def gOf (ty : Ty) (cutoff gain sr : ℝ) : ℝ :=
  match ty with
  | .bell | .lowShelf => Real.tan (Real.pi * cutoff / sr) / Real.sqrt (amp gain)
  | .highShelf => Real.tan (Real.pi * cutoff / sr) * Real.sqrt (amp gain)
  | _ => Real.tan (Real.pi * cutoff / sr)

/-- Specification: the damping of a filter. -/
noncomputable def kOf (ty : Ty) (q gain : ℝ) : ℝ :=
  match ty with
  | .bell => 1 / (q * amp gain)
  | _ => 1 / q

/-- Valid settings: a frequency between zero and half of the sample rate, a positive resonance. -/
structure Valid (cutoff q sr : ℝ) : Prop where
  hsr : 0 < sr
  hcut : 0 < cutoff
  nyquist : cutoff < sr / 2
  hq : 0 < q

theorem tan_pos (cutoff q sr : ℝ) (h : Valid cutoff q sr) : 0 < Real.tan (Real.pi * cutoff / sr) := by
  apply Real.tan_pos_of_pos_of_lt_pi_div_two
  · exact div_pos (mul_pos Real.pi_pos h.hcut) h.hsr
  · rw [div_lt_iff₀ h.hsr]
    have := mul_lt_mul_of_pos_left h.nyquist Real.pi_pos
    linarith

theorem gOf_pos (ty : Ty) (cutoff q gain sr : ℝ) (h : Valid cutoff q sr) : 0 < gOf ty cutoff gain sr := by
  have h1 := tan_pos cutoff q sr h
  have h2 := Real.sqrt_pos.2 (amp_pos gain)
  cases ty <;> simp only [gOf] <;> positivity

theorem kOf_pos (ty : Ty) (cutoff q gain sr : ℝ) (h : Valid cutoff q sr) : 0 < kOf ty q gain := by
  have h1 := amp_pos gain
  have h2 := h.hq
  cases ty <;> simp only [kOf] <;> positivity

theorem from_ne {g k : ℝ} (hg : 0 < g) (hk : 0 < k) : 1 + g * (g + k) ≠ 0 := by positivity

theorem coef_eq {g k : ℝ} (hg : 0 < g) (hk : 0 < k) (m0 m1 m2 : ℝ) :
    ∃ c, coef g k m0 m1 m2 = some c ∧ c.From g k ∧ c.m0 = m0 ∧ c.m1 = m1 ∧ c.m2 = m2 := by
  have h := from_ne hg hk
  exact ⟨⟨1 / (1 + g * (g + k)), g * (1 / (1 + g * (g + k))), g * (g * (1 / (1 + g * (g + k)))), m0, m1, m2⟩,
    by simp only [coef, divO_pos h, Option.bind_eq_bind, Option.bind_some, Option.pure_def], ⟨h, rfl, rfl, rfl⟩, rfl, rfl, rfl⟩

/-- Specification: the mix of the input and the two integrators. -/
noncomputable def mixOf (ty : Ty) (q gain : ℝ) : ℝ × ℝ × ℝ :=
  let k := kOf ty q gain
  let a := amp gain
  match ty with
  | .low => (0, 0, 1)
  | .band => (0, 1, 0)
  | .high => (1, -k, -1)
  | .notch => (1, -k, 0)
  | .peak => (1, -k, -2)
  | .all => (1, -2 * k, 0)
  | .bell => (1, k * (a * a - 1), 0)
  | .lowShelf => (1, k * (a - 1), a * a - 1)
  | .highShelf => (a * a, k * (1 - a) * a, 1 - a * a)

/-- Valid settings give coefficients. -/
theorem setCoeffs_spec (ty : Ty) (cutoff q gain sr : ℝ) (h : Valid cutoff q sr) :
    ∃ c, setCoeffs real ty cutoff q gain sr = some c ∧ c.From (gOf ty cutoff gain sr) (kOf ty q gain) ∧
      c.m0 = (mixOf ty q gain).1 ∧ c.m1 = (mixOf ty q gain).2.1 ∧ c.m2 = (mixOf ty q gain).2.2 := by
  have hg := gOf_pos ty cutoff q gain sr h
  have hk := kOf_pos ty cutoff q gain sr h
  have hs : (amp gain).sqrt ≠ 0 := ne_of_gt (Real.sqrt_pos.2 (amp_pos gain))
  have hq : q ≠ 0 := ne_of_gt h.hq
  have hqa : q * amp gain ≠ 0 := ne_of_gt (mul_pos h.hq (amp_pos gain))
  obtain ⟨c, h1, h2, h3⟩ := coef_eq hg hk (mixOf ty q gain).1 (mixOf ty q gain).2.1 (mixOf ty q gain).2.2
  refine ⟨c, ?_, h2, h3⟩
  rw [← h1]
  have e1 : real.pow10 (gain / 40) = amp gain := rfl
  have e2 : real.sqrt (amp gain) = Real.sqrt (amp gain) := rfl
  have e3 : real.tan (real.pi * cutoff / sr) = Real.tan (Real.pi * cutoff / sr) := rfl
  cases ty <;>
    simp only [setCoeffs, divO_pos (ne_of_gt h.hsr), Option.bind_eq_bind, Option.bind_some, e1, e2, e3, divO_pos hs, divO_pos hq,
      divO_pos hqa, gOf, kOf, mixOf]

/-! ## C60 -/

/-- The settings stay valid; the samples are silent. -/
def SvOp.Silent (sr : ℝ) : SvOp ℝ → Prop
  | .cutoff x => 0 < x ∧ x < sr / 2
  | .q x => 0 < x
  | .sample x => x = 0
  | _ => True

/-- A filter with valid settings and the coefficients for them. -/
def Svf.Good (sr : ℝ) (f : Svf ℝ) : Prop :=
  Valid f.cutoff f.q sr ∧ ∃ g k, 0 < g ∧ 0 < k ∧ f.c.From g k

theorem calc_good (sr : ℝ) (f : Svf ℝ) (h : Valid f.cutoff f.q sr) :
    ∃ f', f.calc real sr = some f' ∧ f'.Good sr ∧ f'.s = f.s := by
  obtain ⟨c, h1, h2, -⟩ := setCoeffs_spec f.ty f.cutoff f.q f.gain sr h
  exact ⟨{ f with c }, by simp [Svf.calc, h1], ⟨h, _, _, gOf_pos _ _ _ _ _ h, kOf_pos _ _ _ _ _ h, h2⟩, rfl⟩

/-- **C60, modulation**: with silence at the input the energy in the filter never grows, whatever valid values the frequency,
resonance, gain and type of the filter are changed to, and however often.  No output is ever not a number. -/
theorem C60_modulation (sr : ℝ) (ops : List (SvOp ℝ)) (hops : ∀ o ∈ ops, o.Silent sr) (f : Svf ℝ) (hf : f.Good sr) :
    ∃ f' out, svRun real sr f ops = some (f', out) ∧ f'.Good sr ∧ energy f'.s ≤ energy f.s := by
  induction ops generalizing f with
  | nil => exact ⟨f, [], rfl, hf, le_refl _⟩
  | cons o ops ih =>
    have ho := hops o List.mem_cons_self
    have hops' := fun o h => hops o (List.mem_cons_of_mem _ h)
    have go : ∀ f1 : Svf ℝ, Valid f1.cutoff f1.q sr → f1.s = f.s → f.set real sr o = f1.calc real sr →
        (∀ x, o ≠ .sample x) → ∃ f' out, svRun real sr f (o :: ops) = some (f', out) ∧ f'.Good sr ∧ energy f'.s ≤ energy f.s := by
      intro f1 hv hs he hne
      obtain ⟨f2, h1, h2, h3⟩ := calc_good sr f1 hv
      obtain ⟨f', out, h4, h5, h6⟩ := ih hops' f2 h2
      refine ⟨f', out, ?_, h5, by rw [h3, hs] at h6; exact h6⟩
      have h7 : svRun real sr f (o :: ops) = (do
          let f ← f.set real sr o
          svRun real sr f ops) := by
        cases o <;> first | rfl | exact absurd rfl (hne _)
      rw [h7, he, h1]
      exact h4
    have hv := hf.1
    cases o with
    | cutoff x => exact go { f with cutoff := x } ⟨hv.hsr, ho.1, ho.2, hv.hq⟩ rfl rfl (fun x h => by cases h)
    | q x => exact go { f with q := x } ⟨hv.hsr, hv.hcut, hv.nyquist, ho⟩ rfl rfl (fun x h => by cases h)
    | gain x => exact go { f with gain := x } hv rfl rfl (fun x h => by cases h)
    | filter ty => exact go { f with ty } hv rfl rfl (fun x h => by cases h)
    | calculate => exact go f hv rfl rfl (fun x h => by cases h)
    | sample x =>
      obtain ⟨g, k, hg, hk, hc⟩ := hf.2
      obtain ⟨f', out, h4, h5, h6⟩ := ih hops' { f with s := (step f.c f.s x).1 } ⟨hv, g, k, hg, hk, hc⟩
      refine ⟨f', (step f.c f.s x).2 :: out, by simp [svRun, h4], h5, le_trans h6 ?_⟩
      show energy (step f.c f.s x).1 ≤ _
      have hx : x = 0 := ho
      rw [energy_step f.c g k hc, hx]
      have : 0 ≤ 4 * g * k * v1 g k f.s 0 ^ 2 := by positivity
      linarith

/-- A filter that has been initialised with valid settings is good. -/
theorem C60_init (ty : Ty) (cutoff q gain sr : ℝ) (h : Valid cutoff q sr) :
    ∃ f, (Svf.new ty cutoff q gain).calc real sr = some f ∧ f.Good sr :=
  have ⟨f, h1, h2, _⟩ := calc_good sr (Svf.new ty cutoff q gain) h
  ⟨f, h1, h2⟩

example : Valid 1000 (1/2) 48000 := ⟨by norm_num, by norm_num, by norm_num, by norm_num⟩

/-- A run with fixed coefficients: the outputs. -/
noncomputable def outs (c : Coef ℝ) : Ic ℝ → List ℝ → List ℝ
  | _, [] => []
  | s, x :: xs => (step c s x).2 :: outs c (step c s x).1 xs

/-- A measure of the state that falls. -/
def lyap (k : ℝ) (s : Ic ℝ) : ℝ := s.s1 ^ 2 + (s.s1 + k * s.s2) ^ 2 + 2 * s.s2 ^ 2

theorem lyap_step (c : Coef ℝ) (g k : ℝ) (h : c.From g k) (s : Ic ℝ) (v0 : ℝ) :
    lyap k (step c s v0).1 = lyap k s - 4 * g * k * (v1 g k s v0 ^ 2 + v2 g k s v0 ^ 2)
      + 4 * g * v0 * (2 * v1 g k s v0 + k * v2 g k s v0) := by
  rw [step_eq c g k h]
  have h1 := old_s1 g k h.1 s v0
  have h2 := old_s2 g k s v0
  simp only [lyap]
  generalize v1 g k s v0 = a at *
  generalize v2 g k s v0 = b at *
  rw [h1, h2]
  ring

/-- How much of the measure the integrator outputs account for. -/
def span (g k : ℝ) : ℝ := 9 * ((1 + g * k) ^ 2 + g ^ 2) + 2 * (2 + 2 * k ^ 2) * (1 + g ^ 2)

theorem lyap_le (g k : ℝ) (h : 1 + g * (g + k) ≠ 0) (s : Ic ℝ) (v0 : ℝ) :
    lyap k s ≤ span g k * (v1 g k s v0 ^ 2 + v2 g k s v0 ^ 2) + 9 * g ^ 2 * v0 ^ 2 := by
  have h1 := old_s1 g k h s v0
  have h2 := old_s2 g k s v0
  generalize v1 g k s v0 = a at *
  generalize v2 g k s v0 = b at *
  have e : lyap k s ≤ 3 * s.s1 ^ 2 + (2 + 2 * k ^ 2) * s.s2 ^ 2 := by
    simp only [lyap]
    nlinarith [sq_nonneg (s.s1 - k * s.s2)]
  have e1 : s.s1 ^ 2 ≤ 3 * ((1 + g * k) ^ 2 * a ^ 2 + g ^ 2 * b ^ 2 + g ^ 2 * v0 ^ 2) := by
    have : s.s1 = (1 + g * k) * a + g * b - g * v0 := by rw [h1]; ring
    rw [this]
    nlinarith [sq_nonneg ((1 + g * k) * a - g * b), sq_nonneg ((1 + g * k) * a + g * v0), sq_nonneg (g * b + g * v0)]
  have e2 : s.s2 ^ 2 ≤ 2 * (b ^ 2 + g ^ 2 * a ^ 2) := by
    rw [h2]
    nlinarith [sq_nonneg (b + g * a)]
  have e3 : (2 + 2 * k ^ 2) * s.s2 ^ 2 ≤ (2 + 2 * k ^ 2) * (2 * (b ^ 2 + g ^ 2 * a ^ 2)) :=
    mul_le_mul_of_nonneg_left e2 (by positivity)
  have e4 : 0 ≤ (1 + g * k) ^ 2 * b ^ 2 := by positivity
  have e5 : 0 ≤ g ^ 2 * a ^ 2 := by positivity
  have e6 : 0 ≤ (2 + 2 * k ^ 2) * a ^ 2 := by positivity
  have e7 : 0 ≤ (2 + 2 * k ^ 2) * (g ^ 2 * b ^ 2) := by positivity
  simp only [span]
  nlinarith

/-- The factor by which the measure falls. -/
noncomputable def rho (g k : ℝ) : ℝ := 1 - 2 * g * k / span g k

/-- How much the input adds. -/
noncomputable def drive (g k : ℝ) : ℝ := 8 * g / k + 2 * g * k + 18 * g ^ 3 * k / span g k

theorem span_pos (g k : ℝ) : 0 < span g k := by
  simp only [span]; positivity

theorem rho_range (g k : ℝ) (hg : 0 < g) (hk : 0 < k) : 0 ≤ rho g k ∧ rho g k < 1 := by
  have hs := span_pos g k
  constructor
  · have : 2 * g * k / span g k ≤ 1 := by
      rw [div_le_one hs]
      simp only [span]
      have : 0 < g * k := mul_pos hg hk
      nlinarith [sq_nonneg (g * k), sq_nonneg g, sq_nonneg k, sq_nonneg (k * g)]
    simp only [rho]; linarith
  · have : 0 < 2 * g * k / span g k := by positivity
    simp only [rho]; linarith

/-- The measure falls by a fixed factor, up to what the input adds. -/
theorem lyap_falls (c : Coef ℝ) (g k : ℝ) (hg : 0 < g) (hk : 0 < k) (h : c.From g k) (s : Ic ℝ) (v0 : ℝ) :
    lyap k (step c s v0).1 ≤ rho g k * lyap k s + drive g k * v0 ^ 2 := by
  have h1 := lyap_step c g k h s v0
  have h2 := lyap_le g k h.1 s v0
  have hs := span_pos g k
  generalize v1 g k s v0 = a at *
  generalize v2 g k s v0 = b at *
  have e1 : 4 * g * v0 * (2 * a + k * b) ≤ 2 * g * k * (a ^ 2 + b ^ 2) + (8 * g / k + 2 * g * k) * v0 ^ 2 := by
    have h3 : 8 * g * v0 * a ≤ 2 * g * k * a ^ 2 + 8 * g / k * v0 ^ 2 := by
      have : 2 * g * k * a ^ 2 + 8 * g / k * v0 ^ 2 - 8 * g * v0 * a = 2 * g / k * (k * a - 2 * v0) ^ 2 := by
        field_simp; ring
      have h4 : 0 ≤ 2 * g / k * (k * a - 2 * v0) ^ 2 := by positivity
      linarith
    have h5 : 4 * g * k * v0 * b ≤ 2 * g * k * b ^ 2 + 2 * g * k * v0 ^ 2 := by
      have : 0 ≤ 2 * (g * k) * (b - v0) ^ 2 := by positivity
      nlinarith
    nlinarith
  have e2 : 2 * g * k / span g k * lyap k s ≤ 2 * g * k * (a ^ 2 + b ^ 2) + 18 * g ^ 3 * k / span g k * v0 ^ 2 := by
    have h3 : 2 * g * k / span g k * lyap k s ≤ 2 * g * k / span g k * (span g k * (a ^ 2 + b ^ 2) + 9 * g ^ 2 * v0 ^ 2) :=
      mul_le_mul_of_nonneg_left h2 (by positivity)
    have h4 : 2 * g * k / span g k * (span g k * (a ^ 2 + b ^ 2) + 9 * g ^ 2 * v0 ^ 2)
        = 2 * g * k * (a ^ 2 + b ^ 2) + 18 * g ^ 3 * k / span g k * v0 ^ 2 := by
      field_simp; ring
    linarith
  rw [h1]
  simp only [rho, drive]
  nlinarith

/-- What the output is at most. -/
theorem out_le (c : Coef ℝ) (g k : ℝ) (hg : 0 < g) (hk : 0 < k) (h : c.From g k) (s : Ic ℝ) (v0 : ℝ) :
    (step c s v0).2 ^ 2 ≤ 3 * (c.m0 ^ 2 + c.m1 ^ 2 + c.m2 ^ 2) *
      (v0 ^ 2 + (lyap k s + (8 * g / k + 2 * g * k) * v0 ^ 2) / (2 * g * k)) := by
  have h1 := lyap_step c g k h s v0
  rw [step_eq c g k h] at h1 ⊢
  have hl : 0 ≤ lyap k ⟨2 * v1 g k s v0 - s.s1, 2 * v2 g k s v0 - s.s2⟩ := by simp only [lyap]; positivity
  simp only at h1 hl
  rw [h1] at hl
  show (c.m0 * v0 + c.m1 * v1 g k s v0 + c.m2 * v2 g k s v0) ^ 2 ≤ _
  generalize v1 g k s v0 = a at *
  generalize v2 g k s v0 = b at *
  have e1 : 4 * g * v0 * (2 * a + k * b) ≤ 2 * g * k * (a ^ 2 + b ^ 2) + (8 * g / k + 2 * g * k) * v0 ^ 2 := by
    have h3 : 8 * g * v0 * a ≤ 2 * g * k * a ^ 2 + 8 * g / k * v0 ^ 2 := by
      have : 2 * g * k * a ^ 2 + 8 * g / k * v0 ^ 2 - 8 * g * v0 * a = 2 * g / k * (k * a - 2 * v0) ^ 2 := by
        field_simp; ring
      have h4 : 0 ≤ 2 * g / k * (k * a - 2 * v0) ^ 2 := by positivity
      linarith
    have h5 : 4 * g * k * v0 * b ≤ 2 * g * k * b ^ 2 + 2 * g * k * v0 ^ 2 := by
      have : 0 ≤ 2 * (g * k) * (b - v0) ^ 2 := by positivity
      nlinarith
    nlinarith
  have e2 : a ^ 2 + b ^ 2 ≤ (lyap k s + (8 * g / k + 2 * g * k) * v0 ^ 2) / (2 * g * k) := by
    rw [le_div_iff₀ (by positivity)]
    nlinarith
  have e3 : (c.m0 * v0 + c.m1 * a + c.m2 * b) ^ 2 ≤ 3 * (c.m0 ^ 2 + c.m1 ^ 2 + c.m2 ^ 2) * (v0 ^ 2 + (a ^ 2 + b ^ 2)) := by
    have p1 : 0 ≤ (c.m0 * v0 - c.m1 * a) ^ 2 := sq_nonneg _
    have p2 : 0 ≤ (c.m0 * v0 - c.m2 * b) ^ 2 := sq_nonneg _
    have p3 : 0 ≤ (c.m1 * a - c.m2 * b) ^ 2 := sq_nonneg _
    have q1 : 0 ≤ c.m0 ^ 2 * a ^ 2 := by positivity
    have q2 : 0 ≤ c.m0 ^ 2 * b ^ 2 := by positivity
    have q3 : 0 ≤ c.m1 ^ 2 * v0 ^ 2 := by positivity
    have q4 : 0 ≤ c.m1 ^ 2 * b ^ 2 := by positivity
    have q5 : 0 ≤ c.m2 ^ 2 * v0 ^ 2 := by positivity
    have q6 : 0 ≤ c.m2 ^ 2 * a ^ 2 := by positivity
    nlinarith
  refine le_trans e3 ?_
  apply mul_le_mul_of_nonneg_left _ (by positivity)
  linarith

/-- **C60, bounded**: with fixed valid settings, bounded inputs give bounded outputs, for ever. -/
theorem C60_bounded (c : Coef ℝ) (g k : ℝ) (hg : 0 < g) (hk : 0 < k) (h : c.From g k) (s : Ic ℝ) (B : ℝ) :
    ∃ M : ℝ, ∀ xs : List ℝ, (∀ x ∈ xs, x ^ 2 ≤ B) → ∀ y ∈ outs c s xs, y ^ 2 ≤ M := by
  obtain ⟨hr0, hr1⟩ := rho_range g k hg hk
  have hd : 0 ≤ drive g k := by
    have := span_pos g k
    simp only [drive]; positivity
  have hl0 : ∀ s, 0 ≤ lyap k s := fun s => by simp only [lyap]; positivity
  refine ⟨3 * (c.m0 ^ 2 + c.m1 ^ 2 + c.m2 ^ 2) *
      (|B| + (max (lyap k s) (drive g k * |B| / (1 - rho g k)) + (8 * g / k + 2 * g * k) * |B|) / (2 * g * k)), ?_⟩
  have key : ∀ (xs : List ℝ) (s : Ic ℝ) (L : ℝ), lyap k s ≤ L → drive g k * |B| / (1 - rho g k) ≤ L →
      (∀ x ∈ xs, x ^ 2 ≤ B) → ∀ y ∈ outs c s xs, y ^ 2 ≤ 3 * (c.m0 ^ 2 + c.m1 ^ 2 + c.m2 ^ 2) *
        (|B| + (L + (8 * g / k + 2 * g * k) * |B|) / (2 * g * k)) := by
    intro xs
    induction xs with
    | nil => intro s L _ _ _ y hy; simp [outs] at hy
    | cons x xs ih =>
      intro s L hL hD hxs y hy
      have hx : x ^ 2 ≤ |B| := le_trans (hxs x List.mem_cons_self) (le_abs_self B)
      rcases List.mem_cons.1 hy with rfl | hy
      · refine le_trans (out_le c g k hg hk h s x) ?_
        apply mul_le_mul_of_nonneg_left _ (by positivity)
        have e1 : (8 * g / k + 2 * g * k) * x ^ 2 ≤ (8 * g / k + 2 * g * k) * |B| :=
          mul_le_mul_of_nonneg_left hx (by positivity)
        have e2 : (lyap k s + (8 * g / k + 2 * g * k) * x ^ 2) / (2 * g * k)
            ≤ (L + (8 * g / k + 2 * g * k) * |B|) / (2 * g * k) := by
          apply div_le_div_of_nonneg_right _ (by positivity)
          linarith
        linarith
      · refine ih _ L ?_ hD (fun x h => hxs x (List.mem_cons_of_mem _ h)) y hy
        refine le_trans (lyap_falls c g k hg hk h s x) ?_
        have e1 : rho g k * lyap k s ≤ rho g k * L := mul_le_mul_of_nonneg_left hL hr0
        have e2 : drive g k * x ^ 2 ≤ drive g k * |B| := mul_le_mul_of_nonneg_left hx hd
        have e3 : drive g k * |B| ≤ L * (1 - rho g k) := (div_le_iff₀ (by linarith)).1 hD
        linarith
  exact fun xs hxs y hy => key xs s _ (le_max_left _ _) (le_max_right _ _) hxs y hy

/-- The difference of two states. -/
def Ic.sub (s t : Ic ℝ) : Ic ℝ := ⟨s.s1 - t.s1, s.s2 - t.s2⟩

theorem step_sub (c : Coef ℝ) (s t : Ic ℝ) (x y : ℝ) :
    step c (s.sub t) (x - y) = ((step c s x).1.sub (step c t y).1, (step c s x).2 - (step c t y).2) := by
  simp only [step, Ic.sub, Prod.mk.injEq, Ic.mk.injEq]
  refine ⟨⟨by ring, by ring⟩, by ring⟩

/-- How large the output gets from a state without input. -/
noncomputable def outGain (c : Coef ℝ) (g k : ℝ) : ℝ := 3 * (c.m0 ^ 2 + c.m1 ^ 2 + c.m2 ^ 2) / (2 * g * k)

/-- **C60, forgetting**: with fixed valid settings the filter forgets the state it started from: the outputs of two runs with
the same inputs approach each other at a fixed rate. -/
theorem C60_forgets (c : Coef ℝ) (g k : ℝ) (hg : 0 < g) (hk : 0 < k) (h : c.From g k) (xs : List ℝ) (s t : Ic ℝ) (n : Nat)
    (hn : n < xs.length) : ∃ y z, (outs c s xs)[n]? = some y ∧ (outs c t xs)[n]? = some z ∧
      (y - z) ^ 2 ≤ outGain c g k * lyap k (s.sub t) * rho g k ^ n := by
  obtain ⟨hr0, hr1⟩ := rho_range g k hg hk
  induction xs generalizing s t n with
  | nil => simp at hn
  | cons x xs ih =>
    have e := step_sub c s t x x
    rw [sub_self] at e
    cases n with
    | zero =>
      refine ⟨_, _, rfl, rfl, ?_⟩
      have h1 := out_le c g k hg hk h (s.sub t) 0
      rw [e] at h1
      simp only [outGain, pow_zero, mul_one]
      calc _ ≤ _ := h1
        _ = _ := by ring
    | succ n =>
      obtain ⟨y, z, h1, h2, h3⟩ := ih (step c s x).1 (step c t x).1 n (by simpa using hn)
      refine ⟨y, z, h1, h2, le_trans h3 ?_⟩
      have h4 := lyap_falls c g k hg hk h (s.sub t) 0
      rw [e] at h4
      have h5 : lyap k ((step c s x).1.sub (step c t x).1) ≤ rho g k * lyap k (s.sub t) := by
        simp only at h4; linarith
      have h6 : 0 ≤ outGain c g k := by simp only [outGain]; positivity
      calc outGain c g k * lyap k ((step c s x).1.sub (step c t x).1) * rho g k ^ n
          ≤ outGain c g k * (rho g k * lyap k (s.sub t)) * rho g k ^ n := by gcongr
        _ = _ := by ring

/-! ## Settings outside of the valid range -/

/-- The settings of the witness: three quarters of the sample rate. -/
theorem tan_above : Real.tan (Real.pi * 36000 / 48000) = -1 := by
  have : Real.pi * 36000 / 48000 = Real.pi - Real.pi / 4 := by ring
  rw [this, Real.tan_pi_sub, Real.tan_pi_div_four]

theorem above_coef : setCoeffs real .low 36000 1 0 48000 = some ⟨1, -1, 1, 0, 0, 1⟩ := by
  have e3 : real.tan (real.pi * 36000 / 48000) = -1 := tan_above
  have e : divO (real.pi * 36000) (48000 : ℝ) = some (real.pi * 36000 / 48000) := divO_pos (by norm_num)
  simp only [setCoeffs, e, Option.bind_eq_bind, Option.bind_some, e3, divO_pos (one_ne_zero : (1 : ℝ) ≠ 0), coef]
  have : divO (1 : ℝ) (1 + -1 * (-1 + 1 / 1)) = some 1 := by
    rw [divO_pos (by norm_num)]; norm_num
  simp only [this, Option.bind_some, Option.pure_def, Option.some.injEq, Coef.mk.injEq]
  norm_num

/-- **C60, violated**: a frequency above half of the sample rate (which nothing refuses) makes the filter unstable: after a
single impulse and silence the output exceeds every bound. -/
theorem C60_above_violated (B : ℝ) :
    ∃ c, setCoeffs real .low 36000 1 0 48000 = some c ∧
      ∃ n, ∃ y ∈ outs c ⟨0, 0⟩ (1 :: List.replicate (2 * n + 1) 0), B < y ^ 2 := by
  refine ⟨_, above_coef, ?_⟩
  have key : ∀ (n : Nat) (a b : ℝ), ∃ y ∈ outs ⟨1, -1, 1, 0, 0, 1⟩ ⟨a, b⟩ (List.replicate (2 * n + 1) 0),
      y = -((-3) ^ n * a) := by
    intro n
    induction n with
    | zero =>
      intro a b
      refine ⟨-a, ?_, by ring⟩
      simp only [outs, List.replicate, step, List.mem_singleton]
      ring
    | succ n ih =>
      intro a b
      obtain ⟨y, hy, e⟩ := ih (-3 * a) (-3 * b)
      refine ⟨y, ?_, by rw [e]; ring⟩
      have : 2 * (n + 1) + 1 = 2 * n + 1 + 1 + 1 := by ring
      rw [this, List.replicate_succ, List.replicate_succ, outs, outs]
      apply List.mem_cons_of_mem
      apply List.mem_cons_of_mem
      have e : (step (⟨1, -1, 1, 0, 0, 1⟩ : Coef ℝ) (step ⟨1, -1, 1, 0, 0, 1⟩ ⟨a, b⟩ 0).1 0).1 = ⟨-3 * a, -3 * b⟩ := by
        simp only [step, Ic.mk.injEq]
        constructor <;> ring
      rw [e]
      exact hy
  obtain ⟨n, hn⟩ := pow_unbounded_of_one_lt B (show (1 : ℝ) < 9 by norm_num)
  obtain ⟨y, hy, e⟩ := key n (-2) 2
  refine ⟨n, y, ?_, ?_⟩
  · rw [outs]
    apply List.mem_cons_of_mem
    have : (step (⟨1, -1, 1, 0, 0, 1⟩ : Coef ℝ) ⟨0, 0⟩ 1).1 = ⟨-2, 2⟩ := by
      simp only [step, Ic.mk.injEq]
      constructor <;> ring
    rw [this]
    exact hy
  · have : y ^ 2 = 4 * 9 ^ n := by
      rw [e]
      have : ((-3 : ℝ) ^ n) ^ 2 = 9 ^ n := by rw [← pow_mul, mul_comm, pow_mul]; norm_num
      calc _ = 4 * ((-3 : ℝ) ^ n) ^ 2 := by ring
        _ = _ := by rw [this]
    have : (0 : ℝ) < 9 ^ n := by positivity
    linarith

/-- **C60, violated**: some settings give coefficients that are not finite: a resonance of zero, and a frequency above half
of the sample rate with the wrong resonance. -/
theorem C60_not_finite_violated : (setCoeffs real .low 1000 0 0 48000).isNone ∧
    (setCoeffs real .low 36000 (1/2) 0 48000).isNone := by
  constructor
  · have e : divO (real.pi * 1000) (48000 : ℝ) = some (real.pi * 1000 / 48000) := divO_pos (by norm_num)
    have : divO (1 : ℝ) 0 = none := by simp [divO]
    simp [setCoeffs, e, this]
  · have e3 : real.tan (real.pi * 36000 / 48000) = -1 := tan_above
    have e : divO (real.pi * 36000) (48000 : ℝ) = some (real.pi * 36000 / 48000) := divO_pos (by norm_num)
    have : divO (1 : ℝ) (1 / 2) = some 2 := by rw [divO_pos (by norm_num)]; norm_num
    have : divO (1 : ℝ) (1 + -1 * (-1 + 2)) = none := by simp [divO]; norm_num
    simp only [setCoeffs, e, Option.bind_eq_bind, Option.bind_some, e3, ‹divO (1 : ℝ) (1 / 2) = some 2›, coef, this]
    rfl

end Verif.Fi
