import Verif.Lemmas.FloatSvf

/-!
# C90: the state variable filter in floating point
-/

namespace Verif.Fl

open Verif.Fi (Fns divO Ty Coef Ic Svf SvOp Box energy tilt step)

/-! ### Specification -/

/-- Limits for the settings. -/
structure Ranges where
  f0 : ℚ
  f1 : ℚ
  q0 : ℚ
  q1 : ℚ
  d0 : ℚ
  d1 : ℚ

/-- What a filter is set to. -/
structure Setup where
  ty : Ty
  cutoff : ℚ
  q : ℚ
  gain : ℚ

/-- The settings are within the limits. -/
def Ranges.In (r : Ranges) (f : Setup) : Prop :=
  r.f0 ≤ f.cutoff ∧ f.cutoff ≤ r.f1 ∧ r.q0 ≤ f.q ∧ f.q ≤ r.q1 ∧ r.d0 ≤ f.gain ∧ f.gain ≤ r.d1

/-- The operation stays within the limits; samples are at most `√B`. -/
def Ranges.Op (r : Ranges) (B : ℝ) : SvOp ℚ → Prop
  | .cutoff x => r.f0 ≤ x ∧ x ≤ r.f1
  | .q x => r.q0 ≤ x ∧ x ≤ r.q1
  | .gain x => r.d0 ≤ x ∧ x ≤ r.d1
  | .filter _ => True
  | .calculate => True
  | .sample x => (x : ℝ) ^ 2 ≤ B

/-- The settings after an operation. -/
def Setup.set (f : Setup) : SvOp ℚ → Setup
  | .cutoff x => { f with cutoff := x }
  | .q x => { f with q := x }
  | .gain x => { f with gain := x }
  | .filter ty => { f with ty }
  | .calculate => f
  | .sample _ => f

/-- The values for the settings that the maths library gives. -/
def Setup.tune (fl : ℚ → ℚ) (fn : Fns ℚ) (sr : ℚ) (f : Setup) : Option Tune := svTune fl fn f.ty f.cutoff f.q f.gain sr

/-- The maths library gives sensible values for all settings within the limits. -/
def Lib (fl : ℚ → ℚ) (fn : Fns ℚ) (sr : ℚ) (r : Ranges) (b : Box) (M : ℝ) : Prop :=
  ∀ f : Setup, r.In f → ∃ t, f.tune fl fn sr = some t ∧ t.In b M

/-- The exact filter: no rounding from the values `g` and `k` on. -/
noncomputable def exactRun (fl : ℚ → ℚ) (fn : Fns ℚ) (sr : ℚ) : Setup → Tune → Ic ℝ → List (SvOp ℚ) → List ℝ
  | _, _, _, [] => []
  | f, t, s, .sample x :: ops => (step (exactC t) s x).2 :: exactRun fl fn sr f t (step (exactC t) s x).1 ops
  | f, _, s, op :: ops => match (f.set op).tune fl fn sr with
    | some t => exactRun fl fn sr (f.set op) t s ops
    | none => []

/-- The settings of a filter. -/
def setupOf (f : Svf ℚ) : Setup := ⟨f.ty, f.cutoff, f.q, f.gain⟩

/-- The filter has the coefficients for its settings. -/
def Tuned (fl : ℚ → ℚ) (fn : Fns ℚ) (sr : ℚ) (f : Svf ℚ) (t : Tune) : Prop :=
  (setupOf f).tune fl fn sr = some t ∧ svCoef fl t = some f.c

/-- The largest sum of the sizes of state and sample. -/
noncomputable def radius (B L : ℝ) : ℝ := Real.sqrt (3 * (2 * L + B))

/-- How far an output is from that of the exact filter, at most. -/
noncomputable def errOut (p : Nat) (emin : Int) (b : Box) (M B L : ℝ) : ℝ :=
  M * (42 * (unit p * radius B L) + 10 * tiny emin) + 7 * tiny emin + 4 * M * Real.sqrt (drift b (unit p) (floorOf p emin) B L)

/-- How large an output is, at most. -/
noncomputable def sizeOut (emin : Int) (M B L : ℝ) : ℝ := M * (3 * radius B L + 10 * tiny emin) + 7 * tiny emin

/-! ### One step -/

theorem set_in {r : Ranges} {B : ℝ} {f : Setup} (h : r.In f) {o : SvOp ℚ} (ho : r.Op B o) : r.In (f.set o) := by
  obtain ⟨h1, h2, h3, h4, h5, h6⟩ := h
  cases o with
  | cutoff x => exact ⟨ho.1, ho.2, h3, h4, h5, h6⟩
  | q x => exact ⟨h1, h2, ho.1, ho.2, h5, h6⟩
  | gain x => exact ⟨h1, h2, h3, h4, ho.1, ho.2⟩
  | filter ty => exact ⟨h1, h2, h3, h4, h5, h6⟩
  | calculate => exact ⟨h1, h2, h3, h4, h5, h6⟩
  | sample x => exact ⟨h1, h2, h3, h4, h5, h6⟩

theorem radius_le (b : Box) {B L x : ℝ} (s : Ic ℝ) (hx : x ^ 2 ≤ B) (ht : tilt b.eps s ≤ L) : |s.s1| + |s.s2| + |x| ≤ radius B L := by
  have hs := (Fi.tilt_energy b s).1
  simp only [energy] at hs
  apply Real.le_sqrt_of_sq_le
  rw [← sq_abs] at hx
  rw [← sq_abs s.s1, ← sq_abs s.s2] at hs
  generalize |s.s1| = a at *
  generalize |s.s2| = c at *
  generalize |x| = d at *
  nlinarith [sq_nonneg (a - c), sq_nonneg (a - d), sq_nonneg (c - d)]

/-- The output of the exact filter from a state without input. -/
theorem out_free {b : Box} {M : ℝ} {t : Tune} (ht : t.In b M) (d : Ic ℝ) {E : ℝ} (hd : tilt b.eps d ≤ E) :
    |(step (exactC t) d 0).2| ≤ 4 * M * Real.sqrt E := by
  obtain ⟨b1, b2, b3⟩ := exactC_le ht
  have hs := (Fi.tilt_energy b d).1
  simp only [energy] at hs
  have h1 : |d.s1| + |d.s2| ≤ 2 * Real.sqrt E := by
    have : (|d.s1| + |d.s2|) / 2 ≤ Real.sqrt E := by
      apply Real.le_sqrt_of_sq_le
      rw [← sq_abs d.s1, ← sq_abs d.s2] at hs
      nlinarith [sq_nonneg (|d.s1| - |d.s2|)]
    linarith
  have p1 := abs_nonneg d.s1
  have p2 := abs_nonneg d.s2
  have hM := ht.2
  have m0 := abs_nonneg (t.m0 : ℝ)
  have m1 := abs_nonneg (t.m1 : ℝ)
  have m2 := abs_nonneg (t.m2 : ℝ)
  have c1 := mul_le_mul_of_nonneg_right b1 p1
  have c2 := mul_le_mul_of_nonneg_right b2 p2
  have c3 := mul_le_mul_of_nonneg_right b2 p1
  have c4 := mul_le_mul_of_nonneg_right b3 p2
  have v1 : |(exactC t).a1 * d.s1 + (exactC t).a2 * (0 - d.s2)| ≤ 2 * (|d.s1| + |d.s2|) := by
    refine le_trans (abs_add_le _ _) ?_
    rw [abs_mul, abs_mul, zero_sub, abs_neg]
    linarith
  have v2 : |d.s2 + (exactC t).a2 * d.s1 + (exactC t).a3 * (0 - d.s2)| ≤ 2 * (|d.s1| + |d.s2|) := by
    refine le_trans (abs_add_le _ _) ?_
    have := abs_add_le d.s2 ((exactC t).a2 * d.s1)
    rw [abs_mul] at this
    rw [abs_mul, zero_sub, abs_neg]
    linarith
  have e : (step (exactC t) d 0).2 = t.m0 * 0 + t.m1 * ((exactC t).a1 * d.s1 + (exactC t).a2 * (0 - d.s2))
      + t.m2 * (d.s2 + (exactC t).a2 * d.s1 + (exactC t).a3 * (0 - d.s2)) := rfl
  rw [e, mul_zero, zero_add]
  refine le_trans (abs_add_le _ _) ?_
  rw [abs_mul, abs_mul]
  have g1 := mul_le_mul_of_nonneg_left v1 m1
  have g2 := mul_le_mul_of_nonneg_left v2 m2
  have g3 : (|(t.m1 : ℝ)| + |(t.m2 : ℝ)|) * (2 * (|d.s1| + |d.s2|)) ≤ M * (2 * (2 * Real.sqrt E)) :=
    mul_le_mul (by linarith) (by linarith) (by linarith) (by linarith)
  linarith

/-- The size of an output of the exact filter. -/
theorem out_size {b : Box} {M : ℝ} {t : Tune} (ht : t.In b M) (s : Ic ℝ) (x : ℝ) {R : ℝ} (hR : |s.s1| + |s.s2| + |x| ≤ R) :
    |(step (exactC t) s x).2| ≤ 2 * M * R := by
  obtain ⟨b1, b2, b3⟩ := exactC_le ht
  have p1 := abs_nonneg s.s1
  have p2 := abs_nonneg s.s2
  have p3 := abs_nonneg x
  have p4 := abs_nonneg (x - s.s2)
  have p5 := abs_sub x s.s2
  have hM := ht.2
  have m0 := abs_nonneg (t.m0 : ℝ)
  have m1 := abs_nonneg (t.m1 : ℝ)
  have m2 := abs_nonneg (t.m2 : ℝ)
  have c1 := mul_le_mul_of_nonneg_right b1 p1
  have c2 := mul_le_mul_of_nonneg_right b2 p4
  have c3 := mul_le_mul_of_nonneg_right b2 p1
  have c4 := mul_le_mul_of_nonneg_right b3 p4
  have v1 : |(exactC t).a1 * s.s1 + (exactC t).a2 * (x - s.s2)| ≤ 2 * R := by
    refine le_trans (abs_add_le _ _) ?_
    rw [abs_mul, abs_mul]
    linarith
  have v2 : |s.s2 + (exactC t).a2 * s.s1 + (exactC t).a3 * (x - s.s2)| ≤ 2 * R := by
    refine le_trans (abs_add_le _ _) ?_
    have := abs_add_le s.s2 ((exactC t).a2 * s.s1)
    rw [abs_mul] at this
    rw [abs_mul]
    linarith
  have e : (step (exactC t) s x).2 = t.m0 * x + t.m1 * ((exactC t).a1 * s.s1 + (exactC t).a2 * (x - s.s2))
      + t.m2 * (s.s2 + (exactC t).a2 * s.s1 + (exactC t).a3 * (x - s.s2)) := rfl
  rw [e]
  have g0 := abs_add_le (t.m0 * x + t.m1 * ((exactC t).a1 * s.s1 + (exactC t).a2 * (x - s.s2)))
    (t.m2 * (s.s2 + (exactC t).a2 * s.s1 + (exactC t).a3 * (x - s.s2)))
  have g1 := abs_add_le (t.m0 * x) (t.m1 * ((exactC t).a1 * s.s1 + (exactC t).a2 * (x - s.s2)))
  rw [abs_mul, abs_mul (t.m1 : ℝ)] at g1
  rw [abs_mul (t.m2 : ℝ)] at g0
  have g2 := mul_le_mul_of_nonneg_left v1 m1
  have g3 := mul_le_mul_of_nonneg_left v2 m2
  have g4 := mul_le_mul_of_nonneg_left (show |x| ≤ 2 * R by linarith) m0
  have g5 : (|(t.m0 : ℝ)| + |(t.m1 : ℝ)| + |(t.m2 : ℝ)|) * (2 * R) ≤ M * (2 * R) := mul_le_mul_of_nonneg_right hM (by linarith)
  linarith

theorem sub_addIc (a e c : Ic ℝ) : (addIc a e).sub c = addIc (a.sub c) e := by
  simp only [addIc, Ic.sub, Ic.mk.injEq]
  constructor <;> ring

/-! ### C90 -/

/-- The induction for `C90_close`. -/
theorem run_close {p : Nat} {emin : Int} {fl : ℚ → ℚ} (hfl : ∀ z : ℚ, Near (unit p) (tiny emin) (fl z : ℝ) z) {b : Box}
    (hf : Fine p emin b) {fn : Fns ℚ} {sr : ℚ} {r : Ranges} {M : ℝ} (hlib : Lib fl fn sr r b M) {B L : ℝ}
    (hL : level b B (floorOf p emin) ≤ L) (ops : List (SvOp ℚ)) (hops : ∀ o ∈ ops, r.Op B o) (f : Svf ℚ) (hr : r.In (setupOf f))
    (t : Tune) (ht : t.In b M) (hc : CloseC p f.c t) (s : Ic ℝ) (h1 : tilt b.eps (icR f.s) ≤ L)
    (h2 : tilt b.eps ((icR f.s).sub s) ≤ drift b (unit p) (floorOf p emin) B L) :
    ∃ f' out, svRunF fl fn sr f ops = some (f', out) ∧
      List.Forall₂ (fun (y : ℚ) z => |(y : ℝ) - z| ≤ errOut p emin b M B L ∧ |(y : ℝ)| ≤ sizeOut emin M B L) out
        (exactRun fl fn sr (setupOf f) t s ops) := by
  induction ops generalizing f t s with
  | nil => exact ⟨f, [], rfl, .nil⟩
  | cons o ops ih =>
    have ho := hops o List.mem_cons_self
    have hops' := fun o h => hops o (List.mem_cons_of_mem _ h)
    have go : (∀ x, o ≠ .sample x) → ∃ f' out, svRunF fl fn sr f (o :: ops) = some (f', out) ∧
        List.Forall₂ (fun (y : ℚ) z => |(y : ℝ) - z| ≤ errOut p emin b M B L ∧ |(y : ℝ)| ≤ sizeOut emin M B L) out
          (exactRun fl fn sr (setupOf f) t s (o :: ops)) := by
      intro hne
      have hs : setupOf (svSet f o) = (setupOf f).set o := by cases o <;> rfl
      have hst : (svSet f o).s = f.s := by cases o <;> rfl
      have hr' := set_in hr ho
      obtain ⟨t', ht1, ht2⟩ := hlib _ hr'
      obtain ⟨c', hc1, hc2⟩ := svCoef_close hfl hf ht2
      have hcalc : svCalc fl fn sr (svSet f o) = some { svSet f o with c := c' } := by
        have : svTune fl fn (svSet f o).ty (svSet f o).cutoff (svSet f o).q (svSet f o).gain sr = some t' := by
          rw [← hs] at ht1; exact ht1
        simp [svCalc, this, hc1]
      obtain ⟨f', out, e1, e2⟩ := ih hops' { svSet f o with c := c' } (by rw [← hs] at hr'; exact hr') t' ht2 hc2 s
        (by show tilt b.eps (icR (svSet f o).s) ≤ L; rw [hst]; exact h1)
        (by show tilt b.eps ((icR (svSet f o).s).sub s) ≤ _; rw [hst]; exact h2)
      have e3 : svRunF fl fn sr f (o :: ops) = (svCalc fl fn sr (svSet f o)).bind fun f => svRunF fl fn sr f ops := by
        cases o <;> first | rfl | exact absurd rfl (hne _)
      have e4 : exactRun fl fn sr (setupOf f) t s (o :: ops) = exactRun fl fn sr ((setupOf f).set o) t' s ops := by
        cases o <;> first | exact absurd rfl (hne _) | (simp only [exactRun, ht1])
      refine ⟨f', out, ?_, ?_⟩
      · rw [e3, hcalc]
        exact e1
      · rw [e4]
        have : setupOf { svSet f o with c := c' } = (setupOf f).set o := hs
        rwa [this] at e2
    cases o with
    | cutoff x => exact go (fun x h => by cases h)
    | q x => exact go (fun x h => by cases h)
    | gain x => exact go (fun x h => by cases h)
    | filter ty => exact go (fun x h => by cases h)
    | calculate => exact go (fun x h => by cases h)
    | sample x =>
      have hx : (x : ℝ) ^ 2 ≤ B := ho
      obtain ⟨⟨e, he1, he2⟩, hy⟩ := svStep_close hfl hf ht hc f.s x
      have hfrom := exactC_from ht
      have hu := unit_nonneg p
      have hτ := tiny_nonneg emin
      have l1 := level_step b (exactC t) ht.1 hfrom hu hf.unit (icR f.s) e hx hL h1 he2
      rw [← he1] at l1
      have hsub : (icR (svStep fl f.c f.s x).1).sub (step (exactC t) s x).1 = addIc (step (exactC t) ((icR f.s).sub s) 0).1 e := by
        rw [he1, sub_addIc]
        have := Fi.step_sub (exactC t) (icR f.s) s x x
        rw [sub_self] at this
        rw [this]
      have l2 := drift_step b (exactC t) ht.1 hfrom (icR f.s) ((icR f.s).sub s) e hx h1 h2 he2
      rw [← hsub] at l2
      obtain ⟨f', out, e1, e2⟩ := ih hops' { f with s := (svStep fl f.c f.s x).1 } hr t ht hc (step (exactC t) s x).1 l1 l2
      refine ⟨f', (svStep fl f.c f.s x).2 :: out, by simp [svRunF, e1], ?_⟩
      refine List.Forall₂.cons ?_ e2
      have hR := radius_le b (icR f.s) hx h1
      have hM0 : 0 ≤ M := le_trans (by positivity) ht.2
      have hy' : |((svStep fl f.c f.s x).2 : ℝ) - (step (exactC t) (icR f.s) x).2| ≤
          M * (42 * (unit p * radius B L) + 10 * tiny emin) + 7 * tiny emin := by
        refine le_trans hy ?_
        have : unit p * (|(f.s.s1 : ℝ)| + |(f.s.s2 : ℝ)| + |(x : ℝ)|) ≤ unit p * radius B L := mul_le_mul_of_nonneg_left hR hu
        gcongr
      constructor
      · have hd := out_free ht ((icR f.s).sub s) h2
        have hstep := Fi.step_sub (exactC t) (icR f.s) s x x
        rw [sub_self] at hstep
        rw [hstep] at hd
        have := abs_sub_le ((svStep fl f.c f.s x).2 : ℝ) (step (exactC t) (icR f.s) x).2 (step (exactC t) s x).2
        rw [errOut]
        exact le_trans this (by linarith)
      · have hz := out_size ht (icR f.s) x hR
        have := abs_add_le (((svStep fl f.c f.s x).2 : ℝ) - (step (exactC t) (icR f.s) x).2) (step (exactC t) (icR f.s) x).2
        rw [sub_add_cancel] at this
        have hR0 : 0 ≤ radius B L := Real.sqrt_nonneg _
        have hsm : 42 * (unit p * radius B L) ≤ radius B L := by
          have := small_mul hf.small hR0
          linarith
        have := mul_le_mul_of_nonneg_left hsm hM0
        rw [sizeOut]
        linarith

theorem drift_nonneg (b : Box) {u ω B L : ℝ} (hB : 0 ≤ B) (hL : 0 ≤ L) : 0 ≤ drift b u ω B L := by
  rw [drift]
  positivity

/-- **C90**: with rounding, whatever the history of samples and of settings within the limits, the filter never divides by zero and
every output is bounded and close to that of the filter without rounding, as long as the precision suffices for the limits: the
distance is a multiple of the unit of the format that does not depend on the length of the history. -/
theorem C90_close {p : Nat} {emin : Int} {b : Box} (hf : Fine p emin b) {fn : Fns ℚ} {sr : ℚ} {r : Ranges} {M : ℝ}
    (hlib : Lib (rnd p emin) fn sr r b M) {B L : ℝ} (hB : 0 ≤ B) (hL : level b B (floorOf p emin) ≤ L) (ops : List (SvOp ℚ))
    (hops : ∀ o ∈ ops, r.Op B o) (f : Svf ℚ) (hr : r.In (setupOf f)) (t : Tune) (ht : Tuned (rnd p emin) fn sr f t)
    (hs : tilt b.eps (icR f.s) ≤ L) :
    ∃ f' out, svRunF (rnd p emin) fn sr f ops = some (f', out) ∧
      List.Forall₂ (fun (y : ℚ) z => |(y : ℝ) - z| ≤ errOut p emin b M B L ∧ |(y : ℝ)| ≤ sizeOut emin M B L) out
        (exactRun (rnd p emin) fn sr (setupOf f) t (icR f.s) ops) := by
  obtain ⟨t', h1, h2⟩ := hlib _ hr
  rw [ht.1] at h1
  cases h1
  obtain ⟨c, h3, h4⟩ := svCoef_close (near_rnd p emin) hf h2
  rw [ht.2] at h3
  cases h3
  have hL0 : 0 ≤ L := le_trans (tilt_nonneg b _) hs
  refine run_close (near_rnd p emin) hf hlib hL ops hops f hr t h2 h4 (icR f.s) hs ?_
  have e : tilt b.eps ((icR f.s).sub (icR f.s)) = 0 := by simp [tilt, Ic.sub]
  rw [e]
  exact drift_nonneg b hB hL0

/-- Two exact filters with the same history: the outputs approach each other. -/
theorem exact_forgets {fl : ℚ → ℚ} {fn : Fns ℚ} {sr : ℚ} {r : Ranges} {b : Box} {M : ℝ} (hlib : Lib fl fn sr r b M) {B : ℝ}
    (ops : List (SvOp ℚ)) (hops : ∀ o ∈ ops, r.Op B o) (f : Setup) (hr : r.In f) (t : Tune) (ht : t.In b M) (s s' : Ic ℝ) {T : ℝ}
    (hT : tilt b.eps (s.sub s') ≤ T) (n : Nat) (z z' : ℝ) (hz : (exactRun fl fn sr f t s ops)[n]? = some z)
    (hz' : (exactRun fl fn sr f t s' ops)[n]? = some z') : |z - z'| ≤ 4 * M * Real.sqrt (b.rho ^ n * T) := by
  induction ops generalizing f t s s' n T with
  | nil => simp [exactRun] at hz
  | cons o ops ih =>
    have ho := hops o List.mem_cons_self
    have hops' := fun o h => hops o (List.mem_cons_of_mem _ h)
    have hr' := set_in hr ho
    obtain ⟨t', ht1, ht2⟩ := hlib _ hr'
    cases o with
    | sample x =>
      have hstep := Fi.step_sub (exactC t) s s' x x
      rw [sub_self] at hstep
      cases n with
      | zero =>
        simp only [exactRun, List.getElem?_cons_zero, Option.some.injEq] at hz hz'
        have := out_free ht (s.sub s') hT
        rw [hstep] at this
        rw [pow_zero, one_mul, ← hz, ← hz']
        exact this
      | succ n =>
        simp only [exactRun, List.getElem?_cons_succ] at hz hz'
        have h := Fi.tilt_falls b (exactC t) ht.1 (exactC_from ht) (s.sub s') 0
        rw [hstep, zero_pow (by norm_num), mul_zero, add_zero] at h
        have := ih hops' f hr t ht (step (exactC t) s x).1 (step (exactC t) s' x).1
          (le_trans h (mul_le_mul_of_nonneg_left hT b.rho_range.1)) n hz hz'
        rwa [pow_succ, mul_assoc (b.rho ^ n)]
    | cutoff x => simp only [exactRun, ht1] at hz hz'; exact ih hops' _ hr' t' ht2 s s' hT n hz hz'
    | q x => simp only [exactRun, ht1] at hz hz'; exact ih hops' _ hr' t' ht2 s s' hT n hz hz'
    | gain x => simp only [exactRun, ht1] at hz hz'; exact ih hops' _ hr' t' ht2 s s' hT n hz hz'
    | filter x => simp only [exactRun, ht1] at hz hz'; exact ih hops' _ hr' t' ht2 s s' hT n hz hz'
    | calculate => simp only [exactRun, ht1] at hz hz'; exact ih hops' _ hr' t' ht2 s s' hT n hz hz'

/-- **C90, forgetting**: two filters with rounding, the same settings and the same history but other states at the start play the same
in the end, up to the distance of `C90_close`. -/
theorem C90_forgets {p : Nat} {emin : Int} {b : Box} (hf : Fine p emin b) {fn : Fns ℚ} {sr : ℚ} {r : Ranges} {M : ℝ}
    (hlib : Lib (rnd p emin) fn sr r b M) {B L : ℝ} (hB : 0 ≤ B) (hL : level b B (floorOf p emin) ≤ L) (ops : List (SvOp ℚ))
    (hops : ∀ o ∈ ops, r.Op B o) (f : Svf ℚ) (hr : r.In (setupOf f)) (t : Tune) (ht : Tuned (rnd p emin) fn sr f t)
    (hs : tilt b.eps (icR f.s) ≤ L) (s' : Ic ℚ) (hs' : tilt b.eps (icR s') ≤ L) :
    ∃ f1 out f2 out', svRunF (rnd p emin) fn sr f ops = some (f1, out) ∧
      svRunF (rnd p emin) fn sr { f with s := s' } ops = some (f2, out') ∧ out.length = out'.length ∧
      ∀ (n : Nat) (y y' : ℚ), out[n]? = some y → out'[n]? = some y' →
        |(y : ℝ) - y'| ≤ 2 * errOut p emin b M B L + 4 * M * Real.sqrt (b.rho ^ n * tilt b.eps ((icR f.s).sub (icR s'))) := by
  obtain ⟨f1, out, h1, h2⟩ := C90_close hf hlib hB hL ops hops f hr t ht hs
  obtain ⟨f2, out', h3, h4⟩ := C90_close hf hlib hB hL ops hops { f with s := s' } hr t ht hs'
  change List.Forall₂ _ out' (exactRun (rnd p emin) fn sr (setupOf f) t (icR s') ops) at h4
  obtain ⟨t', g1, g2⟩ := hlib _ hr
  rw [ht.1] at g1
  cases g1
  have elen : ∀ (ops : List (SvOp ℚ)) (f : Setup) (t : Tune) (s s' : Ic ℝ),
      (exactRun (rnd p emin) fn sr f t s ops).length = (exactRun (rnd p emin) fn sr f t s' ops).length := by
    intro ops
    induction ops with
    | nil => intros; rfl
    | cons o ops ih =>
      intro f t s s'
      cases o with
      | sample x => simp only [exactRun, List.length_cons, ih f t _ (step (exactC t) s' x).1]
      | _ => simp only [exactRun]; split <;> [exact ih _ _ _ _; rfl]
  have hlen := elen ops (setupOf f) t (icR f.s) (icR s')
  refine ⟨f1, out, f2, out', h1, h3, ?_, ?_⟩
  · rw [h2.length_eq, h4.length_eq]
    exact hlen
  · intro n y y' hy hy'
    obtain ⟨hn, rfl⟩ := List.getElem?_eq_some_iff.1 hy
    obtain ⟨hn', rfl⟩ := List.getElem?_eq_some_iff.1 hy'
    have a1 := (List.Forall₂.get h2 hn (h2.length_eq ▸ hn)).1
    have a2 := (List.Forall₂.get h4 hn' (h4.length_eq ▸ hn')).1
    have a3 := exact_forgets hlib ops hops (setupOf f) hr t g2 (icR f.s) (icR s') (le_refl _) n _ _
      (List.getElem?_eq_getElem (h2.length_eq ▸ hn)) (List.getElem?_eq_getElem (h4.length_eq ▸ hn'))
    simp only [List.get_eq_getElem] at a1 a2
    rw [abs_le] at a1 a2 a3 ⊢
    have b1 := a1.1
    have b2 := a1.2
    have b3 := a2.1
    have b4 := a2.2
    constructor <;> linarith [a3.1, a3.2]

/-- A rounded step in silence. -/
theorem silent_step (b : Box) (c : Coef ℝ) {g k : ℝ} (hb : b.In g k) (hc : c.From g k) {u ω : ℝ} (hu : 0 ≤ u) (hs : 1600 * u ≤ delta b)
    (s e : Ic ℝ) (he : tilt b.eps e ≤ 102400 * u ^ 2 * (2 * tilt b.eps s + 0 ^ 2 + ω ^ 2)) :
    tilt b.eps (addIc (step c s 0).1 e) ≤ (1 - delta b / 4) * tilt b.eps s + 3 / 25 * delta b * ω ^ 2 := by
  obtain ⟨d0, d1⟩ := delta_range b
  have t0 := tilt_nonneg b s
  have h1 := tilt_add b (show 0 < delta b / 2 by linarith) (step c s 0).1 e
  have h2 := Fi.tilt_falls b c hb hc s 0
  rw [zero_pow (by norm_num), mul_zero, add_zero] at h2
  have h3 := inv_half b (tilt_nonneg b e)
  have hw : 0 ≤ 2 * tilt b.eps s + (0 : ℝ) ^ 2 + ω ^ 2 := by positivity
  have h4 := noise_le b hu hs hw
  have h5 : 3 / delta b * tilt b.eps e ≤ 3 / delta b * (102400 * u ^ 2 * (2 * tilt b.eps s + 0 ^ 2 + ω ^ 2)) :=
    mul_le_mul_of_nonneg_left he (by positivity)
  have h6 := mix_falls b (e := tilt b.eps e) h2 t0
  have h7 : 0 ≤ delta b * tilt b.eps s := by positivity
  nlinarith

theorem size_mono {emin : Int} {M B L L' : ℝ} (hM : 0 ≤ M) (h : L ≤ L') : sizeOut emin M B L ≤ sizeOut emin M B L' := by
  rw [sizeOut, sizeOut, radius, radius]
  gcongr

theorem silent_close {p : Nat} {emin : Int} {fl : ℚ → ℚ} (hfl : ∀ z : ℚ, Near (unit p) (tiny emin) (fl z : ℝ) z) {b : Box}
    (hf : Fine p emin b) {M : ℝ} {t : Tune} (ht : t.In b M) (fn : Fns ℚ) (sr : ℚ) (f : Svf ℚ) (hc : CloseC p f.c t) (N : Nat) :
    ∃ f' out, svRunF fl fn sr f (List.replicate N (.sample 0)) = some (f', out) ∧ out.length = N ∧
      ∀ (n : Nat) (y : ℚ), out[n]? = some y → |(y : ℝ)| ≤ sizeOut emin M 0
        ((1 - delta b / 4) ^ n * tilt b.eps (icR f.s) + (1 - (1 - delta b / 4) ^ n) * (12 / 25 * floorOf p emin ^ 2)) := by
  obtain ⟨d0, d1⟩ := delta_range b
  have hM0 : 0 ≤ M := le_trans (by positivity) ht.2
  induction N generalizing f with
  | zero => exact ⟨f, [], rfl, rfl, fun n y h => by simp at h⟩
  | succ N ih =>
    obtain ⟨⟨e, he1, he2⟩, hy⟩ := svStep_close hfl hf ht hc f.s 0
    obtain ⟨f', out, h1, h2, h3⟩ := ih { f with s := (svStep fl f.c f.s 0).1 } hc
    refine ⟨f', (svStep fl f.c f.s 0).2 :: out, by simp [List.replicate_succ, svRunF, h1], by simp [h2], ?_⟩
    intro n y hn
    cases n with
    | zero =>
      simp only [List.getElem?_cons_zero, Option.some.injEq] at hn
      rw [pow_zero, one_mul, sub_self, zero_mul, add_zero, ← hn]
      have hR : |(icR f.s).s1| + |(icR f.s).s2| + |(0 : ℝ)| ≤ radius 0 (tilt b.eps (icR f.s)) :=
        radius_le b (icR f.s) (by norm_num) (le_refl _)
      rw [Rat.cast_zero] at hy
      have hz := out_size ht (icR f.s) 0 hR
      have h4 := abs_add_le (((svStep fl f.c f.s 0).2 : ℝ) - (step (exactC t) (icR f.s) 0).2) (step (exactC t) (icR f.s) 0).2
      rw [sub_add_cancel] at h4
      have h5 : unit p * (|(f.s.s1 : ℝ)| + |(f.s.s2 : ℝ)| + |(0 : ℝ)|) ≤ unit p * radius 0 (tilt b.eps (icR f.s)) :=
        mul_le_mul_of_nonneg_left hR (unit_nonneg p)
      have h6 := small_mul hf.small (show 0 ≤ radius 0 (tilt b.eps (icR f.s)) from Real.sqrt_nonneg _)
      have h7 : M * (42 * (unit p * (|(f.s.s1 : ℝ)| + |(f.s.s2 : ℝ)| + |(0 : ℝ)|)) + 10 * tiny emin) ≤
          M * (radius 0 (tilt b.eps (icR f.s)) + 10 * tiny emin) := by
        apply mul_le_mul_of_nonneg_left _ hM0
        have : 0 ≤ radius 0 (tilt b.eps (icR f.s)) := Real.sqrt_nonneg _
        linarith
      rw [sizeOut]
      linarith
    | succ n =>
      simp only [List.getElem?_cons_succ] at hn
      refine le_trans (h3 n y hn) ?_
      have h4 := silent_step b (exactC t) ht.1 (exactC_from ht) (unit_nonneg p) hf.unit (icR f.s) e (by rw [Rat.cast_zero] at he2; exact he2)
      rw [Rat.cast_zero] at he1
      rw [← he1] at h4
      have hp : 0 ≤ (1 - delta b / 4) ^ n := pow_nonneg (by linarith) n
      have h5 := mul_le_mul_of_nonneg_left h4 hp
      have h6 : (1 - delta b / 4) ^ n * tilt b.eps (icR (svStep fl f.c f.s 0).1) + (1 - (1 - delta b / 4) ^ n) * (12 / 25 * floorOf p emin ^ 2) ≤
          (1 - delta b / 4) ^ (n + 1) * tilt b.eps (icR f.s) + (1 - (1 - delta b / 4) ^ (n + 1)) * (12 / 25 * floorOf p emin ^ 2) := by
        rw [pow_succ (1 - delta b / 4) n]
        linarith
      exact size_mono hM0 h6

/-- **C90, silence**: in silence the output falls with a fixed rate per frame, down to about `5 * M` times the smallest normal
number of the format. -/
theorem C90_silence_partial {p : Nat} {emin : Int} {b : Box} (hf : Fine p emin b) {fn : Fns ℚ} {sr : ℚ} {r : Ranges} {M : ℝ}
    (hlib : Lib (rnd p emin) fn sr r b M) (f : Svf ℚ) (hr : r.In (setupOf f)) (t : Tune) (ht : Tuned (rnd p emin) fn sr f t) (N : Nat) :
    ∃ f' out, svRunF (rnd p emin) fn sr f (List.replicate N (.sample 0)) = some (f', out) ∧ out.length = N ∧
      ∀ (n : Nat) (y : ℚ), out[n]? = some y →
        |(y : ℝ)| ≤ sizeOut emin M 0 ((1 - delta b / 4) ^ n * tilt b.eps (icR f.s) + 12 / 25 * floorOf p emin ^ 2) := by
  obtain ⟨t', h1, h2⟩ := hlib _ hr
  rw [ht.1] at h1
  cases h1
  obtain ⟨c, h3, h4⟩ := svCoef_close (near_rnd p emin) hf h2
  rw [ht.2] at h3
  cases h3
  obtain ⟨f', out, g1, g2, g3⟩ := silent_close (near_rnd p emin) hf h2 fn sr f h4 N
  refine ⟨f', out, g1, g2, fun n y hn => le_trans (g3 n y hn) ?_⟩
  have hM0 : 0 ≤ M := le_trans (by positivity) h2.2
  obtain ⟨d0, d1⟩ := delta_range b
  have hp : 0 ≤ (1 - delta b / 4) ^ n := pow_nonneg (by linarith) n
  have h5 : (1 - (1 - delta b / 4) ^ n) * (12 / 25 * floorOf p emin ^ 2) ≤ 1 * (12 / 25 * floorOf p emin ^ 2) :=
    mul_le_mul_of_nonneg_right (by linarith) (by positivity)
  exact size_mono hM0 (by linarith)

/-! ### What the filter does not do -/

deriving instance DecidableEq for Fi.Coef, Fi.Ic

/-- The low pass of the witness: `g = 1/2`, `k = 1` in `f32`. -/
def wTune : Tune := ⟨1 / 2, 1, 0, 0, 1⟩
/-- Its coefficients. -/
def wCoef : Coef ℚ := ⟨9586981 / 16777216, 9586981 / 33554432, 9586981 / 67108864, 0, 0, 1⟩

theorem w_coef : svCoef rnd32 wTune = some wCoef := by decide +kernel

/-- The state after a silent frame. -/
def next (c : Coef ℚ) (s : Ic ℚ) : Ic ℚ := (svStep rnd32 c s 0).1

/-- A run in silence. -/
theorem silent_run (fn : Fns ℚ) (sr : ℚ) (f : Svf ℚ) (N : Nat) :
    ∃ f' out, svRunF rnd32 fn sr f (List.replicate N (.sample 0)) = some (f', out) ∧ out.length = N ∧
      ∀ (n : Nat) (y : ℚ), out[n]? = some y → y = (svStep rnd32 f.c ((next f.c)^[n] f.s) 0).2 := by
  induction N generalizing f with
  | zero => exact ⟨f, [], rfl, rfl, fun n y h => by simp at h⟩
  | succ N ih =>
    obtain ⟨f', out, h1, h2, h3⟩ := ih { f with s := (svStep rnd32 f.c f.s 0).1 }
    refine ⟨f', (svStep rnd32 f.c f.s 0).2 :: out, by simp [List.replicate_succ, svRunF, h1], by simp [h2], ?_⟩
    intro n y hn
    cases n with
    | zero => simpa using hn.symm
    | succ n => simpa [next] using h3 n y (by simpa using hn)

theorem w0 : (next wCoef)^[22] ⟨9586981/16777216, 9586981/33554432⟩ = ⟨6986937/137438953472, 894791/34359738368⟩ := by decide +kernel
theorem w1 : (next wCoef)^[22] ⟨6986937/137438953472, 894791/34359738368⟩ = ⟨1272901/281474976710656, 10686351/4503599627370496⟩ := by decide +kernel
theorem w2 : (next wCoef)^[22] ⟨1272901/281474976710656, 10686351/4503599627370496⟩ = ⟨3710091/9223372036854775808, 7974055/36893488147419103232⟩ := by decide +kernel
theorem w3 : (next wCoef)^[22] ⟨3710091/9223372036854775808, 7974055/36893488147419103232⟩ = ⟨2703185/75557863725914323419136, 2974171/151115727451828646838272⟩ := by decide +kernel
theorem w4 : (next wCoef)^[22] ⟨2703185/75557863725914323419136, 2974171/151115727451828646838272⟩ = ⟨1969373/618970019642690137449562112, 4435925/2475880078570760549798248448⟩ := by decide +kernel
theorem w5 : (next wCoef)^[22] ⟨1969373/618970019642690137449562112, 4435925/2475880078570760549798248448⟩ = ⟨1434631/5070602400912917605986812821504, 13228425/81129638414606681695789005144064⟩ := by decide +kernel
theorem w6 : (next wCoef)^[22] ⟨1434631/5070602400912917605986812821504, 13228425/81129638414606681695789005144064⟩ = ⟨4179967/166153499473114484112975882535043072, 1232425/83076749736557242056487941267521536⟩ := by decide +kernel
theorem w7 : (next wCoef)^[22] ⟨4179967/166153499473114484112975882535043072, 1232425/83076749736557242056487941267521536⟩ = ⟨3044417/1361129467683753853853498429727072845824, 14692851/10889035741470030830827987437816582766592⟩ := by decide +kernel
theorem w8 : (next wCoef)^[22] ⟨3044417/1361129467683753853853498429727072845824, 14692851/10889035741470030830827987437816582766592⟩ = ⟨2217147/11150372599265311570767859136324180752990208, 10945059/89202980794122492566142873090593446023921664⟩ := by decide +kernel
theorem w9 : (next wCoef)^[22] ⟨2217147/11150372599265311570767859136324180752990208, 10945059/89202980794122492566142873090593446023921664⟩ = ⟨6307/356811923176489970264571492362373784095686656, 995/89202980794122492566142873090593446023921664⟩ := by decide +kernel
theorem w10 : (next wCoef)^[22] ⟨6307/356811923176489970264571492362373784095686656, 995/89202980794122492566142873090593446023921664⟩ = ⟨0, 1/356811923176489970264571492362373784095686656⟩ := by decide +kernel

theorem w_path : (next wCoef)^[242] (svStep rnd32 wCoef ⟨0, 0⟩ 1).1 = ⟨0, pow2 (-148)⟩ := by
  have h : (svStep rnd32 wCoef ⟨0, 0⟩ 1).1 = ⟨9586981/16777216, 9586981/33554432⟩ := by decide +kernel
  rw [h, show 242 = 22 + (22 + (22 + (22 + (22 + (22 + (22 + (22 + (22 + (22 + 22))))))))) by norm_num]
  simp only [Function.iterate_add_apply]
  rw [w0, w1, w2, w3, w4, w5, w6, w7, w8, w9, w10]
  decide +kernel

/-- The states of the cycle. -/
def cycle (s : Ic ℚ) : Prop :=
  s = ⟨0, pow2 (-148)⟩ ∨ s = ⟨-pow2 (-148), pow2 (-148)⟩ ∨ s = ⟨-pow2 (-148), 0⟩ ∨
  s = ⟨0, -pow2 (-148)⟩ ∨ s = ⟨pow2 (-148), -pow2 (-148)⟩ ∨ s = ⟨pow2 (-148), 0⟩

theorem cycle_next {s : Ic ℚ} (h : cycle s) : cycle (next wCoef s) ∧ (svStep rnd32 wCoef s 0).2 ≠ 0 := by
  rcases h with rfl | rfl | rfl | rfl | rfl | rfl
  · exact ⟨.inr (.inl (by decide +kernel)), by decide +kernel⟩
  · exact ⟨.inr (.inr (.inl (by decide +kernel))), by decide +kernel⟩
  · exact ⟨.inr (.inr (.inr (.inl (by decide +kernel)))), by decide +kernel⟩
  · exact ⟨.inr (.inr (.inr (.inr (.inl (by decide +kernel))))), by decide +kernel⟩
  · exact ⟨.inr (.inr (.inr (.inr (.inr (by decide +kernel))))), by decide +kernel⟩
  · exact ⟨.inl (by decide +kernel), by decide +kernel⟩

theorem cycle_iter (n : Nat) : cycle ((next wCoef)^[n] ⟨0, pow2 (-148)⟩) := by
  induction n with
  | zero => exact .inl rfl
  | succ n ih => rw [Function.iterate_succ_apply']; exact (cycle_next ih).1

/-- **C90, silence, negation**: without the feature `no_denormals` the low pass never becomes silent: after a single sample of one, a
filter with `g = 1/2` and `k = 1` (about a seventh of the sample rate, no resonance) in `f32` plays tiny numbers other than zero for
ever. -/
theorem C90_silent_violated (fn : Fns ℚ) (sr : ℚ) (f : Svf ℚ) (ht : Tuned rnd32 fn sr f wTune) (hs : f.s = ⟨0, 0⟩) (N : Nat) :
    ∃ f' out, svRunF rnd32 fn sr f (.sample 1 :: List.replicate N (.sample 0)) = some (f', out) ∧ out.length = N + 1 ∧
      ∀ (n : Nat) (y : ℚ), 243 ≤ n → out[n]? = some y → y ≠ 0 := by
  have hc : f.c = wCoef := by
    have := ht.2
    rw [w_coef] at this
    exact (Option.some.inj this).symm
  obtain ⟨f', out, h1, h2, h3⟩ := silent_run fn sr { f with s := (svStep rnd32 f.c f.s 1).1 } N
  refine ⟨f', (svStep rnd32 f.c f.s 1).2 :: out, by simp [svRunF, h1], by simp [h2], ?_⟩
  intro n y hn hy
  obtain ⟨m, rfl⟩ : ∃ m, n = m + 242 + 1 := ⟨n - 243, by omega⟩
  simp only [List.getElem?_cons_succ] at hy
  have := h3 _ y hy
  rw [this]
  simp only [hc, hs]
  rw [Function.iterate_add_apply, w_path]
  exact (cycle_next (cycle_iter m)).2

/-- The low pass of the second witness: `g = 2⁻²⁶`, `k = 1`. -/
def lowTune : Tune := ⟨1 / 67108864, 1, 0, 0, 1⟩
/-- Its coefficients in `f32`. -/
def lowCoef : Coef ℚ := ⟨1, 1 / 67108864, 1 / 4503599627370496, 0, 0, 1⟩

/-- **C90, the precision is needed**: in `f32` a low pass with a cutoff that is too low for the format keeps its state and plays one half
for ever in silence: nothing fades. -/
theorem C90_stuck_violated (fn : Fns ℚ) (sr : ℚ) (f : Svf ℚ) (ht : Tuned rnd32 fn sr f lowTune) (hs : f.s = ⟨1, 1 / 2⟩) (N : Nat) :
    ∃ f' out, svRunF rnd32 fn sr f (List.replicate N (.sample 0)) = some (f', out) ∧ out = List.replicate N (1 / 2) := by
  have hc : f.c = lowCoef := by
    have h1 := ht.2
    have h2 : svCoef rnd32 lowTune = some lowCoef := by decide +kernel
    rw [h2] at h1
    exact (Option.some.inj h1).symm
  have hfix : next lowCoef ⟨1, 1 / 2⟩ = ⟨1, 1 / 2⟩ := by decide +kernel
  have hout : (svStep rnd32 lowCoef ⟨1, 1 / 2⟩ 0).2 = 1 / 2 := by decide +kernel
  obtain ⟨f', out, h1, h2, h3⟩ := silent_run fn sr f N
  refine ⟨f', out, h1, List.eq_replicate_iff.2 ⟨h2, ?_⟩⟩
  intro y hy
  obtain ⟨n, hn⟩ := List.mem_iff_getElem?.1 hy
  rw [h3 n y hn, hc, hs, Function.iterate_fixed hfix, hout]

/-! ### Examples -/

/-- A library for the examples. -/
def exFns : Fns ℚ := { exp := id, tan := id, sqrt := id, pow10 := fun _ => 1, pi := 3 }
/-- Limits for the examples: 8 to 16 kHz. -/
def exRanges : Ranges := ⟨8000, 16000, 1 / 2, 1, -1, 1⟩
/-- The box for these limits. -/
noncomputable def exBox : Box := ⟨1 / 2, 1, 1, 2, by norm_num, by norm_num, by norm_num, by norm_num⟩
/-- The filter of the examples. -/
def exFilter : Svf ℚ := { ty := .low, cutoff := 8000, q := 1, gain := 0, s := ⟨0, 0⟩, c := wCoef }

theorem ex_fine : Fine 24 (-149) exBox := by
  constructor
  · have : unit 24 = 1 / 16777216 := by
      have : pow2 (-(24 : Nat)) = 1 / 16777216 := by decide +kernel
      rw [unit, this]; norm_num
    rw [this]
    simp only [delta, Box.eps, Box.span, exBox]
    norm_num
  · have h1 : unit 24 = 1 / 16777216 := by
      have : pow2 (-(24 : Nat)) = 1 / 16777216 := by decide +kernel
      rw [unit, this]; norm_num
    have h2 : tiny (-149) ≤ 1 / 1000000000000 := by
      have : pow2 (-149 - 1) ≤ 1 / 1000000000000 := by decide +kernel
      rw [tiny]
      calc ((pow2 (-149 - 1) : ℚ) : ℝ) ≤ ((1 / 1000000000000 : ℚ) : ℝ) := Rat.cast_le.2 this
        _ = _ := by norm_num
    rw [h1]
    simp only [exBox]
    norm_num
    linarith

theorem ex_between {a b x : ℚ} (ha : Rep 24 (-149) a) (hb : Rep 24 (-149) b) (h : a ≤ x ∧ x ≤ b) : a ≤ rnd 24 (-149) x ∧ rnd 24 (-149) x ≤ b :=
  ⟨rep_le_rnd (by norm_num) ha h.1, rnd_le_rep (by norm_num) hb h.2⟩

theorem ex_tune {g k m0 m1 m2 : ℚ} (hg : 1 / 2 ≤ g ∧ g ≤ 1) (hk : 1 ≤ k ∧ k ≤ 2) (hm : |m0| + |m1| + |m2| ≤ 5) :
    Tune.In exBox 5 ⟨g, k, m0, m1, m2⟩ := by
  refine ⟨⟨?_, ?_, ?_, ?_⟩, ?_⟩
  · have := Rat.cast_le (K := ℝ).2 hg.1
    push_cast at this
    exact this
  · show (g : ℝ) ≤ 1; exact_mod_cast hg.2
  · show (1 : ℝ) ≤ (k : ℝ); exact_mod_cast hk.1
  · show (k : ℝ) ≤ 2; exact_mod_cast hk.2
  · exact_mod_cast hm

theorem ex_lib : Lib (rnd 24 (-149)) exFns 48000 exRanges exBox 5 := by
  intro f hf
  obtain ⟨h1, h2, h3, h4, -, -⟩ := hf
  simp only [exRanges] at h1 h2 h3 h4
  have r1 : Rep 24 (-149) 1 := ⟨1, 0, by decide +kernel, by decide, by decide⟩
  have r2 : Rep 24 (-149) 2 := ⟨2, 0, by decide +kernel, by decide, by decide⟩
  have rh : Rep 24 (-149) (1 / 2) := ⟨1, -1, by decide +kernel, by decide, by decide⟩
  have ra : Rep 24 (-149) 24000 := ⟨24000, 0, by decide +kernel, by decide, by decide⟩
  have rb : Rep 24 (-149) 48000 := ⟨48000, 0, by decide +kernel, by decide, by decide⟩
  have a1 := ex_between ra rb (x := 3 * f.cutoff) (by constructor <;> linarith)
  have a2 := ex_between rh r1 (x := rnd 24 (-149) (3 * f.cutoff) / 48000) (by constructor <;> linarith [a1.1, a1.2])
  have a3 := ex_between rh r1 a2
  have a4 := ex_between rh r1 a3
  have q0 : f.q ≠ 0 := by intro h; rw [h] at h3; norm_num at h3
  have qr : ∀ q : ℚ, 1 / 2 ≤ q → q ≤ 1 → 1 ≤ 1 / q ∧ 1 / q ≤ 2 := by
    intro q h3 h4
    have : 0 < q := by linarith
    rw [le_div_iff₀ this, div_le_iff₀ this]
    constructor <;> linarith
  have k1 := ex_between r1 r2 (qr f.q h3 h4)
  have b1 := ex_between rh r1 ⟨h3, h4⟩
  have b2 := ex_between r1 r2 (qr _ b1.1 b1.2)
  have b0 : rnd 24 (-149) f.q ≠ 0 := by intro h; rw [h] at b1; norm_num at b1
  have r : rnd 24 (-149) 1 = 1 := rnd_rep r1
  have habs : ∀ k : ℚ, 1 ≤ k → |k| = k := fun k h => abs_of_nonneg (by linarith)
  have z0 : rnd 24 (-149) 0 = 0 := rnd_zero _ _
  have r4 : Rep 24 (-149) 4 := ⟨4, 0, by decide +kernel, by decide, by decide⟩
  have k2 : |rnd 24 (-149) (-(2 * rnd 24 (-149) (1 / f.q)))| ≤ 4 := by
    apply rnd_abs_le (by norm_num) r4
    rw [abs_neg, abs_of_nonneg (by linarith [k1.1])]
    linarith [k1.2]
  cases hty : f.ty <;>
    simp only [Setup.tune, svTune, exFns, hty, id, divO, r, q0, if_false, one_ne_zero, mul_one, div_one, sub_self, z0, mul_zero, b0,
      show (48000 : ℚ) ≠ 0 by norm_num, bind, Option.bind, pure, Option.some.injEq, exists_eq_left', neg_mul]
  all_goals refine ex_tune (by first | exact a3 | exact a4) (by first | exact k1 | exact b2) ?_
  all_goals simp only [abs_neg, abs_zero, abs_one, habs _ k1.1, abs_two]
  all_goals linarith [k1.2]

theorem ex_tuned : Tuned rnd32 exFns 48000 exFilter wTune := ⟨by decide +kernel, by decide +kernel⟩

/-- A history of the examples: the cutoff and the type change in between. -/
def exOps : List (SvOp ℚ) := [.sample 1, .cutoff 12000, .sample (1 / 2), .filter .bell, .sample (-1), .q (3 / 4), .sample 0]

theorem ex_level : 0 ≤ level exBox 1 (floorOf 24 (-149)) := by
  obtain ⟨d0, -⟩ := delta_range exBox
  have := drive_nonneg exBox
  rw [level]
  positivity

example : ∃ f' out, svRunF (rnd 24 (-149)) exFns 48000 exFilter exOps = some (f', out) ∧
    List.Forall₂ (fun (y : ℚ) z => |(y : ℝ) - z| ≤ errOut 24 (-149) exBox 5 1 (level exBox 1 (floorOf 24 (-149))) ∧
        |(y : ℝ)| ≤ sizeOut (-149) 5 1 (level exBox 1 (floorOf 24 (-149)))) out
      (exactRun (rnd 24 (-149)) exFns 48000 (setupOf exFilter) wTune (icR exFilter.s) exOps) := by
  refine C90_close ex_fine ex_lib (by norm_num) (le_refl _) exOps ?_ exFilter ⟨?_, ?_, ?_, ?_, ?_, ?_⟩ wTune ex_tuned ?_
  · intro o ho
    simp only [exOps, List.mem_cons, List.not_mem_nil, or_false] at ho
    rcases ho with rfl | rfl | rfl | rfl | rfl | rfl | rfl <;> simp only [Ranges.Op, exRanges] <;> norm_num
  all_goals first | decide +kernel | skip
  have e : tilt exBox.eps (icR exFilter.s) = 0 := by simp [tilt, icR, exFilter]
  rw [e]
  exact ex_level

/-- A box for `f64`: 15 Hz to 20 kHz at 48 kHz, q from a tenth to 20. -/
noncomputable def wideBox : Box := ⟨1 / 1000, 4, 1 / 20, 10, by norm_num, by norm_num, by norm_num, by norm_num⟩

example : Fine 53 (-1074) wideBox := by
  have h1 : unit 53 = 1 / 9007199254740992 := by
    have : pow2 (-(53 : Nat)) = 1 / 9007199254740992 := by decide +kernel
    rw [unit, this]; norm_num
  constructor
  · rw [h1]
    simp only [delta, Box.eps, Box.span, wideBox]
    norm_num
  · have h2 : tiny (-1074) ≤ 1 / 10000000000000000000000 := by
      have : pow2 (-1074 - 1) ≤ 1 / 10000000000000000000000 := by decide +kernel
      rw [tiny]
      calc ((pow2 (-1074 - 1) : ℚ) : ℝ) ≤ ((1 / 10000000000000000000000 : ℚ) : ℝ) := Rat.cast_le.2 this
        _ = _ := by norm_num
    rw [h1]
    simp only [wideBox]
    norm_num
    linarith

example : Tuned rnd32 exFns 48000 { exFilter with cutoff := 125 / 524288, s := ⟨1, 1 / 2⟩, c := lowCoef } lowTune :=
  ⟨by decide +kernel, by decide +kernel⟩

example : (svRunF rnd32 exFns 48000 exFilter exOps).isSome = true := by decide +kernel

end Verif.Fl
