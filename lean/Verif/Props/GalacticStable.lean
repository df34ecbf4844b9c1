import Verif.Props.Galactic

/-!
# C62: the sound of the reverb stays within bounds
-/

namespace Verif.Gal

/-! ## Specification -/

/-- Parameters and input in range: `replace` is at least `r0`, the size stays at `big`, the low pass coefficient is at most `e`,
and the input is at most `M`. -/
def InRange (sr : Nat) (r0 e big M : ℝ) : Op ℝ → Prop
  | .param 0 v => r0 ≤ v ∧ v ≤ 1
  | .param 2 v => (v + 1 / 100000) ^ 2 ≤ e * Real.sqrt (sr / 44100)
  | .param 3 v => v = big
  | .param 4 v => 0 ≤ v ∧ v ≤ 1
  | .param _ _ => True
  | .block xs => ∀ x ∈ xs, |x.1| ≤ M ∧ |x.2| ≤ M

/-- The parameters that the reverb is made with are in range. -/
structure StartOk (sr : Nat) (r0 e big : ℝ) (g : Galactic ℝ) : Prop where
  replace : r0 ≤ g.replace ∧ g.replace ≤ 1
  brightness : (g.brightness + 1 / 100000) ^ 2 ≤ e * Real.sqrt (sr / 44100)
  bigness : g.bigness = big
  wet : 0 ≤ g.wet ∧ g.wet ≤ 1

/-! ## Proof -/

/-- Coefficients in range. -/
structure CoefOk (rho e : ℝ) (c : Coef ℝ) : Prop where
  regen : 0 ≤ c.regen ∧ c.regen ≤ rho
  attenuate : |c.attenuate| ≤ 1
  lowpass : 0 ≤ c.lowpass ∧ c.lowpass ≤ e
  wet : 0 ≤ c.wet ∧ c.wet ≤ 1

theorem blend_bound {c : Coef ℝ} {rho e a b d x : ℝ} (h : CoefOk rho e c) (hd : |d| ≤ a) (hx : |x| ≤ b) : |blend c d x| ≤ b + a := by
  have := h.wet
  have a0 := (abs_nonneg d).trans hd
  have b0 := (abs_nonneg x).trans hx
  unfold blend
  split
  · have hx := abs_le.1 hx
    have hd := abs_le.1 hd
    rw [abs_le]
    constructor <;> nlinarith
  · linarith

theorem tot_bound {x : Fin 4 → ℝ} {b : ℝ} (hb : 0 ≤ b) (h : norm4 (mix x) ≤ b ^ 2) : |tot x| ≤ b / 8 := by
  rw [norm4_mix] at h
  have h1 : (x 0 + x 1 + x 2 + x 3) ^ 2 ≤ b ^ 2 := by
    simp only [norm4] at h
    nlinarith [sq_nonneg (x 0 - x 1), sq_nonneg (x 0 - x 2), sq_nonneg (x 0 - x 3), sq_nonneg (x 1 - x 2), sq_nonneg (x 1 - x 3), sq_nonneg (x 2 - x 3)]
  have h2 := abs_le_of_sq_le_sq h1 hb
  rw [tot, abs_mul, abs_of_pos (by norm_num : (0 : ℝ) < 1 / 8)]
  linarith

/-- What a frame keeps: `n` are the lengths of the lines, `M` bounds the input, `a` the filtered input, `b` the root of the energy in
the loop and `B` the filtered output. -/
structure Bnd (N n : Fin 3 → Fin 4 → Nat) (L : Nat) (u M a b B : ℝ) (g : Galactic ℝ) : Prop where
  inv : Inv N g
  left : ∀ k i, (g.left k i).len = n k i ∧ (g.left k i).pos < n k i
  right : ∀ k i, (g.right k i).len = n k i ∧ (g.right k i).pos < n k i
  detL : ∀ y ∈ g.detL.buf, |y| ≤ M
  detR : ∀ y ∈ g.detR.buf, |y| ≤ M
  aL : |g.iirAL| ≤ a
  aR : |g.iirAR| ≤ a
  energy : energy (Line.wait (u ^ 2)) (u ^ (2 * L) / u ^ 2) g ≤ b ^ 2
  bL : |g.iirBL| ≤ B
  bR : |g.iirBR| ≤ B

theorem Bnd.ok {N n L u M a b B} {g : Galactic ℝ} (h : Bnd N n L u M a b B g) (hn : ∀ k i, 0 < n k i ∧ n k i ≤ N k i) : LinesOk g := by
  intro k i
  refine ⟨⟨?_, ?_, ?_⟩, ⟨?_, ?_, ?_⟩⟩
  · rw [(h.inv.left k i).1]; exact (h.inv.left k i).2
  · rw [(h.left k i).1]; exact (hn k i).1
  · rw [(h.left k i).1, (h.inv.left k i).1]; exact (hn k i).2
  · rw [(h.inv.right k i).1]; exact (h.inv.right k i).2
  · rw [(h.right k i).1]; exact (hn k i).1
  · rw [(h.right k i).1, (h.inv.right k i).1]; exact (hn k i).2

theorem frame_bnd {N n L} {u M a b B rho e : ℝ} (hn : ∀ k i, 0 < n k i ∧ n k i ≤ N k i) (hL : ∀ k i, n k i ≤ L) (hu : 1 ≤ u)
    (hrho : 8 * u ^ (3 * L) * rho ≤ 1) (hM : 6 / 10 ^ 8 ≤ M) (he : e < 2) (ha : M ≤ a) (ha' : e / (2 - e) * M ≤ a) (hb : 0 ≤ b)
    (hub : b + 2 * (8 * u ^ (3 * L)) * (2 * a) ≤ u * b) (hB : b / 8 ≤ B) (hB' : e / (2 - e) * (b / 8) ≤ B)
    {c : Coef ℝ} (hc : CoefOk rho e c) {g : Galactic ℝ} (h : Bnd N n L u M a b B g) {x : ℝ × ℝ} (hx : |x.1| ≤ M ∧ |x.2| ≤ M) :
    (frame real c g x = .error .overflow ∧ 2 ≤ B + M) ∨
      ∃ g' y, frame real c g x = .ok (g', y) ∧ Bnd N n L u M a b B g' ∧ (|y.1| ≤ B + 6 * M ∧ |y.2| ≤ B + 6 * M) := by
  have hok := h.ok hn
  have hM0 : 0 ≤ M := by linarith
  obtain ⟨l, r, vb, of, hl, hr, hcase⟩ := frame_cases h.inv hok c x
  have wL := wake_bound g.fpdL x.1 M hM hx.1
  have wR := wake_bound g.fpdR x.2 M hM hx.2
  have dL : |wake g.fpdL x.1 * c.attenuate| ≤ M := by
    rw [abs_mul]; exact (mul_le_of_le_one_right (abs_nonneg _) hc.attenuate).trans wL
  have dR : |wake g.fpdR x.2 * c.attenuate| ≤ M := by
    rw [abs_mul]; exact (mul_le_of_le_one_right (abs_nonneg _) hc.attenuate).trans wR
  have bl := hl M h.detL dL
  have br := hr M h.detR dR
  have hAL : |Gal.aL c g l| ≤ a := smooth_bound hc.lowpass.1 hc.lowpass.2 he ha ha' hM0 h.aL bl
  have hAR : |Gal.aR c g r| ≤ a := smooth_bound hc.lowpass.1 hc.lowpass.2 he ha ha' hM0 h.aR br
  have ha0 : 0 ≤ a := hM0.trans ha
  have hxx : Gal.aL c g l ^ 2 + Gal.aR c g r ^ 2 ≤ (2 * a) ^ 2 := by
    have h1 := sq_le_sq' (by linarith [(abs_le.1 hAL).1]) (abs_le.1 hAL).2
    have h2 := sq_le_sq' (by linarith [(abs_le.1 hAR).1]) (abs_le.1 hAR).2
    nlinarith
  have hu0 : 0 < u := by linarith
  have hlen : ∀ k i, (g.left k i).pos < (g.left k i).len ∧ (g.left k i).len ≤ L ∧ (g.right k i).pos < (g.right k i).len ∧ (g.right k i).len ≤ L := by
    intro k i
    rw [(h.left k i).1, (h.right k i).1]
    exact ⟨(h.left k i).2, hL k i, (h.right k i).2, hL k i⟩
  have hreg : 8 * u ^ (3 * L) * c.regen ≤ 1 :=
    (mul_le_mul_of_nonneg_left hc.regen.2 (by positivity)).trans hrho
  have hE := tank_wait hok hlen hu hc.regen.1 hreg (by linarith : 0 ≤ 2 * a) hb hxx h.energy
  have hE' : energy (Line.wait (u ^ 2)) (u ^ (2 * L) / u ^ 2) (tanked c.regen g (Gal.aL c g l) (Gal.aR c g r)) ≤ b ^ 2 := by
    have h0 : 0 ≤ b + 2 * (8 * u ^ (3 * L)) * (2 * a) := by positivity
    have h1 := pow_le_pow_left₀ h0 hub 2
    rw [mul_pow] at h1
    exact le_of_mul_le_mul_left (hE.trans h1) (by positivity)
  have q0 : 0 ≤ u ^ (2 * L) / u ^ 2 := by positivity
  have hw : ∀ s : Line ℝ, 0 ≤ s.wait (u ^ 2) := wait_nonneg (by positivity)
  have s1 := stored_nonneg hw q0 (chan g.left (inL c.regen g (Gal.aL c g l)))
  have s2 := stored_nonneg hw q0 (chan g.right (inR c.regen g (Gal.aR c g r)))
  have f1 := norm4_nonneg (mix (outs (grp2 g.left (inL c.regen g (Gal.aL c g l)))))
  have f2 := norm4_nonneg (mix (outs (grp2 g.right (inR c.regen g (Gal.aR c g r)))))
  have hE'' := hE'
  simp only [Gal.energy, tanked] at hE''
  have tL := tot_bound hb (show norm4 (mix (outs (grp2 g.left (inL c.regen g (Gal.aL c g l))))) ≤ b ^ 2 by linarith)
  have tR := tot_bound hb (show norm4 (mix (outs (grp2 g.right (inR c.regen g (Gal.aR c g r))))) ≤ b ^ 2 by linarith)
  have b8 : 0 ≤ b / 8 := by positivity
  have hBL : |Gal.bL c g l| ≤ B := smooth_bound hc.lowpass.1 hc.lowpass.2 he hB hB' b8 h.bL tL
  have hBR : |Gal.bR c g r| ≤ B := smooth_bound hc.lowpass.1 hc.lowpass.2 he hB hB' b8 h.bR tR
  have oL := blend_bound hc wL hBL
  have oR := blend_bound hc wR hBR
  rcases hcase with ⟨e', h2⟩ | ⟨y, e', n1, n2⟩
  · exact .inl ⟨e', by rcases h2 with h2 | h2 <;> linarith⟩
  · refine .inr ⟨_, y, e', ?_, ?_⟩
    · have hp : ∀ m p k : Nat, p < k → m = k → (p + 1) % m < k := fun m p k h1 h2 => by
        rw [h2]; exact Nat.mod_lt _ (by omega)
      have mem : ∀ (s : Line ℝ) (v : ℝ), (∀ y ∈ s.buf, |y| ≤ M) → |v| ≤ M → ∀ y ∈ (s.put v).buf, |y| ≤ M := by
        intro s v h1 h2 y hy
        rcases List.mem_or_eq_of_mem_set hy with h | h
        · exact h1 y h
        · rw [h]; exact h2
      refine ⟨(after_inv h.inv hok c x l r vb of).1, fun k i => ?_, fun k i => ?_, mem _ _ h.detL dL, mem _ _ h.detR dR, hAL, hAR, hE', hBL, hBR⟩
      · have := chan_len g.left (inL c.regen g (Gal.aL c g l)) k i
        exact ⟨this.1.trans (h.left k i).1, this.2.2 ▸ hp _ _ _ (h.left k i).2 (h.left k i).1⟩
      · have := chan_len g.right (inR c.regen g (Gal.aR c g r)) k i
        exact ⟨this.1.trans (h.right k i).1, this.2.2 ▸ hp _ _ _ (h.right k i).2 (h.right k i).1⟩
    · constructor
      · have := abs_add_le (y.1 - blend c (wake g.fpdL x.1) (Gal.bL c g l)) (blend c (wake g.fpdL x.1) (Gal.bL c g l))
        rw [sub_add_cancel] at this
        linarith
      · have := abs_add_le (y.2 - blend c (wake g.fpdR x.2) (Gal.bR c g r)) (blend c (wake g.fpdR x.2) (Gal.bR c g r))
        rw [sub_add_cancel] at this
        linarith

theorem coef_ok {sr : Nat} (hsr : 0 < sr) {r0 e big : ℝ} (hr0 : 0 ≤ r0) {g : Galactic ℝ} (h : StartOk sr r0 e big g) (hs : g.scale = 1 / 44100 * (sr : ℝ)) :
    CoefOk ((2 - r0) / 16) e (coef real g) := by
  have h1 := h.replace
  have h2 := h.wet
  have h3 := h.brightness
  have hp : (0 : ℝ) < Real.sqrt (sr / 44100) := Real.sqrt_pos.2 (by positivity)
  have es : real.sqrt g.scale = Real.sqrt (sr / 44100) := by
    rw [hs]; change Real.sqrt _ = _; congr 1; ring
  refine ⟨⟨?_, ?_⟩, ?_, ⟨?_, ?_⟩, ?_⟩
  · simp only [coef]; linarith
  · simp only [coef]; linarith
  · simp only [coef]; rw [abs_le]; constructor <;> linarith
  · simp only [coef, es]; positivity
  · simp only [coef, es]
    rw [div_le_iff₀ hp]
    refine le_trans (le_of_eq ?_) h3
    ring
  · simp only [coef]
    have h4 : 0 ≤ 1 - g.wet := by linarith
    have h5 : (1 - g.wet) ^ 3 ≤ 1 := pow_le_one₀ h4 (by linarith)
    have h6 : 0 ≤ (1 - g.wet) ^ 3 := by positivity
    constructor <;> linarith

/-- There is a rate of decay. -/
theorem rate_exists {rho : ℝ} (h0 : 0 < rho) (h : rho < 1 / 8) (n : Nat) : ∃ u : ℝ, 1 < u ∧ 8 * u ^ n * rho ≤ 1 := by
  rcases Nat.eq_zero_or_pos n with rfl | hn
  · exact ⟨2, by norm_num, by linarith⟩
  · have h1 : 1 < 1 / (8 * rho) := by rw [lt_div_iff₀ (by positivity)]; linarith
    refine ⟨(1 / (8 * rho)) ^ ((n : ℝ)⁻¹), Real.one_lt_rpow h1 (by positivity), ?_⟩
    rw [Real.rpow_inv_natCast_pow (by positivity) (by omega)]
    apply le_of_eq
    field_simp

/-- **C62**: for every sample rate, size, lower bound on `replace` above zero and upper bound below two on the low pass coefficient
there is a number `C` such that whatever is done to the other parameters and whatever the input and the blocks are, no sample of the
output is more than `C` times as large as the largest sample of the input (a faint noise stands for silence); and the reverb does not
panic if that is below two. -/
theorem C62_bounded_partial {sr : Nat} (hsr : 650 ≤ sr) {r0 e big : ℝ} (hr0 : 0 < r0) (hr1 : r0 ≤ 1) (he : e < 2)
    (hb0 : 0 ≤ big) (hb1 : big ≤ 1) :
    ∃ C : ℝ, 0 < C ∧ ∀ (fl fr : UInt32) (rp dt br wt M : ℝ) (ops : List (Op ℝ)),
      StartOk sr r0 e big (new fl fr rp dt br big wt) → 6 / 10 ^ 8 ≤ M → (∀ o ∈ ops, InRange sr r0 e big M o) →
      ∃ g0, init (new fl fr rp dt br big wt) sr = .ok g0 ∧
        ((run real g0 ops = .error .overflow ∧ 2 ≤ C * M) ∨
          ∃ g ys, run real g0 ops = .ok (g, ys) ∧ ∀ y ∈ ys, |y.1| ≤ C * M ∧ |y.2| ≤ C * M) := by
  have hN := lineLen_ge (n := 10) (by omega : 65 * 10 ≤ sr)
  set N := lineLen ℝ sr with hNdef
  set size : ℝ := big * (9 / 10) + 1 / 10 with hsize
  have hs0 : 1 / 10 ≤ size := by rw [hsize]; linarith
  have hs1 : size ≤ 1 := by rw [hsize]; linarith
  set n : Fin 3 → Fin 4 → Nat := fun k i => setLen (N k i) size with hn
  have hnb : ∀ k i, 0 < n k i ∧ n k i ≤ N k i := fun k i => setLen_bounds (hN k i) hs0 hs1
  set L := Finset.univ.sup fun k => Finset.univ.sup (n k) with hLdef
  have hL : ∀ k i, n k i ≤ L := fun k i =>
    (Finset.le_sup (f := n k) (Finset.mem_univ i)).trans (Finset.le_sup (f := fun k => Finset.univ.sup (n k)) (Finset.mem_univ k))
  obtain ⟨u, hu, hur⟩ := rate_exists (rho := (2 - r0) / 16) (by linarith) (by linarith) (3 * L)
  set s := 8 * u ^ (3 * L) with hsdef
  have hu0 : 0 < u := by linarith
  have hspos : 0 < s := by rw [hsdef]; positivity
  set kk := max 1 (e / (2 - e)) with hkk
  have hk1 : 1 ≤ kk := le_max_left _ _
  have hk2 : e / (2 - e) ≤ kk := le_max_right _ _
  have hd : 0 < u - 1 := by linarith
  set bb := 4 * s * kk / (u - 1) with hbb
  have hbb0 : 0 < bb := by rw [hbb]; positivity
  refine ⟨kk * (bb / 8) + 6, by positivity, ?_⟩
  intro fl fr rp dt br wt M ops hstart hM ho
  refine ⟨_, init_eq _ (by omega), ?_⟩
  have hM0 : 0 ≤ M := by linarith
  -- the bounds
  have ha : M ≤ kk * M := by nlinarith
  have ha' : e / (2 - e) * M ≤ kk * M := mul_le_mul_of_nonneg_right hk2 hM0
  have hb : 0 ≤ bb * M := by positivity
  have hub : bb * M + 2 * s * (2 * (kk * M)) ≤ u * (bb * M) := by
    have e1 : (u - 1) * bb = 4 * s * kk := by rw [hbb]; field_simp
    have : (u - 1) * bb * M = 4 * s * kk * M := by rw [e1]
    linarith
  have hb8 : 0 ≤ bb * M / 8 := by positivity
  have hB : bb * M / 8 ≤ kk * (bb * M / 8) := by nlinarith
  have hB' : e / (2 - e) * (bb * M / 8) ≤ kk * (bb * M / 8) := mul_le_mul_of_nonneg_right hk2 hb8
  set B := kk * (bb * M / 8) with hBdef
  have hC : (kk * (bb / 8) + 6) * M = B + 6 * M := by rw [hBdef]; ring
  rw [hC]
  have main := run_ind (P := fun g => Bnd N n L u M (kk * M) (bb * M) B (withLen n g) ∧ StartOk sr r0 e big g ∧ g.scale = 1 / 44100 * (sr : ℝ))
    (V := InRange sr r0 e big M) (Y := fun y => |y.1| ≤ B + 6 * M ∧ |y.2| ≤ B + 6 * M) (D := 2 ≤ B + 6 * M) ?_ ops
    (fresh (new fl fr rp dt br big wt) sr) ?_ ho
  · rcases main with h | ⟨g, ys, h, _, hy⟩
    · exact .inl h
    · exact .inr ⟨g, ys, h, hy⟩
  · rintro g o ⟨hbnd, hst, hsc⟩ hv
    cases o with
    | param i v =>
      obtain ⟨g', e', rfl⟩ := param_cases g i v
      refine .inr ⟨_, _, e', ⟨⟨⟨hbnd.inv.left, hbnd.inv.right, hbnd.inv.detL, hbnd.inv.detR⟩, hbnd.left, hbnd.right, hbnd.detL, hbnd.detR, hbnd.aL, hbnd.aR, hbnd.energy,
        hbnd.bL, hbnd.bR⟩, ?_, hsc⟩, by simp⟩
      match i, hv with
      | 0, hv => exact ⟨hv, hst.brightness, hst.bigness, hst.wet⟩
      | 1, _ => exact ⟨hst.replace, hst.brightness, hst.bigness, hst.wet⟩
      | 2, hv => exact ⟨hst.replace, hv, hst.bigness, hst.wet⟩
      | 3, hv => exact ⟨hst.replace, hst.brightness, hv, hst.wet⟩
      | 4, hv => exact ⟨hst.replace, hst.brightness, hst.bigness, hv⟩
      | i + 5, _ =>
        refine ⟨?_, ?_, ?_, ?_⟩
        · simpa using hst.replace
        · simpa using hst.brightness
        · simpa using hst.bigness
        · simpa using hst.wet
    | block xs =>
      have hcoef := coef_ok (by omega) hr0.le hst hsc
      have hsz : (coef real g).size = size := by
        rw [hsize, ← hst.bigness]; rfl
      have hinv : Inv N g := ⟨hbnd.inv.left, hbnd.inv.right, hbnd.inv.detL, hbnd.inv.detR⟩
      have er := resize_eq hinv (show 0 ≤ (coef real g).size by rw [hsz]; linarith)
      rw [hsz] at er
      have hf := frames_ind (c := coef real g)
        (P := fun g' => Bnd N n L u M (kk * M) (bb * M) B g' ∧ StartOk sr r0 e big g' ∧ g'.scale = 1 / 44100 * (sr : ℝ))
        (Q := fun x => |x.1| ≤ M ∧ |x.2| ≤ M) (Y := fun y => |y.1| ≤ B + 6 * M ∧ |y.2| ≤ B + 6 * M) (D := 2 ≤ B + 6 * M)
        ?_ xs (withLen n g) ⟨hbnd, ⟨hst.replace, hst.brightness, hst.bigness, hst.wet⟩, hsc⟩ hv
      · have eo : op real g (.block xs) = frames real (coef real g) (withLen n g) xs := by
          change process real g xs = _
          simp only [process, hsz, er, bind_ok, hn]
        rw [eo]
        rcases hf with h | ⟨g', ys, e', ⟨h1, h2, h3⟩, hy⟩
        · exact .inl h
        · refine .inr ⟨g', ys, e', ⟨?_, h2, h3⟩, hy⟩
          have : withLen n g' = g' := by
            have e1 : (fun k i => { g'.left k i with len := n k i }) = g'.left := by
              funext k i; rw [← (h1.left k i).1]
            have e2 : (fun k i => { g'.right k i with len := n k i }) = g'.right := by
              funext k i; rw [← (h1.right k i).1]
            rw [withLen, e1, e2]
          rw [this]; exact h1
      · rintro g1 x ⟨h1, h2, h3⟩ hx
        rcases frame_bnd hnb hL hu.le hur hM he ha ha' hb hub hB hB' hcoef h1 hx with ⟨h, d⟩ | ⟨g', y, h, hb', hy⟩
        · exact .inl ⟨h, by linarith⟩
        · refine .inr ⟨g', y, h, ⟨hb', ?_⟩, hy⟩
          obtain ⟨l, r, vb, of, _, _, hcase⟩ := frame_cases h1.inv (h1.ok hnb) (coef real g) x
          rcases hcase with ⟨h', _⟩ | ⟨y', h', _⟩
          · rw [h] at h'; cases h'
          · rw [h] at h'
            cases h'
            exact ⟨⟨h2.replace, h2.brightness, h2.bigness, h2.wet⟩, h3⟩
  · have h0 : ∀ m : Nat, ∀ y ∈ List.replicate m (0 : ℝ), |y| ≤ M := fun m y hy => by
      rw [List.eq_of_mem_replicate hy]; simpa using hM0
    refine ⟨⟨withLen_inv (fresh_inv _ (by omega)) _, fun k i => ⟨rfl, (hnb k i).1⟩, fun k i => ⟨rfl, (hnb k i).1⟩, h0 256, h0 256, ?_, ?_, ?_, ?_, ?_⟩,
      ⟨hstart.replace, hstart.brightness, hstart.bigness, hstart.wet⟩, rfl⟩
    · change |(0 : ℝ)| ≤ _; rw [abs_zero]; positivity
    · change |(0 : ℝ)| ≤ _; rw [abs_zero]; positivity
    · have hz : ∀ (c : ℝ) (m p : Nat), (⟨List.replicate m 0, 0, p⟩ : Line ℝ).wait c = 0 := by
        intro c m p
        refine Finset.sum_eq_zero fun j _ => ?_
        have : (⟨List.replicate m 0, 0, p⟩ : Line ℝ).ahead (0 + 1 + j) = 0 := by
          simp only [Line.ahead, List.getD, List.getElem?_replicate]
          split <;> rfl
        rw [this]; ring
      have he' : energy (Line.wait (u ^ 2)) (u ^ (2 * L) / u ^ 2) (withLen n (fresh (new fl fr rp dt br big wt) sr)) = 0 := by
        simp only [energy, stored, sum4, withLen, fresh, new, hz, norm4]
        ring
      rw [he']; positivity
    · change |(0 : ℝ)| ≤ _; rw [abs_zero]; positivity
    · change |(0 : ℝ)| ≤ _; rw [abs_zero]; positivity

/-! ## The tail -/

/-- **C62**: without input the energy in the loop does not rise, whatever the lengths of the lines are set to; if `replace` is zero
then the tail never fades. -/
theorem C62_tail (g : Galactic ℝ) (h : LinesOk g) (rp : ℝ) (h0 : 0 ≤ rp) (h1 : rp ≤ 1) :
    energy Line.live 1 (tanked (coef real { g with replace := rp }).regen g 0 0) ≤ energy Line.live 1 g ∧
    (rp = 0 → energy Line.live 1 (tanked (coef real { g with replace := rp }).regen g 0 0) = energy Line.live 1 g) ∧
    ∀ n, energy Line.live 1 (withLen n g) = energy Line.live 1 g := by
  have hl := chan_live (fun k i => (h k i).1) (inL (coef real { g with replace := rp }).regen g 0)
  have hr := chan_live (fun k i => (h k i).2) (inR (coef real { g with replace := rp }).regen g 0)
  have e : (coef real { g with replace := rp }).regen = (2 - rp) / 16 := by simp only [coef]; ring
  rw [e] at hl hr ⊢
  have eL : norm4 (inL ((2 - rp) / 16) g 0) = ((2 - rp) / 16) ^ 2 * norm4 g.fbR := by simp only [norm4, inL]; ring
  have eR : norm4 (inR ((2 - rp) / 16) g 0) = ((2 - rp) / 16) ^ 2 * norm4 g.fbL := by simp only [norm4, inR]; ring
  rw [eL] at hl
  rw [eR] at hr
  have f1 := norm4_nonneg g.fbL
  have f2 := norm4_nonneg g.fbR
  refine ⟨?_, ?_, fun _ => rfl⟩
  · simp only [energy, tanked]
    have hk : 64 * ((2 - rp) / 16) ^ 2 ≤ 1 := by nlinarith
    have g1 := mul_le_mul_of_nonneg_right hk f1
    have g2 := mul_le_mul_of_nonneg_right hk f2
    linarith
  · rintro rfl
    simp only [energy, tanked]
    linarith

/-- A negative `replace` makes the energy rise with every frame. -/
theorem C62_replace_violated (g : Galactic ℝ) (h : LinesOk g) (rp : ℝ) (h0 : rp < 0) (hf : 0 < norm4 g.fbL + norm4 g.fbR) :
    energy Line.live 1 g < energy Line.live 1 (tanked (coef real { g with replace := rp }).regen g 0 0) := by
  have hl := chan_live (fun k i => (h k i).1) (inL (coef real { g with replace := rp }).regen g 0)
  have hr := chan_live (fun k i => (h k i).2) (inR (coef real { g with replace := rp }).regen g 0)
  have e : (coef real { g with replace := rp }).regen = (2 - rp) / 16 := by simp only [coef]; ring
  rw [e] at hl hr ⊢
  have eL : norm4 (inL ((2 - rp) / 16) g 0) = ((2 - rp) / 16) ^ 2 * norm4 g.fbR := by simp only [norm4, inL]; ring
  have eR : norm4 (inR ((2 - rp) / 16) g 0) = ((2 - rp) / 16) ^ 2 * norm4 g.fbL := by simp only [norm4, inR]; ring
  rw [eL] at hl
  rw [eR] at hr
  simp only [energy, tanked]
  have hk : 1 < 64 * ((2 - rp) / 16) ^ 2 := by nlinarith
  have g1 := mul_lt_mul_of_pos_right hk hf
  linarith

/-- The parameters for which the loop holds energy; the size may change. -/
def Modulated (sr : Nat) (e M : ℝ) : Op ℝ → Prop
  | .param 0 v => 0 ≤ v ∧ v ≤ 1
  | .param 2 v => (v + 1 / 100000) ^ 2 ≤ e * Real.sqrt (sr / 44100)
  | .param 3 v => 0 ≤ v ∧ v ≤ 1
  | .param 4 v => 0 ≤ v ∧ v ≤ 1
  | .param _ _ => True
  | .block xs => ∀ x ∈ xs, |x.1| ≤ M ∧ |x.2| ≤ M

/-- What a frame keeps when the size changes too. -/
structure Held (N : Fin 3 → Fin 4 → Nat) (M a b : ℝ) (g : Galactic ℝ) : Prop where
  inv : Inv N g
  detL : ∀ y ∈ g.detL.buf, |y| ≤ M
  detR : ∀ y ∈ g.detR.buf, |y| ≤ M
  aL : |g.iirAL| ≤ a
  aR : |g.iirAR| ≤ a
  energy : energy Line.live 1 g ≤ b ^ 2

theorem frame_held {N} {M a b e : ℝ} (hM : 6 / 10 ^ 8 ≤ M) (he : e < 2) (ha : M ≤ a) (ha' : e / (2 - e) * M ≤ a) (hb : 0 ≤ b)
    {c : Coef ℝ} (hc : CoefOk (1 / 8) e c) {g g' : Galactic ℝ} (h : Held N M a b g) (hok : LinesOk g) {x y : ℝ × ℝ} (hx : |x.1| ≤ M ∧ |x.2| ≤ M)
    (hf : frame real c g x = .ok (g', y)) :
    Held N M a (b + 32 * a) g' ∧ LinesOk g' ∧ g'.replace = g.replace ∧ g'.brightness = g.brightness ∧ g'.bigness = g.bigness ∧ g'.wet = g.wet ∧
      g'.scale = g.scale := by
  have hM0 : 0 ≤ M := by linarith
  have ha0 : 0 ≤ a := hM0.trans ha
  obtain ⟨l, r, vb, of, hl, hr, hcase⟩ := frame_cases h.inv hok c x
  rcases hcase with ⟨e', _⟩ | ⟨y', e', _⟩
  · rw [hf] at e'; cases e'
  rw [hf] at e'
  cases e'
  have wL := wake_bound g.fpdL x.1 M hM hx.1
  have wR := wake_bound g.fpdR x.2 M hM hx.2
  have dL : |wake g.fpdL x.1 * c.attenuate| ≤ M := by
    rw [abs_mul]; exact (mul_le_of_le_one_right (abs_nonneg _) hc.attenuate).trans wL
  have dR : |wake g.fpdR x.2 * c.attenuate| ≤ M := by
    rw [abs_mul]; exact (mul_le_of_le_one_right (abs_nonneg _) hc.attenuate).trans wR
  have hAL : |Gal.aL c g l| ≤ a := smooth_bound hc.lowpass.1 hc.lowpass.2 he ha ha' hM0 h.aL (hl M h.detL dL)
  have hAR : |Gal.aR c g r| ≤ a := smooth_bound hc.lowpass.1 hc.lowpass.2 he ha ha' hM0 h.aR (hr M h.detR dR)
  have hxx : Gal.aL c g l ^ 2 + Gal.aR c g r ^ 2 ≤ (2 * a) ^ 2 := by
    have h1 := sq_le_sq' (by linarith [(abs_le.1 hAL).1]) (abs_le.1 hAL).2
    have h2 := sq_le_sq' (by linarith [(abs_le.1 hAR).1]) (abs_le.1 hAR).2
    nlinarith
  have hE := tank_live hok hc.regen.1 hc.regen.2 (by linarith : 0 ≤ 2 * a) hb hxx h.energy
  have mem : ∀ (s : Line ℝ) (v : ℝ), (∀ y ∈ s.buf, |y| ≤ M) → |v| ≤ M → ∀ y ∈ (s.put v).buf, |y| ≤ M := by
    intro s v h1 h2 y hy
    rcases List.mem_or_eq_of_mem_set hy with h | h
    · exact h1 y h
    · rw [h]; exact h2
  have hi := after_inv h.inv hok c x l r vb of
  refine ⟨⟨hi.1, mem _ _ h.detL dL, mem _ _ h.detR dR, hAL, hAR, ?_⟩, hi.2, rfl, rfl, rfl, rfl, rfl⟩
  refine le_trans (le_of_eq ?_) (hE.trans (le_of_eq (by ring)))
  rfl

theorem frames_held {N} {M a e : ℝ} (hM : 6 / 10 ^ 8 ≤ M) (he : e < 2) (ha : M ≤ a) (ha' : e / (2 - e) * M ≤ a)
    {c : Coef ℝ} (hc : CoefOk (1 / 8) e c) (xs : List (ℝ × ℝ)) {b : ℝ} (hb : 0 ≤ b) {g g' : Galactic ℝ} (h : Held N M a b g) (hok : LinesOk g)
    (hx : ∀ x ∈ xs, |x.1| ≤ M ∧ |x.2| ≤ M) {ys : List (ℝ × ℝ)} (hf : frames real c g xs = .ok (g', ys)) :
    Held N M a (b + 32 * a * ys.length) g' ∧ g'.replace = g.replace ∧ g'.brightness = g.brightness ∧ g'.bigness = g.bigness ∧ g'.wet = g.wet ∧
      g'.scale = g.scale := by
  have ha0 : 0 ≤ a := by linarith
  induction xs generalizing g b ys with
  | nil => cases hf; simpa using h
  | cons x xs ih =>
    rw [frames] at hf
    cases h1 : frame real c g x with
    | error => rw [h1, bind_error] at hf; cases hf
    | ok r =>
      obtain ⟨g1, y⟩ := r
      rw [h1, bind_ok] at hf
      obtain ⟨k1, k2, k3⟩ := frame_held hM he ha ha' hb hc h hok (hx x (by simp)) h1
      cases h2 : frames real c g1 xs with
      | error => rw [h2, bind_error] at hf; cases hf
      | ok r =>
        obtain ⟨g2, zs⟩ := r
        rw [h2, bind_ok] at hf
        cases hf
        have := ih (by positivity) k1 k2 (fun x' h' => hx x' (by simp [h'])) h2
        obtain ⟨q1, q2, q3, q4, q5, q6⟩ := this
        obtain ⟨r2, r3, r4, r5, r6⟩ := k3
        refine ⟨?_, q2.trans r2, q3.trans r3, q4.trans r4, q5.trans r5, q6.trans r6⟩
        convert q1 using 1
        push_cast [List.length_cons]
        ring

/-- **C62**: with all parameters in range and changing at any time, the size too, the root of the energy in the loop rises by at most
a fixed multiple of the input with each frame; no way of turning the knobs makes it explode. -/
theorem C62_modulated {sr : Nat} (hsr : 650 ≤ sr) {e M : ℝ} (he : e < 2) (hM : 6 / 10 ^ 8 ≤ M) (fl fr : UInt32)
    (rp dt br big wt : ℝ) (h0 : StartOk sr 0 e big (new fl fr rp dt br big wt)) (hb : 0 ≤ big ∧ big ≤ 1) (ops : List (Op ℝ))
    (ho : ∀ o ∈ ops, Modulated sr e M o) (g0 g : Galactic ℝ) (ys : List (ℝ × ℝ)) (hi : init (new fl fr rp dt br big wt) sr = .ok g0)
    (hr : run real g0 ops = .ok (g, ys)) :
    energy Line.live 1 g ≤ (32 * (max 1 (e / (2 - e)) * M) * ys.length) ^ 2 := by
  rw [init_eq _ (by omega)] at hi
  cases hi
  have hN := lineLen_ge (n := 10) (by omega : 65 * 10 ≤ sr)
  have hM0 : 0 ≤ M := by linarith
  set a := max 1 (e / (2 - e)) * M with hadef
  have ha : M ≤ a := by rw [hadef]; nlinarith [le_max_left 1 (e / (2 - e))]
  have ha' : e / (2 - e) * M ≤ a := mul_le_mul_of_nonneg_right (le_max_right _ _) hM0
  have ha0 : 0 ≤ a := by linarith
  have key : ∀ (ops : List (Op ℝ)) (b : ℝ) (g : Galactic ℝ) (ys : List (ℝ × ℝ)) (g0 : Galactic ℝ), 0 ≤ b → Held (lineLen ℝ sr) M a b g0 →
      (∃ big, 0 ≤ big ∧ big ≤ 1 ∧ StartOk sr 0 e big g0) → g0.scale = 1 / 44100 * (sr : ℝ) → (∀ o ∈ ops, Modulated sr e M o) →
      run real g0 ops = .ok (g, ys) → Held (lineLen ℝ sr) M a (b + 32 * a * ys.length) g := by
    intro ops
    induction ops with
    | nil => intro b g ys g0 _ h _ _ _ hr; cases hr; simpa using h
    | cons o os ih =>
      intro b g ys g0 hb h hst hsc ho hr
      obtain ⟨big, hb0, hb1, hst⟩ := hst
      rw [run] at hr
      cases h1 : op real g0 o with
      | error => rw [h1, bind_error] at hr; cases hr
      | ok r =>
        obtain ⟨g1, zs⟩ := r
        rw [h1, bind_ok] at hr
        have hv := ho o (by simp)
        have mid : Held (lineLen ℝ sr) M a (b + 32 * a * zs.length) g1 ∧ (∃ big, 0 ≤ big ∧ big ≤ 1 ∧ StartOk sr 0 e big g1) ∧ g1.scale = 1 / 44100 * (sr : ℝ) := by
          cases o with
          | param i v =>
            obtain ⟨g', e', eg⟩ := param_cases g0 i v
            rw [e'] at h1
            cases h1
            refine ⟨?_, ?_, by rw [eg]; exact hsc⟩
            · rw [eg]
              rw [show b + 32 * a * (([] : List (ℝ × ℝ)).length : ℝ) = b by simp]
              exact ⟨⟨h.inv.left, h.inv.right, h.inv.detL, h.inv.detR⟩, h.detL, h.detR, h.aL, h.aR, h.energy⟩
            · rw [eg]
              match i, hv with
              | 0, hv => exact ⟨big, hb0, hb1, hv, hst.brightness, hst.bigness, hst.wet⟩
              | 1, _ => exact ⟨big, hb0, hb1, hst.replace, hst.brightness, hst.bigness, hst.wet⟩
              | 2, hv => exact ⟨big, hb0, hb1, hst.replace, hv, hst.bigness, hst.wet⟩
              | 3, hv => exact ⟨v, hv.1, hv.2, hst.replace, hst.brightness, rfl, hst.wet⟩
              | 4, hv => exact ⟨big, hb0, hb1, hst.replace, hst.brightness, hst.bigness, hv⟩
              | i + 5, _ =>
                refine ⟨big, hb0, hb1, ?_, ?_, ?_, ?_⟩
                · simpa using hst.replace
                · simpa using hst.brightness
                · simpa using hst.bigness
                · simpa using hst.wet
          | block xs =>
            have hs0 : 1 / 10 ≤ (coef real g0).size := by simp only [coef, hst.bigness]; linarith
            have hs1 : (coef real g0).size ≤ 1 := by simp only [coef, hst.bigness]; linarith
            have er := resize_eq h.inv (show 0 ≤ (coef real g0).size by linarith)
            have eo : op real g0 (.block xs) = frames real (coef real g0) (withLen (fun k i => setLen (lineLen ℝ sr k i) (coef real g0).size) g0) xs := by
              change process real g0 xs = _
              simp only [process, er, bind_ok]
            rw [eo] at h1
            have hc : CoefOk (1 / 8) e (coef real g0) := by
              have := coef_ok (by omega) le_rfl hst hsc
              rwa [show ((2 : ℝ) - 0) / 16 = 1 / 8 by norm_num] at this
            obtain ⟨q1, q2, q3, q4, q5, q6⟩ := frames_held hM he ha ha' hc xs hb
              (⟨withLen_inv h.inv _, h.detL, h.detR, h.aL, h.aR, h.energy⟩ : Held (lineLen ℝ sr) M a b
                (withLen (fun k i => setLen (lineLen ℝ sr k i) (coef real g0).size) g0))
              (withLen_ok h.inv fun k i => setLen_bounds (hN k i) hs0 hs1) hv h1
            exact ⟨q1, ⟨big, hb0, hb1, q2 ▸ hst.replace, q3 ▸ hst.brightness, q4.trans hst.bigness, q5 ▸ hst.wet⟩, q6.trans hsc⟩
        obtain ⟨m1, m2, m3⟩ := mid
        cases h2 : run real g1 os with
        | error => rw [h2, bind_error] at hr; cases hr
        | ok r =>
          obtain ⟨g2, ws⟩ := r
          rw [h2, bind_ok] at hr
          cases hr
          have := ih _ _ _ _ (by positivity) m1 m2 m3 (fun o' h' => ho o' (by simp [h'])) h2
          convert this using 1
          push_cast [List.length_append]
          ring
  have h00 : ∀ m : Nat, ∀ y ∈ List.replicate m (0 : ℝ), |y| ≤ M := fun m y hy => by
    rw [List.eq_of_mem_replicate hy]; simpa using hM0
  have hz : ∀ (m p : Nat), (⟨List.replicate m 0, 0, p⟩ : Line ℝ).live = 0 := by
    intro m p
    have h1 : sq (List.replicate m 0) = 0 := by simp [sq]
    have h2 : (⟨List.replicate m 0, 0, p⟩ : Line ℝ).out = 0 := by
      simp only [Line.out, List.getD, List.getElem?_replicate]
      split <;> rfl
    rw [Line.live, h2, h1]; ring
  have hf : Held (lineLen ℝ sr) M a 0 (fresh (new fl fr rp dt br big wt) sr) := by
    refine ⟨fresh_inv _ (by omega), h00 256, h00 256, ?_, ?_, ?_⟩
    · change |(0 : ℝ)| ≤ _; rw [abs_zero]; exact ha0
    · change |(0 : ℝ)| ≤ _; rw [abs_zero]; exact ha0
    · have : energy Line.live 1 (fresh (new fl fr rp dt br big wt) sr) = 0 := by
        simp only [energy, stored, sum4, fresh, new, hz, norm4]
        ring
      rw [this]; norm_num
  have := (key ops 0 g ys _ le_rfl hf ⟨big, hb.1, hb.2, ⟨h0.replace, h0.brightness, h0.bigness, h0.wet⟩⟩ rfl ho hr).energy
  rwa [zero_add] at this

/-! ## What goes wrong -/

theorem frames_append (c : Coef ℝ) (xs ys : List (ℝ × ℝ)) (g : Galactic ℝ) :
    frames real c g (xs ++ ys) = (do
      let r ← frames real c g xs
      let r' ← frames real c r.1 ys
      return (r'.1, r.2 ++ r'.2)) := by
  induction xs generalizing g with
  | nil =>
    rw [List.nil_append, frames, bind_ok]
    cases frames real c g ys <;> rfl
  | cons x xs ih =>
    rw [List.cons_append, frames, frames]
    cases frame real c g x with
    | error => rfl
    | ok r =>
      rw [bind_ok, bind_ok, ih]
      cases frames real c r.1 xs with
      | error => rfl
      | ok r1 =>
        simp only [bind_ok, pure_ok]
        cases frames real c r1.1 ys <;> rfl

/-- **C62**: the output does not depend on how the frames are divided into blocks. -/
theorem C62_blocks {N} {g : Galactic ℝ} (h : Inv N g) (hN : ∀ k i, 10 ≤ N k i) (hb : 0 ≤ g.bigness ∧ g.bigness ≤ 1) (xs ys : List (ℝ × ℝ)) :
    run real g [.block (xs ++ ys)] = run real g [.block xs, .block ys] := by
  set size := (coef real g).size with hsize
  have hs0 : 1 / 10 ≤ size := by rw [hsize]; simp only [coef]; linarith
  have hs1 : size ≤ 1 := by rw [hsize]; simp only [coef]; linarith
  have proc : ∀ (g' : Galactic ℝ) zs, Inv N g' → (coef real g').size = size →
      op real g' (.block zs) = frames real (coef real g') (withLen (fun k i => setLen (N k i) size) g') zs := by
    intro g' zs hi e
    change process real g' zs = _
    simp only [process, e, resize_eq hi (show 0 ≤ size by linarith), bind_ok]
  have e1 : run real g [.block (xs ++ ys)] = op real g (.block (xs ++ ys)) := by
    simp only [run]
    cases op real g (.block (xs ++ ys)) <;> simp
  rw [e1, proc g _ h rfl, frames_append]
  simp only [run, proc g xs h rfl]
  have hf := frames_ind (c := coef real g) (P := fun g' => Inv N g' ∧ LinesOk g' ∧ coef real g' = coef real g ∧
      withLen (fun k i => setLen (N k i) size) g' = g') (Q := fun _ => True) (Y := fun _ => True) (D := True) ?_ xs
      (withLen (fun k i => setLen (N k i) size) g)
      ⟨withLen_inv h _, withLen_ok h fun k i => setLen_bounds (hN k i) hs0 hs1, rfl, rfl⟩ (by simp)
  · rcases hf with ⟨e, _⟩ | ⟨g', zs, e, ⟨i1, _, i2, i3⟩, _⟩
    · rw [e]; rfl
    · rw [e, bind_ok, bind_ok]
      simp only
      rw [proc g' ys i1 (by rw [i2]), i2, i3]
      cases frames real (coef real g) g' ys <;> simp
  · rintro g1 x ⟨a, b, d1, d2⟩ _
    obtain ⟨l, r, vb, of, _, _, hc⟩ := frame_cases a b (coef real g) x
    rcases hc with ⟨e, _⟩ | ⟨y, e, _⟩
    · exact .inl ⟨e, trivial⟩
    · refine .inr ⟨_, y, e, ⟨(after_inv a b _ _ _ _ _ _).1, (after_inv a b _ _ _ _ _ _).2, d1, ?_⟩, trivial⟩
      have t1 : (fun k i => { (after (coef real g) g1 x l r vb of).left k i with len := setLen (N k i) size }) = (after (coef real g) g1 x l r vb of).left := by
        funext k i
        have h1 : ((after (coef real g) g1 x l r vb of).left k i).len = (g1.left k i).len := (chan_len _ _ k i).1
        have h2 : (g1.left k i).len = setLen (N k i) size := by
          conv_lhs => rw [← d2]
          rfl
        rw [← h2, ← h1]
      have t2 : (fun k i => { (after (coef real g) g1 x l r vb of).right k i with len := setLen (N k i) size }) = (after (coef real g) g1 x l r vb of).right := by
        funext k i
        have h1 : ((after (coef real g) g1 x l r vb of).right k i).len = (g1.right k i).len := (chan_len _ _ k i).1
        have h2 : (g1.right k i).len = setLen (N k i) size := by
          conv_lhs => rw [← d2]
          rfl
        rw [← h2, ← h1]
      rw [withLen, t1, t2]

/-- A sample of size two goes into a reverb that is all dry: it panics because the noise for the last bit of the sample is computed
with an integer of 64 bits (galactic.rs 369). -/
theorem C62_loud_violated {sr : Nat} (hsr : 650 ≤ sr) (fl fr : UInt32) (rp dt br big : ℝ) (hb : 0 ≤ big ∧ big ≤ 1) (y : ℝ) :
    ∃ g0, init (new fl fr rp dt br big 0) sr = .ok g0 ∧ run real g0 [.block [(2, y)]] = .error .overflow := by
  refine ⟨_, init_eq _ (by omega), ?_⟩
  set g := fresh (new fl fr rp dt br big 0) sr
  have hi : Inv (lineLen ℝ sr) g := fresh_inv _ (by omega)
  have hN := lineLen_ge (n := 10) (by omega : 65 * 10 ≤ sr)
  have hs0 : 1 / 10 ≤ (coef real g).size := by
    change 1 / 10 ≤ big * (9 / 10) + 1 / 10; linarith
  have hs1 : (coef real g).size ≤ 1 := by
    change big * (9 / 10) + 1 / 10 ≤ 1; linarith
  have eo : op real g (.block [(2, y)]) = frames real (coef real g) (withLen (fun k i => setLen (lineLen ℝ sr k i) (coef real g).size) g) [(2, y)] := by
    change process real g _ = _
    simp only [process, resize_eq hi (show 0 ≤ (coef real g).size by linarith), bind_ok]
  obtain ⟨l, r, vb, of, _, _, e⟩ := frame_eq (withLen_inv hi _) (withLen_ok hi fun k i => setLen_bounds (hN k i) hs0 hs1) (coef real g) (2, y)
  have hw : (coef real g).wet = 0 := by
    change 1 - (1 - (0 : ℝ)) ^ 3 = 0; norm_num
  have hd : ∀ f z, blend (coef real g) (wake f 2) z = 2 := by
    intro f z
    have : wake f (2 : ℝ) = 2 := by
      unfold wake
      rw [if_neg (by norm_num)]
    rw [blend, hw, this, if_pos (by norm_num)]
    ring
  rw [hd, dither_error _ (by norm_num), bind_error] at e
  rw [run, eo, frames, e, bind_error, bind_error]

theorem each_inv {α : Type} {f : Fin 4 → R α} {v : Fin 4 → α} (h : each f = .ok v) (i : Fin 4) : f i = .ok (v i) := by
  unfold each at h
  cases h0 : f 0 with
  | error => rw [h0, bind_error] at h; cases h
  | ok a =>
    cases h1 : f 1 with
    | error => rw [h0, bind_ok, h1, bind_error] at h; cases h
    | ok b =>
      cases h2 : f 2 with
      | error => rw [h0, bind_ok, h1, bind_ok, h2, bind_error] at h; cases h
      | ok c =>
        cases h3 : f 3 with
        | error => rw [h0, bind_ok, h1, bind_ok, h2, bind_ok, h3, bind_error] at h; cases h
        | ok d =>
          rw [h0, bind_ok, h1, bind_ok, h2, bind_ok, h3, bind_ok] at h
          cases h
          fin_cases i <;> assumption

theorem bind_inv {α β : Type} {x : R α} {f : α → R β} {b : β} (h : (x >>= f) = .ok b) : ∃ a, x = .ok a ∧ f a = .ok b := by
  cases x with
  | error => rw [bind_error] at h; cases h
  | ok a => exact ⟨a, rfl, h⟩

/-- A frame that does not panic writes to the first line. -/
theorem frame_line {c : Coef ℝ} {g g' : Galactic ℝ} {x y : ℝ × ℝ} (h : frame real c g x = .ok (g', y)) :
    ∃ v, (g.left 0 3).write v = .ok (g'.left 0 3) := by
  unfold frame at h
  simp only at h
  rw [vibrato_eq] at h
  obtain ⟨dL, -, h⟩ := bind_inv h
  obtain ⟨dR, -, h⟩ := bind_inv h
  obtain ⟨l, -, h⟩ := bind_inv h
  obtain ⟨r, -, h⟩ := bind_inv h
  obtain ⟨t, ht, h⟩ := bind_inv h
  obtain ⟨oL, -, h⟩ := bind_inv h
  obtain ⟨oR, -, h⟩ := bind_inv h
  cases h
  unfold tank at ht
  obtain ⟨l0, h0, ht⟩ := bind_inv ht
  obtain ⟨_, -, ht⟩ := bind_inv ht
  obtain ⟨_, -, ht⟩ := bind_inv ht
  obtain ⟨_, -, ht⟩ := bind_inv ht
  obtain ⟨_, -, ht⟩ := bind_inv ht
  obtain ⟨_, -, ht⟩ := bind_inv ht
  obtain ⟨_, -, ht⟩ := bind_inv ht
  obtain ⟨_, -, ht⟩ := bind_inv ht
  obtain ⟨_, -, ht⟩ := bind_inv ht
  obtain ⟨_, -, ht⟩ := bind_inv ht
  obtain ⟨_, -, ht⟩ := bind_inv ht
  obtain ⟨_, -, ht⟩ := bind_inv ht
  cases ht
  exact ⟨_, each_inv h0 3⟩

theorem frames_line {c : Coef ℝ} (xs : List (ℝ × ℝ)) {g g' : Galactic ℝ} {ys : List (ℝ × ℝ)} (h : frames real c g xs = .ok (g', ys))
    (hl : (g.left 0 3).buf.length < (g.left 0 3).len) : (g.left 0 3).pos + xs.length ≤ (g.left 0 3).buf.length ∨ xs = [] := by
  induction xs generalizing g ys with
  | nil => exact .inr rfl
  | cons x xs ih =>
    left
    rw [frames] at h
    obtain ⟨⟨g1, y⟩, h1, h⟩ := bind_inv h
    obtain ⟨⟨g2, zs⟩, h2, h⟩ := bind_inv h
    cases h
    change frames real c g1 xs = _ at h2
    obtain ⟨v, hv⟩ := frame_line h1
    unfold Line.write at hv
    split at hv
    · rename_i hp
      rw [modC, if_neg (by omega), bind_ok, Nat.mod_eq_of_lt (by omega)] at hv
      have hv := Except.ok.inj hv
      have e1 : (g1.left 0 3).buf.length = (g.left 0 3).buf.length := by rw [← hv]; simp
      have e2 : (g1.left 0 3).len = (g.left 0 3).len := by rw [← hv]
      have e3 : (g1.left 0 3).pos = (g.left 0 3).pos + 1 := by rw [← hv]
      rcases ih h2 (by omega) with h | rfl
      · simp only [List.length_cons]; omega
      · simp only [List.length_cons, List.length_nil]; omega
    · cases hv

/-- A size above one makes the lines longer than their buffers (`set_delay_length_fraction`, delay.rs 335–340, does not limit it as
`set_delay_length` does): every block that is long enough panics, whatever it holds. -/
theorem C62_size_violated {sr : Nat} (hsr : 650 ≤ sr) (fl fr : UInt32) (rp dt br wt : ℝ) (xs : List (ℝ × ℝ)) (hx : sr < xs.length) :
    ∃ g0, init (new fl fr rp dt br 2 wt) sr = .ok g0 ∧ ∀ r, run real g0 [.block xs] ≠ .ok r := by
  refine ⟨_, init_eq _ (by omega), ?_⟩
  rintro ⟨g', ys⟩ hr
  have hi : Inv (lineLen ℝ sr) (fresh (new fl fr rp dt br 2 wt) sr) := fresh_inv _ (by omega)
  have hsz : (coef real (fresh (new fl fr rp dt br 2 wt) sr)).size = 19 / 10 := by
    change (2 : ℝ) * (9 / 10) + 1 / 10 = _; norm_num
  rw [run] at hr
  obtain ⟨⟨g1, zs⟩, h1, -⟩ := bind_inv hr
  have eo : op real (fresh (new fl fr rp dt br 2 wt) sr) (.block xs) = frames real (coef real (fresh (new fl fr rp dt br 2 wt) sr))
      (withLen (fun k i => setLen (lineLen ℝ sr k i) (19 / 10)) (fresh (new fl fr rp dt br 2 wt) sr)) xs := by
    change process real _ _ = _
    simp only [process, hsz, resize_eq hi (show (0 : ℝ) ≤ 19 / 10 by norm_num), bind_ok]
  rw [eo] at h1
  have hN := lineLen_ge (n := 10) (by omega : 65 * 10 ≤ sr) 0 3
  have hN2 : lineLen ℝ sr 0 3 ≤ sr := by
    have : ⌊((times 0 3 : ℝ) / 44100) * (sr : ℝ)⌋ ≤ sr := by
      have h : ((times 0 3 : ℝ) / 44100) * (sr : ℝ) ≤ sr := by
        have : (times 0 3 : ℝ) = 680 := by simp [times]
        rw [this]
        have : (0 : ℝ) ≤ sr := Nat.cast_nonneg sr
        linarith
      exact (Int.floor_le_floor h).trans (by simp)
    unfold lineLen; omega
  have hlen : lineLen ℝ sr 0 3 < setLen (lineLen ℝ sr 0 3) (19 / 10) := by
    have hN' : (10 : ℝ) ≤ lineLen ℝ sr 0 3 := by exact_mod_cast hN
    have : ((lineLen ℝ sr 0 3 : ℤ) + 1) ≤ ⌊(lineLen ℝ sr 0 3 : ℝ) * (19 / 10)⌋ := by
      refine Int.le_floor.2 ?_
      push_cast
      linarith
    unfold setLen; omega
  have := frames_line xs h1 (by
    change (List.replicate _ _).length < _
    rw [List.length_replicate]; exact hlen)
  rcases this with h | h
  · change 0 + xs.length ≤ (List.replicate _ _).length at h
    rw [List.length_replicate] at h
    omega
  · rw [h] at hx; simp at hx

/-- At a sample rate of 8000 and full brightness the low pass coefficient is above two, and a filter with it grows beyond every bound
without input. -/
theorem C62_low_rate_violated (g : Galactic ℝ) (hs : g.scale = 1 / 44100 * (8000 : ℝ)) (hb : g.brightness = 1) :
    2 < (coef real g).lowpass ∧ ∀ old ≠ 0, ∀ K, ∃ n, K < |(fun a => smooth (coef real g).lowpass a 0)^[n] old| := by
  have hp : 2 < (coef real g).lowpass := by
    have h1 : Real.sqrt (1 / 44100 * 8000) < 43 / 100 := by
      rw [Real.sqrt_lt' (by norm_num)]; norm_num
    have h0 : 0 < Real.sqrt (1 / 44100 * 8000) := Real.sqrt_pos.2 (by norm_num)
    simp only [coef, hs, hb]
    change 2 < _ / Real.sqrt _
    rw [lt_div_iff₀ h0]
    have : (2 : ℝ) * Real.sqrt (1 / 44100 * 8000) < 1 := by linarith
    norm_num at this ⊢
    linarith
  refine ⟨hp, fun old ho K => ?_⟩
  set c := (coef real g).lowpass
  have it : ∀ n, |(fun a => smooth c a 0)^[n] old| = (c - 1) ^ n * |old| := by
    intro n
    induction n with
    | zero => simp
    | succ n ih =>
      rw [Function.iterate_succ_apply']
      have : ∀ a, |smooth c a 0| = (c - 1) * |a| := fun a => by
        rw [smooth, zero_mul, add_zero, abs_mul, abs_of_neg (by linarith : 1 - c < 0)]; ring
      rw [this, ih]; ring
  have ho' : 0 < |old| := abs_pos.2 ho
  obtain ⟨n, hn⟩ := pow_unbounded_of_one_lt (K / |old|) (by linarith : 1 < c - 1)
  exact ⟨n, by rw [it]; rwa [div_lt_iff₀ ho'] at hn⟩

/-! ## The hypotheses are met -/

example : StartOk 44100 (1 / 2) (3 / 2) 1 (new 20000 30000 (1 / 2) 1 1 1 (1 / 2)) := by
  refine ⟨⟨le_rfl, by simp only [new]; norm_num⟩, ?_, rfl, ⟨by simp only [new]; norm_num, by simp only [new]; norm_num⟩⟩
  simp only [new]
  norm_num

example : InRange 44100 (1 / 2) (3 / 2) 1 1 (.block [(1, -1), (0, 1 / 2)]) := by
  intro x hx
  simp only [List.mem_cons, List.not_mem_nil, or_false] at hx
  rcases hx with rfl | rfl <;> norm_num

example : InRange 44100 (1 / 2) (3 / 2) 1 1 (.param 2 (1 / 4)) := by
  simp only [InRange]
  norm_num

end Verif.Gal
