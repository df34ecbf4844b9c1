import Verif.Lemmas.Galactic
import Mathlib.Analysis.SpecialFunctions.Pow.Real

/-!
# C62: the reverb is stable and does not panic
-/

namespace Verif.Gal

/-- The functions of the maths library over the reals. -/
noncomputable def real : Fns ℝ := ⟨Real.sin, Real.sqrt, Real.pi, Int.log 2⟩

/-! ## Parts of a frame -/

theorem wake_bound (f : UInt32) (x M : ℝ) (hM : 6 / 10 ^ 8 ≤ M) (hx : |x| ≤ M) : |wake f x| ≤ M := by
  unfold wake
  split
  · have h : (f.toNat : ℝ) < 4294967296 := by exact_mod_cast f.toNat_lt
    have h0 : (0 : ℝ) ≤ f.toNat := Nat.cast_nonneg _
    rw [abs_of_nonneg (by positivity)]
    linarith
  · exact hx

theorem expo_small {s : ℝ} (h : |s| < 2) : expo real s ≤ 1 := by
  unfold expo
  split
  · omega
  · rename_i hs
    have hp : 0 < |s| := abs_pos.2 hs
    have h1 : Int.log 2 |s| < 1 := (Int.lt_zpow_iff_log_lt (by norm_num) hp).1 (by simpa using h)
    change min (Int.log 2 |s| + 1).toNat _ ≤ 1
    omega

theorem expo_large {s : ℝ} (h : 2 ≤ |s|) : 2 ≤ expo real s := by
  unfold expo
  have hp : 0 < |s| := by linarith
  rw [if_neg (abs_pos.1 hp)]
  have h1 : 1 ≤ Int.log 2 |s| := (Int.zpow_le_iff_le_log (by norm_num) hp).1 (by simpa using h)
  change 2 ≤ min (Int.log 2 |s| + 1).toNat _
  omega

/-- A sample of a size below two gets noise that is too faint to hear. -/
theorem dither_ok (f : UInt32) {s : ℝ} (h : |s| < 2) : ∃ y, dither real f s = .ok y ∧ |y - s| ≤ 3 / 10 ^ 7 := by
  have he := expo_small h
  unfold dither
  rw [addC, if_pos (by omega), bind_ok, if_neg (by omega)]
  refine ⟨_, rfl, ?_⟩
  rw [add_sub_cancel_left]
  have h1 : (((xorshift f).toNat : ℝ)) < 4294967296 := by exact_mod_cast (xorshift f).toNat_lt
  have h0 : (0 : ℝ) ≤ (xorshift f).toNat := Nat.cast_nonneg _
  have hp : (2 : ℝ) ^ (expo real s + 62) ≤ 2 ^ 63 := pow_le_pow_right₀ (by norm_num) (by omega)
  have hp0 : (0 : ℝ) < 2 ^ (expo real s + 62) := by positivity
  rw [abs_mul, abs_mul, abs_of_pos hp0, abs_of_pos (by norm_num : (0 : ℝ) < 55 / 10 ^ 37)]
  have ha : |((xorshift f).toNat : ℝ) - 2147483647| ≤ 2147483649 := abs_le.2 ⟨by linarith, by linarith⟩
  calc |((xorshift f).toNat : ℝ) - 2147483647| * (55 / 10 ^ 37) * 2 ^ (expo real s + 62)
      ≤ 2147483649 * (55 / 10 ^ 37) * 2 ^ 63 := by gcongr
    _ ≤ 3 / 10 ^ 7 := by norm_num

theorem dither_error (f : UInt32) {s : ℝ} (h : 2 ≤ |s|) : dither real f s = .error .overflow := by
  have he := expo_large h
  unfold dither
  by_cases hc : expo real s + 62 < U32
  · rw [addC, if_pos hc, bind_ok, if_pos (by omega)]
  · rw [addC, if_neg hc, bind_error]

theorem readLin_ok {s : Line ℝ} (h : 0 < s.buf.length) {i : ℝ} (hi : 0 ≤ i) :
    ∃ v, s.readLin i = .ok v ∧ ∀ B, (∀ y ∈ s.buf, |y| ≤ B) → |v| ≤ B := by
  have hf : 0 ≤ ⌊i⌋ := Int.floor_nonneg.2 hi
  unfold Line.readLin
  rw [if_neg (not_lt.2 hf)]
  simp only
  set lo := ⌊i⌋.toNat % s.buf.length with hlo
  set hg := if s.buf.length ≤ ⌈i⌉.toNat - (⌊i⌋.toNat - lo) then ⌈i⌉.toNat - (⌊i⌋.toNat - lo) - s.buf.length
    else ⌈i⌉.toNat - (⌊i⌋.toNat - lo) with hhg
  have l1 : lo < s.buf.length := Nat.mod_lt _ h
  have l2 : hg < s.buf.length := by
    have hc : ⌈i⌉ ≤ ⌊i⌋ + 1 := Int.ceil_le_floor_add_one i
    have : lo ≤ ⌊i⌋.toNat := Nat.mod_le _ _
    rw [hhg]
    split <;> omega
  rw [get_eq l1, bind_ok, get_eq l2, bind_ok]
  refine ⟨_, rfl, fun B hB => ?_⟩
  have m : ∀ k, k < s.buf.length → |s.buf.getD k 0| ≤ B := fun k hk => by
    refine hB _ ?_
    rw [List.getD, List.getElem?_eq_getElem hk]
    exact List.getElem_mem hk
  have a1 := abs_le.1 (m lo l1)
  have a2 := abs_le.1 (m hg l2)
  have t0 : 0 ≤ i - ⌊i⌋ := by linarith [Int.floor_le i]
  have t1 : i - ⌊i⌋ ≤ 1 := by linarith [Int.lt_floor_add_one i]
  generalize s.buf.getD lo 0 = a at *
  generalize s.buf.getD hg 0 = b at *
  generalize i - ⌊i⌋ = t at *
  rw [show a + (b - a) * t = (1 - t) * a + t * b by ring]
  rw [abs_le]
  constructor <;> nlinarith

theorem smooth_bound {c e a old x M : ℝ} (h0 : 0 ≤ c) (hc : c ≤ e) (he : e < 2) (ha : M ≤ a) (ha' : e / (2 - e) * M ≤ a) (hM : 0 ≤ M)
    (ho : |old| ≤ a) (hx : |x| ≤ M) : |smooth c old x| ≤ a := by
  have ha'' : e * M ≤ a * (2 - e) := by
    have : 0 < 2 - e := by linarith
    have := mul_le_mul_of_nonneg_right ha' this.le
    rw [show e / (2 - e) * M * (2 - e) = e * M by field_simp] at this
    exact this
  unfold smooth
  have h1 : |old * (1 - c) + x * c| ≤ a * |1 - c| + M * c := by
    refine (abs_add_le _ _).trans ?_
    rw [abs_mul, abs_mul, abs_of_nonneg h0]
    exact add_le_add (mul_le_mul_of_nonneg_right ho (abs_nonneg _)) (mul_le_mul_of_nonneg_right hx h0)
  refine h1.trans ?_
  rcases abs_cases (1 - c) with ⟨h, _⟩ | ⟨h, _⟩ <;> rw [h]
  · nlinarith
  · nlinarith

/-! ## One frame -/

/-- What holds between operations, with the sizes of the buffers. -/
structure Inv (N : Fin 3 → Fin 4 → Nat) (g : Galactic ℝ) : Prop where
  left : ∀ k i, (g.left k i).buf.length = N k i ∧ (g.left k i).pos < N k i
  right : ∀ k i, (g.right k i).buf.length = N k i ∧ (g.right k i).pos < N k i
  detL : g.detL.Ok
  detR : g.detR.Ok

/-- The filtered input. -/
noncomputable def aL (c : Coef ℝ) (g : Galactic ℝ) (l : ℝ) : ℝ := smooth c.lowpass g.iirAL l
/-- See `aL`. -/
noncomputable def aR (c : Coef ℝ) (g : Galactic ℝ) (r : ℝ) : ℝ := smooth c.lowpass g.iirAR r
/-- The sum of four. -/
noncomputable def tot (x : Fin 4 → ℝ) : ℝ := (x 0 + x 1 + x 2 + x 3) * (1 / 8)
/-- The filtered output. -/
noncomputable def bL (c : Coef ℝ) (g : Galactic ℝ) (l : ℝ) : ℝ :=
  smooth c.lowpass g.iirBL (tot (outs (grp2 g.left (inL c.regen g (aL c g l)))))
/-- See `bL`. -/
noncomputable def bR (c : Coef ℝ) (g : Galactic ℝ) (r : ℝ) : ℝ :=
  smooth c.lowpass g.iirBR (tot (outs (grp2 g.right (inR c.regen g (aR c g r)))))

/-- The reverb after a frame in which the vibrato gave `l` and `r` and went on to `vib` and `oldfpd`. -/
noncomputable def after (c : Coef ℝ) (g : Galactic ℝ) (x : ℝ × ℝ) (l r vib oldfpd : ℝ) : Galactic ℝ :=
  { tanked c.regen g (aL c g l) (aR c g r) with
    detL := g.detL.put (wake g.fpdL x.1 * c.attenuate), detR := g.detR.put (wake g.fpdR x.2 * c.attenuate)
    iirAL := aL c g l, iirAR := aR c g r, iirBL := bL c g l, iirBR := bR c g r
    fpdL := xorshift g.fpdL, fpdR := xorshift g.fpdR
    vib, oldfpd }

theorem vibrato_eq (c : Coef ℝ) (g : Galactic ℝ) :
    vibrato real c g = { g with vib := (vibrato real c g).vib, oldfpd := (vibrato real c g).oldfpd } := by
  unfold vibrato
  simp only
  split <;> rfl

theorem frame_eq {N} {g : Galactic ℝ} (h : Inv N g) (hl : LinesOk g) (c : Coef ℝ) (x : ℝ × ℝ) : ∃ l r vb of : ℝ,
    (∀ B, (∀ y ∈ g.detL.buf, |y| ≤ B) → |wake g.fpdL x.1 * c.attenuate| ≤ B → |l| ≤ B) ∧
    (∀ B, (∀ y ∈ g.detR.buf, |y| ≤ B) → |wake g.fpdR x.2 * c.attenuate| ≤ B → |r| ≤ B) ∧
    frame real c g x = (do
      let outL ← dither real g.fpdL (blend c (wake g.fpdL x.1) (bL c g l))
      let outR ← dither real g.fpdR (blend c (wake g.fpdR x.2) (bR c g r))
      return (after c g x l r vb of, (outL, outR))) := by
  have hpos : ∀ (p : Nat) (t : ℝ), 0 ≤ (p : ℝ) + (real.sin t + 1) * 127 := fun p t => by
    have : -1 ≤ real.sin t := Real.neg_one_le_sin t
    have : (0 : ℝ) ≤ p := Nat.cast_nonneg p
    nlinarith
  have okL := h.detL.put (wake g.fpdL x.1 * c.attenuate)
  have okR := h.detR.put (wake g.fpdR x.2 * c.attenuate)
  obtain ⟨l, el, bl⟩ := readLin_ok (lt_of_le_of_lt (Nat.zero_le _) okL.1) (hpos (g.detL.put (wake g.fpdL x.1 * c.attenuate)).pos (vibrato real c g).vib)
  obtain ⟨r, er, br⟩ := readLin_ok (lt_of_le_of_lt (Nat.zero_le _) okR.1) (hpos (g.detR.put (wake g.fpdR x.2 * c.attenuate)).pos ((vibrato real c g).vib + real.pi / 2))
  have mem : ∀ (s : Line ℝ) (v B : ℝ), (∀ y ∈ s.buf, |y| ≤ B) → |v| ≤ B → ∀ y ∈ (s.put v).buf, |y| ≤ B := by
    intro s v B h1 h2 y hy
    rcases List.mem_or_eq_of_mem_set hy with h | h
    · exact h1 y h
    · rw [h]; exact h2
  refine ⟨l, r, (vibrato real c g).vib, (vibrato real c g).oldfpd, fun B h1 h2 => bl B (mem _ _ _ h1 h2), fun B h1 h2 => br B (mem _ _ _ h1 h2), ?_⟩
  unfold frame
  simp only
  rw [vibrato_eq] at el er ⊢
  generalize (vibrato real c g).vib = vb at *
  generalize (vibrato real c g).oldfpd = of at *
  have hl' : LinesOk { g with vib := vb, oldfpd := of } := hl
  rw [write_eq h.detL, bind_ok, write_eq h.detR, bind_ok]
  rw [el, bind_ok, er, bind_ok, tank_eq hl', bind_ok]
  rfl

/-! ## Runs -/

theorem frames_ind {c : Coef ℝ} {P : Galactic ℝ → Prop} {Q Y : ℝ × ℝ → Prop} {D : Prop}
    (h : ∀ g x, P g → Q x → (frame real c g x = .error .overflow ∧ D) ∨ ∃ g' y, frame real c g x = .ok (g', y) ∧ P g' ∧ Y y)
    (xs : List (ℝ × ℝ)) (g : Galactic ℝ) (hg : P g) (hx : ∀ x ∈ xs, Q x) :
    (frames real c g xs = .error .overflow ∧ D) ∨ ∃ g' ys, frames real c g xs = .ok (g', ys) ∧ P g' ∧ ∀ y ∈ ys, Y y := by
  induction xs generalizing g with
  | nil => exact .inr ⟨g, [], rfl, hg, by simp⟩
  | cons x xs ih =>
    rcases h g x hg (hx x (by simp)) with ⟨e, d⟩ | ⟨g1, y, e, hg1, hy⟩
    · exact .inl ⟨by rw [frames, e, bind_error], d⟩
    · rcases ih g1 hg1 (fun x' h' => hx x' (by simp [h'])) with ⟨e', d⟩ | ⟨g2, ys, e', hg2, hys⟩
      · exact .inl ⟨by rw [frames, e, bind_ok, e', bind_error], d⟩
      · refine .inr ⟨g2, y :: ys, by rw [frames, e, bind_ok, e', bind_ok]; rfl, hg2, ?_⟩
        intro z hz
        rcases List.mem_cons.1 hz with rfl | hz
        · exact hy
        · exact hys z hz

theorem run_ind {P : Galactic ℝ → Prop} {V : Op ℝ → Prop} {Y : ℝ × ℝ → Prop} {D : Prop}
    (h : ∀ g o, P g → V o → (op real g o = .error .overflow ∧ D) ∨ ∃ g' ys, op real g o = .ok (g', ys) ∧ P g' ∧ ∀ y ∈ ys, Y y)
    (os : List (Op ℝ)) (g : Galactic ℝ) (hg : P g) (ho : ∀ o ∈ os, V o) :
    (run real g os = .error .overflow ∧ D) ∨ ∃ g' ys, run real g os = .ok (g', ys) ∧ P g' ∧ ∀ y ∈ ys, Y y := by
  induction os generalizing g with
  | nil => exact .inr ⟨g, [], rfl, hg, by simp⟩
  | cons o os ih =>
    rcases h g o hg (ho o (by simp)) with ⟨e, d⟩ | ⟨g1, y, e, hg1, hy⟩
    · exact .inl ⟨by rw [run, e, bind_error], d⟩
    · rcases ih g1 hg1 (fun x' h' => ho x' (by simp [h'])) with ⟨e', d⟩ | ⟨g2, ys, e', hg2, hys⟩
      · exact .inl ⟨by rw [run, e, bind_ok, e', bind_error], d⟩
      · refine .inr ⟨g2, y ++ ys, by rw [run, e, bind_ok, e', bind_ok]; rfl, hg2, ?_⟩
        intro z hz
        rcases List.mem_append.1 hz with hz | hz
        · exact hy z hz
        · exact hys z hz

/-- A frame either overflows because a sample is too large, or gives samples that differ by the noise only. -/
theorem frame_cases {N} {g : Galactic ℝ} (h : Inv N g) (hl : LinesOk g) (c : Coef ℝ) (x : ℝ × ℝ) : ∃ l r vb of : ℝ,
    (∀ B, (∀ y ∈ g.detL.buf, |y| ≤ B) → |wake g.fpdL x.1 * c.attenuate| ≤ B → |l| ≤ B) ∧
    (∀ B, (∀ y ∈ g.detR.buf, |y| ≤ B) → |wake g.fpdR x.2 * c.attenuate| ≤ B → |r| ≤ B) ∧
    ((frame real c g x = .error .overflow ∧
        (2 ≤ |blend c (wake g.fpdL x.1) (bL c g l)| ∨ 2 ≤ |blend c (wake g.fpdR x.2) (bR c g r)|)) ∨
      ∃ y : ℝ × ℝ, frame real c g x = .ok (after c g x l r vb of, y) ∧
        |y.1 - blend c (wake g.fpdL x.1) (bL c g l)| ≤ 3 / 10 ^ 7 ∧ |y.2 - blend c (wake g.fpdR x.2) (bR c g r)| ≤ 3 / 10 ^ 7) := by
  obtain ⟨l, r, vb, of, h1, h2, e⟩ := frame_eq h hl c x
  refine ⟨l, r, vb, of, h1, h2, ?_⟩
  rw [e]
  rcases lt_or_ge |blend c (wake g.fpdL x.1) (bL c g l)| 2 with hL | hL
  · obtain ⟨yL, eL, nL⟩ := dither_ok g.fpdL hL
    rw [eL, bind_ok]
    rcases lt_or_ge |blend c (wake g.fpdR x.2) (bR c g r)| 2 with hR | hR
    · obtain ⟨yR, eR, nR⟩ := dither_ok g.fpdR hR
      rw [eR, bind_ok]
      exact .inr ⟨(yL, yR), rfl, nL, nR⟩
    · rw [dither_error _ hR, bind_error]
      exact .inl ⟨rfl, .inr hR⟩
  · rw [dither_error _ hL, bind_error]
    exact .inl ⟨rfl, .inl hL⟩

theorem put_len (s : Line ℝ) (x : ℝ) : (s.put x).len = s.len := rfl
theorem put_buf_len (s : Line ℝ) (x : ℝ) : (s.put x).buf.length = s.buf.length := by simp [Line.put]

theorem chan_len (ls : Fin 3 → Fin 4 → Line ℝ) (x : Fin 4 → ℝ) (k i) :
    (chan ls x k i).len = (ls k i).len ∧ (chan ls x k i).buf.length = (ls k i).buf.length ∧
      (chan ls x k i).pos = ((ls k i).pos + 1) % (ls k i).len := by
  fin_cases k
  · exact ⟨rfl, put_buf_len _ _, rfl⟩
  · exact ⟨rfl, put_buf_len _ _, rfl⟩
  · exact ⟨rfl, put_buf_len _ _, rfl⟩

theorem after_inv {N} {g : Galactic ℝ} (h : Inv N g) (hl : LinesOk g) (c x l r vb of) :
    Inv N (after c g x l r vb of) ∧ LinesOk (after c g x l r vb of) := by
  have okL : ∀ k i, ((after c g x l r vb of).left k i).Ok := fun k i => chan_ok (fun k i => (hl k i).1) _ k i
  have okR : ∀ k i, ((after c g x l r vb of).right k i).Ok := fun k i => chan_ok (fun k i => (hl k i).2) _ k i
  refine ⟨⟨fun k i => ?_, fun k i => ?_, h.detL.put _, h.detR.put _⟩, fun k i => ⟨okL k i, okR k i⟩⟩
  · have e : ((after c g x l r vb of).left k i).buf.length = N k i := (chan_len _ _ k i).2.1.trans (h.left k i).1
    exact ⟨e, e ▸ (okL k i).1⟩
  · have e : ((after c g x l r vb of).right k i).buf.length = N k i := (chan_len _ _ k i).2.1.trans (h.right k i).1
    exact ⟨e, e ▸ (okR k i).1⟩

/-! ## The length of the lines -/

/-- The length that `process` sets. -/
noncomputable def setLen (N : Nat) (size : ℝ) : Nat := ⌊(N : ℝ) * size⌋.toNat

theorem setLen_bounds {N : Nat} {size : ℝ} (hN : 10 ≤ N) (h0 : 1 / 10 ≤ size) (h1 : size ≤ 1) : 0 < setLen N size ∧ setLen N size ≤ N := by
  have hN' : (10 : ℝ) ≤ N := by exact_mod_cast hN
  have a : (1 : ℤ) ≤ ⌊(N : ℝ) * size⌋ := Int.le_floor.2 (by push_cast; nlinarith)
  have b : ⌊(N : ℝ) * size⌋ ≤ N := by
    have : (N : ℝ) * size ≤ N := by nlinarith
    exact_mod_cast (Int.floor_le_floor this).trans (by simp)
  unfold setLen
  omega

/-- The reverb with lines of given lengths. -/
def withLen (n : Fin 3 → Fin 4 → Nat) (g : Galactic ℝ) : Galactic ℝ :=
  { g with left := fun k i => { g.left k i with len := n k i }, right := fun k i => { g.right k i with len := n k i } }

theorem resize_eq {N} {g : Galactic ℝ} (h : Inv N g) {size : ℝ} (h0 : 0 ≤ size) :
    resize g size = .ok (withLen (fun k i => setLen (N k i) size) g) := by
  have key : ∀ (s : Line ℝ) n, s.buf.length = n → s.setFraction size = .ok { s with len := setLen n size } := by
    intro s n e
    have : 0 ≤ (s.buf.length : ℝ) * size := by positivity
    rw [Line.setFraction, if_neg (by linarith), setLen, e]
  have hl : (each3 fun k => each fun i => (g.left k i).setFraction size) =
      .ok (fun k i => { g.left k i with len := setLen (N k i) size }) :=
    each3_ok fun k => each_ok fun i => key _ _ (h.left k i).1
  have hr : (each3 fun k => each fun i => (g.right k i).setFraction size) =
      .ok (fun k i => { g.right k i with len := setLen (N k i) size }) :=
    each3_ok fun k => each_ok fun i => key _ _ (h.right k i).1
  rw [resize, hl, bind_ok, hr, bind_ok]
  rfl

theorem withLen_inv {N} {g : Galactic ℝ} (h : Inv N g) (n) : Inv N (withLen n g) := ⟨h.left, h.right, h.detL, h.detR⟩

theorem withLen_ok {N} {g : Galactic ℝ} (h : Inv N g) {n : Fin 3 → Fin 4 → Nat} (hn : ∀ k i, 0 < n k i ∧ n k i ≤ N k i) :
    LinesOk (withLen n g) := fun k i =>
  ⟨⟨(h.left k i).1 ▸ (h.left k i).2, (hn k i).1, (h.left k i).1 ▸ (hn k i).2⟩,
   ⟨(h.right k i).1 ▸ (h.right k i).2, (hn k i).1, (h.right k i).1 ▸ (hn k i).2⟩⟩

/-! ## `init` -/

theorem lineLen_ge {sr n : Nat} (h : 65 * n ≤ sr) (k i) : n ≤ lineLen ℝ sr k i := by
  have ht : 680 ≤ times k i := by fin_cases k <;> fin_cases i <;> simp [times]
  have ht' : (680 : ℝ) ≤ times k i := by exact_mod_cast ht
  have h' : (65 : ℝ) * n ≤ sr := by exact_mod_cast h
  have : (n : ℤ) ≤ ⌊((times k i : ℝ) / 44100) * (sr : ℝ)⌋ := by
    refine Int.le_floor.2 ?_
    push_cast
    have h1 : (680 : ℝ) / 44100 ≤ (times k i : ℝ) / 44100 := by gcongr
    have h2 : (680 : ℝ) / 44100 * (65 * n) ≤ (times k i : ℝ) / 44100 * sr := by
      apply mul_le_mul h1 h' (by positivity) (by positivity)
    have h3 : (0 : ℝ) ≤ n := Nat.cast_nonneg n
    linarith
  unfold lineLen
  omega

/-- The reverb after `init`. -/
noncomputable def fresh (g : Galactic ℝ) (sr : Nat) : Galactic ℝ :=
  { g with
    left := fun k i => ⟨List.replicate (lineLen ℝ sr k i) 0, 0, lineLen ℝ sr k i⟩
    right := fun k i => ⟨List.replicate (lineLen ℝ sr k i) 0, 0, lineLen ℝ sr k i⟩
    detL := ⟨List.replicate 256 0, 0, 256⟩, detR := ⟨List.replicate 256 0, 0, 256⟩, scale := 1 / 44100 * (sr : ℝ) }

theorem init_eq (g : Galactic ℝ) {sr : Nat} (h : 65 ≤ sr) : init g sr = .ok (fresh g sr) := by
  have key : (each3 fun k => each fun i => Line.new (lineLen ℝ sr k i)) =
      (.ok (fun k i => ⟨List.replicate (lineLen ℝ sr k i) 0, 0, lineLen ℝ sr k i⟩) : R (Fin 3 → Fin 4 → Line ℝ)) :=
    each3_ok fun k => each_ok fun i => by
      rw [Line.new, if_neg (by have := lineLen_ge (n := 1) (by omega : 65 * 1 ≤ sr) k i; omega)]
  have hd : (Line.new 256 : R (Line ℝ)) = .ok ⟨List.replicate 256 0, 0, 256⟩ := rfl
  rw [init, key, bind_ok, bind_ok, hd, bind_ok, bind_ok]
  rfl

theorem fresh_inv (g : Galactic ℝ) {sr : Nat} (h : 65 ≤ sr) : Inv (lineLen ℝ sr) (fresh g sr) := by
  have hN := lineLen_ge (n := 1) (by omega : 65 * 1 ≤ sr)
  have hd : (⟨List.replicate 256 0, 0, 256⟩ : Line ℝ).Ok := by
    refine ⟨?_, by norm_num, ?_⟩ <;> rw [List.length_replicate]
    norm_num
  exact ⟨fun k i => ⟨List.length_replicate, hN k i⟩, fun k i => ⟨List.length_replicate, hN k i⟩, hd, hd⟩

/-! ## C62: no panics -/

/-- The size is changed to sizes in range only. -/
def SizeOk : Op ℝ → Prop
  | .param 3 v => 0 ≤ v ∧ v ≤ 1
  | _ => True

theorem param_cases (g : Galactic ℝ) (i : Nat) (v : ℝ) : ∃ g', op real g (.param i v) = .ok (g', []) ∧
    g' = { g with replace := if i = 0 then v else g.replace, detune := if i = 1 then v else g.detune
                  brightness := if i = 2 then v else g.brightness, bigness := if i = 3 then v else g.bigness
                  wet := if i = 4 then v else g.wet } := by
  have e : op real g (.param i v) = (param g i (some v) >>= fun g => pure (g, [])) := rfl
  refine ⟨_, ?_, rfl⟩
  rw [e]
  match i with
  | 0 | 1 | 2 | 3 | 4 => rfl
  | i + 5 =>
    have e : param g (i + 5) (some v) = .ok g := by simp [param]
    rw [e, bind_ok, if_neg (by omega), if_neg (by omega), if_neg (by omega), if_neg (by omega), if_neg (by omega)]
    rfl

/-- **C62**: at every sample rate from 650 up, whatever the parameters, the input and the blocks are, the only way for the reverb to
panic is a sample that is too large; the size must stay in range. -/
theorem C62_safe {sr : Nat} (hsr : 650 ≤ sr) (g : Galactic ℝ) (hb : 0 ≤ g.bigness ∧ g.bigness ≤ 1) (ops : List (Op ℝ))
    (ho : ∀ o ∈ ops, SizeOk o) : ∃ g0, init g sr = .ok g0 ∧
      (run real g0 ops = .error .overflow ∨ ∃ r, run real g0 ops = .ok r) := by
  refine ⟨_, init_eq g (by omega), ?_⟩
  have hN := lineLen_ge (n := 10) (by omega : 65 * 10 ≤ sr)
  have := run_ind (P := fun g => Inv (lineLen ℝ sr) g ∧ 0 ≤ g.bigness ∧ g.bigness ≤ 1) (V := SizeOk) (Y := fun _ => True) (D := True)
    ?_ ops (fresh g sr) ⟨fresh_inv g (by omega), hb⟩ ho
  · rcases this with ⟨e, _⟩ | ⟨g', ys, e, _⟩
    · exact .inl e
    · exact .inr ⟨_, e⟩
  · rintro g o ⟨hi, h0, h1⟩ hv
    cases o with
    | param i v =>
      obtain ⟨g', e, rfl⟩ := param_cases g i v
      refine .inr ⟨_, _, e, ⟨⟨hi.left, hi.right, hi.detL, hi.detR⟩, ?_⟩, by simp⟩
      change 0 ≤ (if i = 3 then v else g.bigness) ∧ (if i = 3 then v else g.bigness) ≤ 1
      split
      · rename_i h; subst h; exact hv
      · exact ⟨h0, h1⟩
    | block xs =>
      have hs0 : 1 / 10 ≤ (coef real g).size := by simp only [coef]; linarith
      have hs1 : (coef real g).size ≤ 1 := by simp only [coef]; linarith
      have e := resize_eq hi (show 0 ≤ (coef real g).size by linarith)
      have hf := frames_ind (c := coef real g) (P := fun g => Inv (lineLen ℝ sr) g ∧ LinesOk g ∧ 0 ≤ g.bigness ∧ g.bigness ≤ 1)
        (Q := fun _ => True) (Y := fun _ => True) (D := True) ?_ xs _
        ⟨withLen_inv hi _, withLen_ok hi fun k i => setLen_bounds (hN k i) hs0 hs1, h0, h1⟩ (by simp)
      · have eo : op real g (.block xs) = frames real (coef real g) (withLen (fun k i => setLen (lineLen ℝ sr k i) (coef real g).size) g) xs := by
          change process real g xs = _
          simp only [process, e, bind_ok]
        rw [eo]
        rcases hf with h | ⟨g', ys, e', ⟨a, _, b⟩, _⟩
        · exact .inl h
        · exact .inr ⟨g', ys, e', ⟨a, b⟩, by simp⟩
      · rintro g1 x ⟨a, b, d⟩ _
        obtain ⟨l, r, vb, of, _, _, h⟩ := frame_cases a b (coef real g) x
        rcases h with ⟨h, _⟩ | ⟨y, h, _⟩
        · exact .inl ⟨h, trivial⟩
        · exact .inr ⟨_, y, h, ⟨(after_inv a b _ _ _ _ _ _).1, (after_inv a b _ _ _ _ _ _).2, d⟩, trivial⟩

end Verif.Gal
