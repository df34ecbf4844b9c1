import Verif.Props.FloatDelay
import Mathlib.Algebra.Order.Archimedean.Basic

/-!
# C97: the delay with feedback stays bounded while its delay time is changed
-/

namespace Verif.Fl

open Verif.Dl (Interp Allpass Feedback asUsize)

variable {fl : ℚ → ℚ} {u η : ℚ}

/-! ### Feedback up to three eighths -/

theorem feedbackF_inv {s : Feedback} {h : List ℚ} {m : Nat} (I : Dl.Inv s.dl h m) (x : ℚ) :
    let d := (interpF fl s.dl.ap (h.getD (m - 1) 0)).2
    let w := fl (fl (d * s.fb) + x)
    ∃ s', feedbackF fl s x = .ok (s', fl (d - fl (s.fb * w))) ∧ Dl.Inv s'.dl (w :: h) m ∧ s'.fb = s.fb ∧
      s'.dl.ap = ⟨s.dl.ap.coeff, h.getD (m - 1) 0, d⟩ ∧ s'.dl.buf.length = s.dl.buf.length := by
  intro d w
  obtain ⟨s', e, I', ha, hl⟩ := Dl.write_inv I (interpF fl s.dl.ap (h.getD (m - 1) 0)).1 w
  exact ⟨⟨s.fb, s'⟩, by simp only [feedbackF, readF_inv I, bind_ok]; rw [e]; rfl, I', rfl, ha, hl⟩

theorem fb_small_write (N : RndNear fl u η) (hη : η ≤ 1 / 1024) {M g d x : ℚ} (hM : 1 ≤ M) (hg : |g| ≤ 3 / 8)
    (hd : |d| ≤ 5 / 2 * (40 * M)) (hx : |x| ≤ M) : |fl (fl (d * g) + x)| ≤ 40 * M := by
  have h := fb_write N g d x
  have hu0 := N.u0
  have hu1 := N.u1
  have h1 : |g| * |d| ≤ 3 / 8 * (5 / 2 * (40 * M)) := mul_le_mul hg hd (abs_nonneg _) (by norm_num)
  have h2 : (1 + u) ^ 2 ≤ (1 + 1 / 1024) ^ 2 := pow_le_pow_left₀ (by linarith) (by linarith) 2
  have h3 : (1 + u) ^ 2 * (|g| * |d|) ≤ (1 + 1 / 1024) ^ 2 * (3 / 8 * (5 / 2 * (40 * M))) :=
    mul_le_mul h2 h1 (by positivity) (by positivity)
  linarith

theorem fb_small_out (N : RndNear fl u η) (hη : η ≤ 1 / 1024) {M g d w : ℚ} (hM : 1 ≤ M) (hg : |g| ≤ 3 / 8)
    (hd : |d| ≤ 5 / 2 * (40 * M)) (hw : |w| ≤ 40 * M) : |fl (d - fl (g * w))| ≤ 120 * M := by
  have hu0 := N.u0
  have hu1 := N.u1
  have h1 := N.abs_le (g * w)
  have h2 := N.abs_le (d - fl (g * w))
  have h3 := abs_sub d (fl (g * w))
  have h4 : |g * w| ≤ 3 / 8 * (40 * M) := by
    rw [abs_mul]
    exact mul_le_mul hg hw (abs_nonneg _) (by norm_num)
  have h5 : (1 + u) * |g * w| ≤ (1 + 1 / 1024) * (3 / 8 * (40 * M)) := mul_le_mul (by linarith) h4 (abs_nonneg _) (by norm_num)
  have h6 : (1 + u) * |d - fl (g * w)| ≤ (1 + 1 / 1024) * (5 / 2 * (40 * M) + ((1 + 1 / 1024) * (3 / 8 * (40 * M)) + 1 / 1024)) :=
    mul_le_mul (by linarith) (by linarith) (abs_nonneg _) (by norm_num)
  linarith

theorem fbOps_small (N : RndNear fl u η) (hη : η ≤ 1 / 1024) (fl64 : ℚ → ℚ) (sr len : Nat) {M : ℚ} (hM : 1 ≤ M) (ops : List FbOp) :
    ∀ {s : Feedback} {h : List ℚ} {m : Nat}, Dl.Inv s.dl h m → s.dl.buf.length = len → |s.fb| ≤ 3 / 8 → Small (40 * M) s.dl h →
      (∀ t, FbOp.time t ∈ ops → 1 / 2 < fl (fl64 (t * sr)) ∧ fl (fl64 (t * sr)) ≤ len) → (∀ g, FbOp.feedback g ∈ ops → |fl g| ≤ 3 / 8) →
      (∀ x, FbOp.frame x ∈ ops → |x| ≤ M) →
      ∃ s' o, fbOpsF fl fl64 sr s ops = .ok (s', o) ∧ ∀ y ∈ o, |y| ≤ 120 * M := by
  induction ops with
  | nil => intro s h m _ _ _ _ _ _ _; exact ⟨s, [], rfl, by simp⟩
  | cons op ops ih =>
    intro s h m I hl hg S ht hf hx
    have ht' := fun t h' => ht t (List.mem_cons_of_mem _ h')
    have hf' := fun t h' => hf t (List.mem_cons_of_mem _ h')
    have hx' := fun t h' => hx t (List.mem_cons_of_mem _ h')
    cases op with
    | time t =>
      obtain ⟨h1, h2⟩ := ht t (by simp)
      obtain ⟨s', m', c, e, I', hcc, ha, hb⟩ := setFramesF_inv N hη I _ h1 (by rw [hl]; exact h2)
      obtain ⟨s'', o, e', ho⟩ := ih (s := ⟨s.fb, s'⟩) I' (by rw [hb, hl]) hg
        ⟨by rw [ha]; exact hcc, by rw [ha]; exact S.pin, by rw [ha]; exact S.pout, S.all⟩ ht' hf' hx'
      exact ⟨s'', o, by simp only [fbOpsF, feedbackTimeF, e, bind_ok, pure_ok, e'], ho⟩
    | feedback g =>
      obtain ⟨s'', o, e', ho⟩ := ih (s := { s with fb := fl g }) I hl (hf g (by simp)) S ht' hf' hx'
      exact ⟨s'', o, by simp only [fbOpsF, e'], ho⟩
    | frame x =>
      obtain ⟨s', e, I', hfb, ha, hl'⟩ := feedbackF_inv (fl := fl) I x
      have hr := getD_small (by linarith) S.all (m - 1)
      have hd : |(interpF fl s.dl.ap (h.getD (m - 1) 0)).2| ≤ 5 / 2 * (40 * M) :=
        interp_small N hη (by linarith) S.coeff hr S.pout S.pin
      have hw := fb_small_write N hη hM hg hd (hx x (by simp))
      have ho := fb_small_out N hη hM hg hd hw
      obtain ⟨s'', o, e', ho'⟩ := ih (s := s') I' (by rw [hl', hl]) (by rw [hfb]; exact hg)
        ⟨by rw [ha]; exact S.coeff, by rw [ha]; exact hr, by rw [ha]; exact hd, by
          intro z hz
          rcases List.mem_cons.1 hz with rfl | hz
          · exact hw
          · exact S.all z hz⟩ ht' hf' hx'
      refine ⟨s'', _ :: o, by simp only [fbOpsF]; rw [e]; simp only [bind_ok]; rw [e']; rfl, ?_⟩
      intro y hy
      rcases List.mem_cons.1 hy with rfl | hy
      · exact ho
      · exact ho' y hy

/-- **C97**, for feedbacks of at most three eighths: once a delay of more than half a frame that fits the buffer has been set, no history
of frames, delay times and feedbacks makes the delay crash or put out more than 120 times its loudest input (full scale at least).
Missing: larger feedbacks; see `C97_grows_violated`. -/
theorem C97_bounded_partial (N : RndNear fl u η) (hη : η ≤ 1 / 1024) (fl64 : ℚ → ℚ) (sr len : Nat) (h0 : 0 < len) {M : ℚ} (hM : 1 ≤ M)
    (t₀ : ℚ) (ops : List FbOp)
    (ht : ∀ t, FbOp.time t ∈ FbOp.time t₀ :: ops → 1 / 2 < fl (fl64 (t * sr)) ∧ fl (fl64 (t * sr)) ≤ len)
    (hf : ∀ g, FbOp.feedback g ∈ ops → |fl g| ≤ 3 / 8) (hx : ∀ x, FbOp.frame x ∈ ops → |x| ≤ M) :
    ∃ s o, fbOpsF fl fl64 sr ⟨0, allpassInitF len⟩ (.time t₀ :: ops) = .ok (s, o) ∧ ∀ y ∈ o, |y| ≤ 120 * M := by
  obtain ⟨I, hl⟩ := initF_inv h0
  obtain ⟨h1, h2⟩ := ht t₀ (by simp)
  obtain ⟨s', m', c, e, I', hcc, ha, hb⟩ := setFramesF_inv N hη I _ h1 (by rw [hl]; exact h2)
  have S : Small (40 * M) s' [] := by
    refine ⟨by rw [ha]; exact hcc, ?_, ?_, by simp⟩
    · rw [ha]; show |(1 : ℚ)| ≤ 40 * M; rw [abs_one]; linarith
    · rw [ha]; show |(1 : ℚ)| ≤ 5 / 2 * (40 * M); rw [abs_one]; linarith
  obtain ⟨s'', o, e', ho⟩ := fbOps_small N hη fl64 sr len hM ops (s := ⟨0, s'⟩) I' (by rw [hb, hl]) (by norm_num) S
    (fun t h' => ht t (List.mem_cons_of_mem _ h')) hf hx
  exact ⟨s'', o, by simp only [fbOpsF, feedbackTimeF, e, bind_ok, pure_ok, e'], ho⟩

/-! ### Growth -/

/-- The sign of a frame: two frames up, two frames down. -/
def sig (n : Nat) : ℚ := if n % 4 < 2 then 1 else -1

theorem sig_congr {a b : Nat} (h : a % 4 = b % 4) : sig a = sig b := by unfold sig; rw [h]

theorem sig_two (n : Nat) : sig (n + 2) = -sig n := by
  unfold sig
  by_cases h : n % 4 < 2
  · rw [if_pos h, if_neg (by omega)]
  · rw [if_neg h, if_pos (by omega)]; norm_num

theorem sig_sq (n : Nat) : sig n * sig n = 1 := by unfold sig; split <;> norm_num

/-- A rounding that is even-handed, and exact for multiples of a sixteenth up to three. -/
structure Fair (fl : ℚ → ℚ) : Prop where
  neg : ∀ x, fl (-x) = -fl x
  nonneg : ∀ x, 0 ≤ x → 0 ≤ fl x
  fixed : ∀ k : Int, |k| ≤ 48 → fl (k / 16) = k / 16

theorem fair_rnd {p : Nat} {emin : Int} (hp : 6 ≤ p) (he : emin ≤ -4) : Fair (rnd p emin) := by
  refine ⟨rnd_neg p emin, fun x => rnd_nonneg, fun k hk => rnd_rep ⟨k, -4, by norm_num [pow2_eq, div_eq_mul_inv], ?_, he⟩⟩
  have : (2 : Int) ^ 6 ≤ 2 ^ p := pow_le_pow_right₀ (by norm_num) hp
  linarith

theorem fair_id : Fair id := ⟨fun _ => rfl, fun _ h => h, fun _ _ => rfl⟩

theorem Fair.sig (F : Fair fl) (n : Nat) (x : ℚ) : fl (Verif.Fl.sig n * x) = Verif.Fl.sig n * fl x := by
  unfold Verif.Fl.sig
  split
  · rw [one_mul, one_mul]
  · rw [neg_one_mul, neg_one_mul, F.neg]

theorem RndNear.low (N : RndNear fl u η) (hη : η ≤ 1 / 1024) {x : ℚ} (hx : 0 ≤ x) : 1023 / 1024 * x - 1 / 1024 ≤ fl x := by
  have h := (_root_.abs_le.1 (N.err x)).1
  rw [abs_of_nonneg hx] at h
  have := mul_le_mul_of_nonneg_right N.u1 hx
  linarith

theorem RndNear.high (N : RndNear fl u η) (hη : η ≤ 1 / 1024) {x : ℚ} (hx : 0 ≤ x) : fl x ≤ 1025 / 1024 * x + 1 / 1024 := by
  have h := (_root_.abs_le.1 (N.err x)).2
  rw [abs_of_nonneg hx] at h
  have := mul_le_mul_of_nonneg_right N.u1 hx
  linarith

/-- What is read from the line, when the parts have the same sign. -/
theorem mod_read (N : RndNear fl u η) (hη : η ≤ 1 / 1024) {a r dp rp b : ℚ} (ha : 7 / 40 ≤ a) (hb : 0 ≤ b) (hr : b ≤ r) (hd : 0 ≤ dp)
    (hp : b ≤ rp) (h1 : 0 ≤ fl (r + dp)) (h2 : 0 ≤ fl (a * fl (r + dp))) :
    117 / 100 * b - 1 / 100 ≤ fl (fl (a * fl (r + dp)) + rp) := by
  have e1 := N.low hη (x := r + dp) (by linarith)
  have e2 := N.low hη (x := a * fl (r + dp)) (mul_nonneg (by linarith) h1)
  have e3 := N.low hη (x := fl (a * fl (r + dp)) + rp) (by linarith)
  have e4 : 7 / 40 * fl (r + dp) ≤ a * fl (r + dp) := mul_le_mul_of_nonneg_right ha h1
  linarith

/-- What is written to the line. -/
theorem mod_write (N : RndNear fl u η) (hη : η ≤ 1 / 1024) {g d b : ℚ} (hg : 7 / 8 ≤ g) (hb : 0 ≤ b) (hd0 : 0 ≤ d)
    (hd : 117 / 100 * b - 1 / 100 ≤ d) (h1 : 0 ≤ fl (d * g)) : 101 / 100 * b + 4 / 5 ≤ fl (fl (d * g) + 1) := by
  have e1 := N.low hη (x := d * g) (mul_nonneg hd0 (by linarith))
  have e2 := N.low hη (x := fl (d * g) + 1) (by linarith)
  have e3 : d * (7 / 8) ≤ d * g := mul_le_mul_of_nonneg_left hg hd0
  linarith

/-- What is put out. -/
theorem mod_out (N : RndNear fl u η) (hη : η ≤ 1 / 1024) {g d : ℚ} (hg0 : 0 ≤ g) (hg : g ≤ 19 / 20) (hd0 : 0 ≤ d)
    (h1 : 0 ≤ fl (d * g)) (h2 : 0 ≤ fl (fl (d * g) + 1)) (hfl : ∀ x, 0 ≤ x → 0 ≤ fl x) :
    8 / 100 * d - 2 ≤ fl (d - fl (g * fl (fl (d * g) + 1))) := by
  have e1 := N.high hη (x := d * g) (mul_nonneg hd0 hg0)
  have e2 := N.high hη (x := fl (d * g) + 1) (by linarith)
  have e3 : d * g ≤ d * (19 / 20) := mul_le_mul_of_nonneg_left hg hd0
  generalize fl (fl (d * g) + 1) = w at *
  have e4 := N.high hη (x := g * w) (mul_nonneg hg0 h2)
  have e5 : g * w ≤ 19 / 20 * w := mul_le_mul_of_nonneg_right hg h2
  have e6 : fl (g * w) ≤ 91 / 100 * d + 11 / 10 := by linarith
  have e7 := (_root_.abs_le.1 (N.err (d - fl (g * w)))).1
  have e8 := mul_le_mul_of_nonneg_right N.u1 (abs_nonneg (d - fl (g * w)))
  by_cases h : 0 ≤ d - fl (g * w)
  · rw [abs_of_nonneg h] at e7 e8
    linarith
  · rw [abs_of_neg (not_le.1 h)] at e7 e8
    linarith

/-- A lower bound of what frame `n` writes, for a line of `k` frames. -/
def growB (k n : Nat) : ℚ := 4 / 5 * (101 / 100) ^ (n / (k + 1))

theorem growB_pos (k n : Nat) : 0 < growB k n := by unfold growB; positivity

theorem growB_mono {k a b : Nat} (h : a ≤ b) : growB k a ≤ growB k b := by
  unfold growB
  exact mul_le_mul_of_nonneg_left (pow_le_pow_right₀ (by norm_num) (Nat.div_le_div_right h)) (by norm_num)

theorem growB_step {k n : Nat} (h : k + 1 ≤ n) : growB k n = 101 / 100 * growB k (n - (k + 1)) := by
  unfold growB
  have : n / (k + 1) = (n - (k + 1)) / (k + 1) + 1 := by
    rw [← Nat.add_div_right _ (by omega : 0 < k + 1), Nat.sub_add_cancel h]
  rw [this, pow_succ]
  ring

theorem growB_start {k n : Nat} (h : n < k + 1) : growB k n = 4 / 5 := by
  unfold growB
  rw [Nat.div_eq_of_lt h]
  norm_num

/-- The state after `n` frames. -/
structure Grow (k n : Nat) (g : ℚ) (s : Feedback) (h : List ℚ) : Prop where
  inv : ∃ m, Dl.Inv s.dl h m
  len : k ≤ s.dl.buf.length
  fb : s.fb = g
  nonneg : ∀ i, 0 ≤ sig (n + 3 + 3 * i) * h.getD i 0
  low : ∀ i, i < n → growB k (n - 1 - i) ≤ sig (n + 3 + 3 * i) * h.getD i 0

/-- The delay that is set before frame `n`. -/
def modT (j n : Nat) : ℚ := if n % 2 = 0 then 4 * (j : ℚ) + 7 / 2 else 4 * (j : ℚ) + 4 + 7 / 16

/-- The size of the coefficient that it gives. -/
def modC (fl : ℚ → ℚ) (n : Nat) : ℚ := if n % 2 = 0 then fl (1 / 3) else fl (7 / 39)

/-- The sign of the coefficient. -/
def modS (n : Nat) : ℚ := if n % 2 = 0 then 1 else -1

theorem modC_low (N : RndNear fl u η) (hη : η ≤ 1 / 1024) (n : Nat) : 7 / 40 ≤ modC fl n := by
  unfold modC
  split
  · have := N.low hη (x := 1 / 3) (by norm_num)
    linarith
  · have := N.low hη (x := 7 / 39) (by norm_num)
    linarith

theorem modS_sig (n : Nat) : modS n * sig (n + 1) = sig n := by
  unfold modS sig
  by_cases h : n % 2 = 0
  · rw [if_pos h]
    by_cases h2 : n % 4 < 2
    · rw [if_pos h2, if_pos (by omega)]; norm_num
    · rw [if_neg h2, if_neg (by omega)]; norm_num
  · rw [if_neg h]
    by_cases h2 : n % 4 < 2
    · rw [if_pos h2, if_neg (by omega)]; norm_num
    · rw [if_neg h2, if_pos (by omega)]; norm_num

theorem mod_split (F : Fair fl) (j n : Nat) : ∃ delta, splitF fl (modT j n) = .ok (4 * j + 3, delta) ∧
    fl (fl (1 - delta) / fl (1 + delta)) = modS n * modC fl n := by
  have q : ∀ k : Int, |k| ≤ 48 → fl (k / 16) = k / 16 := F.fixed
  by_cases h : n % 2 = 0
  · refine ⟨1 / 2, ?_, ?_⟩
    · have hf : ⌊modT j n⌋ = 4 * (j : Int) + 3 := by
        rw [Int.floor_eq_iff]
        unfold modT
        rw [if_pos h]
        push_cast
        constructor <;> linarith
      have hd : fl (modT j n - ⌊modT j n⌋) = 1 / 2 := by
        rw [hf]
        unfold modT
        rw [if_pos h]
        have := q 8 (by norm_num)
        push_cast at this ⊢
        rw [show 4 * (j : ℚ) + 7 / 2 - (4 * j + 3) = 8 / 16 by ring, this]
        norm_num
      unfold splitF
      rw [if_neg (by rw [hf]; omega)]
      simp only [hd]
      rw [if_neg (by norm_num), hf]
      congr 2
    · have h1 := q 8 (by norm_num)
      have h2 := q 24 (by norm_num)
      norm_num at h1 h2
      unfold modS modC
      rw [if_pos h, if_pos h, one_mul]
      norm_num [h1, h2]
  · refine ⟨23 / 16, ?_, ?_⟩
    · have hf : ⌊modT j n⌋ = 4 * (j : Int) + 4 := by
        rw [Int.floor_eq_iff]
        unfold modT
        rw [if_neg h]
        push_cast
        constructor <;> linarith
      have hd : fl (modT j n - ⌊modT j n⌋) = 7 / 16 := by
        rw [hf]
        unfold modT
        rw [if_neg h]
        have := q 7 (by norm_num)
        push_cast at this ⊢
        rw [show 4 * (j : ℚ) + 4 + 7 / 16 - (4 * j + 4) = 7 / 16 by ring, this]
      have hd1 : fl (7 / 16 + 1) = 23 / 16 := by
        have := q 23 (by norm_num)
        push_cast at this
        rw [← this]
        norm_num
      have hbig : 1 / 2 < modT j n := by
        unfold modT
        rw [if_neg h]
        have : (0 : ℚ) ≤ j := Nat.cast_nonneg j
        linarith
      unfold splitF
      rw [if_neg (by rw [hf]; omega)]
      simp only [hd]
      rw [if_pos ⟨hbig, by norm_num⟩, hf, Dl.subC_ok (by omega), hd1]
      simp only [bind_ok, pure_ok]
      congr 2
    · have h1 := q (-7) (by norm_num)
      have h2 := q 39 (by norm_num)
      push_cast at h1 h2
      unfold modS modC
      rw [if_neg h, if_neg h, show (1 : ℚ) - 23 / 16 = -7 / 16 by norm_num, h1, show (1 : ℚ) + 23 / 16 = 39 / 16 by norm_num, h2,
        neg_one_mul, ← F.neg]
      congr 1
      norm_num

theorem mod_set (F : Fair fl) (fl64 : ℚ → ℚ) (sr j n : Nat) {t : ℚ} (ht : fl (fl64 (t * sr)) = modT j n) {s : Feedback} {h : List ℚ}
    {m : Nat} (I : Dl.Inv s.dl h m) (hl : 4 * j + 3 ≤ s.dl.buf.length) :
    ∃ s', feedbackTimeF fl fl64 s sr t = .ok s' ∧ Dl.Inv s'.dl h (4 * j + 3) ∧
      s'.dl.ap = ⟨modS n * modC fl n, s.dl.ap.prevIn, s.dl.ap.prevOut⟩ ∧ s'.fb = s.fb ∧ s'.dl.buf = s.dl.buf := by
  obtain ⟨delta, hs, hc⟩ := mod_split F j n
  have hlt := I.holds.lt
  refine ⟨⟨s.fb, ⟨s.dl.buf, s.dl.wf, (s.dl.wf + s.dl.buf.length - (4 * j + 3)) % s.dl.buf.length, 4 * j + 3, s.dl.clearLeft,
    setDeltaF fl s.dl.ap delta⟩⟩, ?_, ⟨I.holds, by omega, hl, rfl, I.clear⟩, ?_, rfl, rfl⟩
  · simp only [feedbackTimeF, ht, setFramesF, hs, bind_ok, Dl.readPos_inv I hl, pure_ok]
    rw [if_neg (by omega)]
  · simp only [setDeltaF, hc]

/-- The signs fall out of the arithmetic of one frame. -/
theorem mod_signs (F : Fair fl) (n : Nat) {r dp rp pr pd pp a : ℚ} (g : ℚ) (hr : r = sig (n + 1) * pr) (hd : dp = sig (n + 3) * pd)
    (hp : rp = sig n * pp) :
    fl (fl (modS n * a * fl (r - dp)) + rp) = sig n * fl (fl (a * fl (pr + pd)) + pp) ∧
    (∀ d, fl (fl (sig n * d * g) + sig n) = sig n * fl (fl (d * g) + 1)) ∧
    (∀ d w, fl (sig n * d - fl (g * (sig n * w))) = sig n * fl (d - fl (g * w))) := by
  refine ⟨?_, fun d => ?_, fun d w => ?_⟩
  · have h3 : sig (n + 3) = -sig (n + 1) := sig_two (n + 1)
    rw [hr, hd, hp, h3, show sig (n + 1) * pr - -sig (n + 1) * pd = sig (n + 1) * (pr + pd) by ring, F.sig,
      show modS n * a * (sig (n + 1) * fl (pr + pd)) = modS n * sig (n + 1) * (a * fl (pr + pd)) by ring, modS_sig, F.sig,
      ← mul_add, F.sig]
  · rw [show sig n * d * g = sig n * (d * g) by ring, F.sig, show sig n * fl (d * g) + sig n = sig n * (fl (d * g) + 1) by ring, F.sig]
  · rw [show g * (sig n * w) = sig n * (g * w) by ring, F.sig, ← mul_sub, F.sig]

/-- One frame from a state in which the parts have the right signs. -/
theorem grow_frame (N : RndNear fl u η) (F : Fair fl) (hη : η ≤ 1 / 1024) {k n : Nat} {g pd : ℚ} {s : Feedback} {h : List ℚ}
    (hg : 7 / 8 ≤ g) (hg1 : g ≤ 19 / 20) (G : Grow k n g s h) (I : Dl.Inv s.dl h k)
    (hd : (interpF fl s.dl.ap (h.getD (k - 1) 0)).2 = sig n * pd) (h0 : 0 ≤ pd)
    (hlow : k + 1 ≤ n → 117 / 100 * growB k (n - (k + 1)) - 1 / 100 ≤ pd) :
    ∃ s' y h', feedbackF fl s (sig n) = .ok (s', y) ∧ Grow k (n + 1) g s' h' ∧ s'.dl.ap.prevIn = h'.getD k 0 ∧
      0 ≤ sig (n + 1 + 3) * s'.dl.ap.prevOut ∧ 8 / 100 * pd - 2 ≤ |y| := by
  obtain ⟨s', e, I', hfb, ha, hl'⟩ := feedbackF_inv (fl := fl) I (sig n)
  have hk := I.pos
  obtain ⟨-, hw, ho⟩ := mod_signs F n (r := 0) (dp := 0) (rp := 0) (pr := 0) (pd := 0) (pp := 0) (a := 0) g (by ring) (by ring) (by ring)
  simp only [hd, G.fb, hw, ho] at e I' ha hfb
  have f1 : 0 ≤ fl (pd * g) := F.nonneg _ (mul_nonneg h0 (by linarith))
  have f2 : 0 ≤ fl (fl (pd * g) + 1) := F.nonneg _ (by linarith)
  have hpw : growB k n ≤ fl (fl (pd * g) + 1) := by
    by_cases hn : k + 1 ≤ n
    · have b0 := growB_pos k (n - (k + 1))
      have := mod_write N hη hg b0.le h0 (hlow hn) f1
      rw [growB_step hn]
      linarith
    · have := mod_write N hη hg (le_refl 0) h0 (by linarith) f1
      rw [growB_start (by omega)]
      linarith
  have hout := mod_out N hη (by linarith) hg1 h0 f1 f2 F.nonneg
  have hself : ∀ x, sig n * (sig n * x) = x := fun x => by rw [← mul_assoc, sig_sq, one_mul]
  have hs0 : sig (n + 1 + 3) = sig n := sig_congr (by omega)
  refine ⟨s', _, _, e, ⟨⟨_, I'⟩, by rw [hl']; exact G.len, hfb, ?_, ?_⟩, ?_, ?_, ?_⟩
  · intro i
    cases i with
    | zero =>
      rw [List.getD_cons_zero, Nat.mul_zero, Nat.add_zero, hs0, hself]
      exact f2
    | succ i =>
      rw [List.getD_cons_succ, sig_congr (show (n + 1 + 3 + 3 * (i + 1)) % 4 = (n + 3 + 3 * i) % 4 by omega)]
      exact G.nonneg i
  · intro i hi
    cases i with
    | zero =>
      rw [List.getD_cons_zero, Nat.mul_zero, Nat.add_zero, hs0, hself]
      exact hpw
    | succ i =>
      rw [List.getD_cons_succ, sig_congr (show (n + 1 + 3 + 3 * (i + 1)) % 4 = (n + 3 + 3 * i) % 4 by omega),
        show n + 1 - 1 - (i + 1) = n - 1 - i by omega]
      exact G.low i (by omega)
  · rw [ha]
    obtain ⟨k', rfl⟩ : ∃ k', k = k' + 1 := ⟨k - 1, by omega⟩
    rw [List.getD_cons_succ]
    rfl
  · rw [ha, hs0, hself]
    exact h0
  · have : |sig n * fl (pd - fl (g * fl (fl (pd * g) + 1)))| = |fl (pd - fl (g * fl (fl (pd * g) + 1)))| := by
      rw [abs_mul]
      have : |sig n| = 1 := by unfold sig; split <;> norm_num
      rw [this, one_mul]
    rw [this]
    exact hout.trans (le_abs_self _)

/-- Delay time and input of every frame: the delay time changes back and forth, the input is a square wave of period four. -/
def modOps (t₁ t₂ : ℚ) : Nat → List FbOp
  | 0 => []
  | n + 1 => modOps t₁ t₂ n ++ [.time (if n % 2 = 0 then t₁ else t₂), .frame (sig n)]

theorem fbOpsF_append (fl64 : ℚ → ℚ) (sr : Nat) (a b : List FbOp) : ∀ {s s' : Feedback} {o : List ℚ},
    fbOpsF fl fl64 sr s a = .ok (s', o) →
    fbOpsF fl fl64 sr s (a ++ b) = (fbOpsF fl fl64 sr s' b >>= fun r => .ok (r.1, o ++ r.2)) := by
  induction a with
  | nil =>
    intro s s' o h
    simp only [fbOpsF, Except.ok.injEq, Prod.mk.injEq] at h
    obtain ⟨rfl, rfl⟩ := h
    simp only [List.nil_append]
    cases fbOpsF fl fl64 sr s b <;> rfl
  | cons op a ih =>
    intro s s' o h
    cases op with
    | time t =>
      simp only [List.cons_append, fbOpsF] at h ⊢
      cases e : feedbackTimeF fl fl64 s sr t with
      | error _ => rw [e] at h; simp at h
      | ok s1 =>
        rw [e] at h
        simp only [bind_ok] at h ⊢
        exact ih h
    | feedback g =>
      simp only [List.cons_append, fbOpsF] at h ⊢
      exact ih h
    | frame x =>
      simp only [List.cons_append, fbOpsF] at h ⊢
      cases e : feedbackF fl s x with
      | error _ => rw [e] at h; simp at h
      | ok r =>
        rw [e] at h
        simp only [bind_ok] at h ⊢
        cases e1 : fbOpsF fl fl64 sr r.1 a with
        | error _ => rw [e1] at h; simp at h
        | ok r1 =>
          rw [e1] at h
          simp only [bind_ok, pure_ok, Except.ok.injEq, Prod.mk.injEq] at h
          obtain ⟨rfl, rfl⟩ := h
          rw [ih (s' := r1.1) (o := r1.2) e1]
          cases fbOpsF fl fl64 sr r1.1 b <;> rfl

theorem grow_step (N : RndNear fl u η) (F : Fair fl) (hη : η ≤ 1 / 1024) (fl64 : ℚ → ℚ) (sr j : Nat) {n : Nat} {g t : ℚ} {s : Feedback}
    {h : List ℚ} (hg : 7 / 8 ≤ g) (hg1 : g ≤ 19 / 20) (ht : fl (fl64 (t * sr)) = modT j n) (G : Grow (4 * j + 3) n g s h)
    (hp : (n = 0 ∧ s.dl.ap.prevIn = 1 ∧ s.dl.ap.prevOut = 1 ∧ h = []) ∨
      (s.dl.ap.prevIn = h.getD (4 * j + 3) 0 ∧ 0 ≤ sig (n + 3) * s.dl.ap.prevOut)) :
    ∃ s₁ s' y h', feedbackTimeF fl fl64 s sr t = .ok s₁ ∧ feedbackF fl s₁ (sig n) = .ok (s', y) ∧ Grow (4 * j + 3) (n + 1) g s' h' ∧
      s'.dl.ap.prevIn = h'.getD (4 * j + 3) 0 ∧ 0 ≤ sig (n + 1 + 3) * s'.dl.ap.prevOut ∧
      (4 * j + 4 ≤ n → 8 / 100 * growB (4 * j + 3) (n - (4 * j + 4)) - 3 ≤ |y|) := by
  obtain ⟨m, I⟩ := G.inv
  obtain ⟨s₁, e₁, I₁, ha₁, hf₁, hb₁⟩ := mod_set F fl64 sr j n ht I G.len
  have G₁ : Grow (4 * j + 3) n g s₁ h := ⟨⟨_, I₁⟩, by rw [hb₁]; exact G.len, by rw [hf₁, G.fb], G.nonneg, G.low⟩
  have main : ∃ pd, (interpF fl s₁.dl.ap (h.getD (4 * j + 3 - 1) 0)).2 = sig n * pd ∧ 0 ≤ pd ∧
      (4 * j + 3 + 1 ≤ n → 117 / 100 * growB (4 * j + 3) (n - (4 * j + 3 + 1)) - 1 / 100 ≤ pd) := by
    rcases hp with ⟨rfl, h1, h2, rfl⟩ | ⟨h1, h2⟩
    · refine ⟨fl (1 - fl (1 / 3)), ?_, ?_, fun h => by omega⟩
      · have f1 := F.fixed (-16) (by norm_num)
        push_cast at f1
        norm_num at f1
        have s0 : sig 0 = 1 := rfl
        have c0 : modC fl 0 = fl (1 / 3) := rfl
        have m0 : modS 0 = 1 := rfl
        simp only [interpF, ha₁, h1, h2, s0, one_mul, List.getD_nil, zero_sub, f1, c0, m0, mul_neg, mul_one]
        rw [F.neg, N.idem, neg_add_eq_sub]
      · refine F.nonneg _ ?_
        have := N.high hη (x := 1 / 3) (by norm_num)
        linarith
    · have hself : ∀ i x, x = sig i * (sig i * x) := fun i x => by rw [← mul_assoc, sig_sq, one_mul]
      have q1 := G.nonneg (4 * j + 2)
      have q2 := G.nonneg (4 * j + 3)
      have l1 := G.low (4 * j + 2)
      have l2 := G.low (4 * j + 3)
      rw [sig_congr (show (n + 3 + 3 * (4 * j + 2)) % 4 = (n + 1) % 4 by omega)] at q1 l1
      rw [sig_congr (show (n + 3 + 3 * (4 * j + 3)) % 4 = n % 4 by omega)] at q2 l2
      obtain ⟨e, -, -⟩ := mod_signs F n (a := modC fl n) g (hself (n + 1) (h.getD (4 * j + 2) 0)) (hself (n + 3) s.dl.ap.prevOut)
        (hself n (h.getD (4 * j + 3) 0))
      have ca := modC_low N hη n
      have z1 : 0 ≤ fl (sig (n + 1) * h.getD (4 * j + 2) 0 + sig (n + 3) * s.dl.ap.prevOut) := F.nonneg _ (by linarith)
      have z2 : 0 ≤ fl (modC fl n * fl (sig (n + 1) * h.getD (4 * j + 2) 0 + sig (n + 3) * s.dl.ap.prevOut)) :=
        F.nonneg _ (mul_nonneg (by linarith) z1)
      refine ⟨_, ?_, F.nonneg _ (add_nonneg z2 q2), fun hn => ?_⟩
      · simp only [interpF, ha₁, h1]
        rw [show 4 * j + 3 - 1 = 4 * j + 2 by omega]
        exact e
      · have b0 := growB_pos (4 * j + 3) (n - (4 * j + 3 + 1))
        have a1 := l1 (by omega)
        have a2 := l2 (by omega)
        rw [show n - 1 - (4 * j + 3) = n - (4 * j + 3 + 1) by omega] at a2
        have a3 : growB (4 * j + 3) (n - (4 * j + 3 + 1)) ≤ growB (4 * j + 3) (n - 1 - (4 * j + 2)) := growB_mono (by omega)
        exact mod_read N hη ca b0.le (a3.trans a1) h2 a2 z1 z2
  obtain ⟨pd, m1, m2, m3⟩ := main
  obtain ⟨s', y, h', e', G', p1, p2, hy⟩ := grow_frame N F hη hg hg1 G₁ I₁ m1 m2 m3
  refine ⟨s₁, s', y, h', e₁, e', G', p1, p2, fun hn => ?_⟩
  have := m3 (by omega)
  have b0 := growB_pos (4 * j + 3) (n - (4 * j + 3 + 1))
  have e4 : 4 * j + 3 + 1 = 4 * j + 4 := by omega
  rw [e4] at this b0
  linarith

theorem grow_run (N : RndNear fl u η) (F : Fair fl) (hη : η ≤ 1 / 1024) (fl64 : ℚ → ℚ) (sr j len : Nat) (hl : 4 * j + 3 ≤ len)
    {g t₁ t₂ : ℚ} (hg : 7 / 8 ≤ fl g) (hg1 : fl g ≤ 19 / 20) (h₁ : fl (fl64 (t₁ * sr)) = 4 * j + 7 / 2)
    (h₂ : fl (fl64 (t₂ * sr)) = 4 * j + 4 + 7 / 16) (n : Nat) :
    ∃ s o h, fbOpsF fl fl64 sr ⟨fl g, allpassInitF len⟩ (modOps t₁ t₂ n) = .ok (s, o) ∧ Grow (4 * j + 3) n (fl g) s h ∧
      ((n = 0 ∧ s.dl.ap.prevIn = 1 ∧ s.dl.ap.prevOut = 1 ∧ h = []) ∨
        (s.dl.ap.prevIn = h.getD (4 * j + 3) 0 ∧ 0 ≤ sig (n + 3) * s.dl.ap.prevOut)) ∧
      ∀ m, n = m + 1 → 4 * j + 4 ≤ m → ∃ o' y, o = o' ++ [y] ∧ 8 / 100 * growB (4 * j + 3) (m - (4 * j + 4)) - 3 ≤ |y| := by
  induction n with
  | zero =>
    obtain ⟨I, hlen⟩ := initF_inv (show 0 < len by omega)
    exact ⟨_, [], [], rfl, ⟨⟨_, I⟩, by rw [show (Feedback.mk (fl g) (allpassInitF len)).dl = allpassInitF len from rfl, hlen]; exact hl,
      rfl, by simp, by simp⟩, .inl ⟨rfl, rfl, rfl, rfl⟩, by simp⟩
  | succ n ih =>
    obtain ⟨s, o, h, e, G, hp, -⟩ := ih
    have ht : fl (fl64 ((if n % 2 = 0 then t₁ else t₂) * sr)) = modT j n := by
      unfold modT
      split
      · exact h₁
      · exact h₂
    obtain ⟨s₁, s', y, h', e₁, e₂, G', p1, p2, hy⟩ := grow_step N F hη fl64 sr j hg hg1 ht G hp
    refine ⟨s', o ++ [y], h', ?_, G', .inr ⟨p1, p2⟩, ?_⟩
    · rw [modOps, fbOpsF_append fl64 sr _ _ e]
      simp only [fbOpsF, e₁, e₂, bind_ok, pure_ok]
    · intro m hm hjm
      obtain rfl : n = m := by omega
      exact ⟨o, y, rfl, hy hjm⟩

/-- The input is never above full scale. -/
theorem modOps_input (t₁ t₂ : ℚ) (n : Nat) (x : ℚ) (hx : FbOp.frame x ∈ modOps t₁ t₂ n) : |x| ≤ 1 := by
  induction n with
  | zero => simp [modOps] at hx
  | succ n ih =>
    rw [modOps, List.mem_append] at hx
    rcases hx with hx | hx
    · exact ih hx
    · simp only [List.mem_cons, FbOp.frame.injEq, reduceCtorEq, List.not_mem_nil, or_false, false_or] at hx
      rw [hx]
      unfold sig
      split <;> norm_num

/-- **C97 is violated**: for every feedback from 0.875 to 0.95, and for every delay of `4 j + 3` frames and a bit, changing the delay time
back and forth by less than one frame makes the output exceed every limit, although the input is a square wave at full scale. -/
theorem C97_grows_violated (N : RndNear fl u η) (F : Fair fl) (hη : η ≤ 1 / 1024) (fl64 : ℚ → ℚ) (sr j len : Nat) (hl : 4 * j + 3 ≤ len)
    {g t₁ t₂ : ℚ} (hg : 7 / 8 ≤ fl g) (hg1 : fl g ≤ 19 / 20) (h₁ : fl (fl64 (t₁ * sr)) = 4 * j + 7 / 2)
    (h₂ : fl (fl64 (t₂ * sr)) = 4 * j + 4 + 7 / 16) (B : ℚ) :
    ∃ n s o y, fbOpsF fl fl64 sr ⟨0, allpassInitF len⟩ (.feedback g :: modOps t₁ t₂ n) = .ok (s, o ++ [y]) ∧ B < |y| := by
  obtain ⟨q, hq⟩ := pow_unbounded_of_one_lt (20 * (|B| + 3)) (show (1 : ℚ) < 101 / 100 by norm_num)
  obtain ⟨s, o, h, e, -, -, ho⟩ := grow_run N F hη fl64 sr j len hl hg hg1 h₁ h₂ (4 * j + 4 + (4 * j + 4) * q + 1)
  obtain ⟨o', y, rfl, hy⟩ := ho _ rfl (by omega)
  refine ⟨_, s, o', y, e, ?_⟩
  have hB : growB (4 * j + 3) (4 * j + 4 + (4 * j + 4) * q - (4 * j + 4)) = 4 / 5 * (101 / 100) ^ q := by
    unfold growB
    rw [Nat.add_sub_cancel_left, Nat.mul_div_cancel_left _ (by omega)]
  rw [hB] at hy
  have := le_abs_self B
  have := abs_nonneg B
  linarith

/-! ### The sample type -/

/-- **C97 is violated** in `f32` at 48 kHz: with feedback 0.9 and delay times that alternate between 3.5 and 4.4375 frames. -/
theorem C97_grows32_violated (B : ℚ) : ∃ n s o y,
    fbOpsF rnd32 rnd64 48000 ⟨0, allpassInitF 8⟩ (.feedback (rnd64 (9 / 10)) ::
      modOps (rnd64 (7 / 96000)) (rnd64 (71 / 768000)) n) = .ok (s, o ++ [y]) ∧ B < |y| :=
  C97_grows_violated (delayNear_rnd 24 (-149) (by norm_num)) (fair_rnd (by norm_num) (by norm_num)) (by norm_num [pow2_eq]) rnd64 48000 0 8
    (by norm_num) (by decide +kernel) (by decide +kernel) (by decide +kernel) (by decide +kernel) B

/-- **C97** in `f32`, for feedbacks of at most three eighths. -/
theorem C97_bounded32_partial (sr len : Nat) (h0 : 0 < len) {M : ℚ} (hM : 1 ≤ M) (t₀ : ℚ) (ops : List FbOp)
    (ht : ∀ t, FbOp.time t ∈ FbOp.time t₀ :: ops → 1 / 2 < rnd32 (rnd64 (t * sr)) ∧ rnd32 (rnd64 (t * sr)) ≤ len)
    (hf : ∀ g, FbOp.feedback g ∈ ops → |rnd32 g| ≤ 3 / 8) (hx : ∀ x, FbOp.frame x ∈ ops → |x| ≤ M) :
    ∃ s o, fbOpsF rnd32 rnd64 sr ⟨0, allpassInitF len⟩ (.time t₀ :: ops) = .ok (s, o) ∧ ∀ y ∈ o, |y| ≤ 120 * M :=
  C97_bounded_partial (delayNear_rnd 24 (-149) (by norm_num)) (by norm_num [pow2_eq]) rnd64 sr len h0 hM t₀ ops ht hf hx

/-- Delays, feedbacks and frames in turn. -/
def modExample : List FbOp := [.feedback (3 / 8), .frame 1, .time (1 / 32000), .frame (-1), .feedback (-1 / 4), .time (1 / 12000), .frame (1 / 2)]

example : (∀ t, FbOp.time t ∈ FbOp.time (1 / 9600) :: modExample → 1 / 2 < rnd32 (rnd64 (t * 48000)) ∧ rnd32 (rnd64 (t * 48000)) ≤ 8) ∧
    (∀ g, FbOp.feedback g ∈ modExample → |rnd32 g| ≤ 3 / 8) ∧ (∀ x, FbOp.frame x ∈ modExample → |x| ≤ 1) := by
  refine ⟨fun t ht => ?_, fun g hg => ?_, fun x hx => ?_⟩
  · simp [modExample] at ht
    rcases ht with rfl | rfl | rfl <;> decide +kernel
  · simp [modExample] at hg
    rcases hg with rfl | rfl <;> decide +kernel
  · simp [modExample] at hx
    rcases hx with rfl | rfl | rfl <;> decide +kernel

example : 7 / 8 ≤ rnd32 (rnd64 (9 / 10)) ∧ rnd32 (rnd64 (9 / 10)) ≤ 19 / 20 ∧ rnd32 (rnd64 (rnd64 (7 / 96000) * 48000)) = 7 / 2 ∧
    rnd32 (rnd64 (rnd64 (71 / 768000) * 48000)) = 4 + 7 / 16 := by decide +kernel

end Verif.Fl
