import Verif.Model.FloatDelay
import Verif.Props.Allpass
import Verif.Props.FloatBlep
import Mathlib.Algebra.BigOperators.Group.Finset.Basic
import Mathlib.Algebra.Order.BigOperators.Group.Finset
import Mathlib.Algebra.BigOperators.Ring.Finset

/-!
# C94: the allpass delays are stable in the arithmetic of the sample type
-/

namespace Verif.Fl

open Verif.Dl (Interp Allpass Feedback asUsize)

/-! ### Rounding -/

/-- A way of rounding with a relative and an absolute error. -/
structure RndNear (fl : ℚ → ℚ) (u η : ℚ) : Prop where
  err : ∀ x, |fl x - x| ≤ u * |x| + η
  idem : ∀ x, fl (fl x) = fl x
  u0 : 0 ≤ u
  u1 : u ≤ 1 / 1024
  η0 : 0 ≤ η

/-- Rounding to a format of at least ten digits. -/
theorem delayNear_rnd (p : Nat) (emin : Int) (hp : 10 ≤ p) : RndNear (rnd p emin) (pow2 (-(p : Int))) (pow2 (emin - 1)) := by
  refine ⟨fun x => rnd_rel p emin x, fun x => rnd_rep (rep_rnd (by omega) x), (pow2_pos _).le, ?_, (pow2_pos _).le⟩
  have h1 : pow2 (-(p : Int)) ≤ pow2 (-10) := pow2_le (by omega)
  have h2 : pow2 (-10) = 1 / 1024 := by norm_num [pow2_eq]
  linarith

/-- No rounding at all. -/
theorem delayNear_id : RndNear id 0 0 := ⟨fun x => by simp, fun _ => rfl, le_refl _, by norm_num, le_refl _⟩

variable {fl : ℚ → ℚ} {u η : ℚ}

theorem RndNear.abs_le (N : RndNear fl u η) (x : ℚ) : |fl x| ≤ (1 + u) * |x| + η := by
  have h := N.err x
  have h2 : |fl x| ≤ |fl x - x| + |x| := by
    calc |fl x| = |(fl x - x) + x| := by rw [sub_add_cancel]
      _ ≤ _ := abs_add_le _ _
  linarith

/-! ### The interpolation -/

theorem interp_err (N : RndNear fl u η) {c r dp rp : ℚ} (hc : |c| ≤ 3 / 8) :
    |fl (fl (c * fl (r - dp)) + rp) - (c * (r - dp) + rp)| ≤ 2 * u * (|r| + |dp| + |rp|) + 4 * η := by
  have hu0 := N.u0
  have hu1 := N.u1
  have hη := N.η0
  have hX : |r - dp| ≤ |r| + |dp| := abs_sub _ _
  have X0 : 0 ≤ |r| + |dp| := add_nonneg (abs_nonneg _) (abs_nonneg _)
  have Z0 := abs_nonneg rp
  generalize hXe : |r| + |dp| = X at hX X0 ⊢
  have n1 := N.err (r - dp)
  have b1 := N.abs_le (r - dp)
  generalize fl (r - dp) = A1 at n1 b1 ⊢
  have uX : u * |r - dp| ≤ u * X := mul_le_mul_of_nonneg_left hX hu0
  have b1' : |A1| ≤ X + u * X + η := by linarith
  have uuX : u * (u * X) ≤ u * X / 1024 := by nlinarith [mul_nonneg hu0 X0]
  have uη : u * η ≤ η / 1024 := by nlinarith
  have hcA : |c * A1| ≤ 3 / 8 * |A1| := by
    rw [abs_mul]
    exact mul_le_mul_of_nonneg_right hc (abs_nonneg _)
  have ucA : u * |c * A1| ≤ 3 / 8 * (u * X + u * X / 1024 + η / 1024) := by
    have h1 := mul_le_mul_of_nonneg_left (hcA.trans (mul_le_mul_of_nonneg_left b1' (by norm_num))) hu0
    linarith
  have n2 := N.err (c * A1)
  generalize fl (c * A1) = A2 at n2 ⊢
  have n2' : |c * A1 - c * (r - dp)| ≤ 3 / 8 * (u * X + η) := by
    rw [← mul_sub, abs_mul]
    exact mul_le_mul hc (n1.trans (by linarith)) (abs_nonneg _) (by norm_num)
  have hcr : |c * (r - dp)| ≤ 3 / 8 * X := by
    rw [abs_mul]
    exact mul_le_mul hc hX (abs_nonneg _) (by norm_num)
  have uX0 := mul_nonneg hu0 X0
  have uX1 : u * X ≤ X / 1024 := by nlinarith
  have e2 : |A2 - c * (r - dp)| ≤ u * X + 2 * η := by
    rw [abs_le] at n2 n2' ⊢
    constructor <;> linarith [n2.1, n2.2, n2'.1, n2'.2]
  have b2 : |A2 + rp| ≤ X / 2 + 2 * η + |rp| := by
    have h1 := (abs_add_le A2 rp)
    have h2 : |A2| ≤ |A2 - c * (r - dp)| + |c * (r - dp)| := by
      calc |A2| = |(A2 - c * (r - dp)) + c * (r - dp)| := by rw [sub_add_cancel]
        _ ≤ _ := abs_add_le _ _
    linarith
  have n3 := N.err (A2 + rp)
  have ub2 := mul_le_mul_of_nonneg_left b2 hu0
  have uZ := mul_nonneg hu0 Z0
  rw [abs_le] at n3 e2 ⊢
  constructor <;> nlinarith [n3.1, n3.2, e2.1, e2.2]

/-- The coefficient for any fraction that `set_delay_in_frames` can come up with. -/
theorem coeff_small (N : RndNear fl u η) (hη : η ≤ 1 / 1024) {n : ℚ} {k : Nat} {delta : ℚ} (hn : 1 / 2 < n)
    (h : splitF fl n = .ok (k, delta)) : |fl (fl (1 - delta) / fl (1 + delta))| ≤ 3 / 8 ∧ k ≤ ⌊n⌋.toNat := by
  have hu0 := N.u0
  have hu1 := N.u1
  have hη0 := N.η0
  have h2 : 0 ≤ ⌊n⌋ := Int.floor_nonneg.mpr (by linarith)
  have f0 : (⌊n⌋ : ℚ) ≤ n := Int.floor_le n
  have f1 : n < ⌊n⌋ + 1 := Int.lt_floor_add_one n
  have e0 := N.err (n - ⌊n⌋)
  rw [abs_of_nonneg (by linarith : (0 : ℚ) ≤ n - ⌊n⌋)] at e0
  have e0' : u * (n - ⌊n⌋) ≤ 1 / 1024 := by nlinarith
  unfold splitF at h
  rw [if_neg (by omega)] at h
  simp only at h
  generalize fl (n - ⌊n⌋) = δ0 at h e0
  have key : 1 / 2 ≤ delta ∧ delta ≤ 3 / 2 + 3 / 1024 ∧ k ≤ ⌊n⌋.toNat := by
    by_cases hb : 1 / 2 < n ∧ δ0 < 1 / 2
    · rw [if_pos hb] at h
      have e1 := N.err (δ0 + 1)
      have hlo := (abs_le.1 e0).1
      rw [abs_of_nonneg (by linarith : (0 : ℚ) ≤ δ0 + 1)] at e1
      have e1' : u * (δ0 + 1) ≤ 3 / 2 / 1024 := by nlinarith [hb.2]
      unfold subC at h
      split_ifs at h with hk
      · simp only [bind_ok, pure_ok, Except.ok.injEq, Prod.mk.injEq] at h
        obtain ⟨rfl, rfl⟩ := h
        have := abs_le.1 e1
        refine ⟨by linarith [this.1], by linarith [this.2, hb.2], Nat.sub_le _ _⟩
      · simp [bind_error] at h
    · rw [if_neg hb] at h
      simp only [Except.ok.injEq, Prod.mk.injEq] at h
      obtain ⟨rfl, rfl⟩ := h
      have h3 : 1 / 2 ≤ δ0 := by
        by_contra hc
        exact hb ⟨hn, not_le.1 hc⟩
      have := (abs_le.1 e0).2
      exact ⟨h3, by linarith, le_refl _⟩
  obtain ⟨k1, k2, k3⟩ := key
  refine ⟨?_, k3⟩
  have hnum := N.abs_le (1 - delta)
  have hden := N.err (1 + delta)
  have a1 : |1 - delta| ≤ 1 / 2 + 3 / 1024 := by rw [abs_le]; constructor <;> linarith
  rw [abs_of_nonneg (by linarith : (0 : ℚ) ≤ 1 + delta)] at hden
  have d1 : u * (1 + delta) ≤ (1 + delta) / 1024 := by nlinarith
  have d2 : 1 + delta - (1 + delta) / 1024 - 1 / 1024 ≤ fl (1 + delta) := by
    have := (abs_le.1 hden).1
    linarith
  have d3 : 3 / 2 - 3 / 1024 ≤ fl (1 + delta) := by linarith
  have n1 : |fl (1 - delta)| ≤ 1 / 2 + 5 / 1024 := by nlinarith [abs_nonneg (1 - delta)]
  have dpos : 0 < fl (1 + delta) := by linarith
  have q1 : |fl (1 - delta) / fl (1 + delta)| ≤ 345 / 1000 := by
    rw [abs_div, abs_of_pos dpos, div_le_iff₀ dpos]
    linarith
  have := N.abs_le (fl (1 - delta) / fl (1 + delta))
  nlinarith [abs_nonneg (fl (1 - delta) / fl (1 + delta))]

/-! ### The delay without feedback -/

theorem splitF_ok (N : RndNear fl u η) (y : ℚ) (hn : 1 / 2 < fl y) : ∃ k delta, splitF fl (fl y) = .ok (k, delta) := by
  have h2 : 0 ≤ ⌊fl y⌋ := Int.floor_nonneg.mpr (by linarith)
  unfold splitF
  rw [if_neg (by omega)]
  simp only
  by_cases hb : 1 / 2 < fl y ∧ fl (fl y - ⌊fl y⌋) < 1 / 2
  · rw [if_pos hb]
    by_cases hk : 1 ≤ ⌊fl y⌋.toNat
    · exact ⟨_, _, by rw [Dl.subC_ok hk]; rfl⟩
    · exfalso
      have h0 : ⌊fl y⌋ = 0 := by omega
      have h3 := hb.2
      rw [h0, Int.cast_zero, sub_zero, N.idem] at h3
      linarith
  · rw [if_neg hb]
    exact ⟨_, _, rfl⟩

theorem setFramesF_inv (N : RndNear fl u η) (hη : η ≤ 1 / 1024) {s : Allpass} {h : List ℚ} {m : Nat} (I : Dl.Inv s h m) (y : ℚ)
    (hn : 1 / 2 < fl y) (hlen : fl y ≤ s.buf.length) :
    ∃ s' m' c, setFramesF fl s (fl y) = .ok s' ∧ Dl.Inv s' h m' ∧ |c| ≤ 3 / 8 ∧ s'.ap = { s.ap with coeff := c } ∧ s'.buf = s.buf := by
  obtain ⟨k, delta, hs⟩ := splitF_ok N y hn
  obtain ⟨hc, hk⟩ := coeff_small N hη hn hs
  have hlt := I.holds.lt
  have hkl : k ≤ s.buf.length := by
    have : ⌊fl y⌋ ≤ (s.buf.length : Int) := by
      have h1 : (⌊fl y⌋ : ℚ) ≤ fl y := Int.floor_le _
      have h2 : (⌊fl y⌋ : ℚ) ≤ ((s.buf.length : Int) : ℚ) := by push_cast; linarith
      exact_mod_cast h2
    omega
  refine ⟨⟨s.buf, s.wf, (s.wf + s.buf.length - (if k = 0 then s.buf.length else k)) % s.buf.length, k, s.clearLeft,
    setDeltaF fl s.ap delta⟩, if k = 0 then s.buf.length else k, _, by simp only [setFramesF, hs, bind_ok, Dl.readPos_inv I hkl, pure_ok],
    ?_, hc, rfl, rfl⟩
  exact ⟨I.holds, by split <;> omega, by show _ ≤ s.buf.length; split <;> omega, rfl, I.clear⟩

theorem readF_inv {s : Allpass} {h : List ℚ} {m : Nat} (I : Dl.Inv s h m) : readF fl s =
    .ok ({ s with ap := (interpF fl s.ap (h.getD (m - 1) 0)).1, rf := (s.rf + 1) % s.buf.length },
      (interpF fl s.ap (h.getD (m - 1) 0)).2) := by
  have hL : 0 < s.buf.length := by have := I.holds.lt; omega
  have hr : Dl.read s.buf s.rf = .ok (h.getD (m - 1) 0) := by
    rw [I.rf]; exact Dl.read_ok (I.holds.get m I.pos I.le)
  simp only [readF, I.clear, Nat.lt_irrefl, if_false, hr, bind_ok, Dl.modC_ok hL, pure_ok]

theorem allpassF_inv {s : Allpass} {h : List ℚ} {m : Nat} (I : Dl.Inv s h m) (x : ℚ) :
    ∃ s', allpassF fl s x = .ok (s', (interpF fl s.ap (h.getD (m - 1) 0)).2) ∧ Dl.Inv s' (x :: h) m ∧
      s'.ap = (interpF fl s.ap (h.getD (m - 1) 0)).1 ∧ s'.buf.length = s.buf.length := by
  obtain ⟨s', e, I', ha, hl⟩ := Dl.write_inv I (interpF fl s.ap (h.getD (m - 1) 0)).1 x
  exact ⟨s', by simp only [allpassF, readF_inv I, bind_ok, e, pure_ok], I', ha, hl⟩

theorem initF_inv {len : Nat} (h : 0 < len) : Dl.Inv (allpassInitF len) [] len ∧ (allpassInitF len).buf.length = len := by
  refine ⟨⟨Dl.holds_init h, h, by simp [allpassInitF], ?_, rfl⟩, by simp [allpassInitF]⟩
  simp [allpassInitF]

/-- Everything in the delay is small. -/
structure Small (M : ℚ) (s : Allpass) (h : List ℚ) : Prop where
  coeff : |s.ap.coeff| ≤ 3 / 8
  pin : |s.ap.prevIn| ≤ M
  pout : |s.ap.prevOut| ≤ 5 / 2 * M
  all : ∀ x ∈ h, |x| ≤ M

theorem getD_small {M : ℚ} (hM : 0 ≤ M) {h : List ℚ} (hh : ∀ x ∈ h, |x| ≤ M) (i : Nat) : |h.getD i 0| ≤ M := by
  rw [List.getD_eq_getElem?_getD]
  cases e : h[i]? with
  | none => simpa using hM
  | some x => exact hh x (List.mem_of_getElem? e)

theorem interp_small (N : RndNear fl u η) (hη : η ≤ 1 / 1024) {M : ℚ} (hM : 1 ≤ M) {c r dp rp : ℚ} (hc : |c| ≤ 3 / 8) (hr : |r| ≤ M)
    (hd : |dp| ≤ 5 / 2 * M) (hp : |rp| ≤ M) : |fl (fl (c * fl (r - dp)) + rp)| ≤ 5 / 2 * M := by
  have e := interp_err N (r := r) (dp := dp) (rp := rp) hc
  have hu0 := N.u0
  have hu1 := N.u1
  have h1 : |c * (r - dp) + rp| ≤ 3 / 8 * (M + 5 / 2 * M) + M := by
    have a1 := abs_add_le (c * (r - dp)) rp
    have a2 : |c * (r - dp)| ≤ 3 / 8 * (M + 5 / 2 * M) := by
      rw [abs_mul]
      exact mul_le_mul hc ((abs_sub _ _).trans (by linarith)) (abs_nonneg _) (by norm_num)
    linarith
  have h2 : 2 * u * (|r| + |dp| + |rp|) ≤ 2 / 1024 * (9 / 2 * M) := by
    have : |r| + |dp| + |rp| ≤ 9 / 2 * M := by linarith
    exact mul_le_mul (by linarith) this (by positivity) (by norm_num)
  have h3 : |fl (fl (c * fl (r - dp)) + rp)| ≤ |fl (fl (c * fl (r - dp)) + rp) - (c * (r - dp) + rp)| + |c * (r - dp) + rp| := by
    have := abs_add_le (fl (fl (c * fl (r - dp)) + rp) - (c * (r - dp) + rp)) (c * (r - dp) + rp)
    rwa [sub_add_cancel] at this
  linarith

theorem allpassRun_small (N : RndNear fl u η) (hη : η ≤ 1 / 1024) (fl64 : ℚ → ℚ) (sr len : Nat)
    (hlen : ∀ x : ℚ, x ≤ len → fl x ≤ len) {M : ℚ} (hM : 1 ≤ M) (ops : List Dl.Op) :
    ∀ {s : Allpass} {h : List ℚ} {m : Nat}, Dl.Inv s h m → s.buf.length = len → Small M s h →
      (∀ t, Dl.Op.time t ∈ ops → 1 / 2 < fl (fl64 (t * sr))) → (∀ x, Dl.Op.frame x ∈ ops → |x| ≤ M) →
      ∃ s' o, allpassRunF fl fl64 sr s ops = .ok (s', o) ∧ ∀ y ∈ o, |y| ≤ 5 / 2 * M := by
  induction ops with
  | nil => intro s h m _ _ _ _ _; exact ⟨s, [], rfl, by simp⟩
  | cons op ops ih =>
    intro s h m I hl S ht hx
    have ht' : ∀ t, Dl.Op.time t ∈ ops → 1 / 2 < fl (fl64 (t * sr)) := fun t h' => ht t (List.mem_cons_of_mem _ h')
    have hx' : ∀ x, Dl.Op.frame x ∈ ops → |x| ≤ M := fun x h' => hx x (List.mem_cons_of_mem _ h')
    cases op with
    | time t =>
      have step : ∃ s' m', delayTimeF fl fl64 s sr t = .ok s' ∧ Dl.Inv s' h m' ∧ s'.buf.length = len ∧ Small M s' h := by
        unfold delayTimeF
        simp only
        by_cases hc : asUsize (fl64 (t * sr)) < s.buf.length
        · rw [if_pos hc]
          have hle : fl64 (t * sr) ≤ len := by
            have h1 := Int.lt_floor_add_one (fl64 (t * sr))
            have h2 : ⌊fl64 (t * sr)⌋ + 1 ≤ (len : Int) := by unfold asUsize at hc; omega
            have h3 : ((⌊fl64 (t * sr)⌋ + 1 : Int) : ℚ) ≤ ((len : Int) : ℚ) := by exact_mod_cast h2
            push_cast at h3
            linarith
          obtain ⟨s', m', c, e, I', hcc, ha, hb⟩ := setFramesF_inv N hη I _ (ht t (by simp)) (by rw [hl]; exact hlen _ hle)
          exact ⟨s', m', e, I', by rw [hb, hl], ⟨by rw [ha]; exact hcc, by rw [ha]; exact S.pin, by rw [ha]; exact S.pout, S.all⟩⟩
        · rw [if_neg hc]
          exact ⟨s, m, rfl, I, hl, S⟩
      obtain ⟨s', m', e, I', hl', S'⟩ := step
      obtain ⟨s'', o, e', ho⟩ := ih I' hl' S' ht' hx'
      exact ⟨s'', o, by simp only [allpassRunF, e, bind_ok, e'], ho⟩
    | frame x =>
      obtain ⟨s', e, I', ha, hl'⟩ := allpassF_inv (fl := fl) I x
      have hg := getD_small (by linarith) S.all (m - 1)
      have hy : |(interpF fl s.ap (h.getD (m - 1) 0)).2| ≤ 5 / 2 * M := interp_small N hη hM S.coeff hg S.pout S.pin
      have S' : Small M s' (x :: h) := by
        refine ⟨by rw [ha]; exact S.coeff, by rw [ha]; exact hg, by rw [ha]; exact hy, ?_⟩
        intro z hz
        rcases List.mem_cons.1 hz with rfl | hz
        · exact hx _ (by simp)
        · exact S.all z hz
      obtain ⟨s'', o, e', ho⟩ := ih I' (by rw [hl', hl]) S' ht' hx'
      refine ⟨s'', (interpF fl s.ap (h.getD (m - 1) 0)).2 :: o, by simp only [allpassRunF, e, bind_ok, e', pure_ok], ?_⟩
      intro y hyo
      rcases List.mem_cons.1 hyo with rfl | hyo
      · exact hy
      · exact ho y hyo

/-- **C94**: once a delay of more than half a frame has been accepted, no history of frames and further delays of more than half a
frame makes the allpass delay crash or put out more than two and a half times its loudest input (full scale at least). -/
theorem C94_delay (N : RndNear fl u η) (hη : η ≤ 1 / 1024) (fl64 : ℚ → ℚ) (sr len : Nat) (h0 : 0 < len)
    (hlen : ∀ x : ℚ, x ≤ len → fl x ≤ len) {M : ℚ} (hM : 1 ≤ M) (t₀ : ℚ) (hacc : asUsize (fl64 (t₀ * sr)) < len) (ops : List Dl.Op)
    (ht : ∀ t, Dl.Op.time t ∈ Dl.Op.time t₀ :: ops → 1 / 2 < fl (fl64 (t * sr))) (hx : ∀ x, Dl.Op.frame x ∈ ops → |x| ≤ M) :
    ∃ s' o, allpassRunF fl fl64 sr (allpassInitF len) (.time t₀ :: ops) = .ok (s', o) ∧ ∀ y ∈ o, |y| ≤ 5 / 2 * M := by
  obtain ⟨I, hl⟩ := initF_inv h0
  have hle : fl64 (t₀ * sr) ≤ len := by
    have h1 := Int.lt_floor_add_one (fl64 (t₀ * sr))
    have h2 : ⌊fl64 (t₀ * sr)⌋ + 1 ≤ (len : Int) := by unfold asUsize at hacc; omega
    have h3 : ((⌊fl64 (t₀ * sr)⌋ + 1 : Int) : ℚ) ≤ ((len : Int) : ℚ) := by exact_mod_cast h2
    push_cast at h3
    linarith
  obtain ⟨s', m', c, e, I', hcc, ha, hb⟩ := setFramesF_inv N hη I _ (ht t₀ (by simp)) (by rw [hl]; exact hlen _ hle)
  have S : Small M s' [] := by
    refine ⟨by rw [ha]; exact hcc, ?_, ?_, by simp⟩
    · rw [ha]; show |(1 : ℚ)| ≤ M; rw [abs_one]; exact hM
    · rw [ha]; show |(1 : ℚ)| ≤ 5 / 2 * M; rw [abs_one]; linarith
  obtain ⟨s'', o, e', ho⟩ := allpassRun_small N hη fl64 sr len hlen hM ops I' (by rw [hb, hl]) S
    (fun t h' => ht t (List.mem_cons_of_mem _ h')) hx
  refine ⟨s'', o, ?_, ho⟩
  have e1 : delayTimeF fl fl64 (allpassInitF len) sr t₀ = .ok s' := by
    unfold delayTimeF
    simp only
    rw [if_pos (by rw [hl]; exact hacc)]
    exact e
  simp only [allpassRunF, e1, bind_ok, e']

/-! ### The delay with feedback: energy -/

theorem sq_add_le {θ : ℚ} (hθ : 0 < θ) (a b : ℚ) : (a + b) ^ 2 ≤ (1 + θ) * a ^ 2 + (1 + 1 / θ) * b ^ 2 := by
  have h : 0 ≤ (θ * a - b) ^ 2 / θ := div_nonneg (sq_nonneg _) hθ.le
  have e : (1 + θ) * a ^ 2 + (1 + 1 / θ) * b ^ 2 - (a + b) ^ 2 = (θ * a - b) ^ 2 / θ := by field_simp; ring
  linarith

/-- The interpolation loses no energy and makes none, except by rounding. -/
theorem lossless {θ c r rp dp d : ℚ} (hθ : 0 < θ) (hc : c ^ 2 < 1) :
    d ^ 2 + (r - c * d) ^ 2 / (1 - c ^ 2) ≤
      (1 + θ) * (r ^ 2 + (rp - c * dp) ^ 2 / (1 - c ^ 2)) + (1 + 1 / θ) * ((d - (c * (r - dp) + rp)) ^ 2 / (1 - c ^ 2)) := by
  have hpos : 0 < 1 - c ^ 2 := by linarith
  generalize he : d - (c * (r - dp) + rp) = e
  obtain rfl : d = c * (r - dp) + rp + e := by linarith
  have h1 := sq_add_le hθ (c * (r - dp) + rp) e
  have h2 := sq_add_le hθ (r - c * (c * (r - dp) + rp)) (-(c * e))
  have h2' := div_le_div_of_nonneg_right h2 hpos.le
  have e1 : r - c * (c * (r - dp) + rp + e) = r - c * (c * (r - dp) + rp) + -(c * e) := by ring
  rw [e1]
  have e2 : (1 + θ) * (r ^ 2 + (rp - c * dp) ^ 2 / (1 - c ^ 2)) + (1 + 1 / θ) * (e ^ 2 / (1 - c ^ 2)) =
      (1 + θ) * (c * (r - dp) + rp) ^ 2 + (1 + 1 / θ) * e ^ 2 +
      ((1 + θ) * (r - c * (c * (r - dp) + rp)) ^ 2 + (1 + 1 / θ) * (-(c * e)) ^ 2) / (1 - c ^ 2) := by
    field_simp
    ring
  rw [e2]
  linarith

theorem err_sq {e r rp dp : ℚ} (he : |e| ≤ 2 * u * (|r| + |dp| + |rp|) + 4 * η) :
    e ^ 2 ≤ 24 * u ^ 2 * (r ^ 2 + rp ^ 2 + dp ^ 2) + 32 * η ^ 2 := by
  have h1 : e ^ 2 ≤ (2 * u * (|r| + |dp| + |rp|) + 4 * η) ^ 2 := by
    rw [← sq_abs e]
    exact pow_le_pow_left₀ (abs_nonneg _) he 2
  have h2 : (2 * u * (|r| + |dp| + |rp|) + 4 * η) ^ 2 ≤ 2 * (2 * u * (|r| + |dp| + |rp|)) ^ 2 + 2 * (4 * η) ^ 2 := by
    nlinarith [sq_nonneg (2 * u * (|r| + |dp| + |rp|) - 4 * η)]
  have h3 : (|r| + |dp| + |rp|) ^ 2 ≤ 3 * (r ^ 2 + rp ^ 2 + dp ^ 2) := by
    have := sq_abs r
    have := sq_abs dp
    have := sq_abs rp
    nlinarith [sq_nonneg (|r| - |dp|), sq_nonneg (|r| - |rp|), sq_nonneg (|dp| - |rp|)]
  have h4 := mul_le_mul_of_nonneg_left h3 (sq_nonneg u)
  nlinarith

/-- What rounding adds is small compared with what is kept of the last frame. -/
theorem lossless_rounded {σ c r rp dp d : ℚ} (hσ : 0 < σ) (hσ1 : σ ≤ 1) (hu0 : 0 ≤ u) (hu : u ≤ σ / 512) (hη : 0 ≤ η) (hc : |c| ≤ 3 / 8)
    (he : |d - (c * (r - dp) + rp)| ≤ 2 * u * (|r| + |dp| + |rp|) + 4 * η) :
    d ^ 2 + (r - c * d) ^ 2 / (1 - c ^ 2) ≤ r ^ 2 + (rp - c * dp) ^ 2 / (1 - c ^ 2) + σ / 32 * r ^ 2 + σ / 16 * (rp ^ 2 + dp ^ 2) +
      4920 / σ * η ^ 2 ∧ (rp - c * dp) ^ 2 / (1 - c ^ 2) ≤ 3 / 2 * (rp ^ 2 + dp ^ 2) := by
  have hc2 : c ^ 2 ≤ 9 / 64 := by
    have := abs_le.1 hc
    nlinarith
  have hpos : 0 < 1 - c ^ 2 := by linarith
  have hS : (rp - c * dp) ^ 2 / (1 - c ^ 2) ≤ 3 / 2 * (rp ^ 2 + dp ^ 2) := by
    rw [div_le_iff₀ hpos]
    have h1 : (rp - c * dp) ^ 2 ≤ (1 + c ^ 2) * (rp ^ 2 + dp ^ 2) := by nlinarith [sq_nonneg (c * rp + dp)]
    nlinarith [sq_nonneg rp, sq_nonneg dp]
  refine ⟨?_, hS⟩
  have hl := lossless (θ := σ / 64) (c := c) (r := r) (rp := rp) (dp := dp) (d := d) (by positivity) (by linarith)
  generalize d - (c * (r - dp) + rp) = e at he hl
  have he2 : e ^ 2 ≤ 24 * u ^ 2 * (r ^ 2 + rp ^ 2 + dp ^ 2) + 32 * η ^ 2 := err_sq he
  have hk : e ^ 2 / (1 - c ^ 2) ≤ 6 / 5 * (24 * u ^ 2 * (r ^ 2 + rp ^ 2 + dp ^ 2) + 32 * η ^ 2) := by
    rw [div_le_iff₀ hpos]
    have h0 : 0 ≤ 24 * u ^ 2 * (r ^ 2 + rp ^ 2 + dp ^ 2) + 32 * η ^ 2 := by positivity
    nlinarith
  have ht : 1 + 1 / (σ / 64) ≤ 128 / σ := by
    rw [div_div_eq_mul_div, one_mul]
    have : 1 ≤ 64 / σ := by rw [le_div_iff₀ hσ]; linarith
    have e3 : (128 : ℚ) / σ = 64 / σ + 64 / σ := by ring
    linarith
  have hmul : (1 + 1 / (σ / 64)) * (e ^ 2 / (1 - c ^ 2)) ≤
      128 / σ * (6 / 5 * (24 * u ^ 2 * (r ^ 2 + rp ^ 2 + dp ^ 2) + 32 * η ^ 2)) :=
    mul_le_mul ht hk (by positivity) (by positivity)
  have hu2 : 128 / σ * (6 / 5 * (24 * u ^ 2)) ≤ σ / 64 := by
    have h1 : u ^ 2 ≤ (σ / 512) ^ 2 := pow_le_pow_left₀ hu0 hu 2
    rw [div_mul_eq_mul_div, div_le_iff₀ hσ]
    nlinarith
  have hR : 0 ≤ r ^ 2 + rp ^ 2 + dp ^ 2 := by positivity
  have hfin : 128 / σ * (6 / 5 * (24 * u ^ 2 * (r ^ 2 + rp ^ 2 + dp ^ 2) + 32 * η ^ 2)) ≤
      σ / 64 * (r ^ 2 + rp ^ 2 + dp ^ 2) + 4920 / σ * η ^ 2 := by
    have h1 := mul_le_mul_of_nonneg_right hu2 hR
    have h2 : 128 / σ * (6 / 5 * (32 * η ^ 2)) ≤ 4920 / σ * η ^ 2 := by
      have k0 : 0 ≤ 1 / σ * η ^ 2 := by positivity
      have k1 : 128 / σ * (6 / 5 * (32 * η ^ 2)) = 24576 / 5 * (1 / σ * η ^ 2) := by ring
      have k2 : 4920 / σ * η ^ 2 = 4920 * (1 / σ * η ^ 2) := by ring
      linarith
    have e4 : 128 / σ * (6 / 5 * (24 * u ^ 2 * (r ^ 2 + rp ^ 2 + dp ^ 2) + 32 * η ^ 2)) =
        128 / σ * (6 / 5 * (24 * u ^ 2)) * (r ^ 2 + rp ^ 2 + dp ^ 2) + 128 / σ * (6 / 5 * (32 * η ^ 2)) := by ring
    rw [e4]
    linarith
  have hS0 : 0 ≤ (rp - c * dp) ^ 2 / (1 - c ^ 2) := by positivity
  have hθS := mul_le_mul_of_nonneg_left hS (show (0 : ℚ) ≤ σ / 64 by positivity)
  have p1 : 0 ≤ σ * r ^ 2 := by positivity
  have p2 : 0 ≤ σ * rp ^ 2 := by positivity
  have p3 : 0 ≤ σ * dp ^ 2 := by positivity
  have q1 : (1 + σ / 64) * (r ^ 2 + (rp - c * dp) ^ 2 / (1 - c ^ 2)) =
      r ^ 2 + (rp - c * dp) ^ 2 / (1 - c ^ 2) + σ * r ^ 2 / 64 + σ / 64 * ((rp - c * dp) ^ 2 / (1 - c ^ 2)) := by ring
  have q2 : σ / 64 * (3 / 2 * (rp ^ 2 + dp ^ 2)) = 3 / 128 * (σ * rp ^ 2) + 3 / 128 * (σ * dp ^ 2) := by ring
  have q3 : σ / 64 * (r ^ 2 + rp ^ 2 + dp ^ 2) = σ * r ^ 2 / 64 + σ * rp ^ 2 / 64 + σ * dp ^ 2 / 64 := by ring
  have q4 : σ / 32 * r ^ 2 = σ * r ^ 2 / 32 := by ring
  have q5 : σ / 16 * (rp ^ 2 + dp ^ 2) = σ * rp ^ 2 / 16 + σ * dp ^ 2 / 16 := by ring
  rw [q1] at hl
  rw [q2] at hθS
  rw [q3] at hfin
  rw [q4, q5]
  linarith

theorem four_le {σ : ℚ} (hσ1 : σ ≤ 1) (hu0 : 0 ≤ u) (hu : u ≤ σ / 512) : (1 + u) ^ 4 ≤ 1 + σ / 100 := by
  have hu1 : u ≤ 1 / 512 := by linarith
  have a2 : u ^ 2 ≤ u / 512 := by nlinarith
  have a3 : u ^ 3 ≤ u / 512 := by nlinarith [sq_nonneg u]
  have a4 : u ^ 4 ≤ u / 512 := by nlinarith [sq_nonneg u, pow_nonneg hu0 3]
  nlinarith

theorem coef_le {σ : ℚ} (hσ : 0 < σ) (hσ2 : 0 ≤ 1 - σ) :
    (1 + 3 * σ / 8) * ((1 + σ / 8) * ((1 + σ / 100) * (1 - σ))) ≤ 1 - σ / 8 := by
  have s2 := mul_nonneg hσ.le hσ.le
  have s3 := mul_nonneg s2 hσ.le
  have s4 := mul_nonneg s3 hσ.le
  nlinarith [mul_nonneg s2 hσ2, mul_nonneg hσ.le hσ2, mul_nonneg s3 hσ2]

/-- What is put into the delay line. -/
theorem feed {σ M g d x v : ℚ} (hσ : 0 < σ) (hσ1 : σ ≤ 1) (hg : g ^ 2 = 1 - σ) (hu0 : 0 ≤ u) (hu : u ≤ σ / 512) (hη0 : 0 ≤ η)
    (hη : η ≤ M / 128) (hx : |x| ≤ M) (hv : |v| ≤ (1 + u) ^ 2 * (|g| * |d|) + 2 * |x| + 3 * η) :
    (1 + 3 * σ / 8) * v ^ 2 ≤ (1 - σ / 8) * d ^ 2 + 65 / σ * M ^ 2 := by
  have hM : 0 ≤ M := (abs_nonneg x).trans hx
  have h1 : v ^ 2 ≤ ((1 + u) ^ 2 * (|g| * |d|) + (2 * |x| + 3 * η)) ^ 2 := by
    rw [← sq_abs v]
    exact pow_le_pow_left₀ (abs_nonneg _) (by linarith) 2
  have h2 := sq_add_le (θ := σ / 8) (by positivity) ((1 + u) ^ 2 * (|g| * |d|)) (2 * |x| + 3 * η)
  have ha : (2 * |x| + 3 * η) ^ 2 ≤ 5 * M ^ 2 := by
    have : 2 * |x| + 3 * η ≤ 2 * M + 3 * (M / 128) := by linarith
    have h3 := pow_le_pow_left₀ (by positivity) this 2
    nlinarith [sq_nonneg M]
  have hgd : ((1 + u) ^ 2 * (|g| * |d|)) ^ 2 = (1 + u) ^ 4 * ((1 - σ) * d ^ 2) := by
    rw [mul_pow, mul_pow, sq_abs, sq_abs, hg]
    ring
  have hu4 := four_le hσ1 hu0 hu
  rw [hgd] at h2
  have hd2 := sq_nonneg d
  have hσ2 : 0 ≤ 1 - σ := by linarith
  have hcoef : (1 + 3 * σ / 8) * ((1 + σ / 8) * ((1 + u) ^ 4 * (1 - σ))) ≤ 1 - σ / 8 := by
    have b1 : (1 + u) ^ 4 * (1 - σ) ≤ (1 + σ / 100) * (1 - σ) := mul_le_mul_of_nonneg_right hu4 hσ2
    have b2 : (1 + 3 * σ / 8) * ((1 + σ / 8) * ((1 + u) ^ 4 * (1 - σ))) ≤ (1 + 3 * σ / 8) * ((1 + σ / 8) * ((1 + σ / 100) * (1 - σ))) :=
      mul_le_mul_of_nonneg_left (mul_le_mul_of_nonneg_left b1 (by positivity)) (by positivity)
    have b3 := coef_le hσ hσ2
    linarith
  have hC : (1 + 3 * σ / 8) * ((1 + 1 / (σ / 8)) * 5) ≤ 65 / σ := by
    rw [le_div_iff₀ hσ]
    have : (1 + 1 / (σ / 8)) * σ = σ + 8 := by field_simp
    nlinarith
  have hstep : (1 + 3 * σ / 8) * v ^ 2 ≤ (1 + 3 * σ / 8) * ((1 + σ / 8) * ((1 + u) ^ 4 * ((1 - σ) * d ^ 2)) + (1 + 1 / (σ / 8)) * (5 * M ^ 2)) := by
    refine mul_le_mul_of_nonneg_left ?_ (by positivity)
    have c1 : (1 + 1 / (σ / 8)) * (2 * |x| + 3 * η) ^ 2 ≤ (1 + 1 / (σ / 8)) * (5 * M ^ 2) := mul_le_mul_of_nonneg_left ha (by positivity)
    linarith
  have d1 := mul_le_mul_of_nonneg_right hcoef hd2
  have d2 := mul_le_mul_of_nonneg_right hC (sq_nonneg M)
  have e1 : (1 + 3 * σ / 8) * ((1 + σ / 8) * ((1 + u) ^ 4 * ((1 - σ) * d ^ 2)) + (1 + 1 / (σ / 8)) * (5 * M ^ 2)) =
      (1 + 3 * σ / 8) * ((1 + σ / 8) * ((1 + u) ^ 4 * (1 - σ))) * d ^ 2 + (1 + 3 * σ / 8) * ((1 + 1 / (σ / 8)) * 5) * M ^ 2 := by ring
  rw [e1] at hstep
  linarith

/-- The weighted energy of the newest `m` samples of the delay line. -/
def lineE (W τ : ℚ) (m : Nat) (h : List ℚ) : ℚ := ∑ i ∈ Finset.range m, (W - τ * i) * (h.getD i 0) ^ 2

theorem lineE_push (W τ v : ℚ) (k : Nat) (h : List ℚ) : lineE W τ (k + 1) (v :: h) =
    W * v ^ 2 + lineE W τ (k + 1) h - τ * (∑ i ∈ Finset.range k, (h.getD i 0) ^ 2) - (W - τ * k) * (h.getD k 0) ^ 2 := by
  unfold lineE
  rw [Finset.sum_range_succ', Finset.sum_range_succ _ k]
  simp only [List.getD_cons_succ, List.getD_cons_zero, Nat.cast_zero, mul_zero, sub_zero, Nat.cast_add, Nat.cast_one]
  have : ∑ i ∈ Finset.range k, (W - τ * (i + 1)) * (h.getD i 0) ^ 2 =
      (∑ i ∈ Finset.range k, (W - τ * i) * (h.getD i 0) ^ 2) - τ * (∑ i ∈ Finset.range k, (h.getD i 0) ^ 2) := by
    rw [Finset.mul_sum, ← Finset.sum_sub_distrib]
    refine Finset.sum_congr rfl fun i _ => ?_
    ring
  rw [this]
  ring

theorem lineE_le {W τ : ℚ} (hτ : 0 ≤ τ) (k : Nat) (h : List ℚ) :
    lineE W τ (k + 1) h ≤ W * ((∑ i ∈ Finset.range k, (h.getD i 0) ^ 2) + (h.getD k 0) ^ 2) := by
  rw [← Finset.sum_range_succ, Finset.mul_sum]
  refine Finset.sum_le_sum fun i _ => ?_
  have : 0 ≤ τ * i := mul_nonneg hτ (Nat.cast_nonneg _)
  exact mul_le_mul_of_nonneg_right (by linarith) (sq_nonneg _)

theorem line_weight {W τ : ℚ} (hτ : 0 ≤ τ) {i k : Nat} (hi : i ≤ k) : W - τ * k ≤ W - τ * i := by
  have : (i : ℚ) ≤ k := by exact_mod_cast hi
  have := mul_le_mul_of_nonneg_left this hτ
  linarith

theorem term_le {W τ : ℚ} (hτ : 0 ≤ τ) {k : Nat} (hW : 0 ≤ W - τ * k) (h : List ℚ) {j : Nat} (hj : j ≤ k) :
    (W - τ * j) * (h.getD j 0) ^ 2 ≤ lineE W τ (k + 1) h := by
  refine Finset.single_le_sum (f := fun i : Nat => (W - τ * i) * (h.getD i 0) ^ 2) (fun i hi => ?_) (Finset.mem_range.2 (by omega))
  have := Finset.mem_range.1 hi
  exact mul_nonneg (hW.trans (line_weight hτ (by omega))) (sq_nonneg _)

/-- The energy of a delay with feedback `g` (`σ = 1 - g²`) that reads `k + 1` frames back. -/
def fbE (σ : ℚ) (k : Nat) (c rp dp : ℚ) (h : List ℚ) : ℚ :=
  lineE (1 + 3 * σ / 8) (σ / (8 * (k + 1))) (k + 1) h + (rp - c * dp) ^ 2 / (1 - c ^ 2) + σ / 8 * (rp ^ 2 + dp ^ 2)

/-- The limit of the energy. -/
def fbB (σ M : ℚ) (k : Nat) : ℚ := 2112 * (k + 1) * (M / σ) ^ 2

theorem energy_arith {σ τ S S' L L' Q B C N r2 d2 v2 P kk : ℚ} (hσ : 0 < σ) (hσ1 : σ ≤ 1) (hτ0 : 0 < τ) (hτ1 : τ ≤ σ / 8)
    (l1 : d2 + S' ≤ r2 + S + σ / 32 * r2 + σ / 16 * P + N) (l2 : S ≤ 3 / 2 * P)
    (l3 : (1 + 3 * σ / 8) * v2 ≤ (1 - σ / 8) * d2 + 65 * C) (hτB : τ * B = 264 * C)
    (hpush : L' = (1 + 3 * σ / 8) * v2 + L - τ * Q - (1 + 3 * σ / 8 - τ * kk) * r2) (hle : L ≤ (1 + 3 * σ / 8) * (Q + r2))
    (hWk : 1 + σ / 4 ≤ 1 + 3 * σ / 8 - τ * kk) (hrr : (1 + 3 * σ / 8 - τ * kk) * r2 ≤ L) (hvv : (1 + 3 * σ / 8) * v2 ≤ L')
    (hsum : 0 ≤ Q) (pr : 0 ≤ r2) (pp : 0 ≤ P) (pd : 0 ≤ d2) (pv : 0 ≤ v2) (hS0 : 0 ≤ S) (hS1 : 0 ≤ S') (hC : 0 ≤ C) (hN : N ≤ C)
    (hE : L + S + σ / 8 * P ≤ B) : L' + S' + σ / 8 * (r2 + d2) ≤ B ∧ d2 ≤ 2 * B ∧ v2 ≤ B := by
  have sr := mul_nonneg hσ.le pr
  have sd := mul_nonneg hσ.le pd
  have sP := mul_nonneg hσ.le pp
  have sv := mul_nonneg hσ.le pv
  have hWr := mul_le_mul_of_nonneg_right hWk pr
  have tQ := mul_nonneg hτ0.le hsum
  have tr0 := mul_nonneg hτ0.le pr
  have tP0 := mul_nonneg hτ0.le pp
  have tr : τ * r2 ≤ σ / 8 * r2 := mul_le_mul_of_nonneg_right hτ1 pr
  have tP : τ * P ≤ σ / 8 * P := mul_le_mul_of_nonneg_right hτ1 pp
  have tL : τ * L ≤ 11 / 8 * (τ * Q + τ * r2) := by
    have h1 := mul_le_mul_of_nonneg_left hle hτ0.le
    have h2 : (1 + 3 * σ / 8) * (Q + r2) ≤ 11 / 8 * (Q + r2) := mul_le_mul_of_nonneg_right (by linarith) (by linarith)
    have h3 := mul_le_mul_of_nonneg_left h2 hτ0.le
    linarith
  have tS : τ * S ≤ 3 / 2 * (τ * P) := by
    have := mul_le_mul_of_nonneg_left l2 hτ0.le
    linarith
  have tμ : σ * (τ * P) ≤ τ * P := by
    have := mul_le_mul_of_nonneg_right hσ1 tP0
    linarith
  have dec : L' + S' + σ / 8 * (r2 + d2) ≤ (L + S + σ / 8 * P) - τ / 4 * (L + S + σ / 8 * P) + 66 * C := by linarith
  have tE : (1 - τ / 4) * (L + S + σ / 8 * P) ≤ (1 - τ / 4) * B := mul_le_mul_of_nonneg_left hE (by linarith)
  have hfin : L' + S' + σ / 8 * (r2 + d2) ≤ B := by linarith
  have hL : 0 ≤ L := by linarith
  have hB : 0 ≤ B := by linarith
  have tB : τ * B ≤ 1 / 8 * B := mul_le_mul_of_nonneg_right (by linarith) hB
  exact ⟨hfin, by linarith, by linarith⟩

/-- One frame keeps the energy under its limit. -/
theorem energy_step {σ M g c rp dp d x v : ℚ} {k : Nat} {h : List ℚ} (hσ : 0 < σ) (hσ1 : σ ≤ 1) (hg : g ^ 2 = 1 - σ) (hM : 1 ≤ M)
    (hu0 : 0 ≤ u) (hu : u ≤ σ / 512) (hη0 : 0 ≤ η) (hη : η ≤ M / 128) (hc : |c| ≤ 3 / 8) (hx : |x| ≤ M)
    (he : |d - (c * (h.getD k 0 - dp) + rp)| ≤ 2 * u * (|h.getD k 0| + |dp| + |rp|) + 4 * η)
    (hv : |v| ≤ (1 + u) ^ 2 * (|g| * |d|) + 2 * |x| + 3 * η) (hE : fbE σ k c rp dp h ≤ fbB σ M k) :
    fbE σ k c (h.getD k 0) d (v :: h) ≤ fbB σ M k ∧ d ^ 2 ≤ 2 * fbB σ M k ∧ v ^ 2 ≤ fbB σ M k := by
  have hk1 : (0 : ℚ) < k + 1 := by positivity
  obtain ⟨l1, l2⟩ := lossless_rounded hσ hσ1 hu0 hu hη0 hc he
  have l3 := feed hσ hσ1 hg hu0 hu hη0 hη hx hv
  have hτ0 : 0 < σ / (8 * (k + 1)) := by positivity
  have hτm : σ / (8 * ((k : ℚ) + 1)) * (k + 1) = σ / 8 := by field_simp
  have hτ1 : σ / (8 * ((k : ℚ) + 1)) ≤ σ / 8 := by
    have : (0 : ℚ) ≤ k := Nat.cast_nonneg _
    nlinarith
  have hτB : σ / (8 * ((k : ℚ) + 1)) * fbB σ M k = 264 / σ * M ^ 2 := by
    unfold fbB
    field_simp
    ring
  have hpush := lineE_push (1 + 3 * σ / 8) (σ / (8 * (k + 1))) v k h
  have hle := lineE_le (W := 1 + 3 * σ / 8) hτ0.le k h
  have hWk : 1 + σ / 4 ≤ 1 + 3 * σ / 8 - σ / (8 * (k + 1)) * k := by nlinarith
  have hrr := term_le hτ0.le (by linarith : 0 ≤ 1 + 3 * σ / 8 - σ / (8 * ((k : ℚ) + 1)) * k) h (le_refl k)
  have hvv := term_le hτ0.le (by linarith : 0 ≤ 1 + 3 * σ / 8 - σ / (8 * ((k : ℚ) + 1)) * k) (v :: h) (Nat.zero_le k)
  have hsum : 0 ≤ ∑ i ∈ Finset.range k, (h.getD i 0) ^ 2 := Finset.sum_nonneg fun i _ => sq_nonneg _
  simp only [List.getD_cons_zero, Nat.cast_zero, mul_zero, sub_zero] at hvv
  have hc2 : c ^ 2 ≤ 9 / 64 := by
    have := abs_le.1 hc
    nlinarith
  have hpos : 0 < 1 - c ^ 2 := by linarith
  have hS0 : 0 ≤ (rp - c * dp) ^ 2 / (1 - c ^ 2) := by positivity
  have hS1 : 0 ≤ (h.getD k 0 - c * d) ^ 2 / (1 - c ^ 2) := by positivity
  have hM2 : (0 : ℚ) ≤ 1 / σ * M ^ 2 := by positivity
  have hηη : 4920 / σ * η ^ 2 ≤ 1 / σ * M ^ 2 := by
    have h1 : η ^ 2 ≤ (M / 128) ^ 2 := pow_le_pow_left₀ hη0 hη 2
    have h2 : 4920 / σ * η ^ 2 ≤ 4920 / σ * (M / 128) ^ 2 := mul_le_mul_of_nonneg_left h1 (by positivity)
    have h3 : 4920 / σ * (M / 128) ^ 2 = 4920 / 16384 * (1 / σ * M ^ 2) := by ring
    linarith
  have e65 : 65 / σ * M ^ 2 = 65 * (1 / σ * M ^ 2) := by ring
  have e264 : 264 / σ * M ^ 2 = 264 * (1 / σ * M ^ 2) := by ring
  rw [e65] at l3
  rw [e264] at hτB
  unfold fbE at hE ⊢
  generalize (rp - c * dp) ^ 2 / (1 - c ^ 2) = S at *
  generalize (h.getD k 0 - c * d) ^ 2 / (1 - c ^ 2) = S' at *
  generalize lineE (1 + 3 * σ / 8) (σ / (8 * (k + 1))) (k + 1) (v :: h) = L' at *
  generalize lineE (1 + 3 * σ / 8) (σ / (8 * (k + 1))) (k + 1) h = L at *
  generalize σ / (8 * ((k : ℚ) + 1)) = τ at *
  generalize (∑ i ∈ Finset.range k, (h.getD i 0) ^ 2) = Q at *
  generalize h.getD k 0 = r at *
  generalize fbB σ M k = B at *
  generalize 1 / σ * M ^ 2 = C at *
  exact energy_arith hσ hσ1 hτ0 hτ1 l1 l2 l3 hτB hpush hle hWk hrr hvv hsum (sq_nonneg r) (by positivity) (sq_nonneg d) (sq_nonneg v)
    hS0 hS1 hM2 hηη hE

theorem fb_write (N : RndNear fl u η) (g d x : ℚ) : |fl (fl (d * g) + x)| ≤ (1 + u) ^ 2 * (|g| * |d|) + 2 * |x| + 3 * η := by
  have hu0 := N.u0
  have hu1 := N.u1
  have hη := N.η0
  have h1 := N.abs_le (d * g)
  have h2 := N.abs_le (fl (d * g) + x)
  have h3 := abs_add_le (fl (d * g)) x
  rw [abs_mul, mul_comm |d|] at h1
  have h4 := mul_le_mul_of_nonneg_left (h3.trans (add_le_add_left h1 _)) (by linarith : (0 : ℚ) ≤ 1 + u)
  have h5 : u * |x| ≤ |x| := by nlinarith [abs_nonneg x]
  have h6 : u * η ≤ η := by nlinarith
  have e : (1 + u) * ((1 + u) * (|g| * |d|) + η + |x|) = (1 + u) ^ 2 * (|g| * |d|) + (|x| + u * |x|) + (η + u * η) := by ring
  linarith

theorem fb_out (N : RndNear fl u η) {g d v B : ℚ} (hg : |g| ≤ 1) (hη : η ^ 2 ≤ B / 1024) (hd : d ^ 2 ≤ 2 * B) (hv : v ^ 2 ≤ B) :
    fl (d - fl (g * v)) ^ 2 ≤ 10 * B := by
  have hu0 := N.u0
  have hu1 := N.u1
  have hη0 := N.η0
  have h1 := N.abs_le (g * v)
  have h2 := N.abs_le (d - fl (g * v))
  have h3 := abs_sub d (fl (g * v))
  have h4 : |g * v| ≤ |v| := by
    rw [abs_mul]
    exact mul_le_of_le_one_left (abs_nonneg _) hg
  have hv0 := abs_nonneg v
  have hd0 := abs_nonneg d
  have h5 : |fl (g * v)| ≤ 1025 / 1024 * |v| + η := by nlinarith [abs_nonneg (g * v)]
  have h6 : |fl (d - fl (g * v))| ≤ 101 / 100 * |d| + 101 / 100 * |v| + 3 * η := by nlinarith [abs_nonneg (d - fl (g * v))]
  have h7 : fl (d - fl (g * v)) ^ 2 ≤ (101 / 100 * |d| + 101 / 100 * |v| + 3 * η) ^ 2 := by
    rw [← sq_abs (fl (d - fl (g * v)))]
    exact pow_le_pow_left₀ (abs_nonneg _) h6 2
  have h8 : (101 / 100 * |d| + 101 / 100 * |v| + 3 * η) ^ 2 ≤ 3 * ((101 / 100) ^ 2 * |d| ^ 2 + (101 / 100) ^ 2 * |v| ^ 2 + 9 * η ^ 2) := by
    nlinarith [sq_nonneg (101 / 100 * |d| - 101 / 100 * |v|), sq_nonneg (101 / 100 * |d| - 3 * η), sq_nonneg (101 / 100 * |v| - 3 * η)]
  rw [sq_abs, sq_abs] at h8
  have : 0 ≤ B := (sq_nonneg v).trans hv
  linarith

theorem feedbackRun_bound (N : RndNear fl u η) {σ M g : ℚ} {m : Nat} (hσ : 0 < σ) (hσ1 : σ ≤ 1) (hg : g ^ 2 = 1 - σ) (hM : 1 ≤ M)
    (hu : u ≤ σ / 512) (hη : η ≤ 1 / 1024) (xs : List ℚ) :
    ∀ {s : Feedback} {h : List ℚ}, s.fb = g → Dl.Inv s.dl h (m + 1) → |s.dl.ap.coeff| ≤ 3 / 8 →
      fbE σ m s.dl.ap.coeff s.dl.ap.prevIn s.dl.ap.prevOut h ≤ fbB σ M m → (∀ x ∈ xs, |x| ≤ M) →
      ∃ s' o, feedbackRunF fl s xs = .ok (s', o) ∧ ∀ y ∈ o, y ^ 2 ≤ 10 * fbB σ M m := by
  induction xs with
  | nil => intro s h _ _ _ _ _; exact ⟨s, [], rfl, by simp⟩
  | cons x xs ih =>
    intro s h hfb I hc hE hx
    have hη0 := N.η0
    have hr := readF_inv (fl := fl) I
    generalize hd : (interpF fl s.dl.ap (h.getD (m + 1 - 1) 0)).2 = d at hr
    obtain ⟨s', e, I', ha, -⟩ := Dl.write_inv I (interpF fl s.dl.ap (h.getD (m + 1 - 1) 0)).1 (fl (fl (d * g) + x))
    have he : |d - (s.dl.ap.coeff * (h.getD m 0 - s.dl.ap.prevOut) + s.dl.ap.prevIn)| ≤
        2 * u * (|h.getD m 0| + |s.dl.ap.prevOut| + |s.dl.ap.prevIn|) + 4 * η := by
      rw [← hd]
      exact interp_err N hc
    obtain ⟨q1, q2, q3⟩ := energy_step (k := m) hσ hσ1 hg hM N.u0 hu hη0 (by linarith) hc (hx x (by simp)) he (fb_write N g d x) hE
    have hap : s'.ap = ⟨s.dl.ap.coeff, h.getD m 0, d⟩ := by
      rw [ha, ← hd]
      rfl
    obtain ⟨s'', o, e', ho⟩ := ih (s := { s with dl := s' }) (h := fl (fl (d * g) + x) :: h) hfb I' (by rw [hap]; exact hc)
      (by rw [hap]; exact q1) (fun y hy => hx y (List.mem_cons_of_mem _ hy))
    rw [show ({ s with dl := s' } : Feedback) = ⟨g, s'⟩ from by rw [← hfb]] at e'
    refine ⟨s'', fl (d - fl (g * fl (fl (d * g) + x))) :: o, by
      simp only [feedbackRunF, feedbackF, hr, bind_ok, hfb, e, pure_ok]
      simp only [e', bind_ok], ?_⟩
    intro y hy
    rcases List.mem_cons.1 hy with rfl | hy
    · refine fb_out N ?_ ?_ q2 q3
      · rw [← sq_le_one_iff_abs_le_one]
        linarith
      · have h1 : η ^ 2 ≤ (1 / 1024) ^ 2 := pow_le_pow_left₀ hη0 hη 2
        have h2 : (1 : ℚ) ≤ fbB σ M m := by
          unfold fbB
          have a1 : 1 ≤ M / σ := by rw [le_div_iff₀ hσ]; linarith
          have a2 : (1 : ℚ) ≤ (M / σ) ^ 2 := one_le_pow₀ a1
          have a3 : (0 : ℚ) ≤ m := Nat.cast_nonneg _
          nlinarith
        linarith
    · exact ho y hy

/-- **C94**: with any feedback of less than 1 (by more than the precision of the sample type) and a delay of more than half a frame that
fits the buffer, no input makes the delay with feedback crash, and its output keeps a limit that no number of frames changes: at most
about 180 times the root of the length of the buffer, times the loudest input (full scale at least), divided by `1 - g²`. -/
theorem C94_feedback (N : RndNear fl u η) (hη : η ≤ 1 / 1024) (fl64 : ℚ → ℚ) (sr len : Nat) (h0 : 0 < len) {M g : ℚ} (hM : 1 ≤ M)
    (hg : 512 * u ≤ 1 - g ^ 2) (hg1 : |g| < 1) (t : ℚ) (ht : 1 / 2 < fl (fl64 (t * sr))) (hlen : fl (fl64 (t * sr)) ≤ len) :
    ∃ s, feedbackTimeF fl fl64 ⟨g, allpassInitF len⟩ sr t = .ok s ∧ ∀ xs : List ℚ, (∀ x ∈ xs, |x| ≤ M) →
      ∃ s' o, feedbackRunF fl s xs = .ok (s', o) ∧ ∀ y ∈ o, y ^ 2 ≤ 2 ^ 15 * len * (M / (1 - g ^ 2)) ^ 2 := by
  obtain ⟨I, hl⟩ := initF_inv h0
  obtain ⟨s', m, c, e, I', hc, ha, hb⟩ := setFramesF_inv N hη I _ ht (by rw [hl]; exact hlen)
  refine ⟨⟨g, s'⟩, by simp only [feedbackTimeF, e, bind_ok, pure_ok], ?_⟩
  intro xs hx
  have hσ : 0 < 1 - g ^ 2 := by
    have := (sq_lt_one_iff_abs_lt_one g).2 hg1
    linarith
  have hσ1 : 1 - g ^ 2 ≤ 1 := by
    have := sq_nonneg g
    linarith
  generalize hσe : 1 - g ^ 2 = σ at *
  obtain ⟨k, rfl⟩ : ∃ k, m = k + 1 := ⟨m - 1, by have := I'.pos; omega⟩
  have hkl : ((k : ℚ) + 1) ≤ len := by
    have h1 := I'.le
    rw [hb, hl] at h1
    exact_mod_cast h1
  have a1 : 1 ≤ M / σ := by rw [le_div_iff₀ hσ]; linarith
  have a2 : (1 : ℚ) ≤ (M / σ) ^ 2 := one_le_pow₀ a1
  have hE : fbE σ k s'.ap.coeff s'.ap.prevIn s'.ap.prevOut [] ≤ fbB σ M k := by
    rw [ha]
    show lineE (1 + 3 * σ / 8) (σ / (8 * (k + 1))) (k + 1) [] + (1 - c * 1) ^ 2 / (1 - c ^ 2) + σ / 8 * (1 ^ 2 + 1 ^ 2) ≤ fbB σ M k
    have z : lineE (1 + 3 * σ / 8) (σ / (8 * (k + 1))) (k + 1) [] = 0 := by simp [lineE]
    have hcc := abs_le.1 hc
    have hS : (1 - c * 1) ^ 2 / (1 - c ^ 2) ≤ 3 := by
      rw [div_le_iff₀ (by nlinarith)]
      nlinarith
    have hB : 2112 ≤ fbB σ M k := by
      unfold fbB
      have a3 : (0 : ℚ) ≤ k := Nat.cast_nonneg _
      nlinarith
    rw [z]
    linarith
  obtain ⟨s'', o, e', ho⟩ := feedbackRun_bound N (g := g) hσ hσ1 (by linarith) hM (by linarith) hη xs (s := ⟨g, s'⟩) rfl I'
    (by rw [ha]; exact hc) hE hx
  refine ⟨s'', o, e', fun y hy => (ho y hy).trans ?_⟩
  unfold fbB
  have a4 : ((k : ℚ) + 1) * (M / σ) ^ 2 ≤ len * (M / σ) ^ 2 := mul_le_mul_of_nonneg_right hkl (by linarith)
  have a5 : (0 : ℚ) ≤ ((k : ℚ) + 1) * (M / σ) ^ 2 := by positivity
  linarith

/-! ### The two sample types -/

theorem fits32 {len : Nat} (h : len < 2 ^ 24) : ∀ x : ℚ, x ≤ len → rnd32 x ≤ len := by
  intro x hx
  exact rnd_le_rep (by norm_num) (rep_nat h (by norm_num)) hx

/-- **C94** in `f32` (and `f64` for the product with the sample rate): buffers of less than 2²⁴ frames. -/
theorem C94_delay32 (sr len : Nat) (h0 : 0 < len) (hl : len < 2 ^ 24) {M : ℚ} (hM : 1 ≤ M) (t₀ : ℚ)
    (hacc : asUsize (rnd64 (t₀ * sr)) < len) (ops : List Dl.Op)
    (ht : ∀ t, Dl.Op.time t ∈ Dl.Op.time t₀ :: ops → 1 / 2 < rnd32 (rnd64 (t * sr))) (hx : ∀ x, Dl.Op.frame x ∈ ops → |x| ≤ M) :
    ∃ s' o, allpassRunF rnd32 rnd64 sr (allpassInitF len) (.time t₀ :: ops) = .ok (s', o) ∧ ∀ y ∈ o, |y| ≤ 5 / 2 * M :=
  C94_delay (delayNear_rnd 24 (-149) (by norm_num)) ((pow2_le (by norm_num : (-149 - 1 : Int) ≤ -10)).trans (by norm_num [pow2_eq]))
    rnd64 sr len h0 (fits32 hl) hM t₀ hacc ops ht hx

/-- **C94** in `f32`: a feedback of up to 1 - 2⁻¹⁵ or so. -/
theorem C94_feedback32 (sr len : Nat) (h0 : 0 < len) {M g : ℚ} (hM : 1 ≤ M) (hg : 1 / 2 ^ 15 ≤ 1 - g ^ 2) (t : ℚ)
    (ht : 1 / 2 < rnd32 (rnd64 (t * sr))) (hlen : rnd32 (rnd64 (t * sr)) ≤ len) :
    ∃ s, feedbackTimeF rnd32 rnd64 ⟨g, allpassInitF len⟩ sr t = .ok s ∧ ∀ xs : List ℚ, (∀ x ∈ xs, |x| ≤ M) →
      ∃ s' o, feedbackRunF rnd32 s xs = .ok (s', o) ∧ ∀ y ∈ o, y ^ 2 ≤ 2 ^ 15 * len * (M / (1 - g ^ 2)) ^ 2 := by
  refine C94_feedback (delayNear_rnd 24 (-149) (by norm_num)) ((pow2_le (by norm_num : (-149 - 1 : Int) ≤ -10)).trans (by norm_num [pow2_eq]))
    rnd64 sr len h0 hM ?_ ?_ t ht hlen
  · have : pow2 (-((24 : Nat) : Int)) = 1 / 2 ^ 24 := by norm_num [pow2_eq]
    rw [this]
    linarith
  · rw [← sq_lt_one_iff_abs_lt_one]
    have : (0 : ℚ) < 1 / 2 ^ 15 := by norm_num
    linarith

/-- The hypotheses of `C94_delay32` hold for a delay of 2.4 frames (and then of 0.6) in a buffer of 4. -/
example : asUsize (rnd64 (1 / 20000 * 48000)) < 4 ∧
    ∀ t, Dl.Op.time t ∈ [Dl.Op.time (1 / 20000), .frame 1, .frame (-1), .time (1 / 80000), .frame 0] →
      1 / 2 < rnd32 (rnd64 (t * (48000 : Nat))) := by
  refine ⟨by decide +kernel, ?_⟩
  intro t ht
  simp only [List.mem_cons, Dl.Op.time.injEq, reduceCtorEq, List.not_mem_nil, or_false, false_or] at ht
  rcases ht with rfl | rfl <;> decide +kernel

/-- What a delay of two frames plays (it begins with the 1 of the interpolator, see C40). -/
example : (allpassRunF rnd32 rnd64 48000 (allpassInitF 4) [.time (1 / 24000), .frame (1 / 2), .frame (-1), .frame 0, .frame 0]).map (·.2) =
    .ok [1, 0, 1 / 2, -1] := by decide +kernel

/-- The hypotheses of `C94_feedback32` hold for a feedback of 0.999 and a delay of 2.4 frames. -/
example : (1 : ℚ) / 2 ^ 15 ≤ 1 - (rnd32 (999 / 1000)) ^ 2 ∧ 1 / 2 < rnd32 (rnd64 (1 / 20000 * (48000 : Nat))) ∧
    rnd32 (rnd64 (1 / 20000 * (48000 : Nat))) ≤ (4 : Nat) := by decide +kernel

/-! ### What does not hold -/

/-- 0.9 in `f32`. -/
def g9 : ℚ := 15099494 / 16777216

/-- A delay of two frames with a feedback of 0.9, in a buffer of two frames, with the smallest number of `f32` in it. -/
def circA : Feedback := ⟨g9, ⟨[0, 1 / 2 ^ 149], 1, 0, 1, 0, ⟨0, 1 / 2 ^ 149, 0⟩⟩⟩

/-- The frame after. -/
def circB : Feedback := ⟨g9, ⟨[0, 1 / 2 ^ 149], 0, 1, 1, 0, ⟨0, 0, 1 / 2 ^ 149⟩⟩⟩

theorem circA_step : feedbackF rnd32 circA 0 = .ok (circB, 0) := by decide +kernel

theorem circB_step : feedbackF rnd32 circB 0 = .ok (circA, 0) := by decide +kernel

theorem circ_run (n : Nat) : (∃ s o, feedbackRunF rnd32 circA (List.replicate n 0) = .ok (s, o) ∧ (s = circA ∨ s = circB)) ∧
    (∃ s o, feedbackRunF rnd32 circB (List.replicate n 0) = .ok (s, o) ∧ (s = circA ∨ s = circB)) := by
  induction n with
  | zero => exact ⟨⟨_, _, rfl, .inl rfl⟩, ⟨_, _, rfl, .inr rfl⟩⟩
  | succ n ih =>
    obtain ⟨⟨s, o, e, h⟩, ⟨s', o', e', h'⟩⟩ := ih
    refine ⟨⟨s', 0 :: o', ?_, h'⟩, ⟨s, 0 :: o, ?_, h⟩⟩
    · simp only [List.replicate_succ, feedbackRunF, circA_step, bind_ok, e', pure_ok]
    · simp only [List.replicate_succ, feedbackRunF, circB_step, bind_ok, e, pure_ok]

/-- The delay with feedback never comes to rest: in `f32`, after two frames of input and any number of silent frames, the smallest
subnormal number still goes round (0.9 of it is rounded back to it). -/
theorem C94_silence_violated : ∃ s₀, feedbackTimeF rnd32 rnd64 ⟨g9, allpassInitF 2⟩ 48000 (1 / 24000) = .ok s₀ ∧ ∀ n : Nat,
    ∃ s o, feedbackRunF rnd32 s₀ (-g9 :: 1 / 2 ^ 149 :: List.replicate (n + 1) 0) = .ok (s, o) ∧
      (s.dl.ap.prevIn ≠ 0 ∨ s.dl.ap.prevOut ≠ 0) := by
  refine ⟨⟨g9, ⟨[0, 0], 0, 1, 1, 0, ⟨0, 1, 1⟩⟩⟩, by decide +kernel, fun n => ?_⟩
  have e1 : feedbackF rnd32 ⟨g9, ⟨[0, 0], 0, 1, 1, 0, ⟨0, 1, 1⟩⟩⟩ (-g9) = .ok (⟨g9, ⟨[0, 0], 1, 0, 1, 0, ⟨0, 0, 1⟩⟩⟩, 1) := by decide +kernel
  have e2 : feedbackF rnd32 ⟨g9, ⟨[0, 0], 1, 0, 1, 0, ⟨0, 0, 1⟩⟩⟩ (1 / 2 ^ 149) =
      .ok (⟨g9, ⟨[0, 1 / 2 ^ 149], 0, 1, 1, 0, ⟨0, 0, 0⟩⟩⟩, -(1 / 2 ^ 149)) := by decide +kernel
  have e3 : feedbackF rnd32 ⟨g9, ⟨[0, 1 / 2 ^ 149], 0, 1, 1, 0, ⟨0, 0, 0⟩⟩⟩ 0 = .ok (circA, 0) := by decide +kernel
  obtain ⟨⟨s, o, e, h⟩, -⟩ := circ_run n
  refine ⟨s, 1 :: -(1 / 2 ^ 149) :: 0 :: o, ?_, ?_⟩
  · simp only [List.replicate_succ, feedbackRunF, e1, e2, e3, bind_ok, e, pure_ok]
  · rcases h with rfl | rfl
    · exact .inl (by norm_num [circA])
    · exact .inr (by norm_num [circB])

/-- The length is checked before the delay is rounded to a sample: with a buffer of 2²⁶ + 5 frames, a delay of 2²⁶ + 4.5 frames is
accepted, rounded up to 2²⁶ + 8, and the read position underflows. -/
theorem C94_long_violated : asUsize (rnd64 ((2 ^ 26 + 9 / 2) * (1 : Nat))) < (allpassInitF (2 ^ 26 + 5)).buf.length ∧
    delayTimeF rnd32 rnd64 (allpassInitF (2 ^ 26 + 5)) 1 (2 ^ 26 + 9 / 2) = .error .overflow := by
  have hl : (allpassInitF (2 ^ 26 + 5)).buf.length = 2 ^ 26 + 5 := by simp only [allpassInitF, List.length_replicate]
  have h1 : asUsize (rnd64 ((2 ^ 26 + 9 / 2) * (1 : Nat))) < 2 ^ 26 + 5 := by decide +kernel
  have h2 : splitF rnd32 (rnd32 (rnd64 ((2 ^ 26 + 9 / 2) * (1 : Nat)))) = .ok (2 ^ 26 + 7, 1) := by decide +kernel
  have hw : (allpassInitF (2 ^ 26 + 5)).wf = 0 := rfl
  refine ⟨by rw [hl]; exact h1, ?_⟩
  unfold delayTimeF
  simp only
  rw [hl, if_pos h1]
  unfold setFramesF
  rw [h2]
  simp only [bind_ok, Allpass.readPos, hl, hw]
  rfl

end Verif.Fl
