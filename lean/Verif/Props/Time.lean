import Verif.Model.Time
import Mathlib.Algebra.BigOperators.Group.List.Basic
import Mathlib.Tactic.Ring
import Mathlib.Data.Nat.Cast.Basic

/-!
# C25–C29: time arithmetic

Specification: a time value stands for a number of ticks ("tesimals"), an integer.
-/

namespace Verif
namespace TimeSpec

/-- The instant a `Seconds` value stands for, in ticks of 1/282240000 s. -/
def ticks (s : Seconds) : Nat := s.seconds * 282240000 + s.sub
/-- Normal form: the fraction is below one second and the seconds fit in a `u32`. -/
def Normal (s : Seconds) : Prop := s.sub < 282240000 ∧ s.seconds < 4294967296
/-- First instant that can not be represented (2^32 s). -/
def limit : Nat := 4294967296 * 282240000

/-- The musical position a `Beats` value stands for, in ticks of 1/1476034560 beat. -/
def bticks (s : Beats) : Nat := s.beats * 1476034560 + s.sub
def BNormal (s : Beats) : Prop := s.sub < 1476034560 ∧ s.beats < 4294967296
def blimit : Nat := 4294967296 * 1476034560

instance (s : Seconds) : Decidable (Normal s) := by unfold Normal; infer_instance
instance (s : Beats) : Decidable (BNormal s) := by unfold BNormal; infer_instance

end TimeSpec

open TimeSpec

theorem normal_ext {a b : Seconds} (ha : Normal a) (hb : Normal b) (h : ticks a = ticks b) :
    a = b := by
  cases a; cases b
  simp only [Normal, ticks, Seconds.mk.injEq] at *
  omega

theorem bnormal_ext {a b : Beats} (ha : BNormal a) (hb : BNormal b) (h : bticks a = bticks b) :
    a = b := by
  cases a; cases b
  simp only [BNormal, bticks, Beats.mk.injEq] at *
  omega

theorem carry_lt {per s t : Nat} (hper : 0 < per) (h : t < per) :
    Seconds.carry per s t hper = .ok (s, t) := by
  rw [Seconds.carry]; simp; omega

theorem carry_once {per s t : Nat} (hper : 0 < per) (h : per ≤ t) (h2 : t < 2 * per) :
    Seconds.carry per s t hper =
      if s + 1 < U32 then .ok (s + 1, t - per) else .error .overflow := by
  rw [Seconds.carry]
  simp only [ge_iff_le, h, dite_true, addC]
  split
  · next heq =>
    split at heq
    · simp only [Except.ok.injEq] at heq; subst heq
      rw [carry_lt hper (by omega)]; simp [*]
    · simp at heq
  · next heq =>
    split at heq
    · simp at heq
    · simp only [Except.error.injEq] at heq; subst heq; simp [*]

/-! ## C25 -/

/-- C25: comparison of normal-form values is comparison of the instants. -/
theorem C25_lt_iff {a b : Seconds} (ha : Normal a) (hb : Normal b) :
    a.lt b = true ↔ ticks a < ticks b := by
  simp only [Normal, Seconds.lt, Seconds.cmp, ticks] at *
  split <;> rename_i h
  · simp [Nat.compare_eq_lt]; omega
  · simp [Nat.compare_eq_lt]; omega

theorem C25_le_iff {a b : Seconds} (ha : Normal a) (hb : Normal b) :
    a.le b = true ↔ ticks a ≤ ticks b := by
  simp only [Normal, Seconds.le, Seconds.cmp, ticks] at *
  split <;> rename_i h
  · simp [Nat.compare_eq_gt]; omega
  · simp [Nat.compare_eq_gt]; omega

/-- C25: the comparison is a total order: exactly one of `<`, `=`, `>` and it agrees with equality. -/
theorem C25_cmp_eq_iff (a b : Seconds) : a.cmp b = .eq ↔ a = b := by
  cases a; cases b
  simp only [Seconds.cmp, Seconds.mk.injEq]
  split <;> rename_i h
  · simp [Nat.compare_eq_eq, h]
  · simp [Nat.compare_eq_eq, h]

theorem C25_cmp_swap (a b : Seconds) : (a.cmp b).swap = b.cmp a := by
  simp only [Seconds.cmp]
  by_cases h : a.seconds = b.seconds
  · simp [h, Nat.compare_swap]
  · simp [h, Ne.symm h, Nat.compare_swap]

/-- C25: addition is exact, stays in normal form, and panics exactly when the sum is not
representable. -/
theorem C25_add_exact {a b : Seconds} (ha : Normal a) (hb : Normal b) :
    (ticks a + ticks b < limit →
      ∃ c, a.add b = .ok c ∧ Normal c ∧ ticks c = ticks a + ticks b) ∧
    (limit ≤ ticks a + ticks b → a.add b = .error .overflow) := by
  obtain ⟨s, t⟩ := a
  obtain ⟨s', t'⟩ := b
  simp only [Normal, ticks, limit] at *
  have h1 : addC U32 t t' = .ok (t + t') := by simp [addC]; omega
  by_cases hs : s + s' < U32
  · have h0 : addC U32 s s' = .ok (s + s') := by simp [addC, hs]
    by_cases ht : t + t' < tesPerSec
    · have h2 := carry_lt (s := s + s') (by decide) ht
      refine ⟨fun _ => ⟨⟨s + s', t + t'⟩, ?_, ?_, ?_⟩, ?_⟩
      · simp [Seconds.add, h0, h1, h2]
      · simp at *; omega
      · simp; omega
      · simp at *; omega
    · have h2 := carry_once (s := s + s') (t := t + t') (per := tesPerSec) (by decide)
        (by omega) (by omega)
      by_cases hs1 : s + s' + 1 < U32
      · simp only [hs1, if_true] at h2
        refine ⟨fun _ => ⟨⟨s + s' + 1, t + t' - tesPerSec⟩, ?_, ?_, ?_⟩, ?_⟩
        · simp [Seconds.add, h0, h1, h2]
        · simp at *; omega
        · simp at *; omega
        · simp at *; omega
      · simp only [hs1, if_false] at h2
        refine ⟨?_, ?_⟩
        · simp at *; omega
        · intro _; simp [Seconds.add, h0, h1, h2]
  · have h0 : addC U32 s s' = .error .overflow := by simp [addC, hs]
    refine ⟨?_, ?_⟩
    · simp at *; omega
    · intro _; simp [Seconds.add, h0]

/-- C25: addition is commutative, for all values (normal form or not). -/
theorem C25_add_comm (a b : Seconds) : a.add b = b.add a := by
  simp only [Seconds.add, addC]
  rw [Nat.add_comm a.seconds, Nat.add_comm a.sub]

/-- C25: addition is associative, including the overflow outcome. -/
theorem C25_add_assoc {a b c : Seconds} (ha : Normal a) (hb : Normal b) (hc : Normal c) :
    (do let x ← a.add b; x.add c) = (do let y ← b.add c; a.add y) := by
  have hab := C25_add_exact ha hb
  have hbc := C25_add_exact hb hc
  by_cases h1 : ticks a + ticks b < limit
  · obtain ⟨x, hx, nx, tx⟩ := hab.1 h1
    have hxc := C25_add_exact nx hc
    by_cases h2 : ticks b + ticks c < limit
    · obtain ⟨y, hy, ny, ty⟩ := hbc.1 h2
      have hay := C25_add_exact ha ny
      by_cases h3 : ticks a + ticks b + ticks c < limit
      · obtain ⟨z, hz, nz, tz⟩ := hxc.1 (by omega)
        obtain ⟨w, hw, nw, tw⟩ := hay.1 (by omega)
        have : z = w := normal_ext nz nw (by omega)
        subst this
        rw [hx, hy]; show x.add c = a.add y; rw [hz, hw]
      · have e1 := hxc.2 (by omega)
        have e2 := hay.2 (by omega)
        rw [hx, hy]; show x.add c = a.add y; rw [e1, e2]
    · have e1 := hbc.2 (by omega)
      have e2 := hxc.2 (by omega)
      rw [hx, e1]; show x.add c = .error _; rw [e2]
  · have e1 := hab.2 (by omega)
    rw [e1]
    by_cases h2 : ticks b + ticks c < limit
    · obtain ⟨y, hy, ny, ty⟩ := hbc.1 h2
      have e2 := (C25_add_exact ha ny).2 (by omega)
      rw [hy]; show Except.error _ = a.add y; rw [e2]
    · have e2 := hbc.2 (by omega)
      rw [e2, bind_error, bind_error]

/-- Non-vacuity: a carry really happens. -/
example : Normal ⟨3, 200000000⟩ ∧ Normal ⟨4, 100000000⟩ ∧
    Seconds.add ⟨3, 200000000⟩ ⟨4, 100000000⟩ = .ok ⟨8, 17760000⟩ := by
  refine ⟨by decide, by decide, ?_⟩
  have := C25_add_exact (a := ⟨3, 200000000⟩) (b := ⟨4, 100000000⟩) (by decide) (by decide)
  obtain ⟨c, hc, nc, tc⟩ := this.1 (by decide)
  rw [hc]; congr 1; exact normal_ext nc (by decide) (by rw [tc]; decide)

/-- Outside normal form (possible through the public `Seconds::new`) the order does not agree with
the instants: one second written as 282240000 ticks compares below `(1, 0)`. This is why C25 is
stated for normal forms. -/
theorem C25_unnormalised_order_witness :
    (⟨0, 282240000⟩ : Seconds).lt ⟨1, 0⟩ = true ∧
      ticks ⟨0, 282240000⟩ = ticks ⟨1, 0⟩ := by decide

/-! ## C26 -/

/-- C26: `checked_sub` is the exact difference, `None` exactly when it would be negative. -/
theorem C26_checked_sub {a b : Seconds} (ha : Normal a) (hb : Normal b) :
    (ticks b ≤ ticks a →
      ∃ c, a.checkedSub b = .ok (some c) ∧ Normal c ∧ ticks c + ticks b = ticks a) ∧
    (ticks a < ticks b → a.checkedSub b = .ok none) := by
  have hlt := C25_lt_iff ha hb
  refine ⟨fun h => ?_, fun h => ?_⟩
  · have hn : a.lt b = false := by
      cases hh : a.lt b
      · rfl
      · rw [hh] at hlt; simp at hlt; omega
    obtain ⟨s, t⟩ := a
    obtain ⟨s', t'⟩ := b
    simp only [Normal, ticks] at *
    by_cases ht : t' ≤ t
    · refine ⟨⟨s - s', t - t'⟩, ?_, ?_, ?_⟩
      · have h1 : subC s s' = .ok (s - s') := by simp [subC]; omega
        have h2 : subC t t' = .ok (t - t') := by simp [subC]; omega
        simp [Seconds.checkedSub, hn, ht, h1, h2]
      · simp; omega
      · simp; omega
    · refine ⟨⟨s - s' - 1, tesPerSec - (t' - t)⟩, ?_, ?_, ?_⟩
      · have h1 : subC s s' = .ok (s - s') := by simp [subC]; omega
        have h2 : subC (s - s') 1 = .ok (s - s' - 1) := by simp [subC]; omega
        have h3 : subC t' t = .ok (t' - t) := by simp [subC]; omega
        have h4 : subC tesPerSec (t' - t) = .ok (tesPerSec - (t' - t)) := by simp [subC]; omega
        simp only [Seconds.checkedSub, hn, ge_iff_le, ht, if_false, h1, h2, h3, h4,
          Bool.false_eq_true, bind_ok, pure_ok]
      · simp; omega
      · simp; omega
  · have hn : a.lt b = true := hlt.2 h
    simp [Seconds.checkedSub, hn]

/-- C26: `saturating_sub` is the difference clamped at zero. -/
theorem C26_saturating_sub {a b : Seconds} (ha : Normal a) (hb : Normal b) :
    ∃ c, a.saturatingSub b = .ok c ∧ Normal c ∧ ticks c = ticks a - ticks b := by
  have hle := C25_le_iff ha hb
  by_cases h : ticks a ≤ ticks b
  · refine ⟨.zero, ?_, by decide, ?_⟩
    · have : a.le b = true := hle.2 h
      simp [Seconds.saturatingSub, this]
    · simp [ticks, Seconds.zero]; simp [ticks] at h; omega
  · have hn : a.le b = false := by
      cases hh : a.le b
      · rfl
      · exact absurd (hle.1 hh) h
    obtain ⟨s, t⟩ := a
    obtain ⟨s', t'⟩ := b
    simp only [Normal, ticks] at *
    by_cases ht : t' ≤ t
    · refine ⟨⟨s - s', t - t'⟩, ?_, ?_, ?_⟩
      · have h1 : subC s s' = .ok (s - s') := by simp [subC]; omega
        have h2 : subC t t' = .ok (t - t') := by simp [subC]; omega
        simp [Seconds.saturatingSub, hn, ht, h1, h2]
      · simp; omega
      · simp; omega
    · refine ⟨⟨s - s' - 1, tesPerSec - (t' - t)⟩, ?_, ?_, ?_⟩
      · have h1 : subC s s' = .ok (s - s') := by simp [subC]; omega
        have h2 : subC (s - s') 1 = .ok (s - s' - 1) := by simp [subC]; omega
        have h3 : subC t' t = .ok (t' - t) := by simp [subC]; omega
        have h4 : subC tesPerSec (t' - t) = .ok (tesPerSec - (t' - t)) := by simp [subC]; omega
        simp only [Seconds.saturatingSub, hn, ge_iff_le, ht, if_false, h1, h2, h3, h4,
          Bool.false_eq_true, bind_ok, pure_ok]
      · simp; omega
      · simp; omega

/-- C26: adding the subtrahend back restores the value. -/
theorem C26_sub_add_cancel {a b : Seconds} (ha : Normal a) (hb : Normal b)
    (h : ticks b ≤ ticks a) :
    ∃ c, a.checkedSub b = .ok (some c) ∧ c.add b = .ok a := by
  obtain ⟨c, hc, nc, tc⟩ := (C26_checked_sub ha hb).1 h
  refine ⟨c, hc, ?_⟩
  have hl : ticks c + ticks b < limit := by
    rw [tc]; simp only [ticks, Normal, limit] at *; omega
  obtain ⟨d, hd, nd, td⟩ := (C25_add_exact nc hb).1 hl
  rw [hd, normal_ext nd ha (by omega)]

/-- C26: subtracting an added value restores the first operand. -/
theorem C26_add_sub_cancel {a b : Seconds} (ha : Normal a) (hb : Normal b)
    (h : ticks a + ticks b < limit) :
    ∃ c, a.add b = .ok c ∧ c.checkedSub b = .ok (some a) := by
  obtain ⟨c, hc, nc, tc⟩ := (C25_add_exact ha hb).1 h
  refine ⟨c, hc, ?_⟩
  obtain ⟨d, hd, nd, td⟩ := (C26_checked_sub nc hb).1 (by omega)
  rw [hd, normal_ext nd ha (by omega)]

/-- Non-vacuity: a borrow really happens. -/
example : Seconds.checkedSub ⟨5, 1⟩ ⟨3, 2⟩ = .ok (some ⟨1, 282239999⟩) ∧
    Seconds.checkedSub ⟨3, 1⟩ ⟨3, 2⟩ = .ok none := by decide

/-! ## C27 -/

/-- `from_samples` computes the normal form of ⌊samples·T/rate⌋ (split at the second), whenever
the arguments fit. -/
theorem fromSamples_eq {n sr : Nat} (hsr : 0 < sr) (hrate : sr ≤ U32) (hn : n < U32 * sr) :
    Seconds.fromSamples n sr = .ok ⟨n / sr, n % sr * tesPerSec / sr⟩ := by
  have hlt : n % sr < sr := Nat.mod_lt _ hsr
  have hq : n / sr < U32 := (Nat.div_lt_iff_lt_mul hsr).2 hn
  have hm : n % sr * tesPerSec < U64 := by omega
  have ht : n % sr * tesPerSec / sr < U32 := by
    rw [Nat.div_lt_iff_lt_mul hsr]; omega
  have hz : ¬ sr = 0 := by omega
  unfold Seconds.fromSamples
  rw [divC, if_neg hz, bind_ok]
  rw [modC, if_neg hz, bind_ok]
  rw [mulC, if_pos hm, bind_ok]
  rw [divC, if_neg hz, bind_ok]
  rw [pure_ok, Nat.mod_eq_of_lt hq, Nat.mod_eq_of_lt ht]

theorem toSamples_eq {s : Seconds} {sr : Nat} (hs : Normal s) (hrate : sr ≤ U32) :
    s.toSamples sr = .ok (s.seconds * sr + s.sub * sr / tesPerSec) := by
  obtain ⟨a, b⟩ := s
  simp only [Normal] at hs
  have h1 : a * sr ≤ (U32 - 1) * U32 := Nat.mul_le_mul (by omega) hrate
  have h2 : b * sr ≤ tesPerSec * U32 := Nat.mul_le_mul (by omega) hrate
  have e1 : a * sr < U64 := by omega
  have e2 : b * sr < U64 := by omega
  have e4 : a * sr + b * sr / tesPerSec < U64 := by
    rcases Nat.eq_zero_or_pos sr with h | h
    · subst h; simp
    · have h3 : b * sr / tesPerSec < sr := by
        apply Nat.div_lt_of_lt_mul
        exact Nat.mul_lt_mul_of_pos_right hs.1 h
      have h4 : (a + 1) * sr ≤ U32 * U32 := Nat.mul_le_mul (by omega) hrate
      rw [Nat.add_mul, Nat.one_mul] at h4
      generalize b * sr / tesPerSec = z at *
      omega
  unfold Seconds.toSamples
  rw [mulC, if_pos e1, bind_ok, mulC, if_pos e2, bind_ok, divC, if_neg (by decide), bind_ok, addC,
    if_pos e4]

theorem fromSamples_normal {n sr : Nat} (hsr : 0 < sr) (hn : n < U32 * sr) :
    Normal ⟨n / sr, n % sr * tesPerSec / sr⟩ := by
  refine ⟨?_, ?_⟩
  · have := Nat.mod_lt n hsr
    show n % sr * tesPerSec / sr < tesPerSec
    rw [Nat.div_lt_iff_lt_mul hsr]; omega
  · exact Nat.div_lt_of_lt_mul (by rw [Nat.mul_comm]; exact hn)

/-- C27: for any sample rate up to the tick rate, the round trip loses at most one sample. -/
theorem C27_roundtrip_bound {n sr : Nat} (hsr : 0 < sr) (hT : sr ≤ tesPerSec)
    (hn : n < U32 * sr) :
    ∃ s m, Seconds.fromSamples n sr = .ok s ∧ Normal s ∧ s.toSamples sr = .ok m ∧
      (m = n ∨ m + 1 = n) := by
  refine ⟨_, _, fromSamples_eq hsr (by omega) hn,
    fromSamples_normal hsr hn,
    toSamples_eq (fromSamples_normal hsr hn) (by omega), ?_⟩
  simp only
  set r := n % sr with hr
  set q := r * tesPerSec / sr with hq
  have hdm : n / sr * sr + r = n := by rw [hr, Nat.mul_comm]; exact Nat.div_add_mod n sr
  have hq1 : q * sr ≤ r * tesPerSec := by rw [hq]; exact Nat.div_mul_le_self _ _
  have hq2 : r * tesPerSec < q * sr + sr := by
    have := Nat.lt_div_mul_add (a := r * tesPerSec) hsr
    rw [hq]; exact this
  have hle : q * sr / tesPerSec ≤ r := by
    apply Nat.div_le_of_le_mul; rw [Nat.mul_comm tesPerSec]; exact hq1
  have hge : r ≤ q * sr / tesPerSec + 1 := by
    have : r < q * sr / tesPerSec + 2 := by
      by_contra hcon
      have h2 : q * sr / tesPerSec + 2 ≤ r := by omega
      have h3 : (q * sr / tesPerSec + 2) * tesPerSec ≤ r * tesPerSec :=
        Nat.mul_le_mul_right _ h2
      have h4 := Nat.lt_div_mul_add (a := q * sr) (b := tesPerSec) (by decide)
      rw [Nat.add_mul] at h3
      omega
    omega
  omega

/-- C27: the round trip is exact for a given count exactly when the fractional part falls on a
tick. -/
theorem C27_roundtrip_iff {n sr : Nat} (hsr : 0 < sr) (hT : sr ≤ tesPerSec)
    (hn : n < U32 * sr) :
    (∃ s, Seconds.fromSamples n sr = .ok s ∧ s.toSamples sr = .ok n) ↔
      sr ∣ (n % sr) * tesPerSec := by
  have hU : sr ≤ U32 := by omega
  have hfs := fromSamples_eq hsr hU hn
  have hts := toSamples_eq (fromSamples_normal hsr hn) hU
  simp only at hts
  have hdm : n / sr * sr + n % sr = n := by rw [Nat.mul_comm]; exact Nat.div_add_mod n sr
  constructor
  · rintro ⟨s, h1, h2⟩
    rw [hfs] at h1
    obtain rfl : _ = s := by simpa using h1
    rw [hts] at h2
    have h2 : n / sr * sr + n % sr * tesPerSec / sr * sr / tesPerSec = n := by simpa using h2
    have h3 : n % sr * tesPerSec / sr * sr / tesPerSec = n % sr := by omega
    have h4 := Nat.div_mul_le_self (n % sr * tesPerSec / sr * sr) tesPerSec
    rw [h3] at h4
    have h5 := Nat.div_mul_le_self (n % sr * tesPerSec) sr
    exact ⟨n % sr * tesPerSec / sr, by
      rw [Nat.mul_comm sr]; exact (Nat.le_antisymm h5 h4).symm⟩
  · intro hd
    refine ⟨_, hfs, ?_⟩
    rw [hts]
    congr 1
    rw [Nat.div_mul_cancel hd, Nat.mul_div_cancel _ (by decide)]
    exact hdm

/-- C27: lossless round trip for every sample rate dividing the tick rate, for all counts below
2^32 seconds. -/
theorem C27_roundtrip {n sr : Nat} (hsr : sr ∣ tesPerSec) (hn : n < U32 * sr) :
    ∃ s, Seconds.fromSamples n sr = .ok s ∧ Normal s ∧ s.toSamples sr = .ok n := by
  have h0 : 0 < sr := Nat.pos_of_dvd_of_pos hsr (by decide)
  have hT : sr ≤ tesPerSec := Nat.le_of_dvd (by decide) hsr
  obtain ⟨s, h1, h2⟩ := (C27_roundtrip_iff h0 hT hn).2 (Dvd.dvd.mul_left hsr _)
  refine ⟨s, h1, ?_, h2⟩
  rw [fromSamples_eq h0 (by omega) hn] at h1
  obtain rfl : _ = s := by simpa using h1
  exact fromSamples_normal h0 hn

/-- C27: the rates for which *every* count survives are exactly the divisors of the tick rate. -/
theorem C27_lossless_rates {sr : Nat} (h0 : 0 < sr) (hT : sr ≤ tesPerSec) :
    (∀ n, n < U32 * sr → ∃ s, Seconds.fromSamples n sr = .ok s ∧ s.toSamples sr = .ok n) ↔
      sr ∣ tesPerSec := by
  constructor
  · intro h
    by_cases h1 : sr = 1
    · subst h1; exact one_dvd _
    · have := (C27_roundtrip_iff h0 hT (n := 1) (by omega)).1
        (h 1 (by omega))
      rwa [Nat.mod_eq_of_lt (by omega), Nat.one_mul] at this
  · intro h n hn
    obtain ⟨s, a, _, b⟩ := C27_roundtrip h hn
    exact ⟨s, a, b⟩

/-- C27: all common sample rates are lossless. -/
theorem C27_common_rates :
    ∀ sr ∈ [8000, 11025, 16000, 22050, 24000, 32000, 44100, 48000, 88200, 96000, 176400, 192000,
      352800, 384000], sr ∣ tesPerSec := by decide

theorem ticks_mono_aux {q q' x y : Nat} (h : (q < q' ∧ x < tesPerSec) ∨ (q = q' ∧ x ≤ y)) :
    q * tesPerSec + x ≤ q' * tesPerSec + y := by omega

/-- C27: later sample counts never map to an earlier time, for every sample rate. -/
theorem C27_monotone {n m sr : Nat} (hsr : 0 < sr) (hU : sr ≤ U32) (hnm : n ≤ m)
    (hm : m < U32 * sr) :
    ∃ s t, Seconds.fromSamples n sr = .ok s ∧ Seconds.fromSamples m sr = .ok t ∧
      s.le t = true := by
  have hn : n < U32 * sr := by omega
  refine ⟨_, _, fromSamples_eq hsr hU hn, fromSamples_eq hsr hU hm, ?_⟩
  rw [C25_le_iff (fromSamples_normal hsr hn) (fromSamples_normal hsr hm)]
  simp only [ticks]
  have hq : n / sr ≤ m / sr := Nat.div_le_div_right hnm
  rcases Nat.eq_or_lt_of_le hq with h | h
  · have h1 := Nat.div_add_mod n sr
    have h2 := Nat.div_add_mod m sr
    rw [← h] at h2
    have : n % sr ≤ m % sr := by omega
    have := Nat.div_le_div_right (c := sr) (Nat.mul_le_mul_right tesPerSec this)
    exact ticks_mono_aux (Or.inr ⟨h, this⟩)
  · have := (fromSamples_normal hsr hn).1
    exact ticks_mono_aux (Or.inl ⟨h, this⟩)

/-- C27: tick counts survive the round trip. -/
theorem C27_tesimals_roundtrip {n : Nat} (h : n < limit) :
    ∃ s, Seconds.fromTesimals n = .ok s ∧ Normal s ∧ ticks s = n ∧ s.toTesimals = .ok n := by
  simp only [limit] at h
  have hq : n / tesPerSec < U32 := by omega
  refine ⟨⟨n / tesPerSec, n % tesPerSec⟩, ?_, ?_, ?_, ?_⟩
  · have h1 : n / tesPerSec % U32 = n / tesPerSec := Nat.mod_eq_of_lt hq
    have h2 : mulC U64 (n / tesPerSec) tesPerSec = .ok (n / tesPerSec * tesPerSec) := by
      simp only [mulC] at *; rw [if_pos (by omega)]
    have h3 : subC n (n / tesPerSec * tesPerSec) = .ok (n % tesPerSec) := by
      simp only [subC] at *; rw [if_pos (by omega)]; rw [show n - n / tesPerSec * tesPerSec = n % tesPerSec by omega]
    simp only [Seconds.fromTesimals, h1, h2]
    rw [bind_ok, h3, bind_ok, pure_ok, Nat.mod_eq_of_lt (by omega)]
  · refine ⟨?_, ?_⟩ <;> simp only <;> omega
  · simp only [ticks]; omega
  · have h2 : mulC U64 (n / tesPerSec) tesPerSec = .ok (n / tesPerSec * tesPerSec) := by
      simp only [mulC] at *; rw [if_pos (by omega)]
    simp only [Seconds.toTesimals, h2]
    rw [bind_ok, addC, if_pos (by omega),
      show n / tesPerSec * tesPerSec + n % tesPerSec = n by omega]

example : (48000 : Nat) ∣ tesPerSec ∧ 123456789 < U32 * 48000 := by decide
/-- a rate that is not lossless: 1 sample at 44056 Hz comes back as 0 samples -/
example : Seconds.fromSamples 1 44056 = .ok ⟨0, 6406⟩ ∧ Seconds.toSamples ⟨0, 6406⟩ 44056 = .ok 0 := by
  decide

/-! ## C28 -/

/-- Denominators named in the documentation of `from_fractional_beats` (time.rs:267-269). -/
def documentedFractions : List Nat :=
  [2, 3, 4, 5, 6, 7, 8, 9, 10, 12, 14, 15, 16, 18, 20, 24, 32, 64, 128, 256, 512, 1920]

theorem documented_dvd : ∀ d ∈ documentedFractions, d ∣ tesPerBeat := by decide

/-- C28: `from_fractional_beats::<d>(n, k)` is exactly `n + k/d` beats (as a fraction:
`d · ticks = (n·d + k) · ticks-per-beat`) for every documented denominator. -/
theorem C28_fraction_exact {d n k : Nat} (hd : d ∈ documentedFractions) (hk : k < d)
    (hn : n < U32) :
    ∃ b, Beats.fromFractional d n k = .ok b ∧ BNormal b ∧
      d * bticks b = (n * d + k) * tesPerBeat := by
  have hdvd := documented_dvd d hd
  have h0 : 0 < d := by omega
  obtain ⟨c, hc⟩ := hdvd
  have hdiv : tesPerBeat / d = c := by rw [hc]; exact Nat.mul_div_cancel_left c h0
  have hlt : c * k < tesPerBeat := by
    rw [hc, Nat.mul_comm]; exact Nat.mul_lt_mul_of_pos_right hk (by
      rcases Nat.eq_zero_or_pos c with h | h
      · subst h; simp at hc
      · exact h)
  refine ⟨⟨n, c * k⟩, ?_, ⟨hlt, hn⟩, ?_⟩
  · have hz : d ≠ 0 := by omega
    have hm : c * k < U32 := by omega
    simp only [Beats.fromFractional, hk, if_true, divC, hz, if_false]
    rw [bind_ok, hdiv, mulC, if_pos hm, bind_ok, pure_ok]
  · show d * (n * tesPerBeat + c * k) = (n * d + k) * tesPerBeat
    rw [hc]; ring

/-- C28: an out-of-range numerator is rejected (the documented panic). -/
theorem C28_fraction_rejects {d n k : Nat} (hk : d ≤ k) :
    Beats.fromFractional d n k = .error .assert := by
  simp only [Beats.fromFractional]; rw [if_neg (by omega)]

/-- C28: equal fractions written with different denominators are the same value. -/
theorem C28_fraction_agree {d e n k l : Nat} (hd : d ∈ documentedFractions)
    (he : e ∈ documentedFractions) (hk : k < d) (hl : l < e) (hn : n < U32) (h : k * e = l * d) :
    Beats.fromFractional d n k = Beats.fromFractional e n l := by
  obtain ⟨b, hb, nb, tb⟩ := C28_fraction_exact hd hk hn
  obtain ⟨c, hc, nc, tc⟩ := C28_fraction_exact he hl hn
  rw [hb, hc]
  congr 1
  apply bnormal_ext nb nc
  have h1 : e * (d * bticks b) = d * (e * bticks c) := by
    rw [tb, tc]
    calc e * ((n * d + k) * tesPerBeat) = (n * d * e + k * e) * tesPerBeat := by ring
      _ = (n * d * e + l * d) * tesPerBeat := by rw [h]
      _ = d * ((n * e + l) * tesPerBeat) := by ring
  have h2 : (d * e) * bticks b = (d * e) * bticks c := by
    calc (d * e) * bticks b = e * (d * bticks b) := by ring
      _ = d * (e * bticks c) := h1
      _ = (d * e) * bticks c := by ring
  exact Nat.eq_of_mul_eq_mul_left (Nat.mul_pos (by omega) (by omega)) h2

/-- C28: beat addition is exact or reports overflow. -/
theorem C28_add_exact {a b : Beats} (ha : BNormal a) (hb : BNormal b) :
    (bticks a + bticks b < blimit →
      ∃ c, a.add b = .ok c ∧ BNormal c ∧ bticks c = bticks a + bticks b) ∧
    (blimit ≤ bticks a + bticks b → a.add b = .error .overflow) := by
  obtain ⟨s, t⟩ := a
  obtain ⟨s', t'⟩ := b
  simp only [BNormal, bticks, blimit] at *
  have h1 : addC U32 t t' = .ok (t + t') := by simp [addC]; omega
  by_cases hs : s + s' < U32
  · have h0 : addC U32 s s' = .ok (s + s') := by simp [addC, hs]
    by_cases ht : t + t' < tesPerBeat
    · have h2 := carry_lt (s := s + s') (by decide) ht
      refine ⟨fun _ => ⟨⟨s + s', t + t'⟩, ?_, ?_, ?_⟩, ?_⟩
      · simp [Beats.add, h0, h1, h2]
      · simp at *; omega
      · simp; omega
      · simp at *; omega
    · have h2 := carry_once (s := s + s') (t := t + t') (per := tesPerBeat) (by decide)
        (by omega) (by omega)
      by_cases hs1 : s + s' + 1 < U32
      · simp only [hs1, if_true] at h2
        refine ⟨fun _ => ⟨⟨s + s' + 1, t + t' - tesPerBeat⟩, ?_, ?_, ?_⟩, ?_⟩
        · simp [Beats.add, h0, h1, h2]
        · simp at *; omega
        · simp at *; omega
        · simp at *; omega
      · simp only [hs1, if_false] at h2
        refine ⟨?_, ?_⟩
        · simp at *; omega
        · intro _; simp [Beats.add, h0, h1, h2]
  · have h0 : addC U32 s s' = .error .overflow := by simp [addC, hs]
    refine ⟨?_, ?_⟩
    · simp at *; omega
    · intro _; simp [Beats.add, h0]

/-- total number of ticks of a list of beats -/
def totalTicks (l : List Beats) : Nat := (l.map bticks).sum

theorem beats_foldl {l : List Beats} {acc : Beats} (hacc : BNormal acc)
    (h : ∀ b ∈ l, BNormal b) :
    (bticks acc + totalTicks l < blimit →
      ∃ c, l.foldlM Beats.add acc = .ok c ∧ BNormal c ∧ bticks c = bticks acc + totalTicks l) ∧
    (blimit ≤ bticks acc + totalTicks l → l.foldlM Beats.add acc = .error .overflow) := by
  induction l generalizing acc with
  | nil =>
    refine ⟨fun _ => ⟨acc, rfl, hacc, by simp [totalTicks]⟩, fun hh => ?_⟩
    simp only [totalTicks, List.map_nil, List.sum_nil, BNormal, bticks, blimit] at *
    omega
  | cons x xs ih =>
    have hx := h x (by simp)
    have hxs : ∀ b ∈ xs, BNormal b := fun b hb => h b (by simp [hb])
    have hadd := C28_add_exact hacc hx
    have htot : totalTicks (x :: xs) = bticks x + totalTicks xs := by simp [totalTicks]
    rw [htot]
    by_cases h1 : bticks acc + bticks x < blimit
    · obtain ⟨c, hc, nc, tc⟩ := hadd.1 h1
      have hih := ih nc hxs
      refine ⟨fun hh => ?_, fun hh => ?_⟩
      · obtain ⟨e, he, ne, te⟩ := hih.1 (by omega)
        refine ⟨e, ?_, ne, by omega⟩
        rw [List.foldlM_cons, hc]; exact he
      · rw [List.foldlM_cons, hc]; exact hih.2 (by omega)
    · refine ⟨fun hh => by omega, fun _ => ?_⟩
      rw [List.foldlM_cons, hadd.2 (by omega), bind_error]

/-- C28: a sum of beats is exact, or reports overflow. -/
theorem C28_sum_exact {l : List Beats} (h : ∀ b ∈ l, BNormal b) :
    (totalTicks l < blimit → ∃ c, Beats.sum l = .ok c ∧ BNormal c ∧ bticks c = totalTicks l) ∧
    (blimit ≤ totalTicks l → Beats.sum l = .error .overflow) := by
  have := beats_foldl (l := l) (acc := .zero) (by decide) h
  have hz : bticks .zero = 0 := by decide
  rw [hz, Nat.zero_add] at this
  exact this

/-- C28: the sum does not depend on the order. -/
theorem C28_sum_perm {l m : List Beats} (h : ∀ b ∈ l, BNormal b) (hp : l.Perm m) :
    Beats.sum l = Beats.sum m := by
  have hm : ∀ b ∈ m, BNormal b := fun b hb => h b (hp.mem_iff.2 hb)
  have ht : totalTicks l = totalTicks m := (hp.map bticks).sum_eq
  have h1 := C28_sum_exact h
  have h2 := C28_sum_exact hm
  by_cases hl : totalTicks l < blimit
  · obtain ⟨c, hc, nc, tc⟩ := h1.1 hl
    obtain ⟨d, hd, nd, td⟩ := h2.1 (by omega)
    rw [hc, hd, bnormal_ext nc nd (by omega)]
  · rw [h1.2 (by omega), h2.2 (by omega)]

/-- C28: `d` steps of `1/d` beat add up to exactly one beat. -/
theorem C28_steps_make_a_beat {d : Nat} (hd : d ∈ documentedFractions) :
    ∃ b, Beats.fromFractional d 0 1 = .ok b ∧
      Beats.sum (List.replicate d b) = .ok (Beats.fromBeats 1) := by
  have h2 : 2 ≤ d := by revert d; decide
  obtain ⟨b, hb, nb, tb⟩ := C28_fraction_exact hd (k := 1) (n := 0) (by omega) (by decide)
  refine ⟨b, hb, ?_⟩
  have htot : totalTicks (List.replicate d b) = tesPerBeat := by
    simp only [totalTicks, List.map_replicate, List.sum_replicate, nsmul_eq_mul, Nat.cast_id]
    rw [tb]; simp
  obtain ⟨c, hc, nc, tc⟩ := (C28_sum_exact (l := List.replicate d b)
    (fun x hx => by rw [List.eq_of_mem_replicate hx]; exact nb)).1 (by rw [htot]; decide)
  rw [hc]
  congr 1
  apply bnormal_ext nc (by decide)
  rw [tc, htot]; decide

/-- C28: subtracting beats is exact, `None` exactly when negative. -/
theorem C28_checked_sub {a b : Beats} (ha : BNormal a) (hb : BNormal b) :
    (bticks b ≤ bticks a →
      ∃ c, a.checkedSub b = .ok (some c) ∧ BNormal c ∧ bticks c + bticks b = bticks a) ∧
    (bticks a < bticks b → a.checkedSub b = .ok none) := by
  have hlt : a.lt b = true ↔ bticks a < bticks b := by
    simp only [BNormal, Beats.lt, Beats.cmp, bticks] at *
    split <;> rename_i h
    · simp [Nat.compare_eq_lt]; omega
    · simp [Nat.compare_eq_lt]; omega
  refine ⟨fun h => ?_, fun h => ?_⟩
  · have hn : a.lt b = false := by
      cases hh : a.lt b
      · rfl
      · rw [hh] at hlt; simp at hlt; omega
    obtain ⟨s, t⟩ := a
    obtain ⟨s', t'⟩ := b
    simp only [BNormal, bticks] at *
    by_cases ht : t < t'
    · refine ⟨⟨s - s' - 1, tesPerBeat - (t' - t)⟩, ?_, ?_, ?_⟩
      · have h1 : subC s s' = .ok (s - s') := by simp [subC]; omega
        have h2 : subC (s - s') 1 = .ok (s - s' - 1) := by simp [subC]; omega
        have h3 : subC t' t = .ok (t' - t) := by simp [subC]; omega
        have h4 : subC tesPerBeat (t' - t) = .ok (tesPerBeat - (t' - t)) := by simp [subC]; omega
        simp only [Beats.checkedSub, hn, ht, if_true, if_false, h1, h2, h3, h4,
          Bool.false_eq_true, bind_ok, pure_ok]
      · simp; omega
      · simp; omega
    · refine ⟨⟨s - s', t - t'⟩, ?_, ?_, ?_⟩
      · have h1 : subC s s' = .ok (s - s') := by simp [subC]; omega
        have h2 : subC t t' = .ok (t - t') := by simp [subC]; omega
        simp [Beats.checkedSub, hn, ht, h1, h2]
      · simp; omega
      · simp; omega
  · have hn : a.lt b = true := hlt.2 h
    simp [Beats.checkedSub, hn]

example : Beats.fromFractional 3 2 1 = .ok ⟨2, 492011520⟩ ∧
    Beats.fromFractional 6 2 2 = .ok ⟨2, 492011520⟩ := by decide

/-! ## C29 -/

/-- C29 (intended): the product of two durations, rounded down to a tick. -/
def MulCorrect (a b : Seconds) : Prop :=
  ∃ c, a.mul b = .ok c ∧ Normal c ∧ ticks c = ticks a * ticks b / tesPerSec

/-- C29 is violated: half a second times half a second gives 70560000 seconds. -/
theorem C29_violated :
    Normal ⟨0, 141120000⟩ ∧ ¬ MulCorrect ⟨0, 141120000⟩ ⟨0, 141120000⟩ ∧
      Seconds.mul ⟨0, 141120000⟩ ⟨0, 141120000⟩ = .ok ⟨70560000, 0⟩ := by
  have h : Seconds.mul ⟨0, 141120000⟩ ⟨0, 141120000⟩ = .ok ⟨70560000, 0⟩ := by decide
  refine ⟨by decide, ?_, h⟩
  rintro ⟨c, hc, _, tc⟩
  rw [h] at hc
  obtain rfl : _ = c := by simpa using hc
  revert tc; decide

/-- C29 (what holds): products of whole seconds are right. Missing: every product involving a
fraction (see `C29_violated`, `C29_mixed_violated`). -/
theorem C29_mul_whole_partial {m n : Nat} (h : m * n < U32) :
    MulCorrect ⟨m, 0⟩ ⟨n, 0⟩ := by
  refine ⟨⟨m * n, 0⟩, ?_, ⟨by simp, h⟩, ?_⟩
  · simp [Seconds.mul, mulC, h]
  · simp only [ticks, Nat.add_zero]
    rw [show m * 282240000 * (n * 282240000) = m * n * 282240000 * 282240000 by ring]
    rw [Nat.mul_div_cancel _ (by decide)]

/-- C29 is also violated for a whole number times a fraction: 2 s × 0.5 s gives 0 s. -/
theorem C29_mixed_violated :
    Seconds.mul ⟨2, 0⟩ ⟨0, 141120000⟩ = .ok ⟨0, 0⟩ ∧
      ¬ MulCorrect ⟨2, 0⟩ ⟨0, 141120000⟩ := by
  have h : Seconds.mul ⟨2, 0⟩ ⟨0, 141120000⟩ = .ok ⟨0, 0⟩ := by decide
  refine ⟨h, ?_⟩
  rintro ⟨c, hc, _, tc⟩
  rw [h] at hc
  obtain rfl : _ = c := by simpa using hc
  revert tc; decide

example : MulCorrect ⟨3, 0⟩ ⟨4, 0⟩ := C29_mul_whole_partial (by decide)

end Verif
