import Verif.Model.Osc
import Mathlib.Tactic.Ring
import Mathlib.Tactic.Linarith
import Mathlib.Tactic.FieldSimp

/-!
# C44: wavetable lookup
-/

namespace Verif.Os

/-! ### Specification -/

/-- The position in a table of `16384` samples that belongs to a phase, where `2 ^ 30` is one period. -/
def position (p : Nat) : Nat := p / 65536 % 16384

/-! ### Properties -/

theorem intPart_eq (p : Nat) : intPart p = position p := by
  unfold intPart position tableSize
  rw [Nat.shiftRight_eq_div_pow, show 16384 - 1 = 2 ^ 14 - 1 from rfl, Nat.and_two_pow_sub_one_eq_mod]

theorem intPart_lt (p : Nat) : intPart p < tableSize := by
  rw [intPart_eq]; exact Nat.mod_lt _ (by decide)

/-- C44, bounds: every phase reads inside a table of the right length, whatever the phase; the value is the sample at the
position of the phase. -/
theorem C44_bounds (t : Table) (ht : t.buf.length = 16384) (p : Nat) : t.get p = .ok (t.buf.getD (position p) 0) := by
  have h : position p < t.buf.length := by rw [ht]; exact Nat.mod_lt _ (by decide)
  unfold Table.get
  rw [intPart_eq, List.getElem?_eq_getElem h]
  simp [h]

theorem ite_le {c : Prop} [Decidable c] {a b n : Nat} (ha : a ≤ n) (hb : b ≤ n) : (if c then a else b) ≤ n := by
  split
  · exact ha
  · exact hb

theorem tableIndex_le (f : Rat) : tableIndex f ≤ 16 := by
  unfold tableIndex
  repeat' apply ite_le
  all_goals omega

/-- C44, bounds for the anti-aliased tables: a wavetable made from a buffer, if it is accepted, is read inside its tables for
every phase and every frequency, also above the largest one that has been planned for. -/
theorem C44_wavetable_bounds (buf : List Rat) (ts : List Table) (h : wavetableFromBuffer buf = .ok (some ts)) (p : Nat) (f : Rat) :
    wavetableGet ts p f = .ok (buf.getD (position p) 0) := by
  unfold wavetableFromBuffer at h
  by_cases hb : buf.length ≠ tableSize
  · rw [if_pos hb] at h; cases h
  · rw [if_neg hb] at h
    have hlen : buf.length = 16384 := not_not.mp hb
    have hu : Table.setFromBuffer .new buf = .ok ⟨buf, diffs buf⟩ := by
      unfold Table.setFromBuffer Table.updateDiff
      simp only
      rw [if_neg (by omega), if_neg (by omega)]
    rw [hu] at h
    simp only [Except.ok.injEq, Option.some.injEq] at h
    subst h
    have hn : numTables = 17 := by decide +kernel
    have hi := tableIndex_le f
    unfold wavetableGet
    have : (List.replicate numTables (⟨buf, diffs buf⟩ : Table))[min (tableIndex f)
        (List.replicate numTables (⟨buf, diffs buf⟩ : Table)).length]? = some ⟨buf, diffs buf⟩ := by
      rw [List.length_replicate, hn, List.getElem?_replicate, if_pos (by omega)]
    rw [this]
    exact C44_bounds _ hlen p

example : ∃ ts, wavetableFromBuffer (List.replicate 16384 1) = .ok (some ts) := by
  refine ⟨List.replicate numTables ⟨List.replicate 16384 1, diffs (List.replicate 16384 1)⟩, ?_⟩
  have hl : (List.replicate 16384 (1 : Rat)).length = 16384 := List.length_replicate
  unfold wavetableFromBuffer Table.setFromBuffer Table.updateDiff
  simp only
  rw [hl, if_neg (by decide), if_neg (by decide), if_neg (by decide)]

/-- C44, period: phases that differ by whole periods of `2 ^ 30` give the same value; so does the wrap-around of the phase at
`2 ^ 32`. -/
theorem C44_periodic (t : Table) (p k : Nat) : t.get (p + 1073741824 * k) = t.get p ∧ t.get (p % U32) = t.get p := by
  have h1 : position (p + 1073741824 * k) = position p := by
    unfold position
    rw [show 1073741824 * k = 65536 * (16384 * k) by ring, Nat.add_mul_div_left _ _ (by decide), Nat.add_mul_mod_self_left]
  have h2 : position (p % U32) = position p := by
    unfold position; omega
  unfold Table.get
  rw [intPart_eq, intPart_eq, intPart_eq, h1, h2]; exact ⟨rfl, rfl⟩

theorem position_add (p q r : Nat) : position (addPhase (addPhase p q) r) = position (p + q + r) := by
  unfold position addPhase; omega

/-- C44, the output of a wavetable oscillator: frame `n` is the sample at the position of the starting phase plus the offset plus
`n` steps, as if the phase never overflowed. -/
theorem C44_output (t : Table) (ht : t.buf.length = 16384) (n : Nat) : ∀ (w : Wt), ∃ w',
    w.run t n = .ok (w', (List.range n).map (fun k => t.buf.getD (position (w.phase + w.offset + k * w.step)) 0)) := by
  induction n with
  | zero => intro w; exact ⟨w, rfl⟩
  | succ n ih =>
    intro w
    obtain ⟨w', e⟩ := ih { w with phase := addPhase w.phase w.step }
    refine ⟨w', ?_⟩
    simp only [Wt.run, Wt.next, C44_bounds t ht, bind_ok, pure_ok, e]
    congr 2
    rw [List.range_succ_eq_map, List.map_cons, List.map_map]
    congr 1
    · congr 1
      unfold position addPhase; omega
    · apply List.map_congr_left
      intro k _
      simp only [Function.comp]
      congr 1
      unfold position addPhase
      have : w.phase + w.offset + (k + 1) * w.step = w.phase + w.step + w.offset + k * w.step := by ring
      rw [this]; omega

/-- C44, the two parts of a phase: the position and the fraction together are the phase within its period. -/
theorem C44_parts (p : Nat) : intPart p * 65536 + fracPart p = p % 1073741824 := by
  rw [intPart_eq, fracPart, show 65535 = 2 ^ 16 - 1 from rfl, Nat.and_two_pow_sub_one_eq_mod, position]
  omega

/-- C44, the output of `OscWt`: with tables made from one buffer, the sample at the position of the phase plus the offset, and the phase
goes on by one step. -/
theorem C44_output_aa (buf : List Rat) (ts : List Table) (h : wavetableFromBuffer buf = .ok (some ts)) (f : Rat) (w : Wt) :
    w.nextAa ts f = .ok ({ w with phase := (w.phase + w.step) % U32 }, buf.getD (position (w.phase + w.offset)) 0) := by
  rw [Wt.nextAa, C44_wavetable_bounds buf ts h, bind_ok, pure_ok]
  have : position (addPhase w.phase w.offset) = position (w.phase + w.offset) := by unfold position addPhase; omega
  rw [this]; rfl

/-- C44, resetting the phase: the oscillator starts over at its offset, with the frequency it had. -/
theorem C44_reset (t : Table) (ht : t.buf.length = 16384) (n : Nat) (w : Wt) : ∃ w',
    w.reset.run t n = .ok (w', (List.range n).map (fun k => t.buf.getD (position (w.offset + k * w.step)) 0)) := by
  obtain ⟨w', h⟩ := C44_output t ht n w.reset
  refine ⟨w', h.trans ?_⟩
  simp only [Wt.reset, zero_add]

/-- C44, interpolation: for every phase the interpolated value is a mixture of the sample at its position and the next one, where
the last sample is followed by the first one. -/
theorem C44_interp (buf : List Rat) (hb : buf.length = 16384) (p : Nat) : ∃ m : Rat, m = (p % 65536 : Nat) / 65535 ∧ 0 ≤ m ∧ m ≤ 1 ∧
    (⟨buf, diffs buf⟩ : Table).getLin p =
      .ok ((1 - m) * buf.getD (position p) 0 + m * buf.getD ((position p + 1) % 16384) 0) := by
  have hlt : position p < buf.length := by rw [hb]; exact Nat.mod_lt _ (by decide)
  have h1 : buf[position p]? = some (buf.getD (position p) 0) := by
    rw [List.getElem?_eq_getElem hlt]; simp [hlt]
  have h2 : (diffs buf)[position p]? = some (buf.getD ((position p + 1) % 16384) 0 - buf.getD (position p) 0) := by
    unfold diffs
    rw [List.getElem?_map, List.getElem?_range hlt, hb]; rfl
  refine ⟨fracRat p, ?_, ?_, ?_, ?_⟩
  · unfold fracRat
    rw [show 65535 = 2 ^ 16 - 1 from rfl, Nat.and_two_pow_sub_one_eq_mod]
  · unfold fracRat; exact div_nonneg (Nat.cast_nonneg _) (by norm_num)
  · unfold fracRat
    rw [div_le_one (by norm_num)]
    have : p &&& 65535 ≤ 65535 := Nat.and_le_right
    exact_mod_cast this
  · unfold Table.getLin
    simp only [intPart_eq, h1, h2]
    congr 1; ring

/-- A phase offset moves the position by at most one sample, for every offset from 0 to 1. -/
theorem C44_offset_small (w : Wt) (o : Rat) (_h0 : 0 ≤ o) (h1 : o ≤ 1) (p : Nat) :
    position (addPhase p (w.phaseOffset o).offset) = position p ∨
      position (addPhase p (w.phaseOffset o).offset) = (position p + 1) % 16384 := by
  have hle : (w.phaseOffset o).offset ≤ 65536 := by
    simp only [Wt.phaseOffset, asU32, fractionalPart]
    have h2 : ⌊o * (65536 : Nat)⌋ ≤ 65536 := by
      have : o * (65536 : Nat) ≤ 65536 := by push_cast; linarith
      have h3 := Int.floor_mono this
      have h4 : ⌊(65536 : Rat)⌋ = 65536 := by exact_mod_cast Int.floor_natCast (R := Rat) 65536
      omega
    omega
  generalize (w.phaseOffset o).offset = q at *
  unfold position addPhase
  omega

/-! ### Violations -/

/-- C44 is false for the phase offset: whatever the table, an offset of one half of a period leaves the first sample where it
is. -/
theorem C44_offset_violated (t : Table) (ht : t.buf.length = 16384) (h : t.buf.getD 0 0 ≠ t.buf.getD 8192 0) :
    ∃ w' x, (Wt.new.phaseOffset (1 / 2)).next t = .ok (w', x) ∧ x = t.buf.getD 0 0 ∧ x ≠ t.buf.getD 8192 0 := by
  have ho : (Wt.new.phaseOffset (1 / 2)).offset = 32768 := by decide +kernel
  have hp : (Wt.new.phaseOffset (1 / 2)).phase = 0 := rfl
  refine ⟨{ Wt.new.phaseOffset (1 / 2) with phase := addPhase 0 (Wt.new.phaseOffset (1 / 2)).step }, t.buf.getD 0 0, ?_, rfl, h⟩
  have h0 : position (addPhase 0 32768) = 0 := by decide
  simp only [Wt.next, ho, hp, C44_bounds t ht, bind_ok, pure_ok, h0]

example : ∃ t : Table, t.buf.length = 16384 ∧ t.buf.getD 0 0 ≠ t.buf.getD 8192 0 :=
  ⟨⟨1 :: List.replicate 16383 0, []⟩, by rw [List.length_cons, List.length_replicate], by
    rw [List.getD_cons_zero, List.getD_cons_succ, List.getD_eq_getElem?_getD, List.getElem?_replicate, if_pos (by decide)]; decide⟩

/-- C44 is false for a table made from a buffer that is too short: it is accepted, and then read outside its samples. -/
theorem C44_short_violated : ∃ t, Table.setFromBuffer .new [0, 1] = .ok t ∧ ∃ p, p < U32 ∧ t.get p = .error .index := by
  exact ⟨⟨[0, 1], [1, -1]⟩, by decide +kernel, 131072, by decide, by decide +kernel⟩

end Verif.Os
