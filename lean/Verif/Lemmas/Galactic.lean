import Verif.Model.Galactic
import Mathlib.Analysis.SpecialFunctions.Trigonometric.Basic
import Mathlib.Data.Int.Log
import Mathlib.Tactic.Linarith
import Mathlib.Tactic.Ring
import Mathlib.Tactic.Positivity
import Mathlib.Tactic.FieldSimp
import Mathlib.Tactic.LinearCombination
import Mathlib.Tactic.FinCases

/-!
# Delay lines and the loop of the reverb

Without panics, and what happens to the energy that they hold.
-/

namespace Verif.Gal

/-! ## Without panics -/

/-- A line after `write_and_advance`. -/
def Line.put (s : Line ℝ) (x : ℝ) : Line ℝ := { s with buf := s.buf.set s.pos x, pos := (s.pos + 1) % s.len }
/-- The sample at the position. -/
def Line.out (s : Line ℝ) : ℝ := s.buf.getD s.pos 0

/-- The position is inside of the buffer and so is the next. -/
def Line.Ok (s : Line ℝ) : Prop := s.pos < s.buf.length ∧ 0 < s.len ∧ s.len ≤ s.buf.length

theorem Line.Ok.put {s : Line ℝ} (h : s.Ok) (x : ℝ) : (s.put x).Ok := by
  obtain ⟨_, h1, h2⟩ := h
  refine ⟨?_, h1, by simpa [Line.put] using h2⟩
  simp only [Line.put, List.length_set]
  exact lt_of_lt_of_le (Nat.mod_lt _ h1) h2

theorem write_eq {s : Line ℝ} (h : s.Ok) (x : ℝ) : s.write x = .ok (s.put x) := by
  have h1 := h.1
  have h2 := h.2.1
  simp [Line.write, h1, modC, Nat.ne_of_gt h2, Line.put]

theorem get_eq {l : List ℝ} {i : Nat} (h : i < l.length) : get l i = .ok (l.getD i 0) := by
  simp [get, List.getD, List.getElem?_eq_getElem h]

theorem read_eq {s : Line ℝ} (h : s.Ok) : s.read = .ok s.out := get_eq h.1

theorem each_ok {α : Type} {f : Fin 4 → R α} {v : Fin 4 → α} (h : ∀ i, f i = .ok (v i)) : each f = .ok v := by
  simp only [each, h, bind_ok, pure_ok]
  congr 1
  funext i
  fin_cases i <;> rfl

theorem each3_ok {α : Type} {f : Fin 3 → R α} {v : Fin 3 → α} (h : ∀ i, f i = .ok (v i)) : each3 f = .ok v := by
  simp only [each3, h, bind_ok, pure_ok]
  congr 1
  funext i
  fin_cases i <;> rfl

/-- A group of lines after a write. -/
def putAll (ls : Fin 4 → Line ℝ) (x : Fin 4 → ℝ) : Fin 4 → Line ℝ := fun i => (ls i).put (x i)
/-- The outputs of a group of lines. -/
def outs (ls : Fin 4 → Line ℝ) : Fin 4 → ℝ := fun i => (ls i).out

/-- The first, second and third group after a frame. -/
def grp0 (ls : Fin 3 → Fin 4 → Line ℝ) (x : Fin 4 → ℝ) := putAll (ls 0) x
/-- See `grp0`. -/
noncomputable def grp1 (ls : Fin 3 → Fin 4 → Line ℝ) (x : Fin 4 → ℝ) := putAll (ls 1) (mix (outs (grp0 ls x)))
/-- See `grp0`. -/
noncomputable def grp2 (ls : Fin 3 → Fin 4 → Line ℝ) (x : Fin 4 → ℝ) := putAll (ls 2) (mix (outs (grp1 ls x)))
/-- One channel after a frame. -/
noncomputable def chan (ls : Fin 3 → Fin 4 → Line ℝ) (x : Fin 4 → ℝ) : Fin 3 → Fin 4 → Line ℝ := ![grp0 ls x, grp1 ls x, grp2 ls x]

/-- What enters the lines of the left channel. -/
def inL (regen : ℝ) (g : Galactic ℝ) (x : ℝ) : Fin 4 → ℝ := fun i => g.fbR i * regen + x
/-- What enters the lines of the right channel. -/
def inR (regen : ℝ) (g : Galactic ℝ) (x : ℝ) : Fin 4 → ℝ := fun i => g.fbL i * regen + x

/-- The reverb after the loop. -/
noncomputable def tanked (regen : ℝ) (g : Galactic ℝ) (xl xr : ℝ) : Galactic ℝ :=
  { g with left := chan g.left (inL regen g xl), right := chan g.right (inR regen g xr)
           fbL := mix (outs (grp2 g.left (inL regen g xl))), fbR := mix (outs (grp2 g.right (inR regen g xr))) }

/-- All lines of the loop are in order. -/
def LinesOk (g : Galactic ℝ) : Prop := ∀ k i, (g.left k i).Ok ∧ (g.right k i).Ok

theorem putAll_ok {ls : Fin 4 → Line ℝ} (h : ∀ i, (ls i).Ok) (x : Fin 4 → ℝ) (i : Fin 4) : (putAll ls x i).Ok := (h i).put _

theorem chan_ok {ls : Fin 3 → Fin 4 → Line ℝ} (h : ∀ k i, (ls k i).Ok) (x : Fin 4 → ℝ) (k i) : (chan ls x k i).Ok := by
  fin_cases k
  · exact putAll_ok (h 0) _ i
  · exact putAll_ok (h 1) _ i
  · exact putAll_ok (h 2) _ i

theorem tank_eq {g : Galactic ℝ} (h : LinesOk g) (regen xl xr : ℝ) :
    tank regen g xl xr = .ok (tanked regen g xl xr, outs (grp2 g.left (inL regen g xl)), outs (grp2 g.right (inR regen g xr))) := by
  have hl := fun k i => (h k i).1
  have hr := fun k i => (h k i).2
  have a0 : (each fun i => (g.left 0 i).write (g.fbR i * regen + xl)) = .ok (grp0 g.left (inL regen g xl)) :=
    each_ok fun i => write_eq (hl 0 i) _
  have b0 : (each fun i => (g.right 0 i).write (g.fbL i * regen + xr)) = .ok (grp0 g.right (inR regen g xr)) :=
    each_ok fun i => write_eq (hr 0 i) _
  have a0' : (each fun i => (grp0 g.left (inL regen g xl) i).read) = .ok (outs (grp0 g.left (inL regen g xl))) :=
    each_ok fun i => read_eq (putAll_ok (hl 0) _ i)
  have b0' : (each fun i => (grp0 g.right (inR regen g xr) i).read) = .ok (outs (grp0 g.right (inR regen g xr))) :=
    each_ok fun i => read_eq (putAll_ok (hr 0) _ i)
  have a1 : (each fun i => (g.left 1 i).write (mix (outs (grp0 g.left (inL regen g xl))) i)) = .ok (grp1 g.left (inL regen g xl)) :=
    each_ok fun i => write_eq (hl 1 i) _
  have b1 : (each fun i => (g.right 1 i).write (mix (outs (grp0 g.right (inR regen g xr))) i)) = .ok (grp1 g.right (inR regen g xr)) :=
    each_ok fun i => write_eq (hr 1 i) _
  have a1' : (each fun i => (grp1 g.left (inL regen g xl) i).read) = .ok (outs (grp1 g.left (inL regen g xl))) :=
    each_ok fun i => read_eq (putAll_ok (hl 1) _ i)
  have b1' : (each fun i => (grp1 g.right (inR regen g xr) i).read) = .ok (outs (grp1 g.right (inR regen g xr))) :=
    each_ok fun i => read_eq (putAll_ok (hr 1) _ i)
  have a2 : (each fun i => (g.left 2 i).write (mix (outs (grp1 g.left (inL regen g xl))) i)) = .ok (grp2 g.left (inL regen g xl)) :=
    each_ok fun i => write_eq (hl 2 i) _
  have b2 : (each fun i => (g.right 2 i).write (mix (outs (grp1 g.right (inR regen g xr))) i)) = .ok (grp2 g.right (inR regen g xr)) :=
    each_ok fun i => write_eq (hr 2 i) _
  have a2' : (each fun i => (grp2 g.left (inL regen g xl) i).read) = .ok (outs (grp2 g.left (inL regen g xl))) :=
    each_ok fun i => read_eq (putAll_ok (hl 2) _ i)
  have b2' : (each fun i => (grp2 g.right (inR regen g xr) i).read) = .ok (outs (grp2 g.right (inR regen g xr))) :=
    each_ok fun i => read_eq (putAll_ok (hr 2) _ i)
  rw [tank, a0, bind_ok, b0, bind_ok, a0', bind_ok, b0', bind_ok, a1, bind_ok, b1, bind_ok, a1', bind_ok, b1', bind_ok, a2, bind_ok,
    b2, bind_ok, a2', bind_ok, b2', bind_ok]
  rfl

/-! ## Energy -/

/-- The squares of a list, summed. -/
def sq (l : List ℝ) : ℝ := (l.map fun x => x ^ 2).sum

theorem sq_nonneg' (l : List ℝ) : 0 ≤ sq l := List.sum_nonneg (by simp only [List.mem_map]; rintro _ ⟨a, _, rfl⟩; positivity)

theorem sq_set (l : List ℝ) (i : Nat) (x : ℝ) (h : i < l.length) : sq (l.set i x) = sq l - (l.getD i 0) ^ 2 + x ^ 2 := by
  induction l generalizing i with
  | nil => simp at h
  | cons a l ih =>
    cases i with
    | zero => simp [sq]; ring
    | succ i =>
      have := ih i (by simpa using h)
      simp only [sq, List.set_cons_succ, List.map_cons, List.sum_cons, List.getD_cons_succ] at this ⊢
      rw [this]; ring

theorem sq_ge (l : List ℝ) (i : Nat) : (l.getD i 0) ^ 2 ≤ sq l := by
  by_cases h : i < l.length
  · have h1 := sq_set l i 0 h
    have h2 := sq_nonneg' (l.set i 0)
    linarith [h1]
  · have e : l.getD i 0 = 0 := by simp [List.getD, List.getElem?_eq_none (not_lt.1 h)]
    rw [e]
    simpa using sq_nonneg' l

/-- The energy that waits in a line: all samples but the one that was read last. -/
def Line.live (s : Line ℝ) : ℝ := sq s.buf - s.out ^ 2

theorem live_nonneg (s : Line ℝ) : 0 ≤ s.live := by
  have := sq_ge s.buf s.pos
  rw [Line.live, Line.out]; linarith

/-- Nothing is lost in a line, whatever its length is set to. -/
theorem live_put {s : Line ℝ} (h : s.Ok) (x : ℝ) : (s.put x).live + (s.put x).out ^ 2 = s.live + x ^ 2 := by
  have e := sq_set s.buf s.pos x h.1
  simp only [Line.live]
  rw [show (s.put x).buf = s.buf.set s.pos x from rfl, e, show s.out = s.buf.getD s.pos 0 from rfl]
  ring

/-- The sample that is read `j` frames after the one at the position. -/
def Line.ahead (s : Line ℝ) (k : Nat) : ℝ := s.buf.getD (k % s.len) 0

/-- The energy that waits in a line with weights for the frames that a sample still waits. -/
noncomputable def Line.wait (c : ℝ) (s : Line ℝ) : ℝ := ∑ j ∈ Finset.range (s.len - 1), c ^ (j + 1) * s.ahead (s.pos + 1 + j) ^ 2

theorem wait_nonneg {c : ℝ} (hc : 0 ≤ c) (s : Line ℝ) : 0 ≤ s.wait c :=
  Finset.sum_nonneg fun _ _ => by positivity

theorem ahead_put (s : Line ℝ) (h : s.Ok) (x : ℝ) (k : Nat) : (s.put x).ahead k = if k % s.len = s.pos then x else s.ahead k := by
  simp only [Line.ahead, Line.put, List.getD, List.getElem?_set]
  have h1 := h.1
  by_cases e : k % s.len = s.pos
  · rw [if_pos e.symm, if_pos e, if_pos h1]; rfl
  · rw [if_neg (Ne.symm e), if_neg e]

theorem wait_put {c : ℝ} {s : Line ℝ} (h : s.Ok) (hp : s.pos < s.len) (x : ℝ) :
    c * ((s.put x).wait c + (s.put x).out ^ 2) = s.wait c + c ^ s.len * x ^ 2 := by
  obtain ⟨n, hn⟩ : ∃ n, s.len = n + 1 := ⟨s.len - 1, by have := h.2.1; omega⟩
  have ho : (s.put x).out = (s.put x).ahead (s.pos + 1) := by
    simp [Line.out, Line.ahead, Line.put]
  have hpos : (s.put x).pos = (s.pos + 1) % s.len := rfl
  have hlen : (s.put x).len = s.len := rfl
  rw [ho, Line.wait, Line.wait, hlen, hpos, hn]
  simp only [Nat.add_sub_cancel]
  have hs : ∀ j, (s.put x).ahead ((s.pos + 1) % (n + 1) + 1 + j) = (s.put x).ahead (s.pos + 2 + j) := by
    intro j
    simp only [Line.ahead, hlen, hn]
    congr 1
    rw [show s.pos + 2 + j = (s.pos + 1) + (1 + j) by ring, show (s.pos + 1) % (n + 1) + 1 + j = (s.pos + 1) % (n + 1) + (1 + j) by ring,
      Nat.mod_add_mod]
  simp only [hs, ahead_put s h]
  cases n with
  | zero =>
    have : s.pos = 0 := by omega
    simp [hn, this]
  | succ n =>
    have h2 : ∀ j ∈ Finset.range n, c ^ (j + 1) * (if (s.pos + 2 + j) % s.len = s.pos then x else s.ahead (s.pos + 2 + j)) ^ 2 =
        c ^ (j + 1) * s.ahead (s.pos + 1 + (j + 1)) ^ 2 := by
      intro j hj
      have hj := Finset.mem_range.1 hj
      have : (s.pos + 2 + j) % s.len ≠ s.pos := by
        rw [hn]
        by_cases hlt : s.pos + 2 + j < n + 1 + 1
        · rw [Nat.mod_eq_of_lt hlt]; omega
        · rw [Nat.mod_eq_sub_mod (by omega), Nat.mod_eq_of_lt (by omega)]; omega
      rw [if_neg this, show s.pos + 2 + j = s.pos + 1 + (j + 1) by ring]
    have h3 : (s.pos + 2 + n) % s.len = s.pos := by
      rw [hn, show s.pos + 2 + n = s.pos + (n + 1 + 1) by ring, Nat.add_mod_right, Nat.mod_eq_of_lt (by omega)]
    have h4 : (s.pos + 1) % s.len ≠ s.pos := by
      rw [hn]
      by_cases hlt : s.pos + 1 < n + 1 + 1
      · rw [Nat.mod_eq_of_lt hlt]; omega
      · rw [Nat.mod_eq_sub_mod (by omega), Nat.mod_eq_of_lt (by omega)]; omega
    rw [Finset.sum_range_succ, Finset.sum_congr rfl h2, h3, if_pos rfl, if_neg h4, Finset.sum_range_succ', mul_add, mul_add,
      Finset.mul_sum]
    have h5 : ∀ j ∈ Finset.range n, c * (c ^ (j + 1) * s.ahead (s.pos + 1 + (j + 1)) ^ 2) =
        c ^ (j + 1 + 1) * s.ahead (s.pos + 1 + (j + 1)) ^ 2 := fun j _ => by ring
    rw [Finset.sum_congr rfl h5]
    simp only [Nat.add_zero, Nat.zero_add, pow_one]
    ring

/-! ## The mixing matrix -/

/-- The square of the length of four numbers. -/
def norm4 (x : Fin 4 → ℝ) : ℝ := x 0 ^ 2 + x 1 ^ 2 + x 2 ^ 2 + x 3 ^ 2

theorem norm4_nonneg (x : Fin 4 → ℝ) : 0 ≤ norm4 x := by unfold norm4; positivity

theorem norm4_mix (x : Fin 4 → ℝ) : norm4 (mix x) = 4 * norm4 x := by
  have e : mix x = ![x 0 - (x 1 + x 2 + x 3), x 1 - (x 2 + x 3 + x 0), x 2 - (x 3 + x 0 + x 1), x 3 - (x 0 + x 1 + x 2)] := by
    funext i
    fin_cases i <;> rfl
  rw [e]
  simp only [norm4, Matrix.cons_val]
  ring

/-! ## Energy in the loop -/

/-- The energy in a group of lines. -/
def sum4 (E : Line ℝ → ℝ) (ls : Fin 4 → Line ℝ) : ℝ := E (ls 0) + E (ls 1) + E (ls 2) + E (ls 3)

/-- The energy in a channel; a mix of four makes the energy four times as large. -/
noncomputable def stored (E : Line ℝ → ℝ) (q : ℝ) (ls : Fin 3 → Fin 4 → Line ℝ) : ℝ :=
  64 * q ^ 2 * sum4 E (ls 0) + 16 * q * sum4 E (ls 1) + 4 * sum4 E (ls 2)

theorem group_energy {E : Line ℝ → ℝ} {r q : ℝ} {ls : Fin 4 → Line ℝ}
    (h : ∀ i x, E ((ls i).put x) + ((ls i).put x).out ^ 2 ≤ r * E (ls i) + q * x ^ 2) (x : Fin 4 → ℝ) :
    sum4 E (putAll ls x) + norm4 (outs (putAll ls x)) ≤ r * sum4 E ls + q * norm4 x := by
  have h0 := h 0 (x 0)
  have h1 := h 1 (x 1)
  have h2 := h 2 (x 2)
  have h3 := h 3 (x 3)
  simp only [sum4, norm4, outs, putAll]
  linarith

theorem chan_energy {E : Line ℝ → ℝ} {r q : ℝ} (hq : 0 ≤ q) {ls : Fin 3 → Fin 4 → Line ℝ}
    (h : ∀ k i x, E ((ls k i).put x) + ((ls k i).put x).out ^ 2 ≤ r * E (ls k i) + q * x ^ 2) (x : Fin 4 → ℝ) :
    stored E q (chan ls x) + norm4 (mix (outs (grp2 ls x))) ≤ r * stored E q ls + 64 * q ^ 3 * norm4 x := by
  have h0 := group_energy (h 0) x
  have h1 := group_energy (h 1) (mix (outs (grp0 ls x)))
  have h2 := group_energy (h 2) (mix (outs (grp1 ls x)))
  have e0 := mul_le_mul_of_nonneg_left h0 (by positivity : 0 ≤ 64 * q ^ 2)
  have e1 := mul_le_mul_of_nonneg_left h1 (by positivity : 0 ≤ 16 * q)
  rw [norm4_mix] at h1 h2 e1
  rw [norm4_mix]
  have c0 : chan ls x 0 = putAll (ls 0) x := rfl
  have c1 : chan ls x 1 = putAll (ls 1) (mix (outs (grp0 ls x))) := rfl
  have c2 : chan ls x 2 = putAll (ls 2) (mix (outs (grp1 ls x))) := rfl
  have g0 : grp0 ls x = putAll (ls 0) x := rfl
  have g1 : grp1 ls x = putAll (ls 1) (mix (outs (grp0 ls x))) := rfl
  have g2 : grp2 ls x = putAll (ls 2) (mix (outs (grp1 ls x))) := rfl
  rw [stored, stored, c0, c1, c2, g2]
  rw [← g0] at e0 ⊢
  rw [← g1] at e1 h1 ⊢
  nlinarith

theorem chan_live {ls : Fin 3 → Fin 4 → Line ℝ} (h : ∀ k i, (ls k i).Ok) (x : Fin 4 → ℝ) :
    stored Line.live 1 (chan ls x) + norm4 (mix (outs (grp2 ls x))) = stored Line.live 1 ls + 64 * norm4 x := by
  have key : ∀ k (y : Fin 4 → ℝ), sum4 Line.live (putAll (ls k) y) + norm4 (outs (putAll (ls k) y)) =
      sum4 Line.live (ls k) + norm4 y := by
    intro k y
    have h0 := live_put (h k 0) (y 0)
    have h1 := live_put (h k 1) (y 1)
    have h2 := live_put (h k 2) (y 2)
    have h3 := live_put (h k 3) (y 3)
    simp only [sum4, norm4, outs, putAll]
    linarith
  have h0 := key 0 x
  have h1 := key 1 (mix (outs (grp0 ls x)))
  have h2 := key 2 (mix (outs (grp1 ls x)))
  rw [norm4_mix] at h1 h2
  rw [norm4_mix]
  have c0 : chan ls x 0 = grp0 ls x := rfl
  have c1 : chan ls x 1 = grp1 ls x := rfl
  have c2 : chan ls x 2 = grp2 ls x := rfl
  rw [stored, stored, c0, c1, c2]
  change sum4 Line.live (grp0 ls x) + norm4 (outs (grp0 ls x)) = _ at h0
  change sum4 Line.live (grp1 ls x) + norm4 (outs (grp1 ls x)) = _ at h1
  change sum4 Line.live (grp2 ls x) + norm4 (outs (grp2 ls x)) = _ at h2
  linarith

/-- The energy in the loop. -/
noncomputable def energy (E : Line ℝ → ℝ) (q : ℝ) (g : Galactic ℝ) : ℝ :=
  stored E q g.left + stored E q g.right + norm4 g.fbL + norm4 g.fbR

theorem stored_nonneg {E : Line ℝ → ℝ} (hE : ∀ s, 0 ≤ E s) {q : ℝ} (hq : 0 ≤ q) (ls : Fin 3 → Fin 4 → Line ℝ) : 0 ≤ stored E q ls := by
  have : ∀ k, 0 ≤ sum4 E (ls k) := fun k => by
    have h0 := hE (ls k 0)
    have h1 := hE (ls k 1)
    have h2 := hE (ls k 2)
    have h3 := hE (ls k 3)
    unfold sum4; linarith
  have h0 := this 0
  have h1 := this 1
  have h2 := this 2
  unfold stored; positivity

theorem energy_nonneg {E : Line ℝ → ℝ} (hE : ∀ s, 0 ≤ E s) {q : ℝ} (hq : 0 ≤ q) (g : Galactic ℝ) : 0 ≤ energy E q g := by
  have h1 := stored_nonneg hE hq g.left
  have h2 := stored_nonneg hE hq g.right
  have h3 := norm4_nonneg g.fbL
  have h4 := norm4_nonneg g.fbR
  unfold energy; linarith

/-- The triangle inequality in the loop. -/
theorem entering {s regen xl xr m b : ℝ} {g : Galactic ℝ} (hr : 0 ≤ regen) (hs : 0 ≤ s) (hsr : s * regen ≤ 1) (hm : 0 ≤ m) (hb : 0 ≤ b)
    (hx : xl ^ 2 + xr ^ 2 ≤ m ^ 2) (hf : norm4 g.fbL + norm4 g.fbR ≤ b ^ 2) :
    s ^ 2 * (norm4 (inL regen g xl) + norm4 (inR regen g xr)) ≤ norm4 g.fbL + norm4 g.fbR + 4 * b * s * m + 4 * s ^ 2 * m ^ 2 := by
  set F := norm4 g.fbL + norm4 g.fbR with hF
  set S := xl * (g.fbR 0 + g.fbR 1 + g.fbR 2 + g.fbR 3) + xr * (g.fbL 0 + g.fbL 1 + g.fbL 2 + g.fbL 3) with hS
  have hF0 : 0 ≤ F := add_nonneg (norm4_nonneg _) (norm4_nonneg _)
  have e : norm4 (inL regen g xl) + norm4 (inR regen g xr) = regen ^ 2 * F + 2 * regen * S + 4 * (xl ^ 2 + xr ^ 2) := by
    rw [hF, hS]; simp only [norm4, inL, inR]; ring
  have cs : S ^ 2 ≤ F * (4 * (xl ^ 2 + xr ^ 2)) := by
    have c4 : ∀ a b c d : ℝ, (a + b + c + d) ^ 2 ≤ 4 * (a ^ 2 + b ^ 2 + c ^ 2 + d ^ 2) := by
      intro a b c d
      nlinarith [sq_nonneg (a - b), sq_nonneg (a - c), sq_nonneg (a - d), sq_nonneg (b - c), sq_nonneg (b - d), sq_nonneg (c - d)]
    have h1 := c4 (g.fbR 0) (g.fbR 1) (g.fbR 2) (g.fbR 3)
    have h2 := c4 (g.fbL 0) (g.fbL 1) (g.fbL 2) (g.fbL 3)
    rw [hS, hF]
    simp only [norm4]
    set p := g.fbR 0 + g.fbR 1 + g.fbR 2 + g.fbR 3
    set u := g.fbL 0 + g.fbL 1 + g.fbL 2 + g.fbL 3
    have h3 : (xl * p + xr * u) ^ 2 ≤ (xl ^ 2 + xr ^ 2) * (p ^ 2 + u ^ 2) := by nlinarith [sq_nonneg (xl * u - xr * p)]
    have h4 : 0 ≤ xl ^ 2 + xr ^ 2 := by positivity
    have h5 := mul_le_mul_of_nonneg_left (add_le_add h1 h2) h4
    linarith
  have hS2 : S ≤ 2 * b * m := by
    refine le_trans (le_abs_self S) (abs_le_of_sq_le_sq ?_ (by positivity))
    calc S ^ 2 ≤ F * (4 * (xl ^ 2 + xr ^ 2)) := cs
      _ ≤ b ^ 2 * (4 * m ^ 2) := mul_le_mul hf (by linarith) (by positivity) (by positivity)
      _ = (2 * b * m) ^ 2 := by ring
  rw [e]
  have t1 : (s * regen) ^ 2 * F ≤ 1 * F := mul_le_mul_of_nonneg_right (pow_le_one₀ (by positivity) hsr) hF0
  have t2 : 2 * s * (s * regen) * S ≤ 2 * s * (2 * b * m) := by
    have h1 : (s * regen) * S ≤ 2 * b * m := by
      rcases le_total 0 S with h | h
      · calc (s * regen) * S ≤ 1 * S := mul_le_mul_of_nonneg_right hsr h
          _ ≤ _ := by linarith
      · have : (s * regen) * S ≤ 0 := mul_nonpos_of_nonneg_of_nonpos (by positivity) h
        have : 0 ≤ 2 * b * m := by positivity
        linarith
    have := mul_le_mul_of_nonneg_left h1 (by positivity : 0 ≤ 2 * s)
    linarith
  have t3 : s ^ 2 * (4 * (xl ^ 2 + xr ^ 2)) ≤ s ^ 2 * (4 * m ^ 2) := mul_le_mul_of_nonneg_left (by linarith) (by positivity)
  linarith

/-- One frame of the loop: without input the energy does not rise. -/
theorem tank_live {regen xl xr m b : ℝ} {g : Galactic ℝ} (h : LinesOk g) (hr : 0 ≤ regen) (hr8 : regen ≤ 1 / 8) (hm : 0 ≤ m) (hb : 0 ≤ b)
    (hx : xl ^ 2 + xr ^ 2 ≤ m ^ 2) (hf : energy Line.live 1 g ≤ b ^ 2) :
    energy Line.live 1 (tanked regen g xl xr) ≤ (b + 16 * m) ^ 2 := by
  have hl := chan_live (fun k i => (h k i).1) (inL regen g xl)
  have hr' := chan_live (fun k i => (h k i).2) (inR regen g xr)
  have s1 := stored_nonneg live_nonneg (zero_le_one) g.left
  have s2 := stored_nonneg live_nonneg (zero_le_one) g.right
  have hf' : norm4 g.fbL + norm4 g.fbR ≤ b ^ 2 := by unfold energy at hf; linarith
  have he := entering (s := 8) hr (by norm_num) (by linarith) hm hb hx hf'
  unfold energy at hf ⊢
  simp only [tanked]
  nlinarith

/-- One frame of the loop: with a weight for the time that a sample still waits, the energy falls at a fixed rate. -/
theorem tank_wait {L : Nat} {u regen xl xr m b : ℝ} {g : Galactic ℝ} (h : LinesOk g)
    (hlen : ∀ k i, (g.left k i).pos < (g.left k i).len ∧ (g.left k i).len ≤ L ∧ (g.right k i).pos < (g.right k i).len ∧ (g.right k i).len ≤ L)
    (hu : 1 ≤ u) (hr : 0 ≤ regen) (hur : 8 * u ^ (3 * L) * regen ≤ 1) (hm : 0 ≤ m) (hb : 0 ≤ b)
    (hx : xl ^ 2 + xr ^ 2 ≤ m ^ 2) (hf : energy (Line.wait (u ^ 2)) (u ^ (2 * L) / u ^ 2) g ≤ b ^ 2) :
    u ^ 2 * energy (Line.wait (u ^ 2)) (u ^ (2 * L) / u ^ 2) (tanked regen g xl xr) ≤ (b + 2 * (8 * u ^ (3 * L)) * m) ^ 2 := by
  have hu0 : 0 < u := by linarith
  set q := u ^ (2 * L) / u ^ 2 with hq
  have hq0 : 0 ≤ q := by positivity
  have step : ∀ s : Line ℝ, s.Ok → s.pos < s.len → s.len ≤ L → ∀ x, (s.put x).wait (u ^ 2) + (s.put x).out ^ 2 ≤
      1 / u ^ 2 * s.wait (u ^ 2) + q * x ^ 2 := by
    intro s hs hp hl x
    have e := wait_put (c := u ^ 2) hs hp x
    have hp : (u ^ 2) ^ s.len ≤ u ^ (2 * L) := by
      rw [← pow_mul]; exact pow_le_pow_right₀ hu (by omega)
    have h1 : (u ^ 2) ^ s.len * x ^ 2 ≤ u ^ (2 * L) * x ^ 2 := mul_le_mul_of_nonneg_right hp (by positivity)
    rw [hq, one_div, inv_mul_eq_div, div_mul_eq_mul_div, ← add_div, le_div_iff₀ (by positivity)]
    linarith
  have hl := chan_energy hq0 (fun k i => step _ (h k i).1 (hlen k i).1 (hlen k i).2.1) (inL regen g xl)
  have hr' := chan_energy hq0 (fun k i => step _ (h k i).2 (hlen k i).2.2.1 (hlen k i).2.2.2) (inR regen g xr)
  have s1 := stored_nonneg (wait_nonneg (by positivity : 0 ≤ u ^ 2)) hq0 g.left
  have s2 := stored_nonneg (wait_nonneg (by positivity : 0 ≤ u ^ 2)) hq0 g.right
  have hf' : norm4 g.fbL + norm4 g.fbR ≤ b ^ 2 := by unfold energy at hf; linarith
  have he := entering (s := 8 * u ^ (3 * L)) hr (by positivity) hur hm hb hx hf'
  have hA : u ^ 2 * (64 * q ^ 3) ≤ (8 * u ^ (3 * L)) ^ 2 := by
    have e : u ^ 2 * (64 * q ^ 3) = 64 * u ^ (6 * L) / u ^ 4 := by
      rw [hq]
      have : u ^ (6 * L) = (u ^ (2 * L)) ^ 3 := by rw [← pow_mul]; congr 1; ring
      rw [this]; field_simp
    have e2 : (8 * u ^ (3 * L)) ^ 2 = 64 * u ^ (6 * L) := by
      rw [mul_pow, ← pow_mul]; norm_num; congr 1; ring
    rw [e, e2]
    exact div_le_self (by positivity) (one_le_pow₀ hu)
  have hN : 0 ≤ norm4 (inL regen g xl) + norm4 (inR regen g xr) := add_nonneg (norm4_nonneg _) (norm4_nonneg _)
  have hA' := mul_le_mul_of_nonneg_right hA hN
  unfold energy at hf ⊢
  simp only [tanked]
  have hl' := mul_le_mul_of_nonneg_left hl (by positivity : 0 ≤ u ^ 2)
  have hr'' := mul_le_mul_of_nonneg_left hr' (by positivity : 0 ≤ u ^ 2)
  have c1 : u ^ 2 * (1 / u ^ 2 * stored (Line.wait (u ^ 2)) q g.left) = stored (Line.wait (u ^ 2)) q g.left := by field_simp
  have c2 : u ^ 2 * (1 / u ^ 2 * stored (Line.wait (u ^ 2)) q g.right) = stored (Line.wait (u ^ 2)) q g.right := by field_simp
  rw [mul_add, mul_add, c1] at hl'
  rw [mul_add, mul_add, c2] at hr''
  linarith

end Verif.Gal
