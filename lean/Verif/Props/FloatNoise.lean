import Verif.Model.FloatNoise
import Verif.Lemmas.IeeeSigned
import Verif.Props.FloatUnits
import Verif.Props.Noise
import Verif.Props.Rng

/-!
# C79: noise and random lines with rounding

The specification is that of C46 (`specPink`, lines from one random number to the next) in exact arithmetic.
-/

namespace Verif.Fl

open Verif.Ns (Pink Rl RlOp PinkInv specPink lastOf octaveOf unit white)

/-! ### Specification -/

/-- The numbers that `fastrand` delivers as `f32`: multiples of `2 ^ -24` in `[0, 1)` (version 2.3 only delivers every second
of them). -/
def Rand (r : ℚ) : Prop := ∃ k : Nat, k < 16777216 ∧ r = k / 16777216

theorem Rand.unit {r : ℚ} (h : Rand r) : unit r := by
  obtain ⟨k, hk, rfl⟩ := h
  have : (k : ℚ) < 16777216 := by exact_mod_cast hk
  constructor
  · positivity
  · rw [div_lt_one (by norm_num)]; exact this

/-! ### Multiples of a power of two -/

/-- A multiple of `2 ^ -24`. -/
def Gr (x : ℚ) : Prop := ∃ m : Int, x = m * pow2 (-24)

theorem p24 : pow2 (-24) = 1 / 16777216 := by decide +kernel

theorem Gr.add {x y : ℚ} (hx : Gr x) (hy : Gr y) : Gr (x + y) := by
  obtain ⟨m, rfl⟩ := hx; obtain ⟨n, rfl⟩ := hy
  exact ⟨m + n, by push_cast; ring⟩

theorem Gr.sub {x y : ℚ} (hx : Gr x) (hy : Gr y) : Gr (x - y) := by
  obtain ⟨m, rfl⟩ := hx; obtain ⟨n, rfl⟩ := hy
  exact ⟨m - n, by push_cast; ring⟩

theorem Gr.zero : Gr 0 := ⟨0, by simp⟩
theorem Gr.one : Gr 1 := ⟨16777216, by rw [p24]; norm_num⟩

theorem Rand.gr {r : ℚ} (h : Rand r) : Gr r := by
  obtain ⟨k, hk, rfl⟩ := h
  exact ⟨k, by rw [p24]; push_cast; ring⟩

theorem white_gr {r : ℚ} (h : Rand r) : Gr (white r) := by
  have := (h.gr.add h.gr).sub Gr.one
  rwa [show white r = r + r - 1 by unfold white; ring]

/-- Small multiples of `2 ^ -24` are numbers of the format. -/
theorem Gr.rep {p : Nat} (hp : 24 ≤ p) {emin : Int} (he : emin ≤ -149) {x : ℚ} (h : Gr x) (hx : |x| ≤ pow2 (p - 24)) :
    Rep p emin x := by
  obtain ⟨m, rfl⟩ := h
  refine rep_mul (by omega) (by omega) ?_
  rw [abs_mul, abs_of_pos (pow2_pos _)] at hx
  have hs : pow2 ((p : Int) - 24) = (2 ^ p : ℚ) * pow2 (-24) := by
    rw [show (p : Int) - 24 = p + -24 by ring, pow2_add, pow2_nat]
    push_cast
    rfl
  rw [hs] at hx
  have := le_of_mul_le_mul_right hx (pow2_pos _)
  exact_mod_cast this

theorem Gr.fix32 {x : ℚ} (h : Gr x) (hx : |x| ≤ 1) : rnd32 x = x :=
  rnd_rep (h.rep (by norm_num) (by norm_num) (by
    rwa [show pow2 (((24 : Nat) : Int) - 24) = 1 by decide +kernel]))

theorem Gr.fix64 {x : ℚ} (h : Gr x) (hx : |x| ≤ 16) : rnd64 x = x :=
  rnd_rep (h.rep (by norm_num) (by norm_num) (by
    rw [show pow2 (((53 : Nat) : Int) - 24) = 536870912 by decide +kernel]
    linarith))

/-! ### White noise -/

theorem mul_two_fix {r : ℚ} (h : Rand r) : rnd32 (r * 2) = r * 2 := by
  obtain ⟨k, hk, rfl⟩ := h
  have : Rep 24 (-149) ((k : Int) * pow2 (-23)) := ⟨k, -23, rfl, by
    rw [Nat.abs_cast]; exact_mod_cast hk, by norm_num⟩
  rw [show (k : ℚ) / 16777216 * 2 = (k : Int) * pow2 (-23) by
    rw [show pow2 (-23) = 1 / 8388608 by decide +kernel]; push_cast; ring]
  exact rnd_rep this

theorem white_abs {r : ℚ} (h : unit r) : |white r| ≤ 1 := by
  have := Ns.C46_white h
  rw [abs_le]; exact ⟨this.1, this.2.le⟩

/-- C79, white noise: in `f32` and in `f64` nothing is lost, and the output is at least -1 and below 1. -/
theorem C79_white {r : ℚ} (h : Rand r) :
    whiteF rnd32 r = r * 2 - 1 ∧ whiteF rnd64 r = r * 2 - 1 ∧ -1 ≤ r * 2 - 1 ∧ r * 2 - 1 < 1 := by
  have hw := Ns.C46_white h.unit
  have e : rnd32 (rnd32 (r * 2) - 1) = white r := by
    rw [mul_two_fix h]
    exact (white_gr h).fix32 (white_abs h.unit)
  refine ⟨?_, ?_, hw.1, hw.2⟩
  · unfold whiteF
    rw [e]
    exact (white_gr h).fix32 (white_abs h.unit)
  · unfold whiteF
    rw [e]
    exact (white_gr h).fix64 (le_trans (white_abs h.unit) (by norm_num))

example : Rand (3 / 4) := ⟨12582912, by norm_num, by norm_num⟩

/-! ### Pink noise -/

/-- One frame: the same as without rounding, except for the running sum. -/
theorem pink_stepF {fl : ℚ → ℚ} (h10 : fl (fl Ns.octaves + 1) = 10) (rs ss : Nat → ℚ) (n : Nat)
    (hr : whiteF fl (rs n) = white (rs n)) (hs : whiteF fl (ss n) = white (ss n)) {p : Pink} (h : PinkInv rs ss n p) (x : ℚ) :
    ∃ p' x' w, pinkProcess fl { p with pink := x } (rs n) (ss n) = .ok ({ p' with pink := x' }, fl (x' / 10)) ∧
      PinkInv rs ss (n + 1) p' ∧ p'.pink / 10 = specPink rs ss n ∧ w ∈ p.whites ∧
      x' = fl (fl (fl (fl (x - w) + white (rs n)) - p.always) + white (ss n)) ∧
      p'.pink = p.pink - w + white (rs n) - p.always + white (ss n) := by
  obtain ⟨p', e, hi⟩ := Ns.pink_step rs ss n p h
  unfold Pink.process at e
  have hidx : ∀ y, Pink.noiseIndex { p with pink := y } = p.noiseIndex := fun _ => rfl
  cases hx : p.noiseIndex with
  | error q => rw [hx] at e; cases e
  | ok i =>
    rw [hx] at e
    simp only [bind_ok] at e
    by_cases hio : i < Ns.octaves
    · rw [if_pos hio] at e
      cases hw : p.whites[i]? with
      | none => rw [hw] at e; cases e
      | some w =>
        rw [hw] at e
        simp only at e
        unfold Pink.increment at e
        by_cases hc : p.counter > 0 ∧ p.counter ≤ p.mask
        · rw [if_pos hc] at e
          simp only [bind_ok, pure_ok, Except.ok.injEq, Prod.mk.injEq] at e
          obtain ⟨e1, e2⟩ := e
          refine ⟨p', fl (fl (fl (fl (x - w) + white (rs n)) - p.always) + white (ss n)), w, ?_, hi, ?_, List.mem_of_getElem? hw,
            rfl, ?_⟩
          · unfold pinkProcess
            rw [hidx, hx]
            simp only [bind_ok]
            rw [if_pos hio, hw]
            simp only [hr, hs, h10]
            unfold Pink.increment
            rw [if_pos hc]
            simp only [bind_ok, pure_ok, ← e1]
          · rw [← e2, ← e1]
            norm_num [Ns.octaves]
          · rw [← e1]
        · rw [if_neg hc] at e; cases e
    · rw [if_neg hio] at e; cases e

theorem ten64 : rnd64 (rnd64 Ns.octaves + 1) = 10 := by decide +kernel
theorem ten32 : rnd32 (rnd32 Ns.octaves + 1) = 10 := by decide +kernel

theorem lastOf_gr {rs : Nat → ℚ} (h : ∀ n, Rand (rs n)) (k : Nat) : ∀ n, Gr (lastOf rs k n)
  | 0 => Gr.zero
  | n + 1 => by
    unfold lastOf
    split
    · exact white_gr (h n)
    · exact lastOf_gr h k n

theorem sum_gr (l : List ℚ) (h : ∀ x ∈ l, Gr x) : Gr l.sum := by
  induction l with
  | nil => exact Gr.zero
  | cons a l ih => rw [List.sum_cons]; exact (h a (by simp)).add (ih fun x hx => h x (by simp [hx]))

/-- What is in the state is small and on the grid. -/
theorem pink_state {rs ss : Nat → ℚ} (hr : ∀ n, Rand (rs n)) (hs : ∀ n, Rand (ss n)) {n : Nat} {p : Pink} (h : PinkInv rs ss n p) :
    (∀ w ∈ p.whites, Gr w ∧ |w| ≤ 1) ∧ Gr p.always ∧ |p.always| ≤ 1 ∧ Gr p.pink ∧ |p.pink| ≤ 10 := by
  have hw : ∀ w ∈ p.whites, Gr w ∧ |w| ≤ 1 := by
    intro w hw
    rw [h.whites] at hw
    obtain ⟨k, _, rfl⟩ := List.mem_map.1 hw
    exact ⟨lastOf_gr hr k n, Ns.lastOf_range (fun m => (hr m).unit) k n⟩
  have ha : Gr p.always ∧ |p.always| ≤ 1 := by
    rw [h.always]
    split
    · exact ⟨Gr.zero, by norm_num⟩
    · exact ⟨white_gr (hs _), white_abs (hs _).unit⟩
  refine ⟨hw, ha.1, ha.2, ?_, ?_⟩
  · rw [h.pink]
    exact (sum_gr _ fun w h => (hw w h).1).add ha.1
  · have h1 := Ns.abs_sum_le p.whites (fun w h => (hw w h).2)
    have hl : p.whites.length = 9 := by rw [h.whites]; simp
    rw [hl] at h1
    push_cast at h1
    rw [h.pink]
    have := abs_add_le p.whites.sum p.always
    linarith [ha.2]

/-- The start. -/
theorem pink_start (rs ss : Nat → ℚ) : PinkInv rs ss 0 Pink.new := by
  refine ⟨?_, rfl, rfl, rfl, ?_⟩
  · simp [Pink.new, Ns.octaves, lastOf]
  · simp [Pink.new, Ns.octaves]

theorem pink_run64 {rs ss : Nat → ℚ} (hr : ∀ n, Rand (rs n)) (hs : ∀ n, Rand (ss n)) (k : Nat) : ∀ (n : Nat) (p : Pink),
    PinkInv rs ss n p → ∃ p', pinkRun rnd64 p ((List.range' n k).map (fun i => (rs i, ss i))) =
      .ok (p', (List.range' n k).map (fun i => rnd64 (specPink rs ss i))) := by
  induction k with
  | zero => intro n p _; exact ⟨p, rfl⟩
  | succ k ih =>
    intro n p h
    obtain ⟨p1, x1, w, e1, h1, hsp, hw, hx, hp⟩ := pink_stepF ten64 rs ss n (C79_white (hr n)).2.1 (C79_white (hs n)).2.1 h p.pink
    obtain ⟨gw, ga, ba, gp, bp⟩ := pink_state hr hs h
    obtain ⟨gw, bw⟩ := gw w hw
    have gr' := white_gr (hr n)
    have gs' := white_gr (hs n)
    have br' := white_abs (hr n).unit
    have bs' := white_abs (hs n).unit
    have t1 := abs_sub p.pink w
    have t2 := abs_add_le (p.pink - w) (white (rs n))
    have t3 := abs_sub (p.pink - w + white (rs n)) p.always
    have t4 := abs_add_le (p.pink - w + white (rs n) - p.always) (white (ss n))
    have f1 : rnd64 (p.pink - w) = p.pink - w := (gp.sub gw).fix64 (by linarith)
    have f2 : rnd64 (p.pink - w + white (rs n)) = p.pink - w + white (rs n) := ((gp.sub gw).add gr').fix64 (by linarith)
    have f3 : rnd64 (p.pink - w + white (rs n) - p.always) = p.pink - w + white (rs n) - p.always :=
      (((gp.sub gw).add gr').sub ga).fix64 (by linarith)
    have f4 : rnd64 (p.pink - w + white (rs n) - p.always + white (ss n)) = p.pink - w + white (rs n) - p.always + white (ss n) :=
      ((((gp.sub gw).add gr').sub ga).add gs').fix64 (by linarith)
    rw [f1, f2, f3, f4, ← hp] at hx
    subst hx
    obtain ⟨p2, e2⟩ := ih (n + 1) p1 h1
    refine ⟨p2, ?_⟩
    rw [List.range'_succ, List.map_cons, List.map_cons]
    have e1' : pinkProcess rnd64 p (rs n) (ss n) = .ok (p1, rnd64 (p1.pink / 10)) := e1
    simp only [pinkRun, e1', bind_ok, e2, pure_ok, hsp]

/-- C79, pink noise in `f64`: for every sequence of random numbers and every number of frames no assertion fails, every output is the
exact mean rounded once, and it is in `[-1, 1]`. -/
theorem C79_pink64 {rs ss : Nat → ℚ} (hr : ∀ n, Rand (rs n)) (hs : ∀ n, Rand (ss n)) (k : Nat) :
    (∃ p, pinkRun rnd64 Pink.new ((List.range k).map (fun i => (rs i, ss i))) =
      .ok (p, (List.range k).map (fun n => rnd64 (specPink rs ss n)))) ∧ ∀ n, |rnd64 (specPink rs ss n)| ≤ 1 := by
  constructor
  · have := pink_run64 hr hs k 0 Pink.new (pink_start rs ss)
    rwa [← List.range_eq_range'] at this
  · intro n
    refine rnd_abs_le (by norm_num) ?_ (Ns.C46_pink_range rs ss (fun n => (hr n).unit) (fun n => (hs n).unit) n)
    have : Rep 53 (-1074) ((1 : Nat) : ℚ) := rep_nat (by norm_num) (by norm_num)
    simpa using this

theorem err32 {x : ℚ} (hx : |x| < 16) : |rnd32 x - x| ≤ 1 / 2097152 := by
  have := rnd_err (p := 24) (emin := -149) (x := x) (k := 4) (by
    rwa [show pow2 4 = 16 by decide +kernel]) (by norm_num)
  rwa [show pow2 (4 - ((24 : Nat) : Int) - 1) = 1 / 2097152 by decide +kernel] at this

theorem pink_run32 {rs ss : Nat → ℚ} (hr : ∀ n, Rand (rs n)) (hs : ∀ n, Rand (ss n)) (k : Nat) : ∀ (n : Nat) (p : Pink) (x : ℚ),
    n + k ≤ 1048576 → PinkInv rs ss n p → |x - p.pink| ≤ n / 524288 →
    ∃ p' os, pinkRun rnd32 { p with pink := x } ((List.range' n k).map (fun i => (rs i, ss i))) = .ok (p', os) ∧ os.length = k ∧
      ∀ i o, os[i]? = some o → |o - specPink rs ss (n + i)| ≤ (n + i + 1) / 5242880 + 1 / 16777216 := by
  induction k with
  | zero => intro n p x _ _ _; exact ⟨_, [], rfl, rfl, fun i o h => by simp at h⟩
  | succ k ih =>
    intro n p x hn h hd
    obtain ⟨p1, x1, w, e1, h1, hsp, hw, hx, hp⟩ := pink_stepF ten32 rs ss n (C79_white (hr n)).1 (C79_white (hs n)).1 h x
    obtain ⟨gw, ga, ba, gp, bp⟩ := pink_state hr hs h
    obtain ⟨gw, bw⟩ := gw w hw
    have br' := white_abs (hr n).unit
    have bs' := white_abs (hs n).unit
    obtain ⟨-, -, -, -, bp1⟩ := pink_state hr hs h1
    have hnq : (n : ℚ) ≤ 1048575 := by
      have : n ≤ 1048575 := by omega
      exact_mod_cast this
    have hd2 : (n : ℚ) / 524288 ≤ 2 := by rw [div_le_iff₀ (by norm_num)]; linarith
    rw [abs_le] at bp ba bw br' bs' hd bp1
    have d1 := err32 (x := x - w) (by rw [abs_lt]; constructor <;> linarith)
    rw [abs_le] at d1
    have d2 := err32 (x := rnd32 (x - w) + white (rs n)) (by rw [abs_lt]; constructor <;> linarith)
    rw [abs_le] at d2
    have d3 := err32 (x := rnd32 (rnd32 (x - w) + white (rs n)) - p.always) (by rw [abs_lt]; constructor <;> linarith)
    rw [abs_le] at d3
    have d4 := err32 (x := rnd32 (rnd32 (rnd32 (x - w) + white (rs n)) - p.always) + white (ss n)) (by
      rw [abs_lt]; constructor <;> linarith)
    rw [abs_le, ← hx] at d4
    have hx1 : |x1 - p1.pink| ≤ ((n + 1 : Nat) : ℚ) / 524288 := by
      rw [abs_le, hp]
      push_cast
      constructor <;> linarith
    obtain ⟨p2, os, e2, hl, ho⟩ := ih (n + 1) p1 x1 (by omega) h1 hx1
    refine ⟨p2, rnd32 (x1 / 10) :: os, ?_, by simp [hl], ?_⟩
    · rw [List.range'_succ, List.map_cons]
      simp only [pinkRun, e1, bind_ok, e2, pure_ok]
    · intro i o hi
      cases i with
      | zero =>
        simp only [List.getElem?_cons_zero, Option.some.injEq] at hi
        subst hi
        rw [abs_le] at hx1
        push_cast at hx1
        have hn2 : ((n : ℚ) + 1) / 524288 ≤ 2 := by rw [div_le_iff₀ (by norm_num)]; linarith
        have := rnd_err (p := 24) (emin := -149) (x := x1 / 10) (k := 1) (by
          rw [show pow2 1 = 2 by decide +kernel, abs_lt]
          constructor <;> linarith) (by norm_num)
        rw [show pow2 (1 - ((24 : Nat) : Int) - 1) = 1 / 16777216 by decide +kernel, abs_le] at this
        rw [abs_le, Nat.add_zero, ← hsp]
        unfold rnd32
        push_cast
        constructor <;> linarith
      | succ i =>
        rw [List.getElem?_cons_succ] at hi
        have := ho i o hi
        rw [show n + 1 + i = n + (i + 1) by omega] at this
        push_cast at this ⊢
        rwa [show (n : ℚ) + 1 + i + 1 = n + (i + 1) + 1 by ring] at this

/-- C79, pink noise in `f32`, as far as it holds: no assertion fails, and after `n` frames the output is within `(n + 1) / 10` units of
`2 ^ -19` of the exact mean.

Partial: the errors add up, so that the range is exceeded and an error once made stays forever (`C79_pink_violated`); the bound is
for 1048576 frames. -/
theorem C79_pink_partial {rs ss : Nat → ℚ} (hr : ∀ n, Rand (rs n)) (hs : ∀ n, Rand (ss n)) (k : Nat) (hk : k ≤ 1048576) :
    ∃ p os, pinkRun rnd32 Pink.new ((List.range k).map (fun i => (rs i, ss i))) = .ok (p, os) ∧ os.length = k ∧
      ∀ n o, os[n]? = some o → |o - specPink rs ss n| ≤ (n + 1) / 5242880 + 1 / 16777216 := by
  obtain ⟨p, os, h1, h2, h3⟩ := pink_run32 hr hs k 0 Pink.new 0 (by omega) (pink_start rs ss) (by simp [Pink.new])
  rw [← List.range_eq_range'] at h1
  refine ⟨p, os, h1, h2, fun n o h => ?_⟩
  have := h3 n o h
  rw [Nat.zero_add] at this
  push_cast at this
  rwa [zero_add] at this

/-! ### Pink noise in `f32`: errors add up and stay -/

/-- Random numbers below one, multiples of `2 ^ -23`. -/
def nearOne (j : Nat) : ℚ := (8388607 - j) / 8388608

/-- A state of pink noise, in units of `2 ^ -22`. -/
def st (ws : List Int) (a : Int) (c : Nat) (q : Int) : Pink :=
  ⟨ws.map fun w => (w : ℚ) / 4194304, (a : ℚ) / 4194304, c, 256, (q : ℚ) / 4194304⟩

/-- The state after some frames. -/
def After (p : Pink) (rs : List (ℚ × ℚ)) (p' : Pink) : Prop := (pinkRun rnd32 p rs).toOption.map (·.1) = some p'

instance (p : Pink) (rs : List (ℚ × ℚ)) (p' : Pink) : Decidable (After p rs p') := by unfold After; infer_instance

theorem After.ok {p p' : Pink} {rs : List (ℚ × ℚ)} (h : After p rs p') : ∃ os, pinkRun rnd32 p rs = .ok (p', os) := by
  unfold After at h
  cases e : pinkRun rnd32 p rs with
  | error x => rw [e] at h; cases h
  | ok y =>
    rw [e] at h
    simp only [Except.toOption, Option.map_some, Option.some.injEq] at h
    exact ⟨y.2, by rw [← h]⟩

theorem pinkRun_append (fl : ℚ → ℚ) (a b : List (ℚ × ℚ)) : ∀ (p p1 p2 : Pink) (o1 o2 : List ℚ), pinkRun fl p a = .ok (p1, o1) →
    pinkRun fl p1 b = .ok (p2, o2) → pinkRun fl p (a ++ b) = .ok (p2, o1 ++ o2) := by
  induction a with
  | nil =>
    intro p p1 p2 o1 o2 h1 h2
    simp only [pinkRun, Except.ok.injEq, Prod.mk.injEq] at h1
    obtain ⟨rfl, rfl⟩ := h1
    exact h2
  | cons x a ih =>
    intro p p1 p2 o1 o2 h1 h2
    obtain ⟨r, s⟩ := x
    simp only [pinkRun, List.cons_append] at h1 ⊢
    cases e : pinkProcess fl p r s with
    | error x => rw [e] at h1; cases h1
    | ok y =>
      rw [e] at h1
      simp only [bind_ok] at h1
      cases e2 : pinkRun fl y.1 a with
      | error x => rw [e2] at h1; cases h1
      | ok z =>
        rw [e2] at h1
        simp only [bind_ok, pure_ok, Except.ok.injEq, Prod.mk.injEq] at h1
        obtain ⟨rfl, rfl⟩ := h1
        simp only [bind_ok, ih y.1 z.1 p2 z.2 o2 e2 h2, pure_ok, List.cons_append]

theorem After.trans {p p1 p2 : Pink} {a b : List (ℚ × ℚ)} (h1 : After p a p1) (h2 : After p1 b p2) : After p (a ++ b) p2 := by
  obtain ⟨o1, e1⟩ := h1.ok
  obtain ⟨o2, e2⟩ := h2.ok
  unfold After
  rw [pinkRun_append rnd32 a b p p1 p2 o1 o2 e1 e2]
  rfl

theorem loud0 : After (st [0, 0, 0, 0, 0, 0, 0, 0, 0] 0 1 0)
    (List.replicate 32 (nearOne 0, nearOne 0))
    (st [4194303, 4194303, 4194303, 4194303, 4194303, 4194303, 0, 0, 0] 4194303 33 29360124) := by decide +kernel

theorem loud1 : After (st [4194303, 4194303, 4194303, 4194303, 4194303, 4194303, 0, 0, 0] 4194303 33 29360124)
    (List.replicate 32 (nearOne 0, nearOne 0))
    (st [4194303, 4194303, 4194303, 4194303, 4194303, 4194303, 4194303, 0, 0] 4194303 65 33554428) := by decide +kernel

theorem loud2 : After (st [4194303, 4194303, 4194303, 4194303, 4194303, 4194303, 4194303, 0, 0] 4194303 65 33554428)
    (List.replicate 32 (nearOne 0, nearOne 0))
    (st [4194303, 4194303, 4194303, 4194303, 4194303, 4194303, 4194303, 0, 0] 4194303 97 33554428) := by decide +kernel

theorem loud3 : After (st [4194303, 4194303, 4194303, 4194303, 4194303, 4194303, 4194303, 0, 0] 4194303 97 33554428)
    (List.replicate 32 (nearOne 0, nearOne 0))
    (st [4194303, 4194303, 4194303, 4194303, 4194303, 4194303, 4194303, 4194303, 0] 4194303 129 37748732) := by decide +kernel

theorem loud4 : After (st [4194303, 4194303, 4194303, 4194303, 4194303, 4194303, 4194303, 4194303, 0] 4194303 129 37748732)
    (List.replicate 32 (nearOne 0, nearOne 0))
    (st [4194303, 4194303, 4194303, 4194303, 4194303, 4194303, 4194303, 4194303, 0] 4194303 161 37748732) := by decide +kernel

theorem loud5 : After (st [4194303, 4194303, 4194303, 4194303, 4194303, 4194303, 4194303, 4194303, 0] 4194303 161 37748732)
    (List.replicate 32 (nearOne 0, nearOne 0))
    (st [4194303, 4194303, 4194303, 4194303, 4194303, 4194303, 4194303, 4194303, 0] 4194303 193 37748732) := by decide +kernel

theorem loud6 : After (st [4194303, 4194303, 4194303, 4194303, 4194303, 4194303, 4194303, 4194303, 0] 4194303 193 37748732)
    (List.replicate 32 (nearOne 0, nearOne 0))
    (st [4194303, 4194303, 4194303, 4194303, 4194303, 4194303, 4194303, 4194303, 0] 4194303 225 37748732) := by decide +kernel

theorem loud7 : After (st [4194303, 4194303, 4194303, 4194303, 4194303, 4194303, 4194303, 4194303, 0] 4194303 225 37748732)
    (List.replicate 32 (nearOne 0, nearOne 0))
    (st [4194303, 4194303, 4194303, 4194303, 4194303, 4194303, 4194303, 4194303, 4194303] 4194303 1 41943036) := by decide +kernel

theorem loud8 : After (st [4194303, 4194303, 4194303, 4194303, 4194303, 4194303, 4194303, 4194303, 4194303] 4194303 1 41943036)
    [(nearOne 5, nearOne 1), (nearOne 4, nearOne 1), (nearOne 4, nearOne 1), (nearOne 4, nearOne 1)]
    (st [4194299, 4194299, 4194299, 4194303, 4194303, 4194303, 4194303, 4194303, 4194303] 4194302 5 41943040) := by decide +kernel

theorem loud9 : After (st [4194299, 4194299, 4194299, 4194303, 4194303, 4194303, 4194303, 4194303, 4194303] 4194302 5 41943040)
    [(nearOne 0, nearOne 1)]
    (st [4194303, 4194299, 4194299, 4194303, 4194303, 4194303, 4194303, 4194303, 4194303] 4194302 6 41943048) := by decide +kernel

theorem quiet0 : After (st [4194303, 4194299, 4194299, 4194303, 4194303, 4194303, 4194303, 4194303, 4194303] 4194302 6 41943048)
    (List.replicate 32 (1 / 2, 1 / 2))
    (st [0, 0, 0, 0, 0, 0, 4194303, 4194303, 4194303] 0 38 12582933) := by decide +kernel

theorem quiet1 : After (st [0, 0, 0, 0, 0, 0, 4194303, 4194303, 4194303] 0 38 12582933)
    (List.replicate 32 (1 / 2, 1 / 2))
    (st [0, 0, 0, 0, 0, 0, 0, 4194303, 4194303] 0 70 8388630) := by decide +kernel

theorem quiet2 : After (st [0, 0, 0, 0, 0, 0, 0, 4194303, 4194303] 0 70 8388630)
    (List.replicate 32 (1 / 2, 1 / 2))
    (st [0, 0, 0, 0, 0, 0, 0, 4194303, 4194303] 0 102 8388630) := by decide +kernel

theorem quiet3 : After (st [0, 0, 0, 0, 0, 0, 0, 4194303, 4194303] 0 102 8388630)
    (List.replicate 32 (1 / 2, 1 / 2))
    (st [0, 0, 0, 0, 0, 0, 0, 0, 4194303] 0 134 4194327) := by decide +kernel

theorem quiet4 : After (st [0, 0, 0, 0, 0, 0, 0, 0, 4194303] 0 134 4194327)
    (List.replicate 32 (1 / 2, 1 / 2))
    (st [0, 0, 0, 0, 0, 0, 0, 0, 4194303] 0 166 4194327) := by decide +kernel

theorem quiet5 : After (st [0, 0, 0, 0, 0, 0, 0, 0, 4194303] 0 166 4194327)
    (List.replicate 32 (1 / 2, 1 / 2))
    (st [0, 0, 0, 0, 0, 0, 0, 0, 4194303] 0 198 4194327) := by decide +kernel

theorem quiet6 : After (st [0, 0, 0, 0, 0, 0, 0, 0, 4194303] 0 198 4194327)
    (List.replicate 32 (1 / 2, 1 / 2))
    (st [0, 0, 0, 0, 0, 0, 0, 0, 4194303] 0 230 4194327) := by decide +kernel

theorem quiet7 : After (st [0, 0, 0, 0, 0, 0, 0, 0, 4194303] 0 230 4194327)
    (List.replicate 32 (1 / 2, 1 / 2))
    (st [0, 0, 0, 0, 0, 0, 0, 0, 0] 0 6 24) := by decide +kernel

/-- 256 frames of the largest number, then a few that are a little less. -/
def loud : List (ℚ × ℚ) := List.replicate 256 (nearOne 0, nearOne 0) ++
  [(nearOne 5, nearOne 1), (nearOne 4, nearOne 1), (nearOne 4, nearOne 1), (nearOne 4, nearOne 1)]

/-- The same and 256 frames of 1/2, which is no noise at all. -/
def loudQuiet : List (ℚ × ℚ) := loud ++ ([(nearOne 0, nearOne 1)] ++ List.replicate 256 (1 / 2, 1 / 2))

theorem st_new : st [0, 0, 0, 0, 0, 0, 0, 0, 0] 0 1 0 = Pink.new := by decide +kernel

theorem after_loud : After Pink.new loud (st [4194299, 4194299, 4194299, 4194303, 4194303, 4194303, 4194303, 4194303, 4194303] 4194302 5 41943040) := by
  have := ((((((((loud0.trans loud1).trans loud2).trans loud3).trans loud4).trans loud5).trans loud6).trans loud7).trans loud8)
  rw [st_new] at this
  simpa only [List.replicate_append_replicate, loud] using this

theorem after_quiet : After Pink.new loudQuiet (st [0, 0, 0, 0, 0, 0, 0, 0, 0] 0 6 24) := by
  have := after_loud.trans (loud9.trans (((((((quiet0.trans quiet1).trans quiet2).trans quiet3).trans quiet4).trans quiet5).trans
    quiet6).trans quiet7))
  simpa only [List.replicate_append_replicate, loudQuiet] using this

/-- The random numbers of the witness. -/
def witness (n : Nat) : ℚ × ℚ := loudQuiet[n]?.getD (1 / 2, 1 / 2)

theorem nearOne_rand {j : Nat} (h : j ≤ 8388607) : Rand (nearOne j) := by
  refine ⟨2 * (8388607 - j), by omega, ?_⟩
  unfold nearOne
  push_cast [Nat.cast_sub h]
  ring

theorem half_rand : Rand (1 / 2) := ⟨8388608, by norm_num, by norm_num⟩

theorem loudQuiet_rand : ∀ x ∈ loudQuiet, Rand x.1 ∧ Rand x.2 := by
  intro x hx
  simp only [loudQuiet, loud, List.mem_append, List.mem_replicate, List.mem_cons, List.not_mem_nil, or_false] at hx
  rcases hx with (⟨-, rfl⟩ | rfl | rfl | rfl | rfl) | rfl | ⟨-, rfl⟩ <;>
    first | exact ⟨half_rand, half_rand⟩ | exact ⟨nearOne_rand (by norm_num), nearOne_rand (by norm_num)⟩

theorem witness_rand (n : Nat) : Rand (witness n).1 ∧ Rand (witness n).2 := by
  unfold witness
  cases h : loudQuiet[n]? with
  | none => exact ⟨half_rand, half_rand⟩
  | some x => exact loudQuiet_rand x (List.mem_of_getElem? h)

theorem loudQuiet_length : loudQuiet.length = 517 := by
  unfold loudQuiet loud
  simp only [List.length_append, List.length_replicate, List.length_cons, List.length_nil]

theorem witness_list (j : Nat) : (List.range (517 + j)).map witness = loudQuiet ++ List.replicate j (1 / 2, 1 / 2) := by
  apply List.ext_getElem?
  intro i
  rw [List.getElem?_map, List.getElem?_append, loudQuiet_length]
  by_cases h : i < 517
  · rw [List.getElem?_range (by omega), if_pos h, Option.map_some, witness,
      List.getElem?_eq_getElem (by rw [loudQuiet_length]; exact h)]
    rfl
  · rw [if_neg h]
    by_cases h2 : i < 517 + j
    · rw [List.getElem?_range h2, Option.map_some, witness, List.getElem?_eq_none (by rw [loudQuiet_length]; omega),
        List.getElem?_replicate, if_pos (by omega)]
      rfl
    · rw [List.getElem?_eq_none (by simpa using h2), List.getElem?_eq_none (by simp; omega)]
      rfl

/-- Only the running sum is left. -/
structure Empty (p : Pink) : Prop where
  whites : p.whites = List.replicate 9 0
  always : p.always = 0
  counter : 0 < p.counter ∧ p.counter ≤ 256
  mask : p.mask = 256
  pink : p.pink = 24 / 4194304

theorem white_half (fl : ℚ → ℚ) (h : fl 0 = 0) : whiteF fl (1 / 2) = 0 := by
  have : rnd32 (rnd32 (1 / 2 * 2) - 1) = 0 := by decide +kernel
  unfold whiteF
  rw [this, h]

theorem empty_step {p : Pink} (h : Empty p) :
    ∃ p', pinkProcess rnd32 p (1 / 2) (1 / 2) = .ok (p', rnd32 (24 / 4194304 / 10)) ∧ Empty p' := by
  have hc : p.counter > 0 ∧ p.counter ≤ p.mask := ⟨h.counter.1, by rw [h.mask]; exact h.counter.2⟩
  have hi : p.noiseIndex = .ok (Ns.trailingZeros p.counter 32) := by
    unfold Pink.noiseIndex
    rw [if_pos hc]
  have ht : Ns.trailingZeros p.counter 32 < 9 := by
    obtain ⟨c, hc'⟩ : ∃ c, p.counter = c + 1 := ⟨p.counter - 1, by have := h.counter.1; omega⟩
    have hlt : c < 256 := by have := h.counter.2; omega
    rw [hc', Ns.tz_eq c hlt]
    exact Ns.tz_lt c hlt
  have hw : p.whites[Ns.trailingZeros p.counter 32]? = some 0 := by
    rw [h.whites, List.getElem?_replicate, if_pos ht]
  have z : ∀ y : ℚ, (y - 0 : ℚ) = y := sub_zero
  have h24 : rnd32 (24 / 4194304) = 24 / 4194304 := by decide +kernel
  refine ⟨⟨p.whites, 0, (p.counter &&& (p.mask - 1)) + 1, p.mask, 24 / 4194304⟩, ?_, ?_⟩
  · unfold pinkProcess
    rw [hi]
    simp only [bind_ok]
    rw [if_pos (show _ < Ns.octaves from ht), hw]
    simp only [white_half rnd32 (rnd_zero _ _), h.pink, h.always, sub_zero, add_zero, h24]
    have hset : p.whites.set (Ns.trailingZeros p.counter 32) 0 = p.whites := by
      rw [h.whites]
      apply List.ext_getElem?
      intro i
      rw [List.getElem?_set]
      split
      · next e => rw [← e, if_pos (by simpa using ht), List.getElem?_replicate, if_pos ht]
      · rfl
    rw [hset]
    unfold Pink.increment
    simp only
    rw [if_pos hc]
    simp only [bind_ok, pure_ok, ten32]
  · refine ⟨h.whites, rfl, ?_, h.mask, rfl⟩
    simp only [h.mask]
    rw [show 256 - 1 = 2 ^ 8 - 1 from rfl, Nat.and_two_pow_sub_one_eq_mod]
    have := Nat.mod_lt p.counter (show 2 ^ 8 > 0 by norm_num)
    omega

theorem empty_run (j : Nat) : ∀ {p : Pink}, Empty p → ∃ p', Empty p' ∧
    pinkRun rnd32 p (List.replicate j (1 / 2, 1 / 2)) = .ok (p', List.replicate j (rnd32 (24 / 4194304 / 10))) := by
  induction j with
  | zero => intro p h; exact ⟨p, h, rfl⟩
  | succ j ih =>
    intro p h
    obtain ⟨p1, e1, h1⟩ := empty_step h
    obtain ⟨p2, h2, e2⟩ := ih h1
    refine ⟨p2, h2, ?_⟩
    rw [List.replicate_succ, List.replicate_succ]
    simp only [pinkRun, e1, bind_ok, e2, pure_ok]

theorem pink_runF {fl : ℚ → ℚ} (h10 : fl (fl Ns.octaves + 1) = 10) {rs ss : Nat → ℚ} (hr : ∀ n, whiteF fl (rs n) = white (rs n))
    (hs : ∀ n, whiteF fl (ss n) = white (ss n)) (k : Nat) : ∀ (n : Nat) (p : Pink) (x : ℚ), PinkInv rs ss n p →
    ∃ p' x' os, pinkRun fl { p with pink := x } ((List.range' n k).map (fun i => (rs i, ss i))) = .ok ({ p' with pink := x' }, os) ∧
      os.length = k ∧ PinkInv rs ss (n + k) p' := by
  induction k with
  | zero => intro n p x h; exact ⟨p, x, [], rfl, rfl, h⟩
  | succ k ih =>
    intro n p x h
    obtain ⟨p1, x1, w, e1, h1, -⟩ := pink_stepF h10 rs ss n (hr n) (hs n) h x
    obtain ⟨p2, x2, os, e2, hl, h2⟩ := ih (n + 1) p1 x1 h1
    refine ⟨p2, x2, fl (x1 / 10) :: os, ?_, by rw [List.length_cons, hl], by rwa [show n + (k + 1) = n + 1 + k by omega]⟩
    rw [List.range'_succ, List.map_cons]
    simp only [pinkRun, e1, bind_ok, e2, pure_ok]

/-- The mean from the state after the frame. -/
theorem spec_of_inv {rs ss : Nat → ℚ} {n : Nat} {p : Pink} (h : PinkInv rs ss (n + 1) p) : specPink rs ss n = p.pink / 10 := by
  unfold specPink
  rw [h.pink, h.whites, h.always, if_neg (by omega), Nat.add_sub_cancel]

/-- C79, pink noise in `f32`, what goes wrong.  The documentation says that it "cannot surpass +-1.0".  There are random numbers (of
the `2 ^ 23` that `fastrand` delivers) after which the output is `1 + 2 ^ -22`.  If they are followed by nothing but 1/2, for which
the sum of all octaves is zero, the output stays at the same number other than zero forever: an error once made is never corrected. -/
theorem C79_pink_violated :
    (∃ rs : List (ℚ × ℚ), (∀ x ∈ rs, Rand x.1 ∧ Rand x.2) ∧ ∃ p os, pinkRun rnd32 Pink.new rs = .ok (p, os) ∧
      os.getLast? = some (1 + 1 / 4194304)) ∧
    (∃ rs ss : Nat → ℚ, (∀ n, Rand (rs n)) ∧ (∀ n, Rand (ss n)) ∧ (∀ n, 517 ≤ n → specPink rs ss n = 0) ∧
      ∃ c, 0 < c ∧ ∀ k, ∃ p os, pinkRun rnd32 Pink.new ((List.range k).map (fun i => (rs i, ss i))) = .ok (p, os) ∧
        ∀ n, 517 ≤ n → n < k → os[n]? = some c) := by
  refine ⟨⟨loud ++ [(nearOne 0, nearOne 1)], ?_, ?_⟩, ?_⟩
  · intro x hx
    refine loudQuiet_rand x ?_
    simp only [loudQuiet, List.mem_append] at hx ⊢
    rcases hx with h | h
    · exact .inl h
    · exact .inr (.inl h)
  · obtain ⟨o1, e1⟩ := after_loud.ok
    have e2 : (pinkRun rnd32 (st [4194299, 4194299, 4194299, 4194303, 4194303, 4194303, 4194303, 4194303, 4194303] 4194302 5 41943040) [(nearOne 0, nearOne 1)]).toOption.map (·.2) = some [1 + 1 / 4194304] := by decide +kernel
    cases e : pinkRun rnd32 (st [4194299, 4194299, 4194299, 4194303, 4194303, 4194303, 4194303, 4194303, 4194303] 4194302 5 41943040) [(nearOne 0, nearOne 1)] with
    | error x => rw [e] at e2; cases e2
    | ok y =>
      rw [e] at e2
      simp only [Except.toOption, Option.map_some, Option.some.injEq] at e2
      refine ⟨y.1, o1 ++ y.2, pinkRun_append _ _ _ _ _ _ _ _ e1 e, ?_⟩
      rw [e2, List.getLast?_append]
      rfl
  · obtain ⟨o1, e1⟩ := after_quiet.ok
    have hemp : Empty (st [0, 0, 0, 0, 0, 0, 0, 0, 0] 0 6 24) := ⟨by decide +kernel, by decide +kernel, by decide +kernel, rfl, by decide +kernel⟩
    have run : ∀ j, ∃ p, Empty p ∧ pinkRun rnd32 Pink.new ((List.range (517 + j)).map witness) =
        .ok (p, o1 ++ List.replicate j (rnd32 (24 / 4194304 / 10))) := by
      intro j
      obtain ⟨p, hp, e⟩ := empty_run j hemp
      rw [witness_list]
      exact ⟨p, hp, pinkRun_append _ _ _ _ _ _ _ _ e1 e⟩
    have full : ∀ k, ∃ p x os, pinkRun rnd32 Pink.new ((List.range k).map witness) = .ok ({ p with pink := x }, os) ∧
        os.length = k ∧ PinkInv (fun n => (witness n).1) (fun n => (witness n).2) k p := by
      intro k
      obtain ⟨p, x, os, h1, h2, h3⟩ := pink_runF ten32 (rs := fun n => (witness n).1) (ss := fun n => (witness n).2)
        (fun n => (C79_white (witness_rand n).1).1) (fun n => (C79_white (witness_rand n).2).1) k 0 Pink.new 0 (pink_start _ _)
      rw [← List.range_eq_range'] at h1
      rw [Nat.zero_add] at h3
      exact ⟨p, x, os, h1, h2, h3⟩
    have hlen : o1.length = 517 := by
      obtain ⟨p, x, os, h1, h2, -⟩ := full 517
      obtain ⟨q, -, h3⟩ := run 0
      rw [Nat.add_zero, h1] at h3
      simp only [Except.ok.injEq, Prod.mk.injEq] at h3
      rw [h3.2] at h2
      simpa using h2
    refine ⟨fun n => (witness n).1, fun n => (witness n).2, fun n => (witness_rand n).1, fun n => (witness_rand n).2, ?_,
      rnd32 (24 / 4194304 / 10), by decide +kernel, ?_⟩
    · intro n hn
      obtain ⟨j, rfl⟩ : ∃ j, n = 517 + j := ⟨n - 517, by omega⟩
      obtain ⟨p, x, os, h1, -, h3⟩ := full (517 + j + 1)
      obtain ⟨q, hq, h4⟩ := run (j + 1)
      rw [← Nat.add_assoc, h1] at h4
      simp only [Except.ok.injEq, Prod.mk.injEq] at h4
      have e1 : p.whites = List.replicate 9 0 := by rw [← hq.whites, ← h4.1]
      have e2 : p.always = 0 := by rw [← hq.always, ← h4.1]
      rw [spec_of_inv h3, h3.pink, e1, e2]
      simp
    · intro k
      by_cases hk : 517 ≤ k
      · obtain ⟨j, rfl⟩ : ∃ j, k = 517 + j := ⟨k - 517, by omega⟩
        obtain ⟨q, -, h4⟩ := run j
        refine ⟨q, _, h4, fun n h1 h2 => ?_⟩
        rw [List.getElem?_append_right (by omega), hlen, List.getElem?_replicate, if_pos (by omega)]
      · obtain ⟨p, x, os, h1, -⟩ := full k
        exact ⟨_, os, h1, fun n h1 h2 => absurd h2 (by omega)⟩

/-! ### Brown noise -/

/-- C79, brown noise stays in `[-1, 1]`, whatever the rounding. -/
theorem C79_brown (fl : ℚ → ℚ) (rs : List ℚ) : ∀ l : ℚ, ∀ x ∈ brownRunF fl l rs, |x| ≤ 1 := by
  induction rs with
  | nil => intro l x hx; simp [brownRunF] at hx
  | cons r rs ih =>
    intro l x hx
    simp only [brownRunF, List.mem_cons] at hx
    rcases hx with rfl | hx
    · rw [abs_le]
      exact ⟨le_max_left _ _, max_le (by norm_num) (min_le_left _ _)⟩
    · exact ih _ x hx

example : brownRunF rnd32 0 [0, 3 / 4] ≠ Ns.brownRun 0 [0, 3 / 4] := by decide +kernel

/-! ### Random lines -/

section
variable {p : Nat} {emin : Int}

/-- Random numbers, and one, are numbers of the sample type. -/
theorem Gr.fix (hp : 24 ≤ p) (he : emin ≤ -149) {x : ℚ} (h : Gr x) (hx : |x| ≤ 1) : rnd p emin x = x :=
  rnd_rep (h.rep hp he (le_trans hx (by
    rw [show (1 : ℚ) = pow2 0 by decide +kernel]
    exact pow2_le (by omega))))

/-- The state of a random line between the numbers `a` and `b`. -/
structure Line (a b : ℚ) (s : Rl) : Prop where
  value : s.value = a
  width : s.width = b - a
  a : Rand a
  b : Rand b
  phase0 : 0 ≤ s.phase
  phase1 : s.phase < 1
  step : 0 ≤ s.step
  mult : 0 ≤ s.mult

theorem Rand.abs_sub {a b : ℚ} (ha : Rand a) (hb : Rand b) : |b - a| ≤ 1 := by
  have h1 := ha.unit
  have h2 := hb.unit
  rw [abs_le]
  constructor <;> linarith [h1.1, h1.2, h2.1, h2.2]

theorem Rand.abs_le {a : ℚ} (ha : Rand a) : |a| ≤ 1 := by
  have h1 := ha.unit
  rw [abs_of_nonneg h1.1]
  exact h1.2.le

/-- The output is between the two numbers. -/
theorem line_out (hp : 24 ≤ p) (he : emin ≤ -149) {a b : ℚ} {s : Rl} (h : Line a b s) (r : ℚ) :
    min a b ≤ (rlProcess (rnd p emin) s r).2 ∧ (rlProcess (rnd p emin) s r).2 ≤ max a b := by
  have e : (rlProcess (rnd p emin) s r).2 = rnd p emin (a + rnd p emin (s.phase * (b - a))) := by
    unfold rlProcess
    rw [h.value, h.width]
    split <;> rfl
  rw [e]
  have p1 : 1 ≤ p := by omega
  have ra : Rep p emin a := h.a.gr.rep hp he (le_trans h.a.abs_le (by
    rw [show (1 : ℚ) = pow2 0 by decide +kernel]; exact pow2_le (by omega)))
  have rb : Rep p emin b := h.b.gr.rep hp he (le_trans h.b.abs_le (by
    rw [show (1 : ℚ) = pow2 0 by decide +kernel]; exact pow2_le (by omega)))
  have rw' : Rep p emin (b - a) := (h.b.gr.sub h.a.gr).rep hp he (le_trans (h.a.abs_sub h.b) (by
    rw [show (1 : ℚ) = pow2 0 by decide +kernel]; exact pow2_le (by omega)))
  have h0 := h.phase0
  have h1 := h.phase1
  rcases le_total a b with hab | hab
  · rw [min_eq_left hab, max_eq_right hab]
    have m0 : 0 ≤ rnd p emin (s.phase * (b - a)) := rnd_nonneg (mul_nonneg h0 (by linarith))
    have m1 : rnd p emin (s.phase * (b - a)) ≤ b - a := rnd_le_rep p1 rw' (by nlinarith)
    exact ⟨rep_le_rnd p1 ra (by linarith), rnd_le_rep p1 rb (by linarith)⟩
  · rw [min_eq_right hab, max_eq_left hab]
    have m0 : rnd p emin (s.phase * (b - a)) ≤ 0 := rnd_nonpos (mul_nonpos_of_nonneg_of_nonpos h0 (by linarith))
    have m1 : b - a ≤ rnd p emin (s.phase * (b - a)) := rep_le_rnd p1 rw' (by nlinarith)
    exact ⟨rep_le_rnd p1 rb (by linarith), rnd_le_rep p1 ra (by linarith)⟩

/-- A new value: the line goes on from the old target, exactly, to the new number, exactly. -/
theorem line_new (hp : 24 ≤ p) (he : emin ≤ -149) {a b r : ℚ} {s : Rl} (h : Line a b s) (hr : Rand r) (x : ℚ) :
    Line b r (rlNewValue (rnd p emin) { s with phase := x } r) := by
  have e1 : rnd p emin (s.value + s.width) = b := by
    rw [h.value, h.width, add_sub_cancel]
    exact h.b.gr.fix hp he h.b.abs_le
  have e2 : rnd p emin r = r := hr.gr.fix hp he hr.abs_le
  have e3 : rnd p emin (r - b) = r - b := (hr.gr.sub h.b.gr).fix hp he (h.b.abs_sub hr)
  unfold rlNewValue
  simp only [e1, e2, e3]
  exact ⟨rfl, rfl, h.b, hr, le_refl _, zero_lt_one, h.step, h.mult⟩

theorem line_step (hp : 24 ≤ p) (he : emin ≤ -149) {a b r : ℚ} {s : Rl} (h : Line a b s) (hr : Rand r) :
    Line a b (rlProcess (rnd p emin) s r).1 ∨ Line b r (rlProcess (rnd p emin) s r).1 := by
  unfold rlProcess
  by_cases h1 : 1 ≤ rnd p emin (s.phase + s.step)
  · rw [if_pos h1]
    exact .inr (line_new hp he h hr _)
  · rw [if_neg h1]
    exact .inl ⟨h.value, h.width, h.a, h.b, rnd_nonneg (add_nonneg h.phase0 h.step), not_le.1 h1, h.step, h.mult⟩

/-- The random numbers are delivered correctly and frequencies are not negative. -/
def OpsOk (ops : List RlOp) : Prop := (∀ r, .frame r ∈ ops → Rand r) ∧ ∀ f : ℚ, .freq f ∈ ops → 0 ≤ f

/-- The random numbers in the operations. -/
def drawn (ops : List RlOp) : List ℚ := ops.filterMap fun
  | .frame r => some r
  | .freq _ => none

theorem line_run (hp : 24 ≤ p) (he : emin ≤ -149) (ops : List RlOp) : ∀ (s : Rl) (a b : ℚ), Line a b s → OpsOk ops →
    (∀ x ∈ (rlRun (rnd p emin) s ops).2, 0 ≤ x ∧ x ≤ 1) ∧
    ∃ a' b', a' ∈ a :: b :: drawn ops ∧ b' ∈ b :: drawn ops ∧ Line a' b' (rlRun (rnd p emin) s ops).1 := by
  induction ops with
  | nil =>
    intro s a b h _
    exact ⟨fun x hx => by simp [rlRun] at hx, a, b, by simp, by simp, h⟩
  | cons o ops ih =>
    intro s a b h ho
    have ho' : OpsOk ops := ⟨fun r h => ho.1 r (by simp [h]), fun r h => ho.2 r (by simp [h])⟩
    cases o with
    | freq f =>
      have hf := ho.2 f (by simp)
      have : Line a b (rlFreq (rnd p emin) s f) := by
        unfold rlFreq
        split
        · exact ⟨h.value, h.width, h.a, h.b, h.phase0, h.phase1, rnd_nonneg hf, h.mult⟩
        · exact ⟨h.value, h.width, h.a, h.b, h.phase0, h.phase1, rnd_nonneg (mul_nonneg (rnd_nonneg hf) h.mult), h.mult⟩
      simpa [rlRun, drawn] using ih _ a b this ho'
    | frame r =>
      have hr := ho.1 r (by simp)
      have hout : 0 ≤ (rlProcess (rnd p emin) s r).2 ∧ (rlProcess (rnd p emin) s r).2 ≤ 1 := by
        obtain ⟨h1, h2⟩ := line_out hp he h r
        have ua := h.a.unit
        have ub := h.b.unit
        exact ⟨le_trans (le_min ua.1 ub.1) h1, le_trans h2 (max_le ua.2.le ub.2.le)⟩
      have hd : drawn (.frame r :: ops) = r :: drawn ops := rfl
      rw [hd]
      simp only [rlRun, List.mem_cons]
      rcases line_step hp he h hr with hl | hl
      · obtain ⟨i1, a', b', i2, i3, i4⟩ := ih _ a b hl ho'
        refine ⟨fun x hx => ?_, a', b', ?_, ?_, i4⟩
        · rcases hx with rfl | hx
          · exact hout
          · exact i1 x hx
        · simp only [List.mem_cons] at i2; tauto
        · simp only [List.mem_cons] at i3; tauto
      · obtain ⟨i1, a', b', i2, i3, i4⟩ := ih _ b r hl ho'
        refine ⟨fun x hx => ?_, a', b', ?_, ?_, i4⟩
        · rcases hx with rfl | hx
          · exact hout
          · exact i1 x hx
        · simp only [List.mem_cons] at i2; tauto
        · simp only [List.mem_cons] at i3; tauto

/-- The state after `new` and `init`. -/
theorem line_init (hp : 24 ≤ p) (he : emin ≤ -149) {f r r' : ℚ} (hf : 0 ≤ f) (hr : Rand r) (hr' : Rand r') (sr : Nat) :
    Line r r' (rlInit (rnd p emin) (rlNew (rnd p emin) f r) sr r') := by
  have e1 : rnd p emin r = r := hr.gr.fix hp he hr.abs_le
  have e2 : rnd p emin r' = r' := hr'.gr.fix hp he hr'.abs_le
  have e3 : rnd p emin (r' - r) = r' - r := (hr'.gr.sub hr.gr).fix hp he (hr.abs_sub hr')
  have hm : 0 ≤ rnd p emin (1 / rnd p emin sr) := rnd_nonneg (div_nonneg zero_le_one (rnd_nonneg (Nat.cast_nonneg _)))
  unfold rlInit rlNew rlNewValue
  simp only [e1, add_zero, e2, e3]
  exact ⟨rfl, rfl, hr, hr', le_refl _, zero_lt_one, rnd_nonneg (mul_nonneg hf hm), hm⟩

/-- C79, random lines: for every sequence of frames and frequencies that are not negative, in every format with at least the precision
of `f32`, the output is in `[0, 1]`, and the line always goes from one of the random numbers to another one, without any error in
them. -/
theorem C79_random (hp : 24 ≤ p) (he : emin ≤ -149) {f r r' : ℚ} (hf : 0 ≤ f) (hr : Rand r) (hr' : Rand r') (sr : Nat)
    (ops : List RlOp) (ho : OpsOk ops) :
    (∀ x ∈ (rlRun (rnd p emin) (rlInit (rnd p emin) (rlNew (rnd p emin) f r) sr r') ops).2, 0 ≤ x ∧ x ≤ 1) ∧
    ∃ a b, a ∈ r :: r' :: drawn ops ∧ b ∈ r' :: drawn ops ∧
      (rlRun (rnd p emin) (rlInit (rnd p emin) (rlNew (rnd p emin) f r) sr r') ops).1.value = a ∧
      (rlRun (rnd p emin) (rlInit (rnd p emin) (rlNew (rnd p emin) f r) sr r') ops).1.width = b - a := by
  obtain ⟨h1, a, b, ha, hb, h⟩ := line_run hp he ops _ r r' (line_init hp he hf hr hr' sr) ho
  exact ⟨h1, a, b, ha, hb, h.value, h.width⟩

example : OpsOk [.frame (1 / 2), .freq 3, .frame (3 / 4)] := by
  refine ⟨fun r h => ?_, fun f h => ?_⟩ <;> simp at h
  · rcases h with rfl | rfl
    · exact ⟨8388608, by norm_num, by norm_num⟩
    · exact ⟨12582912, by norm_num, by norm_num⟩
  · rw [h]; norm_num

end

/-! ### When new values are chosen -/

/-- The phase, as long as no new value is chosen. -/
def ph (fl : ℚ → ℚ) (step : ℚ) : Nat → ℚ
  | 0 => 0
  | n + 1 => fl (ph fl step n + step)

theorem rl_frames {fl : ℚ → ℚ} {s : Rl} (h0 : s.phase = 0) (rs : List ℚ) : ∀ n, n ≤ rs.length → (∀ m, m ≤ n → ph fl s.step m < 1) →
    (rlRun fl s ((rs.take n).map .frame)).1 = { s with phase := ph fl s.step n } := by
  have app : ∀ (a b : List RlOp) (s : Rl), (rlRun fl s (a ++ b)).1 = (rlRun fl (rlRun fl s a).1 b).1 := by
    intro a
    induction a with
    | nil => intro b s; rfl
    | cons o a ih =>
      intro b s
      cases o <;> simp only [List.cons_append, rlRun, ih]
  intro n
  induction n with
  | zero => intro _ _; simp [rlRun, ph, ← h0]
  | succ n ih =>
    intro hn hm
    have ih := ih (by omega) fun m h => hm m (by omega)
    rw [List.take_add_one, List.map_append, app, ih, List.getElem?_eq_getElem (by omega)]
    simp only [Option.toList_some, List.map_cons, List.map_nil, rlRun, rlProcess]
    have := hm (n + 1) le_rfl
    rw [ph] at this
    rw [if_neg (not_le.2 this)]
    rfl

theorem ph_near {fl : ℚ → ℚ} {h : ℚ} (R : Rounding fl h) {step : ℚ} (hs : 0 ≤ step) (n : Nat) :
    (∀ m, m < n → ph fl step m + step < 1) → 0 ≤ ph fl step n ∧ |ph fl step n - n * step| ≤ n * h := by
  induction n with
  | zero => intro _; simp [ph]
  | succ n ih =>
    intro hm
    obtain ⟨i0, i1⟩ := ih fun m h => hm m (by omega)
    have hlt := hm n (by omega)
    have e := R.err (ph fl step n + step) (by rw [abs_of_nonneg (by linarith)]; exact hlt)
    refine ⟨R.nonneg _ (by linarith), ?_⟩
    rw [abs_le] at i1 e ⊢
    rw [ph]
    push_cast
    constructor <;> linarith

/-- C79, how often a random line chooses a new value, as far as it holds: after `n` frames from the last one with a step of `step` per
frame none is chosen as long as `n * (step + h) < 1`, where `h` is the largest error of a sum below one (`2 ^ -25` for `f32`), and one is
chosen among the first `n` frames if `1 ≤ n * (step - h)`.

Partial: for steps of at most `h` no value is ever chosen (`C79_random_violated`). -/
theorem C79_random_rate_partial {fl : ℚ → ℚ} {h : ℚ} (R : Rounding fl h) {s : Rl} (h0 : s.phase = 0) (hs : 0 ≤ s.step) (rs : List ℚ) :
    (rs.length * (s.step + h) < 1 → ∃ x, x < 1 ∧ (rlRun fl s (rs.map .frame)).1 = { s with phase := x }) ∧
    (1 ≤ rs.length * (s.step - h) → ∃ m r x, rs[m]? = some r ∧ m < rs.length ∧ x < 1 ∧
      (rlRun fl s ((rs.take m).map .frame)).1 = { s with phase := x } ∧
      (rlProcess fl { s with phase := x } r).1 = rlNewValue fl { s with phase := fl (x + s.step) } r) := by
  have hpos := R.hpos
  constructor
  · intro hn
    have key : ∀ m, m ≤ rs.length → (∀ k, k < m → ph fl s.step k + s.step < 1) ∧ ph fl s.step m < 1 := by
      intro m
      induction m with
      | zero => intro _; exact ⟨fun k hk => absurd hk (by omega), by simp [ph]⟩
      | succ m ih =>
        intro hm
        obtain ⟨i1, i2⟩ := ih (by omega)
        have hmq : ((m + 1 : Nat) : ℚ) ≤ rs.length := by exact_mod_cast hm
        push_cast at hmq
        have b := ph_near R hs m i1
        have c := abs_le.1 b.2
        have hh : ((m : ℚ) + 1) * (s.step + h) < 1 :=
          lt_of_le_of_lt (mul_le_mul_of_nonneg_right hmq (by linarith)) hn
        have k1 : ∀ k, k < m + 1 → ph fl s.step k + s.step < 1 := by
          intro k hk
          rcases Nat.lt_succ_iff_lt_or_eq.1 hk with hk | rfl
          · exact i1 k hk
          · nlinarith
        refine ⟨k1, ?_⟩
        have b' := abs_le.1 (ph_near R hs (m + 1) k1).2
        push_cast at b'
        nlinarith
    refine ⟨ph fl s.step rs.length, (key _ le_rfl).2, ?_⟩
    have := rl_frames h0 rs rs.length le_rfl fun m hm => (key m hm).2
    rwa [List.take_length] at this
  · intro hn
    have hex : ∃ n, 1 ≤ ph fl s.step (n + 1) ∧ n < rs.length := by
      by_contra hc
      push Not at hc
      have hall : ∀ m, m < rs.length → ph fl s.step m + s.step < 1 := by
        intro m hm
        by_contra hge
        have : 1 ≤ ph fl s.step (m + 1) := by
          rw [ph]; exact R.ge_one (not_lt.1 hge)
        exact absurd (hc m this) (by omega)
      have b := abs_le.1 (ph_near R hs rs.length hall).2
      have h1 : 1 ≤ ph fl s.step rs.length := by nlinarith
      cases hl : rs.length with
      | zero => rw [hl] at h1; simp [ph] at h1; linarith
      | succ k =>
        rw [hl] at h1
        exact absurd (hc k h1) (by omega)
    classical
    let n := Nat.find hex
    obtain ⟨hn1, hn2⟩ : 1 ≤ ph fl s.step (n + 1) ∧ n < rs.length := Nat.find_spec hex
    have hbefore : ∀ m, m ≤ n → ph fl s.step m < 1 := by
      intro m hm
      cases m with
      | zero => simp [ph]
      | succ m =>
        by_contra hge
        exact Nat.find_min hex (show m < Nat.find hex from hm) ⟨not_lt.1 hge, by omega⟩
    refine ⟨n, rs[n], ph fl s.step n, List.getElem?_eq_getElem hn2, hn2, hbefore n le_rfl, rl_frames h0 rs n (by omega) hbefore, ?_⟩
    unfold rlProcess
    rw [ph] at hn1
    rw [if_pos hn1]

example : 1 ≤ (64 : ℚ) * ((1 / 32 : ℚ) - 1 / 33554432) := by norm_num

/-- C79, random lines, what goes wrong: in `f32` at 48 kHz a random line with a frequency of 1/1000 Hz keeps its first two numbers
forever; 48000000 frames should be enough for a new one. -/
theorem C79_random_violated {r r' : ℚ} (hr : Rand r) (hr' : Rand r') (rs : List ℚ) :
    let s := (rlRun rnd32 (rlInit rnd32 (rlNew rnd32 (rnd32 (1 / 1000)) r) 48000 r') (rs.map .frame)).1
    s.value = r ∧ s.width = r' - r ∧ s.phase ≤ 1 / 2 := by
  have L := line_init (p := 24) (emin := -149) (f := rnd32 (1 / 1000)) (by norm_num) (by norm_num) (by decide +kernel) hr hr' 48000
  have hstep : (rlInit (rnd 24 (-149)) (rlNew (rnd 24 (-149)) (rnd32 (1 / 1000)) r) 48000 r').step ≤ 1 / 33554432 := by
    have : rnd32 (rnd32 (1 / 1000) * rnd32 (1 / rnd32 (48000 : Nat))) ≤ 1 / 33554432 := by decide +kernel
    exact this
  have half : rnd32 (1 / 2 + 1 / 33554432) = 1 / 2 := by decide +kernel
  have key : ∀ (s : Rl), Line r r' s → s.step ≤ 1 / 33554432 → s.phase ≤ 1 / 2 →
      (rlRun rnd32 s (rs.map .frame)).1.value = r ∧ (rlRun rnd32 s (rs.map .frame)).1.width = r' - r ∧
        (rlRun rnd32 s (rs.map .frame)).1.phase ≤ 1 / 2 := by
    induction rs with
    | nil => intro s L _ h; exact ⟨L.value, L.width, h⟩
    | cons q rs ih =>
      intro s L hs h
      have l1 : rnd32 (s.phase + s.step) ≤ 1 / 2 := by
        have := rnd_le (p := 24) (by norm_num) (emin := -149) (show s.phase + s.step ≤ 1 / 2 + 1 / 33554432 by linarith)
        have hh : rnd 24 (-149) (1 / 2 + 1 / 33554432) = 1 / 2 := half
        rw [hh] at this
        exact this
      have e : (rlProcess rnd32 s q).1 = { s with phase := rnd32 (s.phase + s.step) } := by
        unfold rlProcess
        rw [if_neg (by linarith)]
      have := ih { s with phase := rnd32 (s.phase + s.step) } ⟨L.value, L.width, L.a, L.b, rnd_nonneg (add_nonneg L.phase0 L.step),
        by linarith, L.step, L.mult⟩ hs l1
      simp only [List.map_cons, rlRun, e]
      exact this
  exact key _ L hstep (by
    have : (rlInit rnd32 (rlNew rnd32 (rnd32 (1 / 1000)) r) 48000 r').phase = 0 := rfl
    rw [this]; norm_num)

/-! ### `XOrShift32Rng` -/

/-- C79, the numbers of `gen_f32` and `gen_f64`: above zero, at most one. -/
theorem C79_xorrng {x : Nat} (hx : x < U32) (h0 : x ≠ 0) :
    (0 < genF32 x ∧ genF32 x ≤ 1) ∧ 0 < genF64 x ∧ genF64 x ≤ 1 := by
  obtain ⟨g0, g1⟩ := Ns.gen_ne_zero hx h0 1
  simp only [Function.iterate_one] at g0 g1
  generalize hg : Ns.genU32 x = g at g0 g1
  have a1 : (1 : ℚ) ≤ g := by exact_mod_cast Nat.one_le_iff_ne_zero.2 g0
  have a2 : (g : ℚ) ≤ (U32 - 1 : Nat) := by
    have : g ≤ U32 - 1 := by omega
    exact_mod_cast this
  have main : ∀ (p : Nat) (emin : Int), 2 ≤ p → emin ≤ -33 →
      0 < rnd p emin (rnd p emin g / rnd p emin (U32 - 1 : Nat)) ∧ rnd p emin (rnd p emin g / rnd p emin (U32 - 1 : Nat)) ≤ 1 := by
    intro p emin hp he
    have one : Rep p emin 1 := by
      have : Rep p emin ((1 : Nat) : ℚ) := rep_nat (Nat.one_lt_two_pow (by omega)) (by omega)
      simpa using this
    have big : Rep p emin (pow2 32) := ⟨1, 32, by simp, by simpa using one_lt_pow₀ (by norm_num : (1 : Int) < 2) (by omega), by omega⟩
    have small : Rep p emin (pow2 (-32)) :=
      ⟨1, -32, by simp, by simpa using one_lt_pow₀ (by norm_num : (1 : Int) < 2) (by omega), by omega⟩
    have b1 : 1 ≤ rnd p emin g := rep_le_rnd (by omega) one a1
    have b2 : rnd p emin g ≤ rnd p emin (U32 - 1 : Nat) := rnd_le (by omega) a2
    have b3 : rnd p emin (U32 - 1 : Nat) ≤ pow2 32 := rnd_le_rep (by omega) big (by
      rw [show pow2 32 = 4294967296 by decide +kernel, show ((U32 - 1 : Nat) : ℚ) = 4294967295 by decide +kernel]; norm_num)
    have pos : 0 < rnd p emin (U32 - 1 : Nat) := by linarith
    constructor
    · refine lt_of_lt_of_le (pow2_pos (-32)) (rep_le_rnd (by omega) small ?_)
      rw [le_div_iff₀ pos]
      have : pow2 (-32) * pow2 32 = 1 := by rw [← pow2_add]; decide +kernel
      nlinarith [pow2_pos (-32)]
    · exact rnd_le_rep (by omega) one (by rwa [div_le_one pos])
  unfold genF32 genF64
  rw [hg]
  exact ⟨main 24 (-149) (by norm_num) (by norm_num), main 53 (-1074) (by norm_num) (by norm_num)⟩

example : genF32 17 ≠ Ns.genFloat 17 := by decide +kernel

end Verif.Fl
