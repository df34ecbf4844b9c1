import Verif.Model.Seeds
import Mathlib.Tactic.Ring
import Mathlib.Tactic.Linarith

/-!
# C110: every random unit has a seed of its own, given by the order of creation
-/

namespace Verif.Ns

/-- The seed that the unit created as number `i` since the start should have. -/
def seedAt (i : Nat) : Kind → Nat
  | .lin => 94 * i + 53
  | _ => i

/-- The number of units that can be created before the seed of a random line overflows. -/
def enough : Nat := (U64 - 53) / 94

theorem seedOf_ok {c : Nat} (hc : c < enough) (k : Kind) : seedOf c k = .ok (seedAt c k, c + 1) := by
  have h1 : c * 94 + 53 < U64 := by
    have := Nat.div_mul_le_self (U64 - 53) 94
    unfold enough at hc
    omega
  have h2 : (c + 1) % U64 = c + 1 := Nat.mod_eq_of_lt (by omega)
  cases k <;> simp only [seedOf, nextSeed, seedAt, h2]
  rw [if_pos (by omega), if_pos h1, Nat.mul_comm]

theorem seeds_ok (ks : List Kind) : ∀ c, c + ks.length ≤ enough →
    seeds c ks = .ok ((ks.zipIdx c).map (fun p => seedAt p.2 p.1), c + ks.length) := by
  induction ks with
  | nil => intro c _; rfl
  | cons k ks ih =>
    intro c hc
    simp only [List.length_cons] at hc
    simp only [seeds, seedOf_ok (show c < enough by omega) k, bind_ok, ih (c + 1) (by omega), List.zipIdx_cons,
      List.map_cons, List.length_cons]
    rw [show c + 1 + ks.length = c + (ks.length + 1) by omega]

/-- **C110.**  The seed of a unit depends on its kind and on how many units were created before it, and on
nothing else; no creation panics.  This holds for the first `enough` units, about 2·10¹⁷. -/
theorem C110_order (ks : List Kind) (h : ks.length ≤ enough) : ∃ ss c, seeds 0 ks = .ok (ss, c) ∧
    ss.length = ks.length ∧ ∀ (i : Nat) (k : Kind), ks[i]? = some k → ss[i]? = some (seedAt i k) := by
  refine ⟨_, _, seeds_ok ks 0 (by omega), by simp, ?_⟩
  intro i k hk
  simp [List.getElem?_map, List.getElem?_zipIdx, hk]

/-- **C110.**  Two units that are both no random lines, or both random lines, have different seeds.  Missing for
the full claim: a random line and another unit (`C110_clash_violated`). -/
theorem C110_distinct_partial (ks : List Kind) (h : ks.length ≤ enough) {ss c} (hs : seeds 0 ks = .ok (ss, c))
    {i j : Nat} {k l : Kind} (hi : ks[i]? = some k) (hj : ks[j]? = some l) (hij : i ≠ j)
    (hkl : k = .lin ↔ l = .lin) : ss[i]? ≠ ss[j]? := by
  obtain ⟨ss', c', h1, -, h2⟩ := C110_order ks h
  rw [hs] at h1
  simp only [Except.ok.injEq, Prod.mk.injEq] at h1
  obtain ⟨rfl, rfl⟩ := h1
  rw [h2 i k hi, h2 j l hj]
  simp only [ne_eq, Option.some.injEq]
  by_cases hk : k = .lin
  · have hl := hkl.1 hk
    subst hk hl
    simp only [seedAt]
    omega
  · have hl : l ≠ .lin := fun e => hk (hkl.2 e)
    have a : seedAt i k = i := by cases k <;> simp_all [seedAt]
    have b : seedAt j l = j := by cases l <;> simp_all [seedAt]
    rw [a, b]
    exact hij

/-- **C110.**  A random line and another unit have the same seed exactly if the other one was created as number
`94 i + 53`, where `i` is the number of the random line. -/
theorem C110_clash (ks : List Kind) (h : ks.length ≤ enough) {ss c} (hs : seeds 0 ks = .ok (ss, c))
    {i j : Nat} {l : Kind} (hi : ks[i]? = some .lin) (hj : ks[j]? = some l) (hl : l ≠ .lin) :
    ss[i]? = ss[j]? ↔ j = 94 * i + 53 := by
  obtain ⟨ss', c', h1, -, h2⟩ := C110_order ks h
  rw [hs] at h1
  simp only [Except.ok.injEq, Prod.mk.injEq] at h1
  obtain ⟨rfl, rfl⟩ := h1
  rw [h2 i _ hi, h2 j l hj]
  have b : seedAt j l = j := by cases l <;> simp_all [seedAt]
  rw [b]
  simp only [seedAt, Option.some.injEq]
  exact eq_comm

/-- A random line, and 53 units of white noise after it. -/
def clash : List Kind := .lin :: List.replicate 53 .white

/-- The hypotheses of `C110_order`, `C110_distinct_partial` and `C110_clash` hold for it. -/
example : clash.length ≤ enough ∧ clash[0]? = some .lin ∧ clash[7]? = some .white ∧ clash[53]? = some .white ∧
    ∃ ss c, seeds 0 clash = .ok (ss, c) ∧ ss[0]? = some 53 ∧ ss[7]? = some 7 := by
  refine ⟨by decide +kernel, rfl, by decide +kernel, by decide +kernel, _, _, seeds_ok clash 0 (by decide +kernel), ?_⟩
  decide +kernel

/-- **C110 is violated**: the random line and the 53rd unit of white noise after it have the same seed, so
whatever the generator is, the first sample of the noise is the first value of the line, put on a different
scale. -/
theorem C110_clash_violated : ∃ ks ss c, seeds 0 ks = .ok (ss, c) ∧ ks[0]? = some .lin ∧ ks[53]? = some .white ∧
    ∃ a b, ss[0]? = some a ∧ ss[53]? = some b ∧
      ∀ (rng : Nat → Nat → Rat) (f : Rat), white (rng b 0) = 2 * (Rl.new f (rng a 0)).value - 1 := by
  refine ⟨clash, _, _, seeds_ok clash 0 (by decide +kernel), rfl, by decide +kernel, 53, 53, by decide +kernel,
    by decide +kernel, ?_⟩
  intro rng f
  simp only [white, Rl.new]
  rw [Rat.mul_comm]

/-- The value a random line goes to is the last number it took. -/
theorem line_target (r : Nat → Rat) (f : Rat) (ops : List LineOp) : ∃ k, (lineRun r f ops).2 = k + 1 ∧
    (lineRun r f ops).1.value + (lineRun r f ops).1.width = r k := by
  have key : ∀ (ops : List LineOp) (s : Rl × Nat), (∃ k, s.2 = k + 1 ∧ s.1.value + s.1.width = r k) →
      ∃ k, (ops.foldl (lineStep r) s).2 = k + 1 ∧
        (ops.foldl (lineStep r) s).1.value + (ops.foldl (lineStep r) s).1.width = r k := by
    intro ops
    induction ops with
    | nil => intro s h; exact h
    | cons op ops ih =>
      rintro ⟨s, n⟩ ⟨k, hk, hs⟩
      rw [List.foldl_cons]
      apply ih
      simp only at hk hs
      subst hk
      cases op with
      | init sr => exact ⟨k + 1, rfl, by simp only [lineStep, Rl.init, Rl.newValue]; linarith⟩
      | frame =>
        simp only [lineStep, Rl.process]
        split
        · exact ⟨k + 1, rfl, by simp only [Rl.newValue]; linarith⟩
        · exact ⟨k, rfl, hs⟩
      | freq f =>
        refine ⟨k, rfl, ?_⟩
        simp only [lineStep, Rl.freq]
        split <;> exact hs
  exact key ops _ ⟨0, rfl, by simp [Rl.new]⟩

/-- **C110 is violated** for the whole time they play: whatever is done to the random line, the value it goes to can
be read off the samples of white noise with the same seed. -/
theorem C110_shared_violated (rng : Nat → Nat → Rat) (f : Rat) (ops : List LineOp) :
    ∃ ks ss c a b, seeds 0 ks = .ok (ss, c) ∧ ks[0]? = some .lin ∧ ks[53]? = some .white ∧ ss[0]? = some a ∧
      ss[53]? = some b ∧ ∃ k, (lineRun (rng a) f ops).2 = k + 1 ∧
        white (rng b k) = 2 * ((lineRun (rng a) f ops).1.value + (lineRun (rng a) f ops).1.width) - 1 := by
  obtain ⟨k, h1, h2⟩ := line_target (rng 53) f ops
  refine ⟨clash, _, _, 53, 53, seeds_ok clash 0 (by decide +kernel), rfl, by decide +kernel, by decide +kernel,
    by decide +kernel, k, h1, ?_⟩
  rw [h2, white]
  ring

/-- **C110 is violated**: a random line created as number `enough + 1` panics. -/
theorem C110_overflow_violated : seedOf (enough + 1) .lin = .error .overflow ∧
    ∀ k, k ≠ .lin → ∃ r, seedOf (enough + 1) k = .ok r := by
  refine ⟨by decide +kernel, ?_⟩
  intro k hk
  cases k <;> first | exact absurd rfl hk | exact ⟨_, rfl⟩

/-- **C110 is violated** for a graph that is built twice in one process: although its units are created in the
same order, each of them has another seed than the first time. -/
theorem C110_again_violated (ks : List Kind) (hne : ks ≠ []) (h : 2 * ks.length ≤ enough) :
    ∃ ss ss' c c', seeds 0 ks = .ok (ss, c) ∧ seeds c ks = .ok (ss', c') ∧
      ∀ i < ks.length, ss[i]? ≠ ss'[i]? := by
  refine ⟨_, _, _, _, seeds_ok ks 0 (by omega), seeds_ok ks _ (by omega), ?_⟩
  intro i hi
  have hpos : 0 < ks.length := List.length_pos_iff.2 hne
  have hk : ks[i]? = some ks[i] := List.getElem?_eq_getElem hi
  simp only [List.getElem?_map, List.getElem?_zipIdx, hk, Option.map_some, ne_eq, Option.some.injEq]
  cases ks[i] <;> simp only [seedAt] <;> omega

/-- Such a graph. -/
example : ([.white, .lin, .pink] : List Kind) ≠ [] ∧ 2 * ([.white, .lin, .pink] : List Kind).length ≤ enough :=
  ⟨by simp, by decide +kernel⟩

/-- **C110 is violated** if two threads create units: each creates the same units in the same order, but the
seeds depend on which of them is faster. -/
theorem C110_threads_violated : ∃ h h' : List (Bool × Kind), (∀ t, h.filter (·.1 == t) = h'.filter (·.1 == t)) ∧
    seedsOf true h ≠ seedsOf true h' :=
  ⟨[(true, .white), (false, .pink)], [(false, .pink), (true, .white)], by decide, by decide +kernel⟩

end Verif.Ns
