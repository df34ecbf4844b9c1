import Verif.Model.Hints
import Verif.Lemmas.IeeeSigned

/-!
# C89: hints and values of parameters mean what they say

A range made from a range of Rust allows the numbers that are in it; a chain of calls gives a hint where for every field the last call
decides; a logarithmic hint has a range that a logarithmic curve can have; a value whose type is the type of a parameter is applied.
-/

namespace Verif.Hi

open Verif.Nf (Xf)

/-! ### Ranges -/

/-- What it means that a number is in a range of Rust. -/
def RustRange.contains : RustRange → Xf → Bool
  | .inclusive a b, x => le a x && le x b
  | .from a, x => le a x
  | .to b, x => lt x b
  | .toInclusive b, x => le x b

/-- What a range allows by its description: "inclusive range (min, max)". -/
def FRange.Allows : FRange → Xf → Prop
  | .range min max, x => le min x = true ∧ le x max = true
  | _, _ => True

/-- C89, ranges with both ends: a hint made from `a..=b` allows what is in the range, for all floats. -/
theorem C89_inclusive (a b x : Xf) : (FRange.ofRust (.inclusive a b)).Allows x ↔ (RustRange.inclusive a b).contains x = true := by
  simp only [FRange.ofRust, FRange.Allows, RustRange.contains, Bool.and_eq_true]

/-- C89, ranges with one end: a hint made from `a..` or `..=b` allows a finite number exactly if it is in the range. -/
theorem C89_range_partial (r : RustRange) (hr : (∃ a, r = .from a) ∨ ∃ b, r = .toInclusive b) (q : ℚ) (hq : |q| ≤ maxF64) :
    (FRange.ofRust r).Allows (.fin q) ↔ r.contains (.fin q) = true := by
  obtain ⟨h1, h2⟩ := abs_le.1 hq
  have e1 : le (.fin (-maxF64)) (.fin q) = true := decide_eq_true h1
  have e2 : le (.fin q) (.fin maxF64) = true := decide_eq_true h2
  rcases hr with ⟨a, rfl⟩ | ⟨b, rfl⟩
  · simp only [FRange.ofRust, FRange.Allows, RustRange.contains, e2, and_true]
  · simp only [FRange.ofRust, FRange.Allows, RustRange.contains, e1, true_and]

example : |(1 / 3 : ℚ)| ≤ maxF64 := by decide +kernel

theorem le_refl_fin (q : ℚ) : le (.fin q) (.fin q) = true := decide_eq_true (le_refl q)

/-- C89 is false for ranges without their end: the hint made from `..b` allows `b`, which is not in the range, for every finite `b`. -/
theorem C89_to_violated (q : ℚ) (hq : |q| ≤ maxF64) :
    (FRange.ofRust (.to (.fin q))).Allows (.fin q) ∧ (RustRange.to (.fin q)).contains (.fin q) = false :=
  ⟨⟨decide_eq_true (abs_le.1 hq).1, le_refl_fin q⟩, decide_eq_false (lt_irrefl q)⟩

/-- C89 is false for infinite numbers: they are in `a..` and `..=b` and the hints made from those do not allow them. -/
theorem C89_infinite_violated (q : ℚ) :
    ((RustRange.from (.fin q)).contains (.inf false) = true ∧ ¬ (FRange.ofRust (.from (.fin q))).Allows (.inf false)) ∧
      (RustRange.toInclusive (.fin q)).contains (.inf true) = true ∧ ¬ (FRange.ofRust (.toInclusive (.fin q))).Allows (.inf true) :=
  ⟨⟨rfl, fun h => Bool.noConfusion h.2⟩, rfl, fun h => Bool.noConfusion h.1⟩

/-- C89, other values: all but `..b` are faithful for numbers that are not a number, which are in no range. -/
theorem C89_nan (r : RustRange) : ¬ (FRange.ofRust r).Allows .nan ∧ r.contains .nan = false := by
  cases r with
  | inclusive a b => cases a <;> cases b <;> exact ⟨fun h => Bool.noConfusion h.1, rfl⟩
  | «from» a => cases a <;> exact ⟨fun h => Bool.noConfusion h.2, rfl⟩
  | «to» b => cases b <;> exact ⟨fun h => Bool.noConfusion h.1, rfl⟩
  | toInclusive b => cases b <;> exact ⟨fun h => Bool.noConfusion h.1, rfl⟩

/-! ### Chains of calls -/

/-- What a call says about the default value. -/
def Build.default? : Build → Option Xf
  | .default v => some v
  | _ => none

/-- What a call says about the range, by its documentation. -/
def Build.range? : Build → Option FRange
  | .range r => some r
  | .minmax a b => some (.range a b)
  | .infinite => some .infinite
  | .unipolar => some (.range (.fin 0) (.fin 1))
  | .positiveInfinite => some .positiveInfinite
  | .negativeInfinite => some .negativeInfinite
  | .nyquist => some .nyquist
  | _ => none

/-- What a call says about the kind. -/
def Build.kind? : Build → Option FKind
  | .kind k => some k
  | _ => none

/-- What a call says about the curve. -/
def Build.log? : Build → Option Bool
  | .logarithmic b => some b
  | _ => none

/-- The last thing that was said. -/
def last? {α β : Type} (f : α → Option β) (l : List α) : Option β := (l.filterMap f).getLast?

theorem last_snoc {α β : Type} (f : α → Option β) (l : List α) (a : α) : last? f (l ++ [a]) = (f a).or (last? f l) := by
  unfold last?
  rw [List.filterMap_append]
  cases h : f a with
  | none =>
    rw [show List.filterMap f [a] = [] by rw [List.filterMap_cons, h, List.filterMap_nil], List.append_nil, Option.none_or]
  | some b =>
    rw [show List.filterMap f [a] = [b] by rw [List.filterMap_cons, h, List.filterMap_nil], List.getLast?_append, Option.some_or]
    rfl

theorem call_eq (h : FHint) (c : Build) :
    h.call c = ⟨c.default?.or h.default, c.range?.or h.range, c.kind?.or h.kind, c.log?.or h.log⟩ := by
  cases c <;> rfl

/-- C89, chains of calls: each field of the hint is what the last call about it said; without such a call it is not set. -/
theorem C89_builder (calls : List Build) : newFloat calls =
    ⟨last? Build.default? calls, last? Build.range? calls, last? Build.kind? calls, last? Build.log? calls⟩ := by
  induction calls using List.reverseRecOn with
  | nil => rfl
  | append_singleton l a ih =>
    have : newFloat (l ++ [a]) = (newFloat l).call a := by unfold newFloat; rw [List.foldl_append]; rfl
    rw [this, call_eq, ih, last_snoc, last_snoc, last_snoc, last_snoc]

/-- C89, the hints that `impl_ugen` writes: the attributes of the parameter, nothing else. -/
theorem C89_macro (range : Option (Xf × Xf)) (kind : Option FKind) (log : Bool) (default : Option Xf) :
    macroHint range kind log default =
      ⟨default, range.map fun r => .range r.1 r.2, kind, if log then some true else none⟩ := by
  cases range <;> cases kind <;> cases log <;> cases default <;> rfl

/-! ### Logarithmic hints -/

/-- A curve `min * (max / min) ^ t` needs a range with both ends above zero. -/
def LogOk (h : FHint) : Prop :=
  h.log = some true → ∃ lo hi : ℚ, h.range = some (.range (.fin lo) (.fin hi)) ∧ 0 < lo ∧ lo ≤ hi

/-- C89 is false for the logarithmic hints of the library: the range of `time_scale` begins at zero, and that of `wr_mul` is
infinite. -/
theorem C89_logarithmic_violated : ¬ LogOk timeScaleHint ∧ ¬ LogOk mulHint := by
  constructor
  · intro h
    obtain ⟨lo, hi, e, h0, _⟩ := h rfl
    have : (0 : ℚ) = lo := by
      simp only [timeScaleHint, newFloat, List.foldl_cons, List.foldl_nil, FHint.call, Option.some.injEq, FRange.range.injEq,
        Xf.fin.injEq] at e
      exact e.1
    rw [← this] at h0
    exact lt_irrefl _ h0
  · intro h
    obtain ⟨lo, hi, e, _⟩ := h rfl
    cases e

example : LogOk (newFloat [.logarithmic true, .minmax (.fin 20) (.fin 20000)]) := fun _ => ⟨20, 20000, rfl, by norm_num, by norm_num⟩

/-! ### Values -/

/-- C89, making a value and reading it again gives what it was made of: an `f32` exactly, through `f64` and back. -/
theorem C89_round_trip (x y : ℚ) (hx : Fl.Rep 24 (-149) x) (n : Nat) (b : Bool) :
    (Val.ofFloat x).f32? = some x ∧ (Val.ofFloat y).float? = some y ∧ (Val.ofNat n).integer? = some n ∧ (Val.ofBool b).bool? = some b :=
  ⟨congrArg some (Fl.rnd_rep hx), rfl, rfl, rfl⟩

example : Fl.Rep 24 (-149) (3 / 4) := ⟨3, -2, by decide +kernel, by norm_num, by norm_num⟩

/-- C89, an `f64` that is read as an `f32` lies between the same `f32` numbers as before. -/
theorem C89_f32_order (y a b : ℚ) (ha : Fl.Rep 24 (-149) a) (hb : Fl.Rep 24 (-149) b) (h1 : a ≤ y) (h2 : y ≤ b) :
    ∃ z, (Val.ofFloat y).f32? = some z ∧ Fl.Rep 24 (-149) z ∧ a ≤ z ∧ z ≤ b :=
  ⟨Fl.rnd32 y, rfl, Fl.rep_rnd (by decide) y, Fl.rep_le_rnd (by decide) ha h1, Fl.rnd_le_rep (by decide) hb h2⟩

/-- The values that are no settings of the smoothing. -/
def Val.Plain (v : Val) : Prop := ∀ s r, v ≠ .smoothing s r

/-- C89, the type of a value says which of the accessors gives something, for values that are no settings of the smoothing. -/
theorem C89_types_partial (v : Val) (hv : v.Plain) :
    (v.ty = .float ↔ ∃ x, v.float? = some x) ∧ (v.ty = .integer ↔ ∃ n, v.integer? = some n) ∧ (v.ty = .bool ↔ ∃ b, v.bool? = some b) ∧
      (v.ty = .trigger ↔ v = .trigger) := by
  cases v with
  | float x => simp [Val.ty, Val.float?, Val.integer?, Val.bool?]
  | trigger => simp [Val.ty, Val.float?, Val.integer?, Val.bool?]
  | integer n => simp [Val.ty, Val.float?, Val.integer?, Val.bool?]
  | bool b => simp [Val.ty, Val.float?, Val.integer?, Val.bool?]
  | smoothing s r => exact absurd rfl (hv s r)

/-- What a method is called with for a value of its type. -/
def expected : PTy → Val → Arg → Prop
  | .pfloat, .float x, a => a = .float x
  | .float32, .float x, a => a = .float (Fl.rnd32 x)
  | .integer, .integer n, a => a = .integer n
  | .bool, .bool b, a => a = .bool b
  | .trigger, .trigger, a => a = .nothing
  | _, _, _ => False

/-- C89, `param_types`: a plain value whose type is that of the parameter reaches its method. -/
theorem C89_apply_partial (p : PTy) (v : Val) (hv : v.Plain) (ht : v.ty = p.hint.ty) : ∃ a, p.apply v = .ok a ∧ expected p v a := by
  cases v with
  | smoothing s r => exact absurd rfl (hv s r)
  | float x => cases p <;> first | exact ⟨_, rfl, rfl⟩ | cases ht
  | trigger => cases p <;> first | exact ⟨_, rfl, rfl⟩ | cases ht
  | integer n => cases p <;> first | exact ⟨_, rfl, rfl⟩ | cases ht
  | bool b => cases p <;> first | exact ⟨_, rfl, rfl⟩ | cases ht

example : (Val.float (1 / 2)).Plain ∧ (Val.float (1 / 2)).ty = PTy.float32.hint.ty := ⟨fun _ _ => Val.noConfusion, rfl⟩

/-- C89 is false for settings of the smoothing: their type is that of float parameters, no accessor gives anything, and a float parameter
that gets one panics. -/
theorem C89_smoothing_violated (s : Option ℚ) (r : Bool) (v : Val) (h : v = .ofSmoothing s ∨ v = .ofSmoothingRate (s, r)) :
    v.ty = PTy.pfloat.hint.ty ∧ v.float? = none ∧ v.f32? = none ∧ PTy.pfloat.apply v = .error .unwrap ∧
      PTy.float32.apply v = .error .unwrap := by
  rcases h with rfl | rfl <;> exact ⟨rfl, rfl, rfl, rfl, rfl⟩

/-- C89, values of another type: a trigger parameter takes values of every type, all others exactly those of theirs, and any other
value panics. -/
theorem C89_mismatch (p : PTy) (v : Val) (hv : v.Plain) (ht : v.ty ≠ p.hint.ty) :
    (p = .trigger ∧ p.apply v = .ok .nothing) ∨ (p ≠ .trigger ∧ p.apply v = .error .unwrap) := by
  cases v with
  | smoothing s r => exact absurd rfl (hv s r)
  | float x => cases p <;> first | exact absurd rfl ht | exact .inl ⟨rfl, rfl⟩ | exact .inr ⟨PTy.noConfusion, rfl⟩
  | trigger => cases p <;> first | exact absurd rfl ht | exact .inl ⟨rfl, rfl⟩ | exact .inr ⟨PTy.noConfusion, rfl⟩
  | integer n => cases p <;> first | exact absurd rfl ht | exact .inl ⟨rfl, rfl⟩ | exact .inr ⟨PTy.noConfusion, rfl⟩
  | bool b => cases p <;> first | exact absurd rfl ht | exact .inl ⟨rfl, rfl⟩ | exact .inr ⟨PTy.noConfusion, rfl⟩

example : (Val.integer 1).Plain ∧ (Val.integer 1).ty ≠ PTy.pfloat.hint.ty := ⟨fun _ _ => Val.noConfusion, by decide⟩

end Verif.Hi
