import Verif.Model.Noise
import Mathlib.Logic.Function.Iterate

/-!
# Maps of words that are linear over exclusive or

`genU32` is linear, so its powers can be computed as matrices of bits.  A matrix is the list of its columns.
-/

namespace Verif.Ns

/-- The product of a matrix with a vector. -/
def app : List Nat → Nat → Nat
  | [], _ => 0
  | c :: cs, x => (if x % 2 = 1 then c else 0) ^^^ app cs (x / 2)

/-- The product of two matrices. -/
def comp (a b : List Nat) : List Nat := b.map (app a)

/-- The unit matrix. -/
def unitM : List Nat := (List.range 32).map (fun i => 2 ^ i)

/-- Powers by repeated squaring. -/
def powM : Nat → List Nat → Nat → List Nat
  | 0, _, _ => unitM
  | fuel + 1, a, n => if n % 2 = 1 then comp (powM fuel (comp a a) (n / 2)) a else powM fuel (comp a a) (n / 2)

/-- The matrix of a map. -/
def colsOf (f : Nat → Nat) : List Nat := unitM.map f

/-- Linear maps. -/
def Lin (f : Nat → Nat) : Prop := ∀ x y, f (x ^^^ y) = f x ^^^ f y

theorem lin_zero {f : Nat → Nat} (h : Lin f) : f 0 = 0 := by
  have := h 0 0
  simpa using this

theorem xor_mod_two (x y : Nat) : (x ^^^ y) % 2 = (x % 2 + y % 2) % 2 := by
  have h := Nat.xor_mod_two_pow (a := x) (b := y) (n := 1)
  rw [Nat.pow_one] at h
  rw [h]
  rcases Nat.mod_two_eq_zero_or_one x with a | a <;> rcases Nat.mod_two_eq_zero_or_one y with b | b <;> rw [a, b] <;> rfl

theorem xor_div_two (x y : Nat) : (x ^^^ y) / 2 = (x / 2) ^^^ (y / 2) := by
  have h := Nat.shiftRight_xor_distrib (a := x) (b := y) (i := 1)
  simpa [Nat.shiftRight_eq_div_pow] using h

theorem app_lin (a : List Nat) : Lin (app a) := by
  induction a with
  | nil => intro x y; simp [app]
  | cons c cs ih =>
    intro x y
    simp only [app]
    rw [xor_div_two, ih, xor_mod_two]
    have key : (if (x % 2 + y % 2) % 2 = 1 then c else 0) = (if x % 2 = 1 then c else 0) ^^^ (if y % 2 = 1 then c else 0) := by
      rcases Nat.mod_two_eq_zero_or_one x with a | a <;> rcases Nat.mod_two_eq_zero_or_one y with b | b <;> rw [a, b] <;> simp
    rw [key]
    generalize (if x % 2 = 1 then c else 0) = p
    generalize (if y % 2 = 1 then c else 0) = q
    generalize app cs (x / 2) = r
    generalize app cs (y / 2) = s
    rw [Nat.xor_assoc, Nat.xor_assoc, ← Nat.xor_assoc q r s, Nat.xor_comm q r, Nat.xor_assoc r q s]

theorem app_map {h : Nat → Nat} (hl : Lin h) (a : List Nat) : ∀ x, app (a.map h) x = h (app a x) := by
  induction a with
  | nil => intro x; exact (lin_zero hl).symm
  | cons c cs ih =>
    intro x
    simp only [List.map_cons, app, hl _ _, ih]
    congr 1
    split
    · rfl
    · exact (lin_zero hl).symm

theorem app_comp (a b : List Nat) (x : Nat) : app (comp a b) x = app a (app b x) := app_map (app_lin a) b x

theorem bits_app (n : Nat) : ∀ k x, x < 2 ^ n → app ((List.range' k n).map (fun i => 2 ^ i)) x = x * 2 ^ k := by
  induction n with
  | zero => intro k x h; simp only [Nat.pow_zero, Nat.lt_one_iff] at h; subst h; simp [app]
  | succ n ih =>
    intro k x h
    rw [List.range'_succ, List.map_cons]
    simp only [app]
    rw [ih (k + 1) (x / 2) (by rw [Nat.pow_succ] at h; omega)]
    have e : x / 2 * 2 ^ (k + 1) = (x / 2) <<< (k + 1) := by rw [Nat.shiftLeft_eq]
    have e2 : x * 2 ^ k = x / 2 * 2 ^ (k + 1) + (x % 2) * 2 ^ k := by
      have := Nat.div_add_mod x 2
      calc x * 2 ^ k = (2 * (x / 2) + x % 2) * 2 ^ k := by rw [this]
        _ = _ := by rw [Nat.add_mul, Nat.pow_succ]; congr 1; rw [Nat.mul_comm 2 (x / 2), Nat.mul_assoc, Nat.mul_comm 2]
    rw [e2]
    have hlt : (x % 2) * 2 ^ k < 2 ^ (k + 1) := by
      rw [Nat.pow_succ]
      rcases Nat.mod_two_eq_zero_or_one x with a | a <;> rw [a]
      · have := Nat.two_pow_pos k; omega
      · have := Nat.two_pow_pos k; omega
    rw [e]
    rw [Nat.shiftLeft_add_eq_or_of_lt hlt]
    have e3 : (if x % 2 = 1 then 2 ^ k else 0) = (x % 2) * 2 ^ k := by
      rcases Nat.mod_two_eq_zero_or_one x with a | a <;> rw [a] <;> simp
    rw [e3]
    apply Nat.eq_of_testBit_eq
    intro i
    rw [Nat.testBit_xor, Nat.testBit_or]
    by_cases hi : i < k + 1
    · have : ((x / 2) <<< (k + 1)).testBit i = false := by
        rw [Nat.testBit_shiftLeft]; simp; omega
      rw [this]; simp
    · have : ((x % 2) * 2 ^ k).testBit i = false := by
        apply Nat.testBit_lt_two_pow
        calc (x % 2) * 2 ^ k < 2 ^ (k + 1) := hlt
          _ ≤ 2 ^ i := Nat.pow_le_pow_right (by decide) (by omega)
      rw [this]; simp

theorem unitM_app {x : Nat} (h : x < U32) : app unitM x = x := by
  have := bits_app 32 0 x (by simpa using h)
  rw [← List.range_eq_range'] at this
  simpa [unitM] using this

/-- A matrix describes a map of words. -/
def Rep (a : List Nat) (f : Nat → Nat) : Prop := ∀ x, x < U32 → f x < U32 ∧ app a x = f x

theorem rep_cols {f : Nat → Nat} (hl : Lin f) (hb : ∀ x, x < U32 → f x < U32) : Rep (colsOf f) f := by
  intro x hx
  refine ⟨hb x hx, ?_⟩
  unfold colsOf
  rw [app_map hl, unitM_app hx]

theorem rep_comp {a b : List Nat} {f g : Nat → Nat} (ha : Rep a f) (hb : Rep b g) : Rep (comp a b) (fun x => f (g x)) := by
  intro x hx
  obtain ⟨h1, h2⟩ := hb x hx
  obtain ⟨h3, h4⟩ := ha _ h1
  exact ⟨h3, by rw [app_comp, h2, h4]⟩

theorem rep_pow (fuel : Nat) : ∀ (a : List Nat) (f : Nat → Nat) (n : Nat), Rep a f → n < 2 ^ fuel →
    Rep (powM fuel a n) (f^[n]) := by
  induction fuel with
  | zero =>
    intro a f n _ hn
    have : n = 0 := by simpa using hn
    subst this
    intro x hx
    exact ⟨hx, unitM_app hx⟩
  | succ fuel ih =>
    intro a f n ha hn
    have h2 := ih (comp a a) (fun x => f (f x)) (n / 2) (rep_comp ha ha) (by rw [Nat.pow_succ] at hn; omega)
    have he : (fun x => f (f x))^[n / 2] = f^[2 * (n / 2)] := by
      rw [Function.iterate_mul]; rfl
    rw [he] at h2
    simp only [powM]
    by_cases ho : n % 2 = 1
    · rw [if_pos ho]
      have h3 := rep_comp h2 ha
      have : (fun x => f^[2 * (n / 2)] (f x)) = f^[n] := by
        have e : n = (2 * (n / 2)).succ := by omega
        conv_rhs => rw [e, Function.iterate_succ]
        rfl
      rwa [this] at h3
    · rw [if_neg ho]
      have e : 2 * (n / 2) = n := by omega
      rwa [e] at h2

/-! ### The generator -/

theorem xorLeft_lin (k : Nat) : Lin (xorLeft k) := by
  intro x y
  unfold xorLeft
  rw [Nat.shiftLeft_xor_distrib, show (4294967296 : Nat) = 2 ^ 32 from rfl, Nat.xor_mod_two_pow]
  generalize (x <<< k) % 2 ^ 32 = r
  generalize (y <<< k) % 2 ^ 32 = s
  rw [Nat.xor_assoc, Nat.xor_assoc, ← Nat.xor_assoc y r s, Nat.xor_comm y r, Nat.xor_assoc r y s]

theorem xorRight_lin (k : Nat) : Lin (xorRight k) := by
  intro x y
  unfold xorRight
  rw [Nat.shiftRight_xor_distrib]
  generalize x >>> k = r
  generalize y >>> k = s
  rw [Nat.xor_assoc, Nat.xor_assoc, ← Nat.xor_assoc y r s, Nat.xor_comm y r, Nat.xor_assoc r y s]

theorem genU32_lin : Lin genU32 := by
  intro x y
  unfold genU32
  rw [xorLeft_lin, xorRight_lin, xorLeft_lin]

theorem xorLeft_lt (k : Nat) {x : Nat} (h : x < U32) : xorLeft k x < U32 :=
  Nat.xor_lt_two_pow (n := 32) h (Nat.mod_lt _ (by decide))

theorem xorRight_lt (k : Nat) {x : Nat} (h : x < U32) : xorRight k x < U32 :=
  Nat.xor_lt_two_pow (n := 32) h (lt_of_le_of_lt (Nat.shiftRight_le x k) h)

theorem genU32_lt {x : Nat} (h : x < U32) : genU32 x < U32 := xorLeft_lt _ (xorRight_lt _ (xorLeft_lt _ h))

theorem rep_gen : Rep (colsOf genU32) genU32 := rep_cols genU32_lin (fun _ h => genU32_lt h)

end Verif.Ns
