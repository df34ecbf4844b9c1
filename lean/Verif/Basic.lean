/-!
# Common conventions

A Rust panic (failed assertion, `unwrap` on `None`, index out of bounds, arithmetic overflow in a
debug build, division by zero) is the explicit error value `Panic.…` in the model.
-/

namespace Verif

/-- The reasons for which the Rust code panics. -/
inductive Panic where
  /-- integer overflow or underflow (debug build) -/
  | overflow
  /-- integer division or remainder by zero -/
  | divByZero
  /-- slice / SlotMap / SecondaryMap index out of bounds -/
  | index
  /-- `unwrap`/`expect` on `None`/`Err` -/
  | unwrap
  /-- failed `assert!` -/
  | assert
  /-- `todo!()` / `unreachable!()` -/
  | unreachable
  deriving DecidableEq, Repr

/-- Computations that may panic. -/
abbrev R (α : Type _) := Except Panic α

instance {ε α} [DecidableEq ε] [DecidableEq α] : DecidableEq (Except ε α) := fun a b =>
  match a, b with
  | .ok x, .ok y => if h : x = y then isTrue (by rw [h]) else isFalse (by simpa using h)
  | .error x, .error y => if h : x = y then isTrue (by rw [h]) else isFalse (by simpa using h)
  | .ok _, .error _ => isFalse (by simp)
  | .error _, .ok _ => isFalse (by simp)

/-- `u32` range (a notation, so that arithmetic tactics see the literal). -/
notation "U32" => (4294967296 : Nat)
/-- `u64`/`usize` range (64 bit targets). -/
notation "U64" => (18446744073709551616 : Nat)

@[simp] theorem bind_ok {ε α β} (a : α) (f : α → Except ε β) :
    (Except.ok a >>= f) = f a := rfl
@[simp] theorem bind_error {ε α β} (e : ε) (f : α → Except ε β) :
    (Except.error e >>= f) = .error e := rfl
@[simp] theorem pure_ok {ε α} (a : α) : (pure a : Except ε α) = .ok a := rfl
@[simp] theorem throw_error {ε α} (e : ε) : (throw e : Except ε α) = .error e := rfl

/-- Checked addition in an unsigned type of `w` values. -/
def addC (w a b : Nat) : R Nat := if a + b < w then .ok (a + b) else .error .overflow
/-- Checked subtraction of unsigned numbers. -/
def subC (a b : Nat) : R Nat := if b ≤ a then .ok (a - b) else .error .overflow
/-- Checked multiplication in an unsigned type of `w` values. -/
def mulC (w a b : Nat) : R Nat := if a * b < w then .ok (a * b) else .error .overflow
/-- Checked division. -/
def divC (a b : Nat) : R Nat := if b = 0 then .error .divByZero else .ok (a / b)
/-- Checked remainder. -/
def modC (a b : Nat) : R Nat := if b = 0 then .error .divByZero else .ok (a % b)

end Verif
