import Verif.Basic
import Mathlib.Algebra.Order.Field.Rat

/-!
# Parameter smoothing

`knaster_core_dsp/src/wrappers_core/smooth_params.rs`, for one parameter (the parameters of a unit
generator do not influence each other).

* `PFloat` values are rationals, rounding is not modelled; `none` stands for every value that is not
  finite, and operations on such values give such a value.
* `parameters` is never written (smooth_params.rs 15, 25), so no parameter is an audio-rate one: the branch
  for audio-rate parameters in `process_block` (smooth_params.rs 149–178) and the one that ignores changes
  (smooth_params.rs 214) are never taken and not modelled.
-/

namespace Verif.Sm

/-- A `PFloat`: `none` is any value that is not finite. -/
abbrev F := Option Rat

/-- Difference. -/
def F.sub : F → F → F
  | some a, some b => some (a - b)
  | _, _ => none

/-- Sum. -/
def F.add : F → F → F
  | some a, some b => some (a + b)
  | _, _ => none

/-- Product. -/
def F.mul : F → F → F
  | some a, some b => some (a * b)
  | _, _ => none

/-- Quotient of two frame counts as floats. -/
def F.ratio (a b : Nat) : F := if b = 0 then none else some ((a : Rat) / b)

/-- `ParameterSmoothingState` (smooth_params.rs 248–262). -/
inductive St where
  | none (current : F)
  | linear (start stop : F) (dur elapsed : Nat) (audioRate done : Bool)
  deriving DecidableEq

/-- `Default` (smooth_params.rs 313–317). -/
def St.init : St := .none (some 0)

/-- The value at the current position of a ramp (e.g. smooth_params.rs 48–49). -/
def ramp (start stop : F) (dur elapsed : Nat) : F :=
  ((stop.sub start).mul (F.ratio elapsed dur)).add start

/-- `next_value` (smooth_params.rs 264–300): the value for the unit generator, if any. -/
def next (bs frame : Nat) : St → St × Option F
  | .none v => (.none v, Option.none)
  | .linear a b dur el ar done =>
    if (!ar) && frame != 0 then (.linear a b dur el ar done, Option.none)
    else if done then (.linear a b dur el ar done, Option.none)
    else
      let v := ramp a b dur el
      if el = dur then (.linear a b dur el ar true, some v)
      else if ar then (.linear a b dur (el + 1) ar false, some v)
      else (.linear a b dur (min (el + bs) dur) ar false, some v)

/-- `set_smoothing` with `ParameterSmoothing::None` (smooth_params.rs 40–51). -/
def smoothNone : St → St
  | .none v => .none v
  | .linear a b dur el _ _ => .none (ramp a b dur el)

/-- `set_smoothing` with `ParameterSmoothing::Linear` of `dur'` frames (smooth_params.rs 53–99). -/
def smoothLinear (dur' : Nat) (ar' : Bool) : St → St
  | .none v => .linear v v dur' 0 ar' true
  | .linear a b dur el _ done =>
    if done then .linear b b dur' 0 ar' true
    else .linear (ramp a b dur el) b dur' el ar' true

/-- `param_apply` with a float (smooth_params.rs 212–239): the new state and the value that goes straight to
the unit generator, if any. -/
def set (v : F) : St → St × Option F
  | .none c => (.none c, some v)
  | .linear a b dur el ar done =>
    (.linear (if done then b else ramp a b dur el) v dur 0 ar false, Option.none)

/-- What can happen to the wrapper. -/
inductive Op where
  | set (v : F)
  | smoothNone
  | smoothLinear (dur : Nat) (audioRate : Bool)
  /-- a call of `process_block` (smooth_params.rs 179–188) with the block size `bs` of the context, or of
  `process` (smooth_params.rs 115–129) with `bs = 1` -/
  | block (bs : Nat)
  deriving DecidableEq

/-- One operation: the new state and the value the unit generator receives, if any. -/
def step (s : St) : Op → St × Option F
  | .set v => set v s
  | .smoothNone => (smoothNone s, Option.none)
  | .smoothLinear d ar => (smoothLinear d ar s, Option.none)
  | .block bs => next bs 0 s

/-- Several operations: the final state and what the unit generator receives at each of them. -/
def run : St → List Op → St × List (Option F)
  | s, [] => (s, [])
  | s, op :: ops => ((run (step s op).1 ops).1, (step s op).2 :: (run (step s op).1 ops).2)

end Verif.Sm
