import Verif.Model.Ieee
import Verif.Model.Smooth

/-!
# Parameter smoothing with rounding

The same functions as in `Model/Smooth` for finite values, every result rounded to `f64` (`PFloat`), and the length of a ramp
(smooth_params.rs 54).  There is no largest number here; in Rust the difference of two values beyond half of the largest `f64` can be
infinite.
-/

namespace Verif.Fl

open Verif.Sm (Op)

/-- `ParameterSmoothingState` (smooth_params.rs 248–262) with finite values. -/
inductive SmSt where
  | none (current : ℚ)
  | linear (start stop : ℚ) (dur elapsed : Nat) (audioRate done : Bool)
  deriving DecidableEq

/-- `Default` (smooth_params.rs 313–317). -/
def SmSt.init : SmSt := .none 0

/-- The value at the current position of a ramp (e.g. smooth_params.rs 281–282) that has a length. -/
def rampF (start stop : ℚ) (dur elapsed : Nat) : ℚ :=
  rnd64 (rnd64 (rnd64 (stop - start) * rnd64 (rnd64 elapsed / rnd64 dur)) + start)

/-- `next_value` (smooth_params.rs 264–300) at the start of a block: the value for the unit generator, if any. -/
def smNext (bs : Nat) : SmSt → SmSt × Option ℚ
  | .none v => (.none v, Option.none)
  | .linear a b dur el ar done =>
    if done then (.linear a b dur el ar done, Option.none)
    else
      let v := rampF a b dur el
      if el = dur then (.linear a b dur el ar true, some v)
      else if ar then (.linear a b dur (el + 1) ar false, some v)
      else (.linear a b dur (min (el + bs) dur) ar false, some v)

/-- `set_smoothing` with `ParameterSmoothing::None` (smooth_params.rs 40–51). -/
def smNone : SmSt → SmSt
  | .none v => .none v
  | .linear a b dur el _ _ => .none (rampF a b dur el)

/-- `set_smoothing` with `ParameterSmoothing::Linear` of `dur'` frames (smooth_params.rs 53–99). -/
def smLinear (dur' : Nat) (ar' : Bool) : SmSt → SmSt
  | .none v => .linear v v dur' 0 ar' true
  | .linear a b dur el _ done =>
    if done then .linear b b dur' 0 ar' true
    else .linear (rampF a b dur el) b dur' el ar' true

/-- The number of frames of a ramp of `seconds` (smooth_params.rs 54); the time is an `f32`. -/
def durFrames (seconds : ℚ) (sr : Nat) : Nat := ⌊rnd64 (rnd32 seconds * sr)⌋.toNat

/-- `param_apply` with a float (smooth_params.rs 212–239). -/
def smSet (v : ℚ) : SmSt → SmSt × Option ℚ
  | .none c => (.none c, some v)
  | .linear a b dur el ar done =>
    (.linear (if done then b else rampF a b dur el) v dur 0 ar false, Option.none)

/-- What can happen to the wrapper. -/
inductive SmOp where
  | set (v : ℚ)
  | smoothNone
  | smoothLinear (dur : Nat) (audioRate : Bool)
  /-- a call of `process_block` or, with `bs = 1`, of `process` -/
  | block (bs : Nat)
  deriving DecidableEq

/-- One operation: the new state and the value the unit generator receives, if any. -/
def smStep (s : SmSt) : SmOp → SmSt × Option ℚ
  | .set v => smSet v s
  | .smoothNone => (smNone s, Option.none)
  | .smoothLinear d ar => (smLinear d ar s, Option.none)
  | .block bs => smNext bs s

/-- Several operations. -/
def smRun : SmSt → List SmOp → SmSt × List (Option ℚ)
  | s, [] => (s, [])
  | s, op :: ops => ((smRun (smStep s op).1 ops).1, (smStep s op).2 :: (smRun (smStep s op).1 ops).2)

end Verif.Fl
