import Verif.Model.NonFinite
import Verif.Model.Ieee

/-!
# Hints and values of parameters

`knaster_primitives/src/parameters.rs` (ranges of float parameters), `knaster_core/src/parameters.rs` 109–183, 230–316 (hints),
`knaster_core/src/parameters/types.rs` (values), `UGen::param_types` (`knaster_core/src/ugen.rs` 291–293) and the part of the code that
`impl_ugen` makes for parameters (`knaster_macros/src/lib.rs` 595–667).

Floats are those of `Model/NonFinite`.
-/

namespace Verif.Hi

open Verif.Nf (Xf)

/-- `x <= y`. -/
def le : Xf → Xf → Bool
  | .nan, _ => false
  | _, .nan => false
  | .inf s, .inf t => s || !t
  | .inf s, .fin _ => s
  | .fin _, .inf t => !t
  | .fin a, .fin b => decide (a ≤ b)

/-- `x < y`. -/
def lt : Xf → Xf → Bool
  | .nan, _ => false
  | _, .nan => false
  | .inf s, .inf t => s && !t
  | .inf s, .fin _ => s
  | .fin _, .inf t => !t
  | .fin a, .fin b => decide (a < b)

/-- `f64::MAX`; `f64::MIN` is its negation. -/
def maxF64 : ℚ := (2 ^ 53 - 1) * 2 ^ 971

/-! ### Ranges -/

/-- `FloatParameterRange` (primitives parameters.rs 10–21). -/
inductive FRange where
  | range (min max : Xf)
  | nyquist
  | infinite
  | positiveInfinite
  | negativeInfinite
  deriving DecidableEq

/-- The ranges of the standard library that can be converted. -/
inductive RustRange where
  /-- `a..=b` -/
  | inclusive (a b : Xf)
  /-- `a..` -/
  | from (a : Xf)
  /-- `..b` -/
  | to (b : Xf)
  /-- `..=b` -/
  | toInclusive (b : Xf)
  deriving DecidableEq

/-- The four `From` implementations (primitives parameters.rs 22–41). -/
def FRange.ofRust : RustRange → FRange
  | .inclusive a b => .range a b
  | .from a => .range a (.fin maxF64)
  | .to b => .range (.fin (-maxF64)) b
  | .toInclusive b => .range (.fin (-maxF64)) b

/-! ### Hints -/

/-- `FloatParameterKind` (primitives parameters.rs 45–54). -/
inductive FKind where
  | amplitude
  | frequency
  | q
  | seconds
  deriving DecidableEq

/-- `PFloatHint` (parameters.rs 109–118). -/
structure FHint where
  default : Option Xf
  range : Option FRange
  kind : Option FKind
  log : Option Bool
  deriving DecidableEq

/-- `PFloatHint::new` (parameters.rs 121–128). -/
def FHint.new : FHint := ⟨none, none, none, none⟩

/-- The methods of `PFloatHint` (parameters.rs 130–178). -/
inductive Build where
  | default (v : Xf)
  | range (r : FRange)
  | kind (k : FKind)
  | minmax (min max : Xf)
  | infinite
  | unipolar
  | positiveInfinite
  | negativeInfinite
  | nyquist
  | logarithmic (b : Bool)
  deriving DecidableEq

/-- One call. -/
def FHint.call (h : FHint) : Build → FHint
  | .default v => { h with default := some v }
  | .range r => { h with range := some r }
  | .kind k => { h with kind := some k }
  | .minmax a b => { h with range := some (.range a b) }
  | .infinite => { h with range := some .infinite }
  | .unipolar => { h with range := some (.range (.fin 0) (.fin 1)) }
  | .positiveInfinite => { h with range := some .positiveInfinite }
  | .negativeInfinite => { h with range := some .negativeInfinite }
  | .nyquist => { h with range := some .nyquist }
  | .logarithmic b => { h with log := some b }

/-- `ParameterHint::new_float` (parameters.rs 242–245) with a chain of calls. -/
def newFloat (calls : List Build) : FHint := calls.foldl FHint.call .new

/-- The hint that `impl_ugen` writes for a float parameter with the given attributes (macros lib.rs 617–646). -/
def macroHint (range : Option (Xf × Xf)) (kind : Option FKind) (log : Bool) (default : Option Xf) : FHint :=
  newFloat ((match range with | some r => [.range (.ofRust (.inclusive r.1 r.2))] | none => []) ++
    (match kind with | some k => [.kind k] | none => []) ++ (if log then [.logarithmic true] else []) ++
    (match default with | some d => [.default d] | none => []))

/-- The hint of `time_scale` of `Envelope` (envelopes.rs 469). -/
def timeScaleHint : FHint := newFloat [.logarithmic true, .minmax (.fin 0) (.fin 20)]

/-- The hint of `wr_mul` (wrappers_core/math.rs 88). -/
def mulHint : FHint := newFloat [.logarithmic true, .infinite]

/-- `ParameterHint::one` (parameters.rs 281–283), the hint of the parameters of `Galactic`. -/
def oneHint : FHint := newFloat [.minmax (.fin 0) (.fin 1)]

/-- `ParameterHint` (parameters.rs 230–239); the contents of integer hints are in `Model/Params`. -/
inductive Hint where
  | float (h : FHint)
  | trigger
  | integer
  | bool
  deriving DecidableEq

/-- `ParameterHint::default` (parameters.rs 312–316). -/
def Hint.dflt : Hint := .float .new

/-! ### Values -/

/-- `ParameterType` (types.rs 10–20). -/
inductive Ty where
  | float
  | trigger
  | integer
  | bool
  deriving DecidableEq

/-- `ParameterHint::ty` (parameters.rs 289–296), from which `param_types` (ugen.rs 291–293) takes the type of a parameter. -/
def Hint.ty : Hint → Ty
  | .float _ => .float
  | .trigger => .trigger
  | .integer => .integer
  | .bool => .bool

/-- `ParameterValue` (types.rs 24–36); `seconds` is `none` for `ParameterSmoothing::None`. -/
inductive Val where
  | float (x : ℚ)
  | trigger
  | integer (n : Nat)
  | bool (b : Bool)
  | smoothing (seconds : Option ℚ) (audioRate : Bool)
  deriving DecidableEq

/-- `From<f32>` and `From<f64>` (types.rs 43–52): an `f32` is an `f64` too. -/
def Val.ofFloat (x : ℚ) : Val := .float x

/-- `From<usize>` through `PIntegerConvertible` (types.rs 38–42, parameters.rs 41–45). -/
def Val.ofNat (n : Nat) : Val := .integer n

/-- `From<bool>` (types.rs 58–62). -/
def Val.ofBool (b : Bool) : Val := .bool b

/-- `From<ParameterSmoothing>` (types.rs 115–119). -/
def Val.ofSmoothing (s : Option ℚ) : Val := .smoothing s false

/-- `From<(ParameterSmoothing, Rate)>` (types.rs 120–124). -/
def Val.ofSmoothingRate (s : Option ℚ × Bool) : Val := .smoothing s.1 s.2

/-- `float` (types.rs 65–70). -/
def Val.float? : Val → Option ℚ
  | .float x => some x
  | _ => none

/-- `f::<f32>` (types.rs 72–77) for finite values that fit; `f::<f64>` is `float`. -/
def Val.f32? : Val → Option ℚ
  | .float x => some (Fl.rnd32 x)
  | _ => none

/-- `integer` (types.rs 79–84). -/
def Val.integer? : Val → Option Nat
  | .integer n => some n
  | _ => none

/-- `bool` (types.rs 86–91). -/
def Val.bool? : Val → Option Bool
  | .bool b => some b
  | _ => none

/-- `ty` (types.rs 93–101). -/
def Val.ty : Val → Ty
  | .float _ => .float
  | .trigger => .trigger
  | .integer _ => .integer
  | .smoothing _ _ => .float
  | .bool _ => .bool

/-- What the method of a parameter is called with. -/
inductive Arg where
  | float (x : ℚ)
  | integer (n : Nat)
  | bool (b : Bool)
  | nothing
  deriving DecidableEq

/-- The type of the argument of a parameter method. -/
inductive PTy where
  | pfloat
  | float32
  | integer
  | bool
  | trigger
  deriving DecidableEq

/-- The hint for it (macros lib.rs 614–667). -/
def PTy.hint : PTy → Hint
  | .pfloat | .float32 => .float .new
  | .integer => .integer
  | .bool => .bool
  | .trigger => .trigger

/-- What `param_apply` does with a value (macros lib.rs 599–606). -/
def PTy.apply (p : PTy) (v : Val) : R Arg :=
  match p with
  | .pfloat => match v.float? with | some x => .ok (.float x) | none => .error .unwrap
  | .float32 => match v.float? with | some x => .ok (.float (Fl.rnd32 x)) | none => .error .unwrap
  | .integer => match v.integer? with | some n => .ok (.integer n) | none => .error .unwrap
  | .bool => match v.bool? with | some b => .ok (.bool b) | none => .error .unwrap
  | .trigger => .ok .nothing

end Verif.Hi
