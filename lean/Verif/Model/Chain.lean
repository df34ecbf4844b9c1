import Verif.Basic

/-!
# Chains of arithmetic wrappers (knaster_core_dsp/src/wrappers_core/math.rs, wrappers_core.rs 26–111)

`u.wr_mul(a).wr_add(b)…` is a value of the type `WrAdd<WrMul<U>>`: here a list of layers around a unit generator.  Each method of the trait
`UGen` is a recursion over the layers, with one case for each `impl` block of math.rs.

The arithmetic of the samples is a parameter (`Arith`), so nothing depends on rounding.  `init`, the flags and the calls for delays
and buffers of parameters, which all wrappers pass on, are in `Model/Wrappers` and `Model/Params`.
-/

namespace Verif.Ch

/-- The operations on samples that math.rs uses, and `Float::new` of a parameter value. -/
structure Arith (S V : Type) where
  mul : S → S → S
  add : S → S → S
  sub : S → S → S
  div : S → S → S
  powf : S → S → S
  powi : S → Int → S
  new : V → S

/-- `ParameterValue` (parameters/types.rs 25–36), as far as `float()` (types.rs 65–70) tells the cases apart. -/
inductive PVal (V : Type) where
  | float (v : V)
  | other (n : Nat)
  deriving DecidableEq

/-- The wrapped unit generator (ugen.rs 228–370) with `outs` output channels: a frame is a list of samples, a block is a list of channels. -/
structure Inner (σ I S V : Type) where
  frame : σ → I → σ × List S
  block : σ → List I → σ × List (List S)
  params : List String
  apply : σ → Nat → PVal V → R σ

/-- The wrapped unit generator or a wrapper around it, with its `value`: `WrMul` (math.rs 15–24), `WrAdd` (116–125), `WrSub` (194–203),
`WrVSub` (272–281), `WrDiv` (351–360), `WrVDiv` (429–438), `WrPowf` (508–517), `WrPowi` (587–596). -/
inductive U (σ S : Type) where
  | inner (s : σ)
  | mul (u : U σ S) (value : S)
  | add (u : U σ S) (value : S)
  | sub (u : U σ S) (value : S)
  | vsub (u : U σ S) (value : S)
  | div (u : U σ S) (value : S)
  | vdiv (u : U σ S) (value : S)
  | powf (u : U σ S) (value : S)
  | powi (u : U σ S) (value : Int)
  deriving DecidableEq

variable {σ I S V : Type}

/-- `process` (math.rs 40–51, 134–145, 212–223, 290–301, 369–380, 447–458, 526–537, 605–616). -/
def U.frame (A : Arith S V) (B : Inner σ I S V) : U σ S → I → U σ S × List S
  | .inner s, x => (.inner (B.frame s x).1, (B.frame s x).2)
  | .mul u v, x => let r := u.frame A B x; (.mul r.1 v, r.2.map fun y => A.mul y v)
  | .add u v, x => let r := u.frame A B x; (.add r.1 v, r.2.map fun y => A.add y v)
  | .sub u v, x => let r := u.frame A B x; (.sub r.1 v, r.2.map fun y => A.sub y v)
  | .vsub u v, x => let r := u.frame A B x; (.vsub r.1 v, r.2.map fun y => A.sub v y)
  | .div u v, x => let r := u.frame A B x; (.div r.1 v, r.2.map fun y => A.div y v)
  | .vdiv u v, x => let r := u.frame A B x; (.vdiv r.1 v, r.2.map fun y => A.div v y)
  | .powf u v, x => let r := u.frame A B x; (.powf r.1 v, r.2.map fun y => A.powf y v)
  | .powi u v, x => let r := u.frame A B x; (.powi r.1 v, r.2.map fun y => A.powi y v)

/-- `process_block` (math.rs 52–68, 146–162, 224–240, 303–319, 381–397, 460–476, 539–555, 617–633). -/
def U.block (A : Arith S V) (B : Inner σ I S V) : U σ S → List I → U σ S × List (List S)
  | .inner s, xs => (.inner (B.block s xs).1, (B.block s xs).2)
  | .mul u v, xs => let r := u.block A B xs; (.mul r.1 v, r.2.map fun ch => ch.map fun y => A.mul y v)
  | .add u v, xs => let r := u.block A B xs; (.add r.1 v, r.2.map fun ch => ch.map fun y => A.add y v)
  | .sub u v, xs => let r := u.block A B xs; (.sub r.1 v, r.2.map fun ch => ch.map fun y => A.sub y v)
  | .vsub u v, xs => let r := u.block A B xs; (.vsub r.1 v, r.2.map fun ch => ch.map fun y => A.sub v y)
  | .div u v, xs => let r := u.block A B xs; (.div r.1 v, r.2.map fun ch => ch.map fun y => A.div y v)
  | .vdiv u v, xs => let r := u.block A B xs; (.vdiv r.1 v, r.2.map fun ch => ch.map fun y => A.div v y)
  | .powf u v, xs => let r := u.block A B xs; (.powf r.1 v, r.2.map fun ch => ch.map fun y => A.powf y v)
  | .powi u v, xs => let r := u.block A B xs; (.powi r.1 v, r.2.map fun ch => ch.map fun y => A.powi y v)

/-- `param_descriptions` (math.rs 71–80, and passed on in 165–168, 243–246, 322–325, 400–403, 479–482, 558–561, 636–639). -/
def U.params (B : Inner σ I S V) : U σ S → List String
  | .inner _ => B.params
  | .mul u _ => u.params B ++ ["wr_mul"]
  | .add u _ => u.params B
  | .sub u _ => u.params B
  | .vsub u _ => u.params B
  | .div u _ => u.params B
  | .vdiv u _ => u.params B
  | .powf u _ => u.params B
  | .powi u _ => u.params B

/-- `param_apply` (math.rs 92–98, and passed on in 174–176, 252–254, 331–333, 409–411, 488–490, 567–569, 644–646). -/
def U.apply (A : Arith S V) (B : Inner σ I S V) : U σ S → Nat → PVal V → R (U σ S)
  | .inner s, i, p => do
    let s' ← B.apply s i p
    return .inner s'
  | .mul u v, i, p =>
    if i = (u.params B).length then
      match p with
      | .float x => .ok (.mul u (A.new x))
      | .other _ => .error .unwrap
    else do
      let u' ← u.apply A B i p
      return .mul u' v
  | .add u v, i, p => do
    let u' ← u.apply A B i p
    return .add u' v
  | .sub u v, i, p => do
    let u' ← u.apply A B i p
    return .sub u' v
  | .vsub u v, i, p => do
    let u' ← u.apply A B i p
    return .vsub u' v
  | .div u v, i, p => do
    let u' ← u.apply A B i p
    return .div u' v
  | .vdiv u v, i, p => do
    let u' ← u.apply A B i p
    return .vdiv u' v
  | .powf u v, i, p => do
    let u' ← u.apply A B i p
    return .powf u' v
  | .powi u v, i, p => do
    let u' ← u.apply A B i p
    return .powi u' v

/-- What a call of `param` (ugen.rs 344–369) names. -/
inductive Which where
  | index (i : Nat)
  | desc (d : String)
  deriving DecidableEq

/-- The loop over the descriptions (ugen.rs 359–365): the first that is equal. -/
def firstIdx (d : String) : List String → Nat → Option Nat
  | [], _ => none
  | e :: es, i => if e = d then some i else firstIdx d es (i + 1)

/-- `param` (ugen.rs 344–369): the flag is whether the result is `Ok`. -/
def U.param (A : Arith S V) (B : Inner σ I S V) (u : U σ S) (w : Which) (p : PVal V) : R (U σ S × Bool) :=
  match w with
  | .index i =>
    if (u.params B).length ≤ i then .ok (u, false)
    else do
      let u' ← u.apply A B i p
      return (u', true)
  | .desc d =>
    match firstIdx d (u.params B) 0 with
    | some i => do
      let u' ← u.apply A B i p
      return (u', true)
    | none => .ok (u, false)

/-- What can happen to a chain. -/
inductive Op (I V : Type) where
  | frame (x : I)
  | block (xs : List I)
  | param (w : Which) (p : PVal V)

/-- What comes out of it. -/
inductive Out (S : Type) where
  | frame (ys : List S)
  | block (ys : List (List S))
  | param (ok : Bool)
  deriving DecidableEq

/-- One operation. -/
def U.op (A : Arith S V) (B : Inner σ I S V) (u : U σ S) : Op I V → R (U σ S × Out S)
  | .frame x => .ok ((u.frame A B x).1, .frame (u.frame A B x).2)
  | .block xs => .ok ((u.block A B xs).1, .block (u.block A B xs).2)
  | .param w p => do
    let r ← u.param A B w p
    return (r.1, .param r.2)

/-- A history. -/
def U.run (A : Arith S V) (B : Inner σ I S V) : U σ S → List (Op I V) → R (U σ S × List (Out S))
  | u, [] => .ok (u, [])
  | u, o :: os => do
    let r ← u.op A B o
    let r' ← U.run A B r.1 os
    return (r'.1, r.2 :: r'.2)

end Verif.Ch
