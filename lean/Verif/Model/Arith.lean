import Verif.Model.Graph

/-!
# Arithmetic on handles (knaster_graph/src/graph_edit.rs 935–1142, 1144–1410) and the unit generators behind
it (knaster_core_dsp/src/ugens/math.rs, util.rs `Constant`)

A handle is the list of its output channels.  The graph model does not know what a node computes, so the nodes
pushed by the operators are recorded beside it with their operation.

Simplifications: failed connections are logged, here ignored, as the code continues; samples are of any type `S`
with any functions for the operations, so nothing depends on floating point arithmetic.
-/

namespace Verif.Ar

open Verif.G

/-- The operations (math.rs 22–85). -/
inductive AOp where
  | add | sub | mul | div | pow
  deriving DecidableEq, Repr

/-- The unit generators the operators push: `MathUGen<F, U1, Op>` and `Constant`. -/
inductive Gen (S : Type) where
  | math (op : AOp)
  | const (c : S)
  deriving DecidableEq, Repr

/-- The graph being edited with the units of the nodes pushed by operators. -/
structure St (S : Type) where
  g : Graph
  units : List (Key × Gen S) := []
  deriving DecidableEq, Repr

variable {S : Type}

/-- `(NodeOrGraph, u16)`: an output channel of a node, or an input channel of the graph. -/
abbrev Chan := NG × Nat

/-- `iter_outputs` of a node handle (graph_edit.rs 688–697, 907–916). -/
def outputsOf (n : NodeId) (outputs : Nat) : List Chan :=
  (List.range outputs).map fun i : Nat => (NG.node n, i)

/-- `push_internal` of a unit (graph.rs 366–420). -/
def pushGen (sl : Key → Nat) (st : St S) : Gen S → St S
  | .math op => { g := pushNode sl st.g (userNode 2 1 []), units := st.units ++ [(st.g.nextKey, .math op)] }
  | .const c => { g := pushNode sl st.g (userNode 0 1 [0]), units := st.units ++ [(st.g.nextKey, .const c)] }

/-- `connect2` with the error only logged. -/
def connectLogged (sl : Key → Nat) (st : St S) (source : Chan) (si : Nat) (sink : NodeId) : R (St S) := do
  let r ← connect2 sl st.g source.1 source.2 si (.node sink) true false
  return { st with g := r.1 }

/-- One turn of the loops in `math_gen_fn_static`, `math_gen_fn_dynamic` (graph_edit.rs 948–957, 1086–1095): a math
node with the two channels as inputs. -/
def binNode (sl : Key → Nat) (op : AOp) (st : St S) (a b : Chan) : R (St S × Chan) := do
  let m : NodeId := ⟨st.g.nextKey, st.g.id⟩
  let st := pushGen sl st (.math op)
  let st ← connectLogged sl st a 0 m
  let st ← connectLogged sl st b 1 m
  return (st, (.node m, 0))

/-- The loop over zipped channels. -/
def binLoop (sl : Key → Nat) (op : AOp) : St S → List (Chan × Chan) → R (St S × List Chan)
  | st, [] => .ok (st, [])
  | st, p :: ps => do
    let r ← binNode sl op st p.1 p.2
    let q ← binLoop sl op r.1 ps
    return (q.1, r.2 :: q.2)

/-- `a op b` (graph_edit.rs 936–971, 1074–1107; operators 1145–1166, 1255–1338).  For static handles the
numbers of channels are equal by type, for dynamic handles they are compared and a difference panics. -/
def binary (sl : Key → Nat) (op : AOp) (st : St S) (a b : List Chan) : R (St S × List Chan) :=
  if a.length = b.length then binLoop sl op st (a.zip b) else .error .assert

/-- `math_gen_fn_static_constant`, `math_gen_fn_dynamic_constant` (graph_edit.rs 1036–1066, 1110–1137): one
constant node, connected to the second input of every math node. -/
def withConst (sl : Key → Nat) (op : AOp) (st : St S) (a : List Chan) (c : S) : R (St S × List Chan) :=
  let k : NodeId := ⟨st.g.nextKey, st.g.id⟩
  let st := pushGen sl st (.const c)
  binLoop sl op st (a.map fun x => (x, (NG.node k, 0)))

/-- `a op c` (graph_edit.rs 1172–1182, 1381–1391). -/
def handleConst (sl : Key → Nat) (op : AOp) (st : St S) (a : List Chan) (c : S) : R (St S × List Chan) :=
  withConst sl op st a c

/-- `c op a` (graph_edit.rs 1183–1193, 1392–1402): calls the same function with the handle first. -/
def constHandle (sl : Key → Nat) (op : AOp) (st : St S) (c : S) (a : List Chan) : R (St S × List Chan) :=
  withConst sl op st a c

/-- Expressions over handles. -/
inductive Expr (S : Type) where
  | handle (chans : List Chan)
  | bin (op : AOp) (a b : Expr S)
  | opc (op : AOp) (a : Expr S) (c : S)
  | cop (op : AOp) (c : S) (a : Expr S)
  deriving DecidableEq, Repr

/-- Evaluation of a Rust expression over handles: operands from left to right, then the operator. -/
def Expr.eval (sl : Key → Nat) : Expr S → St S → R (St S × List Chan)
  | .handle l, st => .ok (st, l)
  | .bin op a b, st => do
    let x ← a.eval sl st
    let y ← b.eval sl x.1
    binary sl op y.1 x.2 y.2
  | .opc op a c, st => do
    let x ← a.eval sl st
    handleConst sl op x.1 x.2 c
  | .cop op c a, st => do
    let x ← a.eval sl st
    constHandle sl op x.1 c x.2

/-! ### Constants -/

/-- Rounding a natural number to the nearest one with `p` significant bits, ties to even (`as f32`: 24 bits,
`as f64`: 53 bits). -/
def roundBits (p n : Nat) : Nat :=
  if n < 2 ^ p then n
  else
    let e := Nat.log2 n + 1 - p
    let q := n / 2 ^ e
    let r := n % 2 ^ e
    if 2 * r > 2 ^ e ∨ (2 * r = 2 ^ e ∧ q % 2 = 1) then (q + 1) * 2 ^ e else q * 2 ^ e

/-- The same for integers. -/
def roundInt (p : Nat) (i : Int) : Int :=
  if i < 0 then - (roundBits p i.natAbs : Int) else roundBits p i.natAbs

/-- The integer cases of `ConstantNumber` (graph_edit.rs 974–983). -/
inductive Num where
  | usize (n : Nat)
  | i32 (i : Int)
  deriving DecidableEq, Repr

/-- `ConstantNumber::into_f` (graph_edit.rs 986–993) for a sample type with `p` significant bits: `usize` is
converted directly, `i32` by way of `f32`. -/
def Num.intoF (p : Nat) : Num → Int
  | .usize n => roundInt p n
  | .i32 i => roundInt p (roundInt 24 i)

/-! ### `MathUGen` itself -/

/-- `Operation::apply` on slices (math.rs 22–85): the output positions that both inputs reach, the rest keeps
its value; a difference in length is an assertion failure in debug builds. -/
def applyOp (f : S → S → S) (a b out : List S) : R (List S) :=
  if a.length = b.length ∧ a.length = out.length then .ok (List.zipWith f a b) else .error .assert

/-- `MathUGen::process` (math.rs 115–137) with `n` channels: `out[c] = op(in[c], in[c + n])`. -/
def mathProcess (f : S → S → S) (n : Nat) (input : List S) : R (List S) :=
  (List.range n).mapM fun c : Nat => do
    match input[c]?, input[c + n]? with
    | some a, some b =>
      let r ← applyOp f [a] [b] [a]
      match r with
      | [x] => return x
      | _ => throw .index
    | _, _ => throw .index

/-- `MathUGen::process_block` (math.rs 138–156). -/
def mathBlock (f : S → S → S) (n : Nat) (input output : List (List S)) : R (List (List S)) :=
  (List.range n).mapM fun c : Nat => do
    match input[c]?, input[c + n]?, output[c]? with
    | some a, some b, some o => applyOp f a b o
    | _, _, _ => throw .index

end Verif.Ar
