import Verif.Basic
import Verif.Model.Params

/-!
# The attribute macro `impl_ugen` (knaster_macros/src/lib.rs 74–999)

An impl block as the macro sees it (`syn`), what it makes of it (`Gen`), and what the generated methods of the
trait `UGen` do: which method of the block they call with which arguments.

Simplifications

* A path is the list of its segments without their generic arguments; expressions and bodies are numbers that
  tell them apart.  A typenum type is the number it stands for.
* What `rustc` makes of the generated code is not modelled, except for `Gen.scoped`: whether it only uses names
  that exist.  The generics of the block and the name of the crate are left out.
* Samples are passed on unchanged; `.into()` from an array to a `Frame` keeps the order.
* `base10_parse().unwrap()` does not fail for the lengths of arrays that Rust accepts.
-/

namespace Verif.Ma

/-- Element types of arrays: `&[F]`, `&mut [F]` or anything else. -/
inductive Elem where
  | ref (mt : Bool)
  | other
  deriving DecidableEq, Repr

/-- Types (`syn::Type`), as far as they are told apart. -/
inductive Ty where
  | path (segs : List String) (qself : Bool)
  /-- a reference to a path -/
  | ref (mt : Bool) (segs : List String)
  /-- a reference to something else -/
  | refOther
  /-- an array; `none`: the length is not an integer literal -/
  | array (len : Option Nat) (elem : Elem)
  | other
  deriving DecidableEq, Repr

/-- Arguments of a function (`syn::FnArg`). -/
inductive Arg where
  | recv (mt : Bool)
  | typed (t : Ty)
  deriving DecidableEq, Repr

/-- The value of `range` in the attribute. -/
inductive RangeE where
  | range (start stop : Option Nat) (closed : Bool)
  | other
  deriving DecidableEq, Repr

/-- `ParameterAttribute` (lib.rs 773–780). -/
structure PAttr where
  default : Option Nat := none
  range : Option RangeE := none
  kind : Option (List String) := none
  logarithmic : Option Bool := none
  fromTy : Option Nat := none
  deriving DecidableEq, Repr

/-- What is behind the name of an attribute: nothing (or `= …`), something that cannot be read, or a list. -/
inductive Meta where
  | bare
  | bad
  | list (a : PAttr)
  deriving DecidableEq, Repr

/-- An attribute. -/
structure Attr where
  name : String
  arg : Meta := .bare
  deriving DecidableEq, Repr

/-- A function in the block (`ImplItemFn`). -/
structure Method where
  name : String
  attrs : List Attr := []
  generics : Nat := 0
  args : List Arg := []
  ret : Option Ty := none
  body : Nat := 0
  deriving DecidableEq, Repr

/-- An item of the block (`ImplItem`). -/
inductive Item where
  | fn (m : Method)
  | type (name : String) (n : Nat)
  | other (i : Nat)
  deriving DecidableEq, Repr

/-- Why the macro gives up. -/
inductive Err where
  /-- `syn::Error`, an error message of the compiler -/
  | message
  /-- the macro itself panics -/
  | panic
  deriving DecidableEq, Repr

/-- What the first loop has found (lib.rs 89–102). -/
structure Found where
  init : Option Method := none
  process : Option Method := none
  block : Option Method := none
  params : List Method := []
  sample : Option Nat := none
  inputs : Option Nat := none
  outputs : Option Nat := none
  deriving DecidableEq, Repr

/-- By name (lib.rs 107–118). -/
def Found.byName (f : Found) (m : Method) : Found :=
  if m.name = "init" then { f with init := some m }
  else if m.name = "process" then { f with process := some m }
  else if m.name = "process_block" then { f with block := some m }
  else f

/-- By attribute (lib.rs 119–129). -/
def Found.byAttr (f : Found) (m : Method) (a : Attr) : Found :=
  if a.name = "init" then { f with init := some m }
  else if a.name = "process" then { f with process := some m }
  else if a.name = "process_block" then { f with block := some m }
  else if a.name = "param" then { f with params := f.params ++ [m] }
  else f

/-- One item (lib.rs 104–142). -/
def Found.item (f : Found) : Item → Found
  | .fn m => m.attrs.foldl (fun f a => f.byAttr m a) (f.byName m)
  | .type n t =>
    if n = "Sample" then { f with sample := some t }
    else if n = "Inputs" then { f with inputs := some t }
    else if n = "Outputs" then { f with outputs := some t }
    else f
  | .other _ => f

/-- All items (lib.rs 104–142): the last one of a kind counts. -/
def find (items : List Item) : Found := items.foldl Found.item {}

/-- Arguments of the generated calls of `process` and `process_block`. -/
inductive MArg where
  | ctx
  | flags
  | input
  | output
  deriving DecidableEq, Repr

/-- The generated `process`. -/
inductive Proc where
  /-- `todo!()` (lib.rs 340–349) -/
  | todo
  /-- a call of the function with an array of the first `n` inputs (lib.rs 317–332) -/
  | wrap (name : String) (args : List MArg) (n : Nat)
  /-- the function itself is moved to the trait impl, with its attributes (lib.rs 333–338) -/
  | paste (m : Method)
  deriving DecidableEq, Repr

/-- The generated `process_block`. -/
inductive Blk where
  /-- none, so that the default of the trait applies (lib.rs 569) -/
  | default
  | wrap (name : String) (args : List MArg) (numIn numOut : Nat)
  | paste (m : Method)
  deriving DecidableEq, Repr

/-- `remove_process_fn` (lib.rs 334) -/
def Proc.moved : Proc → Bool
  | .paste _ => true
  | _ => false

/-- `remove_process_block_fn` (lib.rs 565) -/
def Blk.moved : Blk → Bool
  | .paste _ => true
  | _ => false

def isFrame (segs : List String) : Bool := segs.contains "Frame" || segs.contains "NumericArray"

/-- The return type of `process` (lib.rs 164–207): whether it is that of the trait, and the number of outputs. -/
def procRet : Option Ty → Except Err (Bool × Option Nat)
  | none => .ok (false, some 0)
  | some (.array (some n) _) => .ok (false, some n)
  | some (.array none _) => .error .message
  | some (.path segs qself) =>
    if !qself && (segs.getLast? = some "Frame" || segs.getLast? = some "NumericArray") then .ok (true, none)
    else .error .message
  | some _ => .error .message

/-- One argument of `process`, at position `i` (lib.rs 210–255): whether it is that of the trait. -/
def procArg (i : Nat) : Arg → Except Err Bool
  | .recv mt => if i = 0 then (if mt then .ok true else .error .message) else .ok false
  | .typed (.ref _ segs) =>
    .ok (!(i = 1 && !segs.contains "AudioCtx") && !(i = 2 && !segs.contains "UGenFlags"))
  | .typed (.path segs _) => .ok !(i = 3 && !isFrame segs)
  | .typed _ => .ok false

/-- All arguments, from position `i` on. -/
def allArgs (f : Nat → Arg → Except Err Bool) : Nat → List Arg → Except Err Bool
  | _, [] => .ok true
  | i, a :: as => do
    let b ← f i a
    let c ← allArgs f (i + 1) as
    .ok (b && c)

/-- The arguments for the call and the number of inputs (lib.rs 259–316). -/
def procArgs : List Arg → Except Err (List MArg × Option Nat)
  | [] => .ok ([], none)
  | .recv _ :: as => procArgs as
  | .typed (.ref _ segs) :: as => do
    let a ← if segs.contains "AudioCtx" then .ok .ctx else if segs.contains "UGenFlags" then .ok .flags else .error .message
    let (r, n) ← procArgs as
    .ok (a :: r, n)
  | .typed (.array (some n) _) :: as => do
    let (r, n') ← procArgs as
    .ok (.input :: r, n' <|> some n)
  | .typed _ :: _ => .error .message

/-- `process_impl` (lib.rs 157–350), with the numbers of inputs and outputs. -/
def procImpl : Option Method → Except Err (Proc × Option Nat × Option Nat)
  | none => .ok (.todo, none, none)
  | some m => do
    let (b, out) ← procRet m.ret
    let c ← allArgs procArg 0 m.args
    if b && c then .ok (.paste m, none, out)
    else do
      let (args, n) ← procArgs m.args
      .ok (.wrap m.name args (n.getD 0), n, out)

/-- One argument of `process_block` (lib.rs 360–426). -/
def blkArg (i : Nat) : Arg → Except Err Bool
  | .recv mt => if i = 0 then (if mt then .ok true else .error .message) else .ok false
  | .typed (.ref mt segs) =>
    .ok (!(i = 1 && !segs.contains "AudioCtx") && !(i = 2 && !segs.contains "UGenFlags") &&
      !(i = 3 && (mt || !segs.contains "InBlock")) && !(i = 4 && (!mt || !segs.contains "OutBlock")) && !(4 < i))
  | .typed (.path segs _) => .ok !(i = 3 && !isFrame segs)
  | .typed _ => .ok false

/-- The arguments for the call (lib.rs 428–519), for numbers of inputs and outputs known from `process`. -/
def blkArgs (numIn numOut : Option Nat) : List Arg → Except Err (List MArg)
  | [] => .ok []
  | .recv _ :: as => blkArgs numIn numOut as
  | .typed (.ref _ segs) :: as => do
    let a ← if segs.contains "AudioCtx" then .ok .ctx else if segs.contains "UGenFlags" then .ok .flags else .error .message
    let r ← blkArgs numIn numOut as
    .ok (a :: r)
  | .typed (.array (some n) (.ref mt)) :: as => do
    if (if mt then numOut else numIn).getD n ≠ n then .error .message
    let r ← blkArgs numIn numOut as
    .ok ((if mt then .output else .input) :: r)
  | .typed _ :: _ => .error .message

/-- `process_block_impl` (lib.rs 352–570). -/
def blkImpl (numIn numOut : Option Nat) : Option Method → Except Err Blk
  | none => .ok .default
  | some m => do
    let c ← allArgs blkArg 0 m.args
    if m.generics = 2 && c then .ok (.paste m)
    else do
      let args ← blkArgs numIn numOut m.args
      .ok (.wrap m.name args (numIn.getD 0) (numOut.getD 0))

/-- `ParameterType` (lib.rs 992–999) -/
inductive PTy where
  | pfloat | float64 | float32 | trigger | integer | bool
  deriving DecidableEq, Repr

def PTy.isFloat : PTy → Bool
  | .pfloat | .float64 | .float32 => true
  | _ => false

/-- `ParameterType` as the rest of the code sees it (parameters.rs 285–292). -/
def PTy.kind : PTy → Pa.Kind
  | .pfloat | .float64 | .float32 => .float
  | .trigger => .trigger
  | .integer => .integer
  | .bool => .bool

/-- The type of the expression that is generated for a value (lib.rs 600–607): `_value.float().expect(…)` alone or followed by
`as f64` or `as f32`, `_value.integer().expect(…)`, `_value.bool().expect(…)`. -/
def PTy.rust : PTy → Option String
  | .pfloat => some "PFloat"
  | .float64 => some "f64"
  | .float32 => some "f32"
  | .integer => some "PInteger"
  | .bool => some "bool"
  | .trigger => none

/-- `ParameterArgumentTypes` (lib.rs 974–978) -/
inductive PArg where
  | value (ty : PTy)
  | ctx
  | flags
  deriving DecidableEq, Repr

def PArg.isValue : PArg → Bool
  | .value _ => true
  | _ => false

/-- `ParameterData` (lib.rs 981–991) -/
structure Param where
  name : String
  ty : PTy := .trigger
  args : List PArg := []
  fnName : String
  default : Option Nat := none
  range : Option (Nat × Nat) := none
  kind : Option String := none
  logarithmic : Bool := false
  fromTy : Option Nat := none
  deriving DecidableEq, Repr

/-- The type of a parameter argument (lib.rs 860–895). -/
def valueTy (segs : List String) : Option PTy :=
  if segs.contains "PFloat" then some .pfloat
  else if segs.contains "f32" then some .float32
  else if segs.contains "f64" then some .float64
  else if segs.contains "PInteger" then some .integer
  else if segs.contains "bool" then some .bool
  else none

/-- The arguments of a parameter function (lib.rs 824–905). -/
def paramArgs : List Arg → Param → Except Err Param
  | [], p => .ok p
  | .recv _ :: as, p => paramArgs as p
  | .typed (.ref _ segs) :: as, p =>
    if segs.contains "AudioCtx" then paramArgs as { p with args := p.args ++ [.ctx] }
    else if segs.contains "UGenFlags" then paramArgs as { p with args := p.args ++ [.flags] }
    else .error .message
  | .typed (.path segs _) :: as, p =>
    if p.args.any PArg.isValue then .error .message
    else match valueTy segs with
      | some t => paramArgs as { p with ty := t, args := p.args ++ [.value t] }
      | none => .error .message
  | .typed _ :: _, _ => .error .message

/-- Reading the attributes (lib.rs 798–823): the last list counts. -/
def paramAttrs : List Attr → Except Err (Option PAttr)
  | [] => .ok none
  | a :: as =>
    if a.name = "param" then
      match a.arg with
      | .bad => .error .message
      | .bare => paramAttrs as
      | .list p => do
        let r ← paramAttrs as
        .ok (r <|> some p)
    else paramAttrs as

/-- `kind` (lib.rs 907–932) -/
def hintKind (a : PAttr) (p : Param) : Except Err Param :=
  match a.kind with
  | none => .ok p
  | some k =>
    if !p.ty.isFloat then .error .message
    else match k with
      | [s] =>
        if ["Frequency", "Amplitude", "Q", "Seconds"].contains s then .ok { p with kind := some s }
        else .error .message
      | _ => .error .message

/-- `from` (lib.rs 933–941) -/
def hintFrom (a : PAttr) (p : Param) : Except Err Param :=
  match a.fromTy with
  | none => .ok p
  | some f => if p.ty = .integer then .ok { p with fromTy := some f } else .error .message

/-- `range` (lib.rs 942–962): an expression that is no range is ignored. -/
def hintRange (a : PAttr) (p : Param) : Except Err Param :=
  match a.range with
  | some (.range (some s) (some e) true) => .ok { p with range := some (s, e) }
  | some (.range _ _ _) => .error .message
  | _ => .ok p

/-- The hints (lib.rs 906–967). -/
def paramHints (a : PAttr) (p : Param) : Except Err Param := do
  let p ← hintKind a p
  let p ← hintFrom a p
  let p ← hintRange a p
  .ok { p with default := a.default, logarithmic := a.logarithmic.getD p.logarithmic }

/-- `parse_parameter_functions` (lib.rs 782–972), one function. -/
def paramOf (m : Method) : Except Err Param := do
  let a ← paramAttrs m.attrs
  let p ← paramArgs m.args { name := m.name, fnName := m.name }
  match a with
  | none => .ok p
  | some a => paramHints a p

/-- All of them. -/
def paramsOf : List Method → Except Err (List Param)
  | [] => .ok []
  | m :: ms => do
    let p ← paramOf m
    let ps ← paramsOf ms
    .ok (p :: ps)

/-- The hint of a parameter (lib.rs 614–667). -/
inductive Hint where
  | float (range : Option (Nat × Nat)) (kind : Option String) (logarithmic : Bool) (default : Option Nat)
  /-- `from_pinteger_enum` -/
  | enum (fromTy : Nat)
  /-- `new_integer` with the range given, or with the whole range -/
  | integer (range : Option (Nat × Nat))
  | trigger
  | bool
  deriving DecidableEq, Repr

def Param.hint (p : Param) : Hint :=
  match p.ty with
  | .pfloat | .float64 | .float32 => .float p.range p.kind p.logarithmic p.default
  | .integer => match p.fromTy with
    | some f => .enum f
    | none => .integer p.range
  | .trigger => .trigger
  | .bool => .bool

/-- The attributes that are removed (lib.rs 692–697). -/
def Method.strip (m : Method) : Method :=
  { m with attrs := m.attrs.filter fun a => !(a.name = "param" || a.name = "init" || a.name = "process" || a.name = "process_block") }

def Method.isProcess (m : Method) : Bool := m.name = "process" || m.attrs.any (·.name = "process")
def Method.isBlock (m : Method) : Bool := m.name = "process_block" || m.attrs.any (·.name = "process_block")

/-- `items_to_remove` (lib.rs 671–691) for items from index `i` on. -/
def toRemove (rp rb : Bool) : Nat → List Item → List Nat
  | _, [] => []
  | i, .fn m :: items =>
    (if rp && m.isProcess then [i] else []) ++ (if rb && m.isBlock then [i] else []) ++ toRemove rp rb (i + 1) items
  | i, _ :: items => toRemove rp rb (i + 1) items

def Item.strip : Item → Item
  | .fn m => .fn m.strip
  | x => x

/-- `Vec::remove` for one index after the other (lib.rs 700–702). -/
def removeAll : List Item → List Nat → Except Err (List Item)
  | items, [] => .ok items
  | items, i :: is => if i < items.length then removeAll (items.eraseIdx i) is else .error .panic

def Item.isAssoc : Item → Bool
  | .type n _ => n = "Sample" || n = "Inputs" || n = "Outputs"
  | _ => false

/-- What is left of the block (lib.rs 669–714). -/
def restOf (rp rb : Bool) (items : List Item) : Except Err (List Item) := do
  let r ← removeAll (items.map Item.strip) (toRemove rp rb 0 items).reverse
  .ok (r.filter fun x => !x.isAssoc)

/-- What the macro generates. -/
structure Gen where
  init : Option String
  proc : Proc
  blk : Blk
  params : List Param
  /-- `none`: `F` -/
  sample : Option Nat
  inputs : Nat
  outputs : Nat
  rest : List Item
  deriving DecidableEq, Repr

/-- `parse_ugen_impl` (lib.rs 81–771) -/
def parse (items : List Item) : Except Err Gen := do
  let f := find items
  let (proc, numIn, numOut) ← procImpl f.process
  let blk ← blkImpl numIn numOut f.block
  let params ← paramsOf f.params
  let rest ← restOf proc.moved blk.moved items
  .ok { init := f.init.map Method.name
        proc := proc
        blk := blk
        params := params
        sample := f.sample
        inputs := f.inputs.getD (numIn.getD 0)
        outputs := f.outputs.getD (numOut.getD 0)
        rest := rest }

/-! ### What the generated code does -/

/-- Actual arguments: the context, the flags, samples, channels of samples, channels to write to, a block to
read and one to write. -/
inductive V (α : Type) where
  | ctx
  | flags
  | frame (xs : List α)
  | slices (cs : List (List α))
  | outs (cs : List Nat)
  | inBlock (cs : List (List α))
  | outBlock (n : Nat)
  | val (v : Pa.Val)
  deriving DecidableEq

/-- A call of a function of the block. -/
structure Call (α : Type) where
  fn : String
  args : List (V α)
  deriving DecidableEq

/-- `[ _input[0], …, _input[n - 1] ]` (lib.rs 317–320) -/
def firstN {β : Type} (n : Nat) (xs : List β) : R (List β) :=
  if n ≤ xs.length then .ok (xs.take n) else .error .index

/-- The generated `process` for one frame of input (lib.rs 322–349). -/
def Proc.call {α : Type} (input : List α) : Proc → R (Call α)
  | .todo => .error .unreachable
  | .wrap f args n => do
    let xs ← firstN n input
    .ok ⟨f, args.map fun
      | .ctx => .ctx
      | .flags => .flags
      | .input => .frame xs
      | .output => .outs []⟩
  | .paste m => .ok ⟨m.name, [.ctx, .flags, .frame input]⟩

/-- The generated `process_block` for a block of input and an output with `nOut` channels (lib.rs 545–562);
`none`: the default of the trait (ugen.rs 263–300). -/
def Blk.call {α : Type} (input : List (List α)) (nOut : Nat) : Blk → R (Option (Call α))
  | .default => .ok none
  | .wrap f args n k => do
    let xs ← firstN n input
    let os ← if k ≤ nOut then .ok (List.range k) else .error .unwrap
    .ok (some ⟨f, args.map fun
      | .ctx => .ctx
      | .flags => .flags
      | .input => .slices xs
      | .output => .outs os⟩)
  | .paste m => .ok (some ⟨m.name, [.ctx, .flags, .inBlock input, .outBlock nOut]⟩)

/-- The generated call of a parameter function (lib.rs 594–613). -/
def Param.call {α : Type} (p : Param) (v : Pa.Val) : R (Call α) := do
  let args ← p.args.mapM fun a => match a with
    | .value ty => match v.arg ty.kind with
      | some w => .ok (V.val w)
      | none => .error .unwrap
    | .ctx => .ok .ctx
    | .flags => .ok .flags
  .ok ⟨p.fnName, args⟩

/-- The generated `param_apply` (lib.rs 752–767); `none`: the index is not known, which is logged. -/
def Gen.apply {α : Type} (g : Gen) (i : Nat) (v : Pa.Val) : R (Option (Call α)) :=
  match g.params[i]? with
  | none => .ok none
  | some p => do
    let c ← p.call v
    .ok (some c)

/-! ### What the compiler makes of the generated code -/

/-- `process` as the trait has it (ugen.rs 248–253). -/
def Method.traitProcess (m : Method) : Bool :=
  m.name = "process" && m.strip = m &&
  match m.args, m.ret with
  | [.recv true, .typed (.ref true c), .typed (.ref true f), .typed (.path x _)], some (.path y _) =>
    c.contains "AudioCtx" && f.contains "UGenFlags" && isFrame x && isFrame y
  | _, _ => false

/-- `process_block` as the trait has it (ugen.rs 263–272). -/
def Method.traitBlock (m : Method) : Bool :=
  m.name = "process_block" && m.strip = m && m.generics = 2 &&
  match m.args with
  | [.recv true, .typed (.ref true c), .typed (.ref true f), .typed (.ref false i), .typed (.ref true o)] =>
    c.contains "AudioCtx" && f.contains "UGenFlags" && i.contains "InBlock" && o.contains "OutBlock"
  | _ => false

def Item.fnName : Item → Option String
  | .fn m => some m.name
  | _ => none

/-- The lengths of arrays of samples. -/
def Arg.len : Arg → Option Nat
  | .typed (.array n _) => n
  | _ => none

/-- The lengths of arrays of slices, to read or to write. -/
def Arg.slices (mt : Bool) : Arg → Option Nat
  | .typed (.array n (.ref b)) => if b = mt then n else none
  | _ => none

/-- What the compiler checks, as far as it matters here: functions have different names; the functions moved to
the trait impl are those of the trait and carry no attribute of the macro (it is unknown outside of the block);
arrays have the lengths that the functions want, and the array of the outputs is moved at most once; the number
of outputs is that of the array returned; there is no `_flags` in `param_apply`; `new_integer` takes no range
expression. -/
def Gen.compiles (items : List Item) (g : Gen) : Bool :=
  (items.filterMap Item.fnName).Nodup &&
  (match (find items).process, g.proc with
    | _, .paste m => m.traitProcess
    | some m, .wrap _ _ n => (m.args.filterMap Arg.len).all (· = n) && (match m.ret with
      | some (.array (some k) _) => k = g.outputs
      | _ => true)
    | _, _ => true) &&
  (match (find items).block, g.blk with
    | _, .paste m => m.traitBlock
    | some m, .wrap _ _ n k => (m.args.filterMap (Arg.slices false)).all (· = n) &&
      (m.args.filterMap (Arg.slices true)).all (· = k) && (m.args.filterMap (Arg.slices true)).length ≤ 1
    | _, _ => true) &&
  g.params.all (fun p => !p.args.contains .flags && !(p.ty = .integer && p.fromTy.isNone && p.range.isSome))

end Verif.Ma
