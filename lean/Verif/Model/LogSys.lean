import Verif.Model.Log
import Verif.Model.Ieee

/-!
# Logging from several threads (knaster_core/src/log.rs)

Builds on `Model/Log`, which is one ring.  Here: the array of rings of the receiver, adding senders to it, any number
of senders that work while the receiver goes through its rings, the conversions into messages, and the sender that
writes to the `log` crate.

Simplifications: sending one value and the handling of one ring in `recv` are single steps; anything may happen between
the steps.  Floats that are values of messages are finite.  Reading an array element that was never written is the
error `unreachable`.
-/

namespace Verif.Lg

/-- `ArLogReceiver` (log.rs 124–126): one ring per sender. -/
structure Recv where
  rings : List Ring
  deriving DecidableEq, Repr

/-- `ArLogReceiver::new` (log.rs 141–145). -/
def Recv.new : Recv := ⟨[]⟩

/-- `channels` (log.rs 237–239). -/
def Recv.channels (rc : Recv) : Nat := rc.rings.length

/-- The loop over the existing receivers (log.rs 221–223): `array[i].write(p)`. -/
def copyInto : List (Option Ring) → Nat → List Ring → R (List (Option Ring))
  | array, _, [] => .ok array
  | array, i, p :: ps => if i < array.length then copyInto (array.set i (some p)) (i + 1) ps else .error .index

/-- `assume_init` (log.rs 229–233). -/
def assumeInit : List (Option Ring) → R (List Ring)
  | [] => .ok []
  | none :: _ => .error .unreachable
  | some p :: l => do
    let l ← assumeInit l
    return p :: l

/-- `sender` (log.rs 211–235): the number of the ring that the new sender writes to, and the new receiver. -/
def Recv.sender (rc : Recv) (capacity : Nat) : R (Nat × Recv) := do
  let n := rc.channels
  let array ← copyInto (List.replicate (n + 1) none) 0 rc.rings
  let array ← if n < array.length then .ok (array.set n (some { cap := capacity })) else .error .index
  let rings ← assumeInit array
  return (n, ⟨rings⟩)

/-- What can happen: a sender sends one value or `End`, the receiver handles one ring (one turn of the loop of `recv`,
log.rs 161–194), a sender is added. -/
inductive Ev where
  | send (k : Nat) (m : Msg)
  | take (k : Nat)
  | add (capacity : Nat)
  deriving DecidableEq, Repr

/-- One step: the new receiver and the calls of the handler, with the number of the ring they come from.  (The handler
is not told the number.) -/
def Recv.step (rc : Recv) : Ev → R (Recv × List (Nat × List (List Msg)))
  | .send k m =>
    match rc.rings[k]? with
    | some r => .ok (⟨rc.rings.set k (r.send m)⟩, [])
    | none => .error .index
  | .take k =>
    match rc.rings[k]? with
    | some r => do
      let x ← r.recv
      return (⟨rc.rings.set k x.1⟩, [(k, x.2)])
    | none => .error .index
  | .add capacity => do
    let x ← rc.sender capacity
    return (x.2, [])

/-- A history. -/
def Recv.run : Recv → List Ev → R (Recv × List (Nat × List (List Msg)))
  | rc, [] => .ok (rc, [])
  | rc, e :: es => do
    let x ← rc.step e
    let y ← x.1.run es
    return (y.1, x.2 ++ y.2)

/-- `recv` (log.rs 161–195) when nothing happens in between. -/
def Recv.recv (rc : Recv) : R (Recv × List (List Msg)) := do
  let x ← recvAll rc.rings
  return (⟨x.1⟩, x.2)

/-- `ArLogMessage` (log.rs 18–32) with its values. -/
inductive Val where
  | str (s : String)
  | float (x : ℚ)
  | unsigned (n : Nat)
  | signed (i : Int)
  | timestamp (s : Seconds)
  | «end»

/-- The types that `rt_log!` takes. -/
inductive Src where
  | str (s : String)
  | f64 (x : ℚ)
  | f32 (x : ℚ)
  | usize (n : Nat)
  | u64 (n : Nat)
  | u32 (n : Nat)
  | u16 (n : Nat)
  | u8 (n : Nat)
  | i64 (i : Int)
  | i32 (i : Int)
  | i16 (i : Int)
  | i8 (i : Int)
  | seconds (s : Seconds)

/-- `as u64` of an unsigned number. -/
def asU64 (n : Nat) : Nat := n % U64

/-- `as i64`: the residue modulo 2^64 between -2^63 and 2^63. -/
def asI64 (i : Int) : Int := (i + 2 ^ 63) % 2 ^ 64 - 2 ^ 63

/-- The impls of `From` (log.rs 51–115). -/
def Val.ofSrc : Src → Val
  | .str s => .str s
  | .f64 x => .float x
  | .f32 x => .float (Fl.rnd64 x)
  | .usize n => .unsigned (asU64 n)
  | .u64 n => .unsigned n
  | .u32 n => .unsigned (asU64 n)
  | .u16 n => .unsigned (asU64 n)
  | .u8 n => .unsigned (asU64 n)
  | .i64 i => .signed i
  | .i32 i => .signed (asI64 i)
  | .i16 i => .signed (asI64 i)
  | .i8 i => .signed (asI64 i)
  | .seconds s => .timestamp s

/-- `Display` (log.rs 39–50); how the standard library writes an `f64` is an argument. -/
def Val.display (showFloat : ℚ → String) : Val → String
  | .str s => s
  | .float x => showFloat x
  | .unsigned n => toString n
  | .signed i => toString i
  | .timestamp s => showFloat (Fl.toSecs s) ++ " seconds"
  | .end => "End"

/-- `rt_log!` (log.rs 271–281) with `ArLogSender::Log` (log.rs 264): the records that the `log` crate gets. -/
def fallback (showFloat : ℚ → String) (values : List Src) : List String :=
  values.map (fun v => (Val.ofSrc v).display showFloat) ++ [Val.end.display showFloat]

end Verif.Lg
