import Verif.Model.Events

/-!
# Parameter handles

`Parameter` (knaster_graph/src/graph_edit.rs 1699–1886), `HandleTrait::set` and `ParameterChange`,
`ParameterChange2` and `SchedulingChannelSender` (knaster_graph/src/handle.rs 39–86, 221–464) and the other end of
the channel in `GraphGen::process_block` (graph_gen.rs 87–92, 143–147).

Simplifications: names are resolved before (that is `Model/Params`); the mutex around the producer makes every `send`
one step; the text of the errors is left out.  `V` are the values apart from the trigger, `S` the smoothing settings.
-/

namespace Verif.Ph

/-- `ParameterValue`, with the trigger apart (parameters/types.rs 25–36). -/
inductive PVal (V : Type) where
  | trigger
  | val (v : V)
  deriving DecidableEq, Repr

abbrev Ev (V S : Type) := Event (PVal V) S

/-- `Time::at` (scheduling.rs 79–84). -/
def timeAt (s : Seconds) : STime := ⟨s, true⟩
/-- `Time::after` (scheduling.rs 87–92). -/
def timeAfter (s : Seconds) : STime := ⟨s, false⟩
/-- `Time::asap` (scheduling.rs 123–128). -/
def timeAsap : STime := ⟨Seconds.zero, false⟩
/-- `Time::to_absolute` (scheduling.rs 130–133). -/
def toAbsolute (t : STime) : STime := { t with absolute := true }
/-- `Time::to_relative` (scheduling.rs 135–138). -/
def toRelative (t : STime) : STime := { t with absolute := false }

/-- The methods of `Parameter`. -/
inductive Method (V S : Type) where
  | set (v : PVal V)
  | setTime (v : PVal V) (t : STime)
  | setAt (v : PVal V) (s : Seconds)
  | setAfter (v : PVal V) (s : Seconds)
  | smooth (x : S)
  | smoothTime (x : S) (t : STime)
  | smoothAt (x : S) (s : Seconds)
  | smoothAfter (x : S) (s : Seconds)
  | trig
  | trigTime (t : STime)
  | trigAt (s : Seconds)
  | trigAfter (s : Seconds)
  deriving DecidableEq, Repr

/-- The event each method of `Parameter` sends (graph_edit.rs 1707–1885). -/
def Method.event {V S : Type} (key param : Nat) : Method V S → Ev V S
  | .set v => ⟨⟨key, param, some v, none, none⟩, none⟩
  | .setTime v t => ⟨⟨key, param, some v, none, none⟩, some t⟩
  | .setAt v s => ⟨⟨key, param, some v, none, none⟩, some (timeAt s)⟩
  | .setAfter v s => ⟨⟨key, param, some v, none, none⟩, some (timeAfter s)⟩
  | .smooth x => ⟨⟨key, param, none, some x, none⟩, none⟩
  | .smoothTime x t => ⟨⟨key, param, none, some x, none⟩, some t⟩
  | .smoothAt x s => ⟨⟨key, param, none, some x, none⟩, some (timeAt s)⟩
  | .smoothAfter x s => ⟨⟨key, param, none, some x, none⟩, some (timeAfter s)⟩
  | .trig => ⟨⟨key, param, some .trigger, none, none⟩, none⟩
  | .trigTime t => ⟨⟨key, param, some .trigger, none, none⟩, some t⟩
  | .trigAt s => ⟨⟨key, param, some .trigger, none, none⟩, some (timeAt s)⟩
  | .trigAfter s => ⟨⟨key, param, some .trigger, none, none⟩, some (timeAfter s)⟩

/-- The tuples that turn into a `ParameterChange` (handle.rs 431–464). -/
inductive Tuple (V S : Type) where
  | pv (v : PVal V)
  | pvt (v : PVal V) (token : Nat)
  | pvst (v : PVal V) (x : S) (token : Nat)
  | pvs (v : PVal V) (x : S)
  deriving DecidableEq, Repr

/-- The event `Handle::set` and `AnyHandle::set` send (handle.rs 236–244, 293–301). -/
def Tuple.event {V S : Type} (key param : Nat) : Tuple V S → Ev V S
  | .pv v => ⟨⟨key, param, some v, none, none⟩, none⟩
  | .pvt v t => ⟨⟨key, param, some v, none, some t⟩, none⟩
  | .pvst v x t => ⟨⟨key, param, some v, some x, some t⟩, none⟩
  | .pvs v x => ⟨⟨key, param, some v, some x, none⟩, none⟩

/-- `ParameterChange2` (handle.rs 345–353). -/
structure Builder (V S : Type) where
  key : Nat
  param : Nat
  value : Option (PVal V)
  smoothing : Option S
  token : Option Nat
  time : Option STime
  wasSent : Bool
  deriving DecidableEq, Repr

/-- The methods of `ParameterChange2` that give it back. -/
inductive BOp (V S : Type) where
  | trig
  | value (v : PVal V)
  | smooth (x : S)
  | token (t : Nat)
  | after (s : Seconds)
  | at (t : STime)
  deriving DecidableEq, Repr

/-- handle.rs 356–387. -/
def Builder.step {V S : Type} (b : Builder V S) : BOp V S → Builder V S
  | .trig => { b with value := some .trigger }
  | .value v => { b with value := some v }
  | .smooth x => { b with smoothing := some x }
  | .token t => { b with token := some t }
  | .after s => { b with time := some (timeAfter s) }
  | .at t => { b with time := some (toAbsolute t) }

/-- The event made from the fields (handle.rs 392–399, 405–412). -/
def Builder.event {V S : Type} (b : Builder V S) : Ev V S :=
  ⟨⟨b.key, b.param, b.value, b.smoothing, b.token⟩, b.time⟩

/-- `take` of the token and the time when the event is made (handle.rs 397–398). -/
def Builder.taken {V S : Type} (b : Builder V S) : Builder V S := { b with token := none, time := none }

/-- `Drop::drop` (handle.rs 402–417): the events that are sent. -/
def Builder.drop {V S : Type} (b : Builder V S) : List (Ev V S) := if b.wasSent then [] else [b.event]

/-- `send` (handle.rs 389–400): the events that are sent, at the end the value is dropped. -/
def Builder.send {V S : Type} (b : Builder V S) : List (Ev V S) :=
  let b := { b with wasSent := true }
  b.event :: b.taken.drop

/-- The channel of a graph: the ring buffer (`rtrb`), whether its consumer was dropped, and the flag `freed` of the
`GraphGen` (graph_gen.rs 43). -/
structure Chan (V S : Type) where
  ring : List (Ev V S)
  cap : Nat
  abandoned : Bool
  freed : Bool
  deriving DecidableEq, Repr

/-- `Graph::new` (graph.rs 229–232). -/
def Chan.init (V S : Type) (cap : Nat) : Chan V S := ⟨[], cap, false, false⟩

/-- The errors of `send` (handle.rs 55–68). -/
inductive SendErr where
  | graphWasFreed | pushChange
  deriving DecidableEq, Repr

/-- `SchedulingChannelSender::send` (handle.rs 47–76). -/
def Chan.send {V S : Type} (ch : Chan V S) (e : Ev V S) : Chan V S × Except SendErr Unit :=
  if ch.abandoned then (ch, .error .graphWasFreed)
  else if ch.ring.length < ch.cap then ({ ch with ring := ch.ring ++ [e] }, .ok ())
  else (ch, .error .pushChange)

/-- `is_alive` (handle.rs 79–86), also `can_send`. -/
def Chan.isAlive {V S : Type} (ch : Chan V S) : Bool := !ch.abandoned

/-- The start of `GraphGen::process_block` (graph_gen.rs 87–92, 143–147): a freed graph reads nothing, otherwise all
events in the ring are read. -/
def Chan.block {V S : Type} (ch : Chan V S) : Chan V S × List (Ev V S) :=
  if ch.freed then (ch, []) else ({ ch with ring := [] }, ch.ring)

/-- What can happen to the channel of a graph, in any order. -/
inductive Op (V S : Type) where
  /-- a method of a `Parameter` for parameter `param` of node `key` -/
  | call (key param : Nat) (m : Method V S)
  /-- `HandleTrait::set` -/
  | set (key param : Nat) (t : Tuple V S)
  /-- a block on the audio thread -/
  | block
  /-- a unit generator asks for the graph to be removed: `freed` is set at the end of a block (graph_gen.rs 227–238) -/
  | free
  /-- the `GraphGen` is dropped -/
  | drop
  deriving DecidableEq, Repr

/-- The event an operation sends. -/
def Op.event? {V S : Type} : Op V S → Option (Ev V S)
  | .call key param m => some (m.event key param)
  | .set key param t => some (t.event key param)
  | _ => none

/-- One operation: the new channel, the result for the caller, the events a block receives. -/
def Chan.step {V S : Type} (ch : Chan V S) (o : Op V S) :
    Chan V S × Option (Except SendErr Unit) × Option (List (Ev V S)) :=
  match o with
  | .call key param m => ((ch.send (m.event key param)).1, some (ch.send (m.event key param)).2, none)
  | .set key param t => ((ch.send (t.event key param)).1, some (ch.send (t.event key param)).2, none)
  | .block => (ch.block.1, none, some ch.block.2)
  | .free => ({ ch with freed := true }, none, none)
  | .drop => ({ ch with abandoned := true, ring := [] }, none, none)

/-- A run: the channel at the end, the results, and what the blocks received. -/
def Chan.run {V S : Type} : Chan V S → List (Op V S) → Chan V S × List (Option (Except SendErr Unit)) × List (List (Ev V S))
  | ch, [] => (ch, [], [])
  | ch, o :: os =>
    let s := ch.step o
    let r := Chan.run s.1 os
    (r.1, s.2.1 :: r.2.1, s.2.2.toList ++ r.2.2)

end Verif.Ph
