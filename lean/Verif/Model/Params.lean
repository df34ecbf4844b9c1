import Verif.Basic
import Verif.Model.Smooth

/-!
# Parameters: names, indices, value kinds (knaster_core/src/parameters.rs, parameters/types.rs, ugen.rs,
knaster_macros/src/lib.rs, knaster_core_dsp/src/wrappers_core, knaster_graph/src/{graph,handle,graph_edit}.rs)

The Rust *type* of a unit generator with its wrappers is a `Shape`: it fixes the descriptions and kinds of the
parameters.  The *value* is a `Unit`: the same tree with the state of the wrappers.  `apply`, `setDelay` and
`link` are the three parameter methods of the trait `UGen`; `block` is what processing a block does with the
parameters.

Simplifications: `f32`, `f64` and `PFloat` parameters are one kind; the float argument is a rational or
non-finite (`Verif.Sm.F`).  Log messages are the call `log`, without their text.  What a parameter method does
inside a unit generator is only recorded as a call (`Call`).
-/

namespace Verif.Pa

/-- `ParameterValue` (parameters/types.rs 25–36). `smoothing d ar`: `ParameterSmoothing::None` (`d = none`) or
`Linear(d)`, with `Rate::AudioRate` if `ar`. -/
inductive Val where
  | float (v : Sm.F)
  | trigger
  | integer (n : Nat)
  | bool (b : Bool)
  | smoothing (linear : Option Rat) (audioRate : Bool)
  deriving DecidableEq

/-- `ParameterType` (parameters/types.rs 10–20). -/
inductive Kind where
  | float | trigger | integer | bool
  deriving DecidableEq, Repr

/-- The value a generated parameter method is called with (macros lib.rs 599–607): the value is unwrapped with
`expect`, a method without value argument (trigger) accepts anything. -/
def Val.arg : Kind → Val → Option Val
  | .float, .float v => some (.float v)
  | .integer, .integer n => some (.integer n)
  | .bool, .bool b => some (.bool b)
  | .trigger, _ => some .trigger
  | _, _ => none

/-- `if let ParameterValue::Smoothing(_, _) = _value` (macros lib.rs 758). -/
def Val.isSmoothing : Val → Bool
  | .smoothing _ _ => true
  | _ => false

/-- The type of a unit generator with its wrappers. -/
inductive Shape where
  /-- a unit generator written with `#[impl_ugen]` -/
  | ugen (ps : List (String × Kind))
  /-- `Envelope` (envelopes.rs 460–475) -/
  | envelope
  /-- `Galactic` (galactic.rs 100–121) -/
  | galactic
  /-- `WrAdd`, `WrSub`, `WrVSub`, `WrDiv`, `WrVDiv`, `WrPowf`, `WrPowi` (wrappers_core/math.rs),
  `WrClosure` (closure.rs): everything is passed on -/
  | plain (u : Shape)
  /-- `WrArParamToInput` (audio_rate.rs 87–173): only parameter changes are passed on -/
  | arInput (u : Shape)
  /-- `WrMul` (math.rs 20–125) -/
  | mul (u : Shape)
  /-- `WrDone` (knaster_graph/src/wrappers_graph/done.rs) -/
  | done (u : Shape)
  /-- `WrSmoothParams` (smooth_params.rs) -/
  | smooth (u : Shape)
  /-- `WrPreciseTiming` (precise_timing.rs), with room for that many changes in a block -/
  | precise (cap : Nat) (u : Shape)
  /-- `WrArParams` (audio_rate.rs 1–85) -/
  | ar (u : Shape)
  deriving DecidableEq, Repr

/-- `param_descriptions` together with `param_hints` (macros lib.rs 739–750; envelopes.rs 464–475;
galactic.rs 107–120; math.rs 70–90; done.rs 94–112; audio_rate.rs 62–68, 160–166; precise_timing.rs 118–124;
smooth_params.rs 192–198). -/
def Shape.params : Shape → List (String × Kind)
  | .ugen ps => ps
  | .envelope => [("time_scale", .float), ("jump_to_segment", .integer), ("t_restart", .trigger), ("t_stop", .trigger)]
  | .galactic => [("replace", .float), ("detune", .float), ("brightness", .float), ("bigness", .float), ("wet", .float)]
  | .plain u | .arInput u | .smooth u | .precise _ u | .ar u => u.params
  | .mul u => u.params ++ [("wr_mul", .float)]
  | .done u => u.params ++ [("done_action", .integer)]

/-- A unit generator with its wrappers and the wrappers' state. -/
inductive Unit where
  | ugen (ps : List (String × Kind))
  | envelope (segments : Nat)
  | galactic
  | plain (u : Unit)
  | arInput (u : Unit)
  | mul (value : Sm.F) (u : Unit)
  | done (action : Nat) (u : Unit)
  /-- per parameter: `parameters[i]` is `Rate::AudioRate`, and `smoothing_state[i]` -/
  | smooth (st : List (Bool × Sm.St)) (u : Unit)
  /-- `next_delay` and the used slots of `waiting_changes` -/
  | precise (cap : Nat) (delay : List Nat) (waiting : List (Nat × Nat × Val)) (u : Unit)
  /-- `buffers[i].is_some()` -/
  | ar (linked : List Bool) (u : Unit)
  deriving DecidableEq

/-- The type of a value. -/
def Unit.shape : Unit → Shape
  | .ugen ps => .ugen ps
  | .envelope _ => .envelope
  | .galactic => .galactic
  | .plain u => .plain u.shape
  | .arInput u => .arInput u.shape
  | .mul _ u => .mul u.shape
  | .done _ u => .done u.shape
  | .smooth _ u => .smooth u.shape
  | .precise cap _ _ u => .precise cap u.shape
  | .ar _ u => .ar u.shape

/-- A newly wrapped unit generator: `WrSmoothParams::new` (smooth_params.rs 18–29), `WrPreciseTiming::new`
(precise_timing.rs 24–40), `WrArParams::new` (audio_rate.rs 20–30), `WrDone::new` (done.rs). -/
def Unit.new : Shape → Unit
  | .ugen ps => .ugen ps
  | .envelope => .envelope 1
  | .galactic => .galactic
  | .plain u => .plain (Unit.new u)
  | .arInput u => .arInput (Unit.new u)
  | .mul u => .mul (some 1) (Unit.new u)
  | .done u => .done 0 (Unit.new u)
  | .smooth u => .smooth (List.replicate u.params.length (false, Sm.St.init)) (Unit.new u)
  | .precise cap u => .precise cap (List.replicate u.params.length 0) [] (Unit.new u)
  | .ar u => .ar (List.replicate u.params.length false) (Unit.new u)

/-- What happens inside the units: the method of parameter `i` runs, the factor of `WrMul` or the action of
`WrDone` is set, something is logged. -/
inductive Call where
  | param (i : Nat) (v : Val)
  | mulValue (v : Sm.F)
  | doneAction (n : Nat)
  | log
  deriving DecidableEq

/-- `param_apply` of the generated code (macros lib.rs 752–767): a smoothing setting is logged as an error but
the method is called all the same. -/
def applyUGen (ps : List (String × Kind)) (i : Nat) (v : Val) : R (List Call) :=
  let logs := if v.isSmoothing then [Call.log] else []
  match ps[i]? with
  | none => .ok (logs ++ [.log])
  | some p =>
    match v.arg p.2 with
    | none => .error .unwrap
    | some w => .ok (logs ++ [.param i w])

/-- `Envelope::param_apply` (envelopes.rs 476–519), as far as it can panic. -/
def applyEnvelope (segments i : Nat) (v : Val) : R (List Call) :=
  match i, v with
  | 0, .float x => .ok [.param 0 (.float x)]
  | 0, _ => .error .unwrap
  | 1, .integer n =>
    if n < segments then .ok [.param 1 (.integer n)]
    else if segments = 0 then .error .overflow
    else .ok [.param 1 (.integer (segments - 1))]
  | 1, _ => .error .unwrap
  | 2, _ => .ok [.param 2 .trigger]
  | 3, _ => .ok [.param 3 .trigger]
  | _, _ => .ok []

/-- `Galactic::param_apply` (galactic.rs 122–136). -/
def applyGalactic (i : Nat) (v : Val) : R (List Call) :=
  if i < 5 then
    match v with
    | .float x => .ok [.param i (.float x)]
    | _ => .error .unwrap
  else .ok []

/-- `(new_duration as f64 * sample_rate) as usize` (smooth_params.rs 54). -/
def frames (sr : Nat) (d : Rat) : Nat := (d * sr).floor.toNat

/-- `WrSmoothParams::set_smoothing` (smooth_params.rs 31–101). -/
def setSmoothing (sr : Nat) (linear : Option Rat) (ar : Bool) (s : Sm.St) : Sm.St :=
  match linear with
  | none => Sm.smoothNone s
  | some d => Sm.smoothLinear (frames sr d) ar s

/-- `param_apply` (math.rs 92–98, 174–176; audio_rate.rs 70–74, 168–170; precise_timing.rs 126–135;
smooth_params.rs 200–245; done.rs 114–120; closure.rs 67–69). -/
def Unit.apply (sr : Nat) : Unit → Nat → Val → R (Unit × List Call)
  | .ugen ps, i, v => do return (.ugen ps, ← applyUGen ps i v)
  | .envelope n, i, v => do return (.envelope n, ← applyEnvelope n i v)
  | .galactic, i, v => do return (.galactic, ← applyGalactic i v)
  | .plain u, i, v => do
    let r ← u.apply sr i v
    return (.plain r.1, r.2)
  | .arInput u, i, v => do
    let r ← u.apply sr i v
    return (.arInput r.1, r.2)
  | .mul f u, i, v =>
    if i = u.shape.params.length then
      match v with
      | .float x => .ok (.mul x u, [.mulValue x])
      | _ => .error .unwrap
    else do
      let r ← u.apply sr i v
      return (.mul f r.1, r.2)
  | .done a u, i, v =>
    if i = u.shape.params.length then
      match v with
      | .integer n => .ok (.done n u, [.doneAction n])
      | _ => .error .unwrap
    else do
      let r ← u.apply sr i v
      return (.done a r.1, r.2)
  | .smooth st u, i, v =>
    match st[i]? with
    | none => .ok (.smooth st u, [])
    | some p =>
      match v with
      | .float x =>
        if p.1 then .ok (.smooth st u, [])
        else
          match p.2 with
          | .none _ => do
            let r ← u.apply sr i (.float x)
            return (.smooth st r.1, r.2)
          | s => .ok (.smooth (st.set i (p.1, (Sm.set x s).1)) u, [])
      | .smoothing lin rt => .ok (.smooth (st.set i (p.1, setSmoothing sr lin rt p.2)) u, [])
      | v => do
        let r ← u.apply sr i v
        return (.smooth st r.1, r.2)
  | .precise cap ds w u, i, v =>
    match ds[i]? with
    | none => .error .index
    | some d =>
      if d = 0 then do
        let r ← u.apply sr i v
        return (.precise cap ds w r.1, r.2)
      else if w.length < cap then .ok (.precise cap ds (w ++ [(d, i, v)]) u, [])
      else .ok (.precise cap ds w u, [.log])
  | .ar l u, i, v =>
    match l[i]? with
    | none => .error .index
    | some true => .ok (.ar l u, [])
    | some false => do
      let r ← u.apply sr i v
      return (.ar l r.1, r.2)

/-- `set_delay_within_block_for_param` (ugen.rs 330–341 default: only logs; math.rs 119–122 and the same in
the other arithmetic wrappers; closure.rs; precise_timing.rs 146–148). `WrDone`, `WrSmoothParams`,
`WrArParams` and `WrArParamToInput` keep the default. -/
def Unit.setDelay : Unit → Nat → Nat → R (Unit × List Call)
  | .plain u, i, d => do
    let r ← u.setDelay i d
    return (.plain r.1, r.2)
  | .mul f u, i, d => do
    let r ← u.setDelay i d
    return (.mul f r.1, r.2)
  | .precise cap ds w u, i, d =>
    if i < ds.length then .ok (.precise cap (ds.set i d) w u, []) else .error .index
  | u, _, _ => .ok (u, [.log])

/-- `set_ar_param_buffer` (ugen.rs 310–329 default: only logs; math.rs 99–118; closure.rs;
precise_timing.rs 137–144; audio_rate.rs 76–84). `WrDone`, `WrSmoothParams` and `WrArParamToInput` keep the
default. -/
def Unit.link : Unit → Nat → R (Unit × List Call)
  | .plain u, i => do
    let r ← u.link i
    return (.plain r.1, r.2)
  | .mul f u, i => do
    let r ← u.link i
    return (.mul f r.1, r.2)
  | .precise cap ds w u, i => do
    let r ← u.link i
    return (.precise cap ds w r.1, r.2)
  | .ar l u, i => if i < l.length then .ok (.ar (l.set i true) u, []) else .error .index
  | u, _ => .ok (u, [.log])

/-- Apply several changes one after the other. -/
def Unit.applyAll (sr : Nat) : Unit → List (Nat × Val) → R (Unit × List Call)
  | u, [] => .ok (u, [])
  | u, c :: cs => do
    let r ← u.apply sr c.1 c.2
    let r' ← Unit.applyAll sr r.1 cs
    return (r'.1, r.2 ++ r'.2)

/-- The changes `WrSmoothParams` sends to the unit generator at the start of a block of `bs` frames
(smooth_params.rs 115–129, 179–188). -/
def smoothChanges (bs : Nat) (st : List (Bool × Sm.St)) : List (Nat × Val) :=
  (List.range st.length).filterMap fun i : Nat =>
    match st[i]? with
    | some p => ((Sm.next bs 0 p.2).2).map fun x => (i, Val.float x)
    | none => none

/-- The changes `WrArParams` sends before a frame (audio_rate.rs 44–57), `mem i` being the sample of the
buffer linked to parameter `i`. -/
def arChanges (mem : Nat → Sm.F) (l : List Bool) : List (Nat × Val) :=
  (List.range l.length).filterMap fun i : Nat =>
    match l[i]? with
    | some true => some (i, Val.float (mem i))
    | _ => none

/-- What processing a block does to the parameters of the units, from the outermost wrapper inwards: the
wrappers send the changes they are responsible for.  For `WrPreciseTiming` these are the changes waiting, in
the order of their slots (all delays are shorter than a block, precise_timing.rs 59–115; which of them really
come through is `C30`); for `WrArParams` and `WrSmoothParams` one round is modelled, which is repeated for
every frame with other values. -/
def blockS (sr bs : Nat) (mem : Nat → Sm.F) : Shape → Unit → R (Unit × List Call)
  | .plain s, .plain u => do
    let r ← blockS sr bs mem s u
    return (.plain r.1, r.2)
  | .arInput s, .arInput u => do
    let r ← blockS sr bs mem s u
    return (.arInput r.1, r.2)
  | .mul s, .mul f u => do
    let r ← blockS sr bs mem s u
    return (.mul f r.1, r.2)
  | .done s, .done a u => do
    let r ← blockS sr bs mem s u
    return (.done a r.1, r.2)
  | .smooth s, .smooth st u => do
    let r ← u.applyAll sr (smoothChanges bs st)
    let r' ← blockS sr bs mem s r.1
    return (.smooth (st.map fun p => (p.1, (Sm.next bs 0 p.2).1)) r'.1, r.2 ++ r'.2)
  | .precise _ s, .precise cap ds w u => do
    let r ← u.applyAll sr (w.map fun c => c.2)
    let r' ← blockS sr bs mem s r.1
    return (.precise cap ds [] r'.1, r.2 ++ r'.2)
  | .ar s, .ar l u => do
    let r ← u.applyAll sr (arChanges mem l)
    let r' ← blockS sr bs mem s r.1
    return (.ar l r'.1, r.2 ++ r'.2)
  | _, u => .ok (u, [])

/-- See `blockS`; the recursion runs over the type of the unit. -/
def Unit.block (sr bs : Nat) (mem : Nat → Sm.F) (u : Unit) : R (Unit × List Call) := blockS sr bs mem u.shape u

/-- What happens to a node on the audio thread. -/
inductive Op where
  | apply (i : Nat) (v : Val)
  | setDelay (i d : Nat)
  | link (i : Nat)
  | block (bs : Nat) (mem : Nat → Sm.F)

/-- One step. -/
def Unit.step (sr : Nat) (u : Unit) : Op → R (Unit × List Call)
  | .apply i v => u.apply sr i v
  | .setDelay i d => u.setDelay i d
  | .link i => u.link i
  | .block bs mem => u.block sr bs mem

/-- Several steps. -/
def Unit.run (sr : Nat) : Unit → List Op → R (Unit × List Call)
  | u, [] => .ok (u, [])
  | u, o :: os => do
    let r ← u.step sr o
    let r' ← Unit.run sr r.1 os
    return (r'.1, r.2 ++ r'.2)

/-! ## Choosing a parameter on the control thread -/

/-- `Param` (parameters.rs 90–95). -/
inductive Param where
  | index (i : Nat)
  | desc (d : String)
  deriving DecidableEq, Repr

/-- The errors of the calls below. -/
inductive Err where
  | wrongGraph
  | nodeNotFound
  | indexOutOfBounds
  | descNotFound
  | graphWasFreed
  | ringFull
  deriving DecidableEq, Repr

/-- `param_descriptions().iter().position(|d| *d == desc)`. -/
def Shape.position (s : Shape) (d : String) : Option Nat := s.params.findIdx? fun p => p.1 == d

/-- `as u16` of a `usize`. -/
def u16 (n : Nat) : Nat := n % 65536

/-- `UGen::param` (ugen.rs 344–368) on the unit generator itself. -/
def Unit.param (sr : Nat) (u : Unit) (p : Param) (v : Val) : R (Except Err (Unit × List Call)) :=
  match p with
  | .index i => if u.shape.params.length ≤ i then .ok (.error .indexOutOfBounds) else do return .ok (← u.apply sr i v)
  | .desc d =>
    match u.shape.position d with
    | some i => do return .ok (← u.apply sr i v)
    | none => .ok (.error .descNotFound)

/-- `SchedulingEvent` (graph_gen.rs / scheduling.rs), without token and time. -/
structure Event where
  node : Nat
  parameter : Nat
  value : Val
  deriving DecidableEq

/-- `SchedulingChannelSender` (handle.rs 39): the ring to the audio thread. -/
structure Sender where
  abandoned : Bool
  cap : Nat
  queue : List Event
  deriving DecidableEq

/-- `SchedulingChannelSender::send` (handle.rs 47–73). -/
def Sender.send (s : Sender) (e : Event) : Sender × Except Err _root_.Unit :=
  if s.abandoned then (s, .error .graphWasFreed)
  else if s.queue.length < s.cap then ({ s with queue := s.queue ++ [e] }, .ok ())
  else (s, .error .ringFull)

/-- The part of `Graph` used by `Graph::set`. -/
structure Gr where
  id : Nat
  nodes : List (Nat × Shape)

/-- `Graph::set` (graph.rs 1348–1396).  The check of the graph id is `!node_id.graph == self.graph_id`, a
bitwise complement; the check of the index is made after a cast to `u16`. -/
def graphSet (g : Gr) (s : Sender) (graph key : Nat) (p : Param) (v : Val) : Sender × Except Err _root_.Unit :=
  if U64 - 1 - graph = g.id then (s, .error .wrongGraph)
  else
    match g.nodes.lookup key with
    | none => (s, .error .nodeNotFound)
    | some n =>
      match p with
      | .index i =>
        if u16 n.params.length ≤ u16 i then (s, .error .indexOutOfBounds) else s.send ⟨key, i, v⟩
      | .desc d =>
        match n.position d with
        | some i => s.send ⟨key, i, v⟩
        | none => (s, .error .descNotFound)

/-- `Handle::set` (handle.rs 221–244) and `AnyHandle::set` (handle.rs 279–301): an index is not checked. -/
def handleSet (n : Shape) (s : Sender) (key : Nat) (p : Param) (v : Val) : Sender × Except Err _root_.Unit :=
  match p with
  | .index i => s.send ⟨key, i, v⟩
  | .desc d =>
    match n.position d with
    | some i => s.send ⟨key, i, v⟩
    | none => (s, .error .descNotFound)

/-- `SH::try_param` (graph_edit.rs 769–796): the index stored in the `Parameter`. -/
def tryParamStatic (n : Shape) : Param → Option Nat
  | .index i => if i < n.params.length then some (u16 i) else none
  | .desc d => (n.position d).map u16

/-- `DH::try_param` (graph_edit.rs 859–886). -/
def tryParamDynamic (n : Shape) : Param → Option Nat
  | .index i => if u16 i < u16 n.params.length then some (u16 i) else none
  | .desc d => (n.position d).map u16

/-- `Parameter::set` (graph_edit.rs 1708–1719) on what `try_param` gave. -/
def paramSet (s : Sender) (key : Nat) (p : Option Nat) (v : Val) : Sender × Option (Except Err _root_.Unit) :=
  match p with
  | none => (s, none)
  | some i => ((s.send ⟨key, i, v⟩).1, some (s.send ⟨key, i, v⟩).2)

/-! ## Enum parameters -/

/-- An enum with `#[derive(KnasterIntegerParameter)]` (macros lib.rs 17–69): the variants with their names and
discriminants, and the position of the default variant.  A value is the position of its variant. -/
structure Enum where
  variants : List (String × Nat)
  dflt : Nat

/-- `From<Enum> for PInteger`: `value as usize` (macros lib.rs 51–55). -/
def Enum.toInt (e : Enum) (v : Nat) : Option Nat := (e.variants[v]?).map fun p => p.2

/-- `From<PInteger> for Enum`: `from_usize(value.0).unwrap_or(default())` (macros lib.rs 46–50). -/
def Enum.ofInt (e : Enum) (n : Nat) : Nat := ((e.variants.findIdx? fun p => p.2 == n)).getD e.dflt

/-- `pinteger_range` (macros lib.rs 57–62). -/
def Enum.range (e : Enum) : Nat × Nat := (0, e.variants.length)

/-- `pinteger_descriptions` (macros lib.rs 36–40, 63–68): by position. -/
def Enum.description (e : Enum) (n : Nat) : Option String := (e.variants[n]?).map fun p => p.1

/-- `PIntegerHint::descriptions` (parameters.rs 214–225), half open; a value without description gets its
decimal digits. -/
def Enum.descriptions (e : Enum) : List (Nat × String) :=
  (List.range' e.range.1 (e.range.2 - e.range.1)).map fun n : Nat => (n, (e.description n).getD (toString n))

/-- The variants numbered automatically from zero, as `repr(u8)` enums without explicit discriminants (or with
`= 0` on the first one). -/
def Enum.auto (names : List String) (dflt : Nat) : Enum := ⟨names.zipIdx, dflt⟩

/-- `Done` (knaster_core/src/lib.rs 72–80). -/
def doneEnum : Enum := .auto ["None", "FreeSelf", "FreeParent"] 0

/-- `SvfFilterType` (svf.rs 19–37). -/
def svfEnum : Enum :=
  .auto ["Low", "High", "Band", "Notch", "Peak", "All", "Bell", "LowShelf", "HighShelf"] 0

/-- `Waveform` (polyblep.rs 90–120). -/
def waveformEnum : Enum :=
  .auto ["Sawtooth", "Sine", "Cosine", "Triangle", "Square", "Rectangle", "Ramp", "ModifiedTriangle",
    "ModifiedSquare", "HalfWaveRectifiedSine", "FullWaveRectifiedSine", "TriangularPulse", "TrapezoidFixed",
    "TrapezoidVariable"] 0

end Verif.Pa
