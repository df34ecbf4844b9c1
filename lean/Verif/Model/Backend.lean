import Verif.Model.Block

/-!
# The audio backends (knaster_graph/src/audio_backend/cpal.rs, jack.rs)

The sample loops of the two backends around an arbitrary processor, and what `start_processing` and `stop` do with
the stream or client they hold.

Simplifications: the processor is an arbitrary step function on an arbitrary state that fills its output memory (one
channel after the other); the conversion to the sample type of the device is an arbitrary function; the outcome of
calls into the audio libraries is an argument.
-/

namespace Verif.Be

variable {St S T : Type}

/-- `AudioProcessor` (processor.rs 45–61) as the backends see it. -/
structure Proc (St S : Type) where
  /-- `block_size()` -/
  bs : Nat
  /-- `inputs()` -/
  ins : Nat
  /-- `outputs()` -/
  outs : Nat
  /-- One block: the input channels give the new state and the memory of the output block. -/
  step : St → List (List S) → St × List S

/-- `output_block()` (processor.rs 101–107, 177–179). -/
def Proc.blk (P : Proc St S) : Bk.Blk := .raw 0 P.outs P.bs

/-! ## cpal -/

/-- What the closure of `run` (cpal.rs 148–211) keeps between two callbacks. -/
structure Cp (St S : Type) where
  st : St
  mem : List S
  cnt : Nat

/-- The state `run` starts the stream with (cpal.rs 161–162; the output buffer is zeroed). -/
def Cp.start (P : Proc St S) (st : St) (zero : S) : Cp St S :=
  { st, mem := List.replicate (P.outs * P.bs) zero, cnt := P.bs }

/-- A new block when the last one is used up (cpal.rs 189–193) with `run_without_inputs` (processor.rs 142–148). -/
def Cp.refill (P : Proc St S) (s : Cp St S) : R (Cp St S) :=
  if s.cnt ≥ P.bs then
    if P.ins = 0 then .ok { st := (P.step s.st []).1, mem := (P.step s.st []).2, cnt := 0 } else .error .assert
  else .ok s

/-- One turn of the loop over the frames, for a chunk of `n` samples (cpal.rs 188–202). -/
def Cp.frame (P : Proc St S) (conv : S → T) (n : Nat) (s : Cp St S) : R (Cp St S × List T) := do
  let s ← s.refill P
  let out ← (List.range n).mapM fun c : Nat => do
    let x ← P.blk.read s.mem c s.cnt
    return conv x
  return ({ s with cnt := s.cnt + 1 }, out)

/-- The loop over the frames. -/
def Cp.frames (P : Proc St S) (conv : S → T) : List Nat → Cp St S → R (Cp St S × List T)
  | [], s => .ok (s, [])
  | n :: ns, s => do
    let x ← s.frame P conv n
    let y ← x.1.frames P conv ns
    return (y.1, x.2 ++ y.2)

/-- The sizes of the chunks of `output.chunks_mut(channels)` for `len` samples. -/
def chunks (channels len : Nat) : R (List Nat) :=
  if channels = 0 then .error .assert
  else .ok (List.replicate (len / channels) channels ++ if len % channels = 0 then [] else [len % channels])

/-- One callback with a buffer of `len` samples (cpal.rs 165–204): the samples written. -/
def Cp.callback (P : Proc St S) (conv : S → T) (channels len : Nat) (s : Cp St S) : R (Cp St S × List T) := do
  let cs ← chunks channels len
  s.frames P conv cs

/-- A stream: the callbacks one after the other. -/
def Cp.run (P : Proc St S) (conv : S → T) (channels : Nat) : List Nat → Cp St S → R (Cp St S × List (List T))
  | [], s => .ok (s, [])
  | len :: lens, s => do
    let x ← s.callback P conv channels len
    let y ← x.1.run P conv channels lens
    return (y.1, x.2 :: y.2)

/-- `start_processing` of cpal up to the running stream (cpal.rs 85–100), then the callbacks. -/
def cpalPlay (P : Proc St S) (conv : S → T) (channels : Nat) (zero : S) (st : St) (lens : List Nat) :
    R (List (List T)) :=
  if P.outs ≠ channels then .error .assert
  else do
    let x ← (Cp.start P st zero).run P conv channels lens
    return x.2

/-! ## JACK -/

/-- A floating point number. -/
inductive Fl where
  | nan
  | inf
  | ninf
  | fin (q : Rat)
  deriving DecidableEq, Repr

/-- `x < y` on finite `y`. -/
def Fl.lt : Fl → Rat → Bool
  | .nan, _ => false
  | .inf, _ => false
  | .ninf, _ => true
  | .fin q, y => q < y

/-- `x > y` on finite `y`. -/
def Fl.gt : Fl → Rat → Bool
  | .nan, _ => false
  | .inf, _ => true
  | .ninf, _ => false
  | .fin q, y => q > y

/-- `sample.clamp(-1, 1)`, then `is_nan` (jack.rs 150–155). -/
def Fl.sane (x : Fl) : Fl :=
  let y := if x.lt (-1) then .fin (-1) else if x.gt 1 then .fin 1 else x
  if y = .nan then .fin 0 else y

/-- Copying with `iter().zip(iter_mut())`: as much as both have. -/
def zipCopy {α : Type} (src dst : List α) : List α :=
  src.take dst.length ++ dst.drop src.length

/-- What `JackProcess` keeps (jack.rs 118–124). -/
structure Jk (St : Type) where
  st : St
  input : List (List Fl)

/-- `start_processing` (jack.rs 94–105): the input buffers have the buffer size of the JACK client. -/
def Jk.start (P : Proc St Fl) (jackBs : Nat) (st : St) : Jk St :=
  { st, input := List.replicate P.ins (List.replicate jackBs (.fin 0)) }

/-- What the processor reads through the raw pointers (processor.rs 163–172): `bs` samples of every channel.  Less
memory than that is an access outside of the allocation. -/
def readInputs (bs : Nat) (input : List (List Fl)) : R (List (List Fl)) :=
  input.mapM fun ch => if bs ≤ ch.length then .ok (ch.take bs) else .error .index

/-- One channel of the output (jack.rs 148–161). -/
def Jk.port (P : Proc St Fl) (mem : List Fl) (port : List Fl) (i : Nat) : R (List Fl) := do
  let r ← P.blk.slice mem.length i
  if r.1 + r.2 ≤ mem.length then
    return zipCopy (((mem.drop r.1).take r.2).map Fl.sane) port
  else throw .index

/-- `JackProcess::process` (jack.rs 128–164): the contents of the input ports and what is in the output ports before
the call give what is in the output ports afterwards. -/
def Jk.process (P : Proc St Fl) (s : Jk St) (ins outs : List (List Fl)) : R (Jk St × List (List Fl)) := do
  let input := List.zipWith zipCopy ins s.input
  let x ← readInputs P.bs input
  let r := P.step s.st x
  let out ← (List.range outs.length).mapM fun i : Nat => Jk.port P r.2 (outs.getD i []) i
  return ({ st := r.1, input }, out)

/-- The callbacks one after the other. -/
def Jk.run (P : Proc St Fl) : List (List (List Fl) × List (List Fl)) → Jk St → R (Jk St × List (List (List Fl)))
  | [], s => .ok (s, [])
  | c :: cs, s => do
    let x ← s.process P c.1 c.2
    let y ← x.1.run P cs
    return (y.1, x.2 :: y.2)

/-! ## Starting and stopping -/

/-- `AudioBackendError`, the cases of interest (audio_backend.rs 44–58). -/
inductive Err where
  | alreadyRunning
  | notRunning
  | library
  deriving DecidableEq, Repr

/-- `CpalBackend::stream` (cpal.rs 31): whether there is a stream. -/
structure Cpal where
  stream : Bool
  deriving DecidableEq, Repr

/-- `start_processing` (cpal.rs 85–121); `lib` is the outcome of building and playing the stream. -/
def Cpal.start (b : Cpal) (channelsMatch lib : Bool) : R (Cpal × Except Err Unit) :=
  if b.stream then .ok (b, .error .alreadyRunning)
  else if !channelsMatch then .error .assert
  else if lib then .ok ({ stream := true }, .ok ()) else .ok (b, .error .library)

/-- `stop` (cpal.rs 123–127). -/
def Cpal.stop (_ : Cpal) : Cpal × Except Err Unit := ({ stream := false }, .ok ())

/-- `JackClient` (jack.rs 19–22). -/
inductive Client where
  | passive
  | active
  deriving DecidableEq, Repr

/-- `JackBackend::client` (jack.rs 26). -/
structure Jack where
  client : Option Client
  deriving DecidableEq, Repr

/-- `start_processing` (jack.rs 75–115); `ports` and `activate` are the outcomes of registering the ports and of
`activate_async`, which is unwrapped. -/
def Jack.start (b : Jack) (ports activate : Bool) : R (Jack × Except Err Unit) :=
  match b.client with
  | some .passive =>
    if !ports then .ok ({ client := none }, .error .library)
    else if !activate then .error .unwrap
    else .ok ({ client := some .active }, .ok ())
  | _ => .ok ({ client := none }, .error .alreadyRunning)

/-- `stop` (jack.rs 49–57); `deactivate` is unwrapped. -/
def Jack.stop (b : Jack) (deactivate : Bool) : R (Jack × Except Err Unit) :=
  match b.client with
  | some .active => if deactivate then .ok ({ client := none }, .ok ()) else .error .unwrap
  | _ => .ok ({ client := none }, .error .notRunning)

end Verif.Be
