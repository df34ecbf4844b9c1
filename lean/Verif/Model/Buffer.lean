import Verif.Basic
import Verif.Model.Osc
import Mathlib.Algebra.Order.Field.Rat
import Mathlib.Data.Rat.Floor

/-!
# Sound buffers and their playback

`knaster_core_dsp/src/dsp/buffer.rs` (without loading files) and `knaster_core_dsp/src/ugens/buffer.rs`.

Floats are rationals.  The reads of `get_linear_interp_f64` are unchecked in the code; a read outside the buffer, which is
undefined behaviour there, is `Panic.index` here.
-/

namespace Verif.Bu

open Verif.Os (trunc asU32)

/-- Casting a float to `usize` with `as`. -/
def asUsize (x : Rat) : Nat := min ⌊x⌋.toNat (U64 - 1)

/-- `f64::fract`: has the sign of the number. -/
def fractR (x : Rat) : Rat := x - trunc x

/-- `Buffer` (dsp/buffer.rs 38–45). -/
structure Buffer where
  buf : List Rat
  nc : Nat
  frames : Rat
  sr : Rat
  deriving DecidableEq

/-- `Buffer::new` (dsp/buffer.rs 49–56). -/
def Buffer.new (size nc : Nat) (sr : Rat) : Buffer := ⟨List.replicate size 0, nc, size, sr⟩

/-- `Buffer::from_vec` (dsp/buffer.rs 58–66). -/
def Buffer.fromVec (buf : List Rat) (sr : Rat) : Buffer := ⟨buf, 1, buf.length, sr⟩

/-- `Buffer::from_vec_interleaved` (dsp/buffer.rs 70–78). -/
def Buffer.fromVecInterleaved (buf : List Rat) (nc : Nat) (sr : Rat) : R Buffer := do
  let size ← divC buf.length nc
  return ⟨buf, nc, (size : Rat), sr⟩

/-- `get_linear_interp_f64` (dsp/buffer.rs 100–110). -/
def Buffer.get (b : Buffer) (index : Rat) (channel : Nat) : R Rat :=
  match b.buf[asUsize index * b.nc + channel]? with
  | none => .error .index
  | some x => do
    let i ← modC (asUsize index * b.nc + channel + b.nc) b.buf.length
    match b.buf[i]? with
    | none => .error .index
    | some y => return x * (1 - fractR index) + y * fractR index

/-- `length_seconds` (dsp/buffer.rs 131–133). -/
def Buffer.lengthSeconds (b : Buffer) : Rat := b.frames / b.sr

/-- `get_interleaved` (dsp/buffer.rs 113–117). -/
def Buffer.getInterleaved (b : Buffer) (index : Nat) : R (List Rat) :=
  if index * b.nc + b.nc ≤ b.buf.length then .ok ((b.buf.drop (index * b.nc)).take b.nc) else .error .index

/-- `Seconds::from_secs_f64` (primitives time.rs 59–64) followed by `to_samples_f64` (time.rs 92–96). -/
def toFrames (s sr : Rat) : Rat :=
  (asU32 ⌊s⌋ : Rat) * sr + (asU32 (fractR s * 282240000) : Rat) * sr / 282240000

/-- `Seconds::from_secs_f64` followed by `to_secs_f64` (time.rs 71–74). -/
def toSecs (s : Rat) : Rat := (asU32 ⌊s⌋ : Rat) + (asU32 (fractR s * 282240000) : Rat) / 282240000

/-- `BufferReader` (ugens/buffer.rs 21–35); `channels` is the type parameter `Channels`. -/
structure Reader where
  b : Buffer
  channels : Nat
  ptr : Rat
  rate : Rat
  base : Rat
  finished : Bool
  looping : Bool
  start : Rat
  dur : Rat
  fin : Rat
  deriving DecidableEq

/-- `new` (ugens/buffer.rs 43–58): the window is in seconds until `init`. -/
def Reader.new (b : Buffer) (channels : Nat) (rate : Rat) (looping : Bool) : Reader :=
  ⟨b, channels, 0, rate, 0, false, looping, 0, b.lengthSeconds, b.lengthSeconds⟩

/-- `start_at` (ugens/buffer.rs 69–72). -/
def Reader.startAt (r : Reader) (s : Rat) : Reader := { r with start := toSecs s }

/-- `reset`, `jump_to` and `t_restart` (ugens/buffer.rs 60–67, 106–108). -/
def Reader.restart (r : Reader) : Reader := { r with ptr := r.start, finished := false }

/-- `start_s` (ugens/buffer.rs 86–90). -/
def Reader.startS (r : Reader) (s : Rat) : Reader :=
  { r with start := toFrames s r.b.sr, fin := toFrames s r.b.sr + r.dur }

/-- `duration_s` (ugens/buffer.rs 93–97). -/
def Reader.durS (r : Reader) (s : Rat) : Reader :=
  { r with dur := toFrames s r.b.sr, fin := r.start + toFrames s r.b.sr }

/-- `end_s` (ugens/buffer.rs 100–103). -/
def Reader.endS (r : Reader) (s : Rat) : Reader := { r with fin := toFrames s r.b.sr }

/-- `init` (ugens/buffer.rs 110–118). -/
def Reader.init (r : Reader) (sr : Nat) : Reader :=
  Reader.restart { r with
    base := r.b.sr / sr, start := toFrames r.start r.b.sr, dur := toFrames r.dur r.b.sr,
    fin := toFrames r.start r.b.sr + toFrames r.dur r.b.sr }

/-- Reading all channels at the read pointer (ugens/buffer.rs 133–136, 162–165). -/
def Reader.read (r : Reader) : R (List Rat) := (List.range r.channels).mapM (r.b.get r.ptr)

/-- Advancing (ugens/buffer.rs 137–145, 166–174): the new state and whether `mark_done` is called. -/
def Reader.advance (r : Reader) : Reader × Bool :=
  if r.ptr + r.base * r.rate ≥ r.fin then
    if r.looping then (Reader.restart { r with ptr := r.ptr + r.base * r.rate, finished := true }, false)
    else ({ r with ptr := r.ptr + r.base * r.rate, finished := true }, true)
  else ({ r with ptr := r.ptr + r.base * r.rate }, false)

/-- `process` (ugens/buffer.rs 122–147): the new state, the frame and the argument of `mark_done`. -/
def Reader.process (r : Reader) : R (Reader × List Rat × Option Nat) :=
  if r.finished then .ok (r, List.replicate r.channels 0, none)
  else do
    let o ← r.read
    return (r.advance.1, o, if r.advance.2 then some 0 else none)

/-- The loop of `process_block` (ugens/buffer.rs 161–179) from frame `i` on, with `n` frames left: the new state, the frames that
have been written, the frame to fill from and the argument of `mark_done`. -/
def Reader.loop : Nat → Nat → Reader → R (Reader × List (List Rat) × Option Nat × Option Nat)
  | _, 0, r => .ok (r, [], none, none)
  | i, n + 1, r => do
    let o ← r.read
    if r.advance.1.finished then
      return (r.advance.1, [o], some (i + 1), if r.advance.2 then some (i + 1) else none)
    else do
      let x ← Reader.loop (i + 1) n r.advance.1
      return (x.1, o :: x.2.1, x.2.2.1, x.2.2.2)

/-- `process_block` (ugens/buffer.rs 149–190): `bs` is `ctx.block_size()`, which the loop uses, and `n` is the length of the output
block.  The result is the new state, the frames that have been written, which may be more than the output has, and the argument of
`mark_done`. -/
def Reader.block (r : Reader) (bs n : Nat) : R (Reader × List (List Rat) × Option Nat) :=
  if r.finished then .ok (r, List.replicate n (List.replicate r.channels 0), none)
  else do
    let x ← Reader.loop 0 bs r
    match x.2.2.1 with
    | none => return (x.1, x.2.1, x.2.2.2)
    | some s =>
      if s ≤ n then return (x.1, x.2.1 ++ List.replicate (n - s) (List.replicate r.channels 0), x.2.2.2)
      else .error .index

/-- What can happen to a reader. -/
inductive Op where
  | frame
  | rate (v : Rat)
  | looping (v : Bool)
  | startS (v : Rat)
  | durS (v : Rat)
  | endS (v : Rat)
  | restart
  deriving DecidableEq

/-- One operation and the frame it produces, if it does. -/
def Reader.op (r : Reader) : Op → R (Reader × List (List Rat))
  | .frame => do
    let x ← r.process
    return (x.1, [x.2.1])
  | .rate v => .ok ({ r with rate := v }, [])
  | .looping v => .ok ({ r with looping := v }, [])
  | .startS v => .ok (r.startS v, [])
  | .durS v => .ok (r.durS v, [])
  | .endS v => .ok (r.endS v, [])
  | .restart => .ok (r.restart, [])

/-- Several operations. -/
def Reader.run : Reader → List Op → R (Reader × List (List Rat))
  | r, [] => .ok (r, [])
  | r, o :: os => do
    let x ← r.op o
    let y ← Reader.run x.1 os
    return (y.1, x.2 ++ y.2)

end Verif.Bu
