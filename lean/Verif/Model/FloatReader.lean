import Verif.Model.Ieee
import Verif.Model.Buffer

/-!
# Playing a buffer with rounding

`BufferReader` (`knaster_core_dsp/src/ugens/buffer.rs` 21–147) and the parts of `Buffer` it uses (`knaster_core_dsp/src/dsp/buffer.rs`).
The state is that of `Verif.Model.Buffer`; here every operation on an `f64` is rounded, and `fl` is the rounding of the sample type.
A read outside the buffer is unchecked in the code, which is undefined behaviour, and `Panic.index` here.  Results that overflow, infinities
and NaN are not modelled.
-/

namespace Verif.Fl

open Verif.Bu (Buffer Reader asUsize)

/-- `get_linear_interp_f64` (dsp/buffer.rs 100–110). -/
def bufGet (fl : ℚ → ℚ) (b : Buffer) (index : ℚ) (channel : Nat) : R ℚ :=
  match b.buf[asUsize index * b.nc + channel]? with
  | none => .error .index
  | some x => do
    let i ← modC (asUsize index * b.nc + channel + b.nc) b.buf.length
    match b.buf[i]? with
    | none => .error .index
    | some y => return fl (fl (x * fl (1 - fl (fract index))) + fl (y * fl (fract index)))

/-- `from_secs_f64` followed by `to_samples_f64` (ugens/buffer.rs 87–88, 94–95, 101–102, 112–115). -/
def rdFrames (s sr : ℚ) : ℚ := toSamplesF (fromSecs s) sr

/-- `new` (ugens/buffer.rs 43–58) with `length_seconds` (dsp/buffer.rs 131–133). -/
def rdNew (b : Buffer) (channels : Nat) (rate : ℚ) (looping : Bool) : Reader :=
  ⟨b, channels, 0, rate, 0, false, looping, 0, rnd64 (b.frames / b.sr), rnd64 (b.frames / b.sr)⟩

/-- `init` (ugens/buffer.rs 110–118) with `buf_rate_scale` (dsp/buffer.rs 81–83). -/
def rdInit (r : Reader) (sr : Nat) : Reader :=
  Reader.restart { r with
    base := rnd64 (r.b.sr / sr), start := rdFrames r.start r.b.sr, dur := rdFrames r.dur r.b.sr,
    fin := rnd64 (rdFrames r.start r.b.sr + rdFrames r.dur r.b.sr) }

/-- `start_s` (ugens/buffer.rs 86–90). -/
def rdStartS (r : Reader) (s : ℚ) : Reader :=
  { r with start := rdFrames s r.b.sr, fin := rnd64 (rdFrames s r.b.sr + r.dur) }

/-- `duration_s` (ugens/buffer.rs 93–97). -/
def rdDurS (r : Reader) (s : ℚ) : Reader :=
  { r with dur := rdFrames s r.b.sr, fin := rnd64 (r.start + rdFrames s r.b.sr) }

/-- `end_s` (ugens/buffer.rs 100–103). -/
def rdEndS (r : Reader) (s : ℚ) : Reader := { r with fin := rdFrames s r.b.sr }

/-- The new read pointer (ugens/buffer.rs 137). -/
def rdNext (r : Reader) : ℚ := rnd64 (r.ptr + rnd64 (r.base * r.rate))

/-- Advancing (ugens/buffer.rs 137–145): the new state and whether `mark_done` is called. -/
def rdAdvance (r : Reader) : Reader × Bool :=
  if rdNext r ≥ r.fin then
    if r.looping then (Reader.restart { r with ptr := rdNext r, finished := true }, false)
    else ({ r with ptr := rdNext r, finished := true }, true)
  else ({ r with ptr := rdNext r }, false)

/-- `process` (ugens/buffer.rs 122–147): the new state, the frame and whether `mark_done(0)` is called. -/
def rdProcess (fl : ℚ → ℚ) (r : Reader) : R (Reader × List ℚ × Bool) :=
  if r.finished then .ok (r, List.replicate r.channels 0, false)
  else do
    let o ← (List.range r.channels).mapM (bufGet fl r.b r.ptr)
    return ((rdAdvance r).1, o, (rdAdvance r).2)

/-- What can happen to a reader; the window can be set with `start`, `dur` and `fin`. -/
inductive RdOp where
  | frame
  | rate (v : ℚ)
  | looping (v : Bool)
  | startS (v : ℚ)
  | durS (v : ℚ)
  | endS (v : ℚ)
  | restart
  deriving DecidableEq

/-- One operation and the frame it produces, if it does, with whether the reader is marked done. -/
def rdOp (fl : ℚ → ℚ) (r : Reader) : RdOp → R (Reader × List (List ℚ × Bool))
  | .frame => do
    let x ← rdProcess fl r
    return (x.1, [x.2])
  | .rate v => .ok ({ r with rate := v }, [])
  | .looping v => .ok ({ r with looping := v }, [])
  | .startS v => .ok (rdStartS r v, [])
  | .durS v => .ok (rdDurS r v, [])
  | .endS v => .ok (rdEndS r v, [])
  | .restart => .ok (r.restart, [])

/-- Several operations. -/
def rdRun (fl : ℚ → ℚ) : Reader → List RdOp → R (Reader × List (List ℚ × Bool))
  | r, [] => .ok (r, [])
  | r, o :: os => do
    let x ← rdOp fl r o
    let y ← rdRun fl x.1 os
    return (y.1, x.2 ++ y.2)

end Verif.Fl
