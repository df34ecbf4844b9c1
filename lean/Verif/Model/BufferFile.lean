import Verif.Model.Buffer
import Verif.Model.Ieee

/-!
# Saving and loading buffers, removing an offset (knaster_core_dsp/src/dsp/buffer.rs 134–332)

`save_to_disk`, `from_sound_file` for such a file, and `remove_dc`.

A wave file is what its header says and its samples, which are 16 bit numbers.  The libraries `hound`, which writes the file, and
`symphonia`, which reads it, are trusted to store and give back header and samples; `symphonia` converts a 16 bit sample to `f32` by
dividing it by 32768, which is exact.  Errors of the file system are left out.

Saving rounds: `fl` is the rounding to the sample type.  A number that overflows to infinity is cut off like any large number, so
leaving out overflow changes nothing; samples that are not a number are left out.  `remove_dc` is exact here, with the factor
`F::new(0.999)`, which depends on the sample type, as an argument.
-/

namespace Verif.Bu

open Verif.Os (trunc asU32)
open Verif.Fl (rnd32)

/-- A 16 bit wave file: `WavSpec` (buffer.rs 316–321) and the samples, interleaved. -/
structure Wav where
  channels : Nat
  rate : Nat
  samples : List Int
  deriving DecidableEq

/-- Casting a float to `i16` with `as`: truncates and saturates. -/
def asI16 (x : ℚ) : Int := max (-32768) (min 32767 (trunc x))

/-- One sample (buffer.rs 325–326). -/
def saveSample (fl : ℚ → ℚ) (x : ℚ) : Int := asI16 (rnd32 (fl (x * 32767)))

/-- `save_to_disk` (buffer.rs 315–329). -/
def Buffer.save (fl : ℚ → ℚ) (b : Buffer) : Wav := ⟨b.nc % 65536, asU32 b.sr, b.buf.map (saveSample fl)⟩

/-- One sample as it is read (see above). -/
def loadSample (k : Int) : ℚ := k / 32768

/-- `from_sound_file` (buffer.rs 154–310) for a file as above. -/
def Wav.load (w : Wav) : R Buffer := Buffer.fromVecInterleaved (w.samples.map loadSample) w.channels w.rate

/-- Loading a file and saving it again. -/
def Wav.copy (fl : ℚ → ℚ) (w : Wav) : R Wav := do
  let b ← w.load
  return b.save fl

/-- The same several times. -/
def Wav.copies (fl : ℚ → ℚ) : Nat → Wav → R Wav
  | 0, w => .ok w
  | n + 1, w => do
    let w' ← w.copy fl
    Wav.copies fl n w'

/-- The loop of `remove_dc` (buffer.rs 138–143) from sample `i` on. -/
def dcLoop (r : ℚ) (nc : Nat) : Nat → List ℚ → List ℚ → List ℚ → R (List ℚ)
  | _, _, _, [] => .ok []
  | i, prev, lpf, x :: xs => do
    let c ← modC i nc
    match prev[c]?, lpf[c]? with
    | some p, some l => do
      let ys ← dcLoop r nc (i + 1) (prev.set c x) (lpf.set c (l * r + x - p)) xs
      return (l * r + x - p) :: ys
    | _, _ => .error .index

/-- `remove_dc` (buffer.rs 135–144). -/
def Buffer.removeDc (r : ℚ) (b : Buffer) : R Buffer := do
  let buf ← dcLoop r b.nc 0 (List.replicate b.nc 0) (List.replicate b.nc 0) b.buf
  return { b with buf := buf }

end Verif.Bu
