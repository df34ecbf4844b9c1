import Verif.Model.Ieee
import Verif.Model.Envelope

/-!
# Segment envelopes with rounding

`Envelope` as in `Model/Envelope`, with every result rounded.  The envelope itself always computes in `f64` (`fl` is `rnd64`);
only the output and the time scale parameter go through the sample type (`flo` is `rnd32` or `rnd64`).
Numbers have no upper limit here: the reciprocal of a duration below `2^-1022` would be infinite.
`t_restart` and `jump_to_segment` do not calculate and are those of `Model/Envelope`.
-/

namespace Verif.Fl

open Verif.Env (Seg Seq State)
open Verif.Sm (F)

/-- The interpolated value (e.g. envelopes.rs 425–429) with `reciprocal_duration` (envelopes.rs 331). -/
def segInterp (fl : ℚ → ℚ) (from_ : F) (t : ℚ) (s : Seg) : F :=
  if s.dur = 0 then none
  else from_.map fun x => fl (x + fl (fl (t * fl (1 / s.dur)) * fl (s.value - x)))

/-- `init` (envelopes.rs 403–405). -/
def segInit (fl : ℚ → ℚ) (e : Seq) (sr : Nat) : Seq := { e with baseScale := fl (1 / sr) }

/-- The time of one frame (e.g. envelopes.rs 432). -/
def segDt (fl : ℚ → ℚ) (e : Seq) : ℚ := fl (e.timeScale * e.baseScale)

/-- `process` (envelopes.rs 407–463): the new state, the output and whether the envelope reports being done. -/
def segNext (fl flo : ℚ → ℚ) (e : Seq) : R (Seq × F × Bool) :=
  match e.state with
  | .stopped => .ok (e, e.from_.map flo, false)
  | .running k t =>
    match e.segs[k]? with
    | none => .error .index
    | some s =>
      if t < s.dur then
        .ok ({ e with state := .running k (fl (t + segDt fl e)) }, (segInterp fl e.from_ t s).map flo, false)
      else if k + 1 < e.segs.length then
        .ok ({ e with from_ := some s.value, state := .running (k + 1) (fl (fl (t - s.dur) + segDt fl e)) },
          (segInterp fl (some s.value) t s).map flo, false)
      else if e.looping then
        .ok ({ e with from_ := some s.value, state := .running 0 0 }, some (flo s.value), false)
      else
        .ok ({ e with from_ := some s.value, state := .stopped }, some (flo s.value), true)

/-- Parameter 0, `time_scale` (envelopes.rs 478–480): the number goes through the sample type. -/
def segSetTimeScale (flo : ℚ → ℚ) (e : Seq) (x : ℚ) : Seq := { e with timeScale := flo x }

/-- Parameter 3, `t_stop` (envelopes.rs 511–523). -/
def segStop (fl : ℚ → ℚ) (e : Seq) : R Seq :=
  match e.state with
  | .stopped => .ok e
  | .running k t => match e.segs[k]? with
    | none => .error .index
    | some s => .ok { e with from_ := segInterp fl e.from_ t s, state := .stopped }

end Verif.Fl
