import Verif.Model.Smooth
import Verif.Model.Done

/-!
# Envelopes

`knaster_core_dsp/src/ugens/envelopes.rs`: `EnvAsr` (19–163), `EnvAr` (174–303) and `Envelope` (359–527).

Samples and times are rationals; rounding is not modelled.  `EnvAsr` and `EnvAr` divide only by times that are not zero and
a sample rate that is not zero.  In `Envelope` the reciprocal of a duration of zero is not finite (`none`).
-/

namespace Verif.Env

open Verif.Sm (F)
open Verif.Dn (Call)

/-- `AsrState` (envelopes.rs 10–16). -/
inductive AsrState where
  | stopped
  | attacking
  | sustaining
  | releasing
  deriving DecidableEq

/-- `EnvAsr` (envelopes.rs 20–30). -/
structure Asr where
  state : AsrState
  t : Rat
  attackSeconds : Rat
  attackRate : Rat
  releaseSeconds : Rat
  releaseRate : Rat
  releaseScale : Rat
  deriving DecidableEq

/-- `EnvAsr::new` (envelopes.rs 35–45). -/
def Asr.new (attack release : Rat) : Asr := ⟨.stopped, 0, attack, 1, release, 1, 1⟩

/-- The rate for a time (e.g. envelopes.rs 89–95). -/
def rateOf (seconds : Rat) (sr : Nat) : Rat := if seconds = 0 then 1 else 1 / (seconds * sr)

/-- `init` (envelopes.rs 133–149). -/
def Asr.init (e : Asr) (sr : Nat) : Asr :=
  let e := if e.attackRate = 1 then { e with attackRate := rateOf e.attackSeconds sr } else e
  if e.releaseRate = 1 then { e with releaseRate := rateOf e.releaseSeconds sr } else e

/-- `attack_time` (envelopes.rs 85–96). -/
def Asr.setAttack (e : Asr) (sr : Nat) (seconds : Rat) : Asr :=
  if e.attackSeconds = seconds then e else { e with attackSeconds := seconds, attackRate := rateOf seconds sr }

/-- `release_time` (envelopes.rs 99–110). -/
def Asr.setRelease (e : Asr) (sr : Nat) (seconds : Rat) : Asr :=
  if e.releaseSeconds = seconds then e else { e with releaseSeconds := seconds, releaseRate := rateOf seconds sr }

/-- `t_release` (envelopes.rs 113–127). -/
def Asr.release (e : Asr) : Asr :=
  match e.state with
  | .stopped => e
  | .attacking => { e with releaseScale := e.t, state := .releasing, t := 1 }
  | .sustaining => { e with releaseScale := 1, state := .releasing, t := 1 }
  | .releasing => e

/-- `t_restart` (envelopes.rs 48–50, 130–132). -/
def Asr.restart (e : Asr) : Asr := { e with state := .attacking }

/-- `next_sample` (envelopes.rs 53–82): the new state, the output and whether the envelope reports being done. -/
def Asr.next (e : Asr) : Asr × Rat × Bool :=
  match e.state with
  | .stopped => (e, 0, false)
  | .attacking =>
    let t := e.t + e.attackRate
    (if 1 ≤ t then { e with t := t, state := .sustaining } else { e with t := t }, e.t, false)
  | .sustaining => (e, 1, false)
  | .releasing =>
    let t := e.t - e.releaseRate
    if t ≤ 0 then ({ e with state := .stopped, t := 0 }, e.t ^ 3 * e.releaseScale, true)
    else ({ e with t := t }, e.t ^ 3 * e.releaseScale, false)

/-- `process_block` (envelopes.rs 156–160) from frame `i` on: output and calls on the flags. -/
def Asr.block (e : Asr) (i : Nat) : Nat → Asr × List Rat × List Call
  | 0 => (e, [], [])
  | n + 1 =>
    let r := e.next
    let r' := Asr.block r.1 (i + 1) n
    (r'.1, r.2.1 :: r'.2.1, (if r.2.2 then [.done i] else []) ++ r'.2.2)

/-- The default `process_block` (ugen.rs 263–285) calling `process` (envelopes.rs 151–154) for each frame, as under wrappers
without a block processing of their own such as `WrArParams`. -/
def Asr.frames (e : Asr) : Nat → Asr × List Rat × List Call
  | 0 => (e, [], [])
  | n + 1 =>
    let r := e.next
    let r' := Asr.frames r.1 n
    (r'.1, r.2.1 :: r'.2.1, (if r.2.2 then [.done 0] else []) ++ r'.2.2)

/-- `ArState` (envelopes.rs 165–170). -/
inductive ArState where
  | stopped
  | attacking
  | releasing
  deriving DecidableEq

/-- `EnvAr` (envelopes.rs 174–183). -/
structure Ar where
  state : ArState
  t : Rat
  attackSeconds : Rat
  attackRate : Rat
  releaseSeconds : Rat
  releaseRate : Rat
  releaseScale : Rat
  deriving DecidableEq

/-- `EnvAr::new` (envelopes.rs 187–197). -/
def Ar.new (attack release : Rat) : Ar := ⟨.stopped, 0, attack, 1, release, 1, 1⟩

/-- `init` (envelopes.rs 264–280). -/
def Ar.init (e : Ar) (sr : Nat) : Ar :=
  let e := if e.attackRate = 1 then { e with attackRate := rateOf e.attackSeconds sr } else e
  if e.releaseRate = 1 then { e with releaseRate := rateOf e.releaseSeconds sr } else e

/-- `attack_time` (envelopes.rs 233–244). -/
def Ar.setAttack (e : Ar) (sr : Nat) (seconds : Rat) : Ar :=
  if e.attackSeconds = seconds then e else { e with attackSeconds := seconds, attackRate := rateOf seconds sr }

/-- `release_time` (envelopes.rs 246–257). -/
def Ar.setRelease (e : Ar) (sr : Nat) (seconds : Rat) : Ar :=
  if e.releaseSeconds = seconds then e else { e with releaseSeconds := seconds, releaseRate := rateOf seconds sr }

/-- `t_restart` (envelopes.rs 200–202, 259–262). -/
def Ar.restart (e : Ar) : Ar := { e with state := .attacking }

/-- `next_sample` (envelopes.rs 205–231). -/
def Ar.next (e : Ar) : Ar × Rat × Bool :=
  match e.state with
  | .stopped => (e, 0, false)
  | .attacking =>
    let t := e.t + e.attackRate
    (if 1 ≤ t then { e with t := 1, state := .releasing, releaseScale := 1 } else { e with t := t }, e.t, false)
  | .releasing =>
    let t := e.t - e.releaseRate
    if t ≤ 0 then ({ e with state := .stopped, t := 0 }, e.t ^ 3 * e.releaseScale, true)
    else ({ e with t := t }, e.t ^ 3 * e.releaseScale, false)

/-! ### `Envelope` -/

/-- `EnvelopeSegment` (envelopes.rs 323–328). -/
structure Seg where
  dur : Rat
  value : Rat
  deriving DecidableEq

/-- `reciprocal_duration` (envelopes.rs 333). -/
def Seg.recip (s : Seg) : F := if s.dur = 0 then none else some (1 / s.dur)

/-- `EnvelopeState` (envelopes.rs 351–357). -/
inductive State where
  | stopped
  | running (seg : Nat) (time : Rat)
  deriving DecidableEq

/-- `Envelope` (envelopes.rs 360–370); the field `current_segment` is written but never read. -/
structure Seq where
  state : State
  segs : List Seg
  start : Rat
  from_ : F
  timeScale : Rat
  baseScale : Rat
  looping : Bool
  deriving DecidableEq

/-- `Envelope::new` (envelopes.rs 373–385) and the builder methods. -/
def Seq.new (start : Rat) (segs : List Seg) (timeScale : Rat) (looping : Bool) : Seq :=
  ⟨.stopped, segs, start, some start, timeScale, 0, looping⟩

/-- `init` (envelopes.rs 404–406). -/
def Seq.init (e : Seq) (sr : Nat) : Seq := { e with baseScale := 1 / sr }

/-- The interpolated value (e.g. envelopes.rs 424–428). -/
def interp (from_ : F) (t : Rat) (s : Seg) : F :=
  from_.add ((F.mul (some t) s.recip).mul (F.sub (some s.value) from_))

/-- `process` (envelopes.rs 408–463): the new state, the output and whether the envelope reports being done. -/
def Seq.next (e : Seq) : R (Seq × F × Bool) :=
  match e.state with
  | .stopped => .ok (e, e.from_, false)
  | .running k t =>
    match e.segs[k]? with
    | none => .error .index
    | some s =>
      if t < s.dur then
        .ok ({ e with state := .running k (t + e.timeScale * e.baseScale) }, interp e.from_ t s, false)
      else if k + 1 < e.segs.length then
        .ok ({ e with from_ := some s.value, state := .running (k + 1) (t - s.dur + e.timeScale * e.baseScale) },
          interp (some s.value) t s, false)
      else if e.looping then
        .ok ({ e with from_ := some s.value, state := .running 0 0 }, some s.value, false)
      else
        .ok ({ e with from_ := some s.value, state := .stopped }, some s.value, true)

/-- Parameter 0, `time_scale` (envelopes.rs 480–482). -/
def Seq.setTimeScale (e : Seq) (x : Rat) : Seq := { e with timeScale := x }

/-- Parameter 1, `jump_to_segment` (envelopes.rs 483–505). -/
def Seq.jump (e : Seq) (k : Nat) : R Seq :=
  if e.segs.length ≤ k then
    if e.segs.length = 0 then .error .overflow
    else .ok { e with state := .running (e.segs.length - 1) 0 }
  else .ok { e with state := .running k 0 }

/-- Parameter 2, `t_restart` (envelopes.rs 506–512). -/
def Seq.restart (e : Seq) : Seq := { e with state := .running 0 0, from_ := some e.start }

/-- Parameter 3, `t_stop` (envelopes.rs 513–525). -/
def Seq.stop (e : Seq) : R Seq :=
  match e.state with
  | .stopped => .ok e
  | .running k t => match e.segs[k]? with
    | none => .error .index
    | some s => .ok { e with from_ := interp e.from_ t s, state := .stopped }

/-- The default `process_block` (ugen.rs 263–285): every report of being done names frame 0 (envelopes.rs 457). -/
def Seq.block (e : Seq) : Nat → R (Seq × List F × List Call)
  | 0 => .ok (e, [], [])
  | n + 1 => match e.next with
    | .error p => .error p
    | .ok (e', o, d) => match Seq.block e' n with
      | .error p => .error p
      | .ok (e'', os, cs) => .ok (e'', o :: os, (if d then [.done 0] else []) ++ cs)

end Verif.Env
