import Verif.Model.Ieee
import Verif.Model.Envelope

/-!
# Envelopes, phases and ramps with rounding

The same functions as in `Model/Envelope`, `Model/Units` (`SinNumeric`) and `Model/Osc` (`Phasor`), with every result
rounded to the sample type.  `fl` is the rounding of the sample type: `rnd32` for `f32`, `rnd64` for `f64`.
`powi(3)` is taken as two multiplications, each rounded (the precision of `powi` is not specified by Rust).
Numbers have no upper limit here; where `f32` would overflow to infinity the comparisons come out the same.
-/

namespace Verif.Fl

open Verif.Env (Asr Ar)

/-- The rate for a time (e.g. envelopes.rs 89–95), all operations rounded. -/
def rateF (fl : ℚ → ℚ) (seconds : ℚ) (sr : Nat) : ℚ := if seconds = 0 then 1 else fl (1 / fl (seconds * fl sr))

/-- `EnvAsr::init` (envelopes.rs 133–149). -/
def asrInit (fl : ℚ → ℚ) (e : Asr) (sr : Nat) : Asr :=
  let e := if e.attackRate = 1 then { e with attackRate := rateF fl e.attackSeconds sr } else e
  if e.releaseRate = 1 then { e with releaseRate := rateF fl e.releaseSeconds sr } else e

/-- `EnvAsr::attack_time` (envelopes.rs 85–96); the parameter is an `f64`. -/
def asrSetAttack (fl : ℚ → ℚ) (e : Asr) (sr : Nat) (seconds : ℚ) : Asr :=
  if e.attackSeconds = fl seconds then e
  else { e with attackSeconds := fl seconds, attackRate := rateF fl (fl seconds) sr }

/-- `EnvAsr::release_time` (envelopes.rs 99–110). -/
def asrSetRelease (fl : ℚ → ℚ) (e : Asr) (sr : Nat) (seconds : ℚ) : Asr :=
  if e.releaseSeconds = fl seconds then e
  else { e with releaseSeconds := fl seconds, releaseRate := rateF fl (fl seconds) sr }

/-- The value while releasing, `t.powi(3) * release_scale` (envelopes.rs 72, 222). -/
def fall (fl : ℚ → ℚ) (t scale : ℚ) : ℚ := fl (fl (fl (t * t) * t) * scale)

/-- `EnvAsr::next_sample` (envelopes.rs 53–82). -/
def asrNext (fl : ℚ → ℚ) (e : Asr) : Asr × ℚ × Bool :=
  match e.state with
  | .stopped => (e, 0, false)
  | .attacking =>
    let t := fl (e.t + e.attackRate)
    (if 1 ≤ t then { e with t := t, state := .sustaining } else { e with t := t }, e.t, false)
  | .sustaining => (e, 1, false)
  | .releasing =>
    let t := fl (e.t - e.releaseRate)
    if t ≤ 0 then ({ e with state := .stopped, t := 0 }, fall fl e.t e.releaseScale, true)
    else ({ e with t := t }, fall fl e.t e.releaseScale, false)

/-- `EnvAr::init` (envelopes.rs 264–280). -/
def arInit (fl : ℚ → ℚ) (e : Ar) (sr : Nat) : Ar :=
  let e := if e.attackRate = 1 then { e with attackRate := rateF fl e.attackSeconds sr } else e
  if e.releaseRate = 1 then { e with releaseRate := rateF fl e.releaseSeconds sr } else e

/-- `EnvAr::attack_time` (envelopes.rs 233–244). -/
def arSetAttack (fl : ℚ → ℚ) (e : Ar) (sr : Nat) (seconds : ℚ) : Ar :=
  if e.attackSeconds = fl seconds then e
  else { e with attackSeconds := fl seconds, attackRate := rateF fl (fl seconds) sr }

/-- `EnvAr::release_time` (envelopes.rs 246–257). -/
def arSetRelease (fl : ℚ → ℚ) (e : Ar) (sr : Nat) (seconds : ℚ) : Ar :=
  if e.releaseSeconds = fl seconds then e
  else { e with releaseSeconds := fl seconds, releaseRate := rateF fl (fl seconds) sr }

/-- `EnvAr::next_sample` (envelopes.rs 205–231). -/
def arNext (fl : ℚ → ℚ) (e : Ar) : Ar × ℚ × Bool :=
  match e.state with
  | .stopped => (e, 0, false)
  | .attacking =>
    let t := fl (e.t + e.attackRate)
    (if 1 ≤ t then { e with t := 1, state := .releasing, releaseScale := 1 } else { e with t := t }, e.t, false)
  | .releasing =>
    let t := fl (e.t - e.releaseRate)
    if t ≤ 0 then ({ e with state := .stopped, t := 0 }, fall fl e.t e.releaseScale, true)
    else ({ e with t := t }, fall fl e.t e.releaseScale, false)

/-- The phase increment of `SinNumeric::freq` (osc.rs 242–244): frequency and sample rate become samples first. -/
def sinInc (fl : ℚ → ℚ) (freq : ℚ) (sr : Nat) : ℚ := fl (fl freq / fl (rnd32 sr))

/-- The phase of `SinNumeric` after a frame (osc.rs 266–270). -/
def sinPhase (fl : ℚ → ℚ) (phase inc : ℚ) : ℚ :=
  let p := fl (phase + inc)
  if 1 < p then fl (p - 1) else p

/-- The step of `Phasor::freq` (osc.rs 192–198) after `init` (osc.rs 200–203), in `f64`. -/
def phasorStep (freq : ℚ) (sr : Nat) : ℚ := rnd64 (freq * rnd64 (1 / sr))

/-- One round of the loop `while phase >= 1 { phase -= 1 }` of `Phasor::process` (osc.rs 207–209). -/
def phasorDown (phase : ℚ) : ℚ := if 1 ≤ phase then rnd64 (phase - 1) else phase

/-- The output of `Phasor::process` (osc.rs 206) for a sample type: the `f64` phase is rounded to it. -/
def phasorOut (fl : ℚ → ℚ) (phase : ℚ) : ℚ := fl phase

end Verif.Fl
