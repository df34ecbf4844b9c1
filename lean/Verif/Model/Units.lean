import Verif.Model.Wrappers
import Verif.Model.Osc
import Verif.Model.Envelope
import Verif.Model.Done

/-!
# The small unit generators

* `knaster_core_dsp/src/ugens/util.rs`: `DoneOnTrig`, `Constant`, `LogProbe`
* `knaster_core_dsp/src/ugens/dynamics.rs`: `SafetyLimiter`
* `knaster_core_dsp/src/ugens/pan.rs`: `Pan2`
* `knaster_core_dsp/src/ugens/osc.rs` 216–271: `SinNumeric`
* `knaster_core_dsp/src/ugens/math.rs`: `MathUGen`, `Math1UGen`
* the block processing of these, of `SinWt`, `OscWt`, `EnvAsr` and `EnvAr` as unit generators in the sense of
  `Verif.W.UGen`.
-/

namespace Verif.Un

open Verif.W (UGen Frame Block)

/-! ### `DoneOnTrig` -/

/-- What can happen to `DoneOnTrig`. -/
inductive TrigOp where
  | trig
  | frame
  deriving DecidableEq

/-- `DoneOnTrig` (util.rs 9–34): the state is `triggered`; the result says for every frame whether it is marked done. -/
def trigRun : Bool → List TrigOp → List Bool
  | _, [] => []
  | _, .trig :: ops => trigRun true ops
  | t, .frame :: ops => t :: trigRun t ops

/-! ### `LogProbe` -/

/-- `LogProbe::process` (util.rs 91–99): the new `sample_counter` and whether the sample is logged; `between` is
`samples_between_logs`. -/
def probeStep (between counter : Nat) : Nat × Bool :=
  if counter = 0 then (between, true) else (counter - 1, false)

/-- The frames that are logged, of `n` frames from frame `i` on. -/
def probeRun (between : Nat) : Nat → Nat → Nat → List Nat
  | _, _, 0 => []
  | counter, i, n + 1 =>
    let r := probeStep between counter
    (if r.2 then [i] else []) ++ probeRun between r.1 (i + 1) n

/-- `new` and `init` (util.rs 77–88): the counter starts at 0, the distance is the sample rate. -/
def probe (sr n : Nat) : List Nat := probeRun sr 0 0 n

/-! ### `SafetyLimiter` -/

/-- A float, without rounding: a number, an infinity or not a number. -/
inductive Fl where
  | nan
  | posInf
  | negInf
  | fin (x : Rat)
  deriving DecidableEq

/-- `<` of floats. -/
def Fl.lt : Fl → Fl → Bool
  | .nan, _ => false
  | _, .nan => false
  | .negInf, .negInf => false
  | .negInf, _ => true
  | .posInf, _ => false
  | .fin _, .posInf => true
  | .fin _, .negInf => false
  | .fin a, .fin b => a < b

/-- `clamp` of floats. -/
def Fl.clamp (x lo hi : Fl) : Fl := if x.lt lo then lo else if hi.lt x then hi else x

/-- `SafetyLimiter::process` (dynamics.rs 26–31). -/
def limit (x : Fl) : Fl :=
  let s := x.clamp (.fin (-1)) (.fin 1)
  if s = .nan then .fin 0 else s

/-! ### `Pan2` -/

section
variable {K : Type} [Field K]

/-- The functions of the float type; for `Pan2` those of the crate `fastapprox`. -/
structure Fns (K : Type) where
  sin : K → K
  cos : K → K
  pi : K

/-- `Pan2::new`, `pan` (pan.rs 20–31): the stored position. -/
def panPos (pan : K) : K := pan * (1 / 2) + 1 / 2

/-- `Pan2::process` (pan.rs 33–39). -/
def pan2 (F : Fns K) (pos x : K) : K × K :=
  let a := pos * (F.pi / 2)
  (x * F.cos a, x * F.sin a)

/-! ### `SinNumeric` -/

/-- `SinNumeric` (osc.rs 224–228). -/
structure Sin (K : Type) where
  phase : K
  offset : K
  inc : K

/-- `new` (osc.rs 233–239). -/
def Sin.new (freq : K) : Sin K := ⟨freq, 0, 0⟩

/-- `freq` (osc.rs 242–244). -/
def Sin.freq (s : Sin K) (sr : Nat) (f : K) : Sin K := { s with inc := f / sr }

/-- `phase_offset` (osc.rs 247–249). -/
def Sin.phaseOffset (s : Sin K) (o : K) : Sin K := { s with offset := o }

/-- `reset_phase` (osc.rs 252–254). -/
def Sin.reset (s : Sin K) : Sin K := { s with phase := 0 }

/-- `init` (osc.rs 255–263). -/
def Sin.init [DecidableEq K] (s : Sin K) (sr : Nat) : Sin K :=
  { s with inc := if s.inc = 0 then s.phase / sr else s.inc, phase := 0 }

/-- `process` (osc.rs 265–272). -/
def Sin.process [LinearOrder K] (F : Fns K) (s : Sin K) : Sin K × K :=
  let out := F.sin ((s.phase + s.offset) * (2 * F.pi))
  let p := s.phase + s.inc
  ({ s with phase := if 1 < p then p - 1 else p }, out)

/-- What can happen to it after `init`. -/
inductive SinOp (K : Type) where
  | freq (f : K)
  | offset (o : K)
  | reset
  | frame

/-- A history: the state and the output of every frame. -/
def Sin.run [LinearOrder K] (F : Fns K) (sr : Nat) : Sin K → List (SinOp K) → Sin K × List K
  | s, [] => (s, [])
  | s, .freq f :: ops => Sin.run F sr (s.freq sr f) ops
  | s, .offset o :: ops => Sin.run F sr (s.phaseOffset o) ops
  | s, .reset :: ops => Sin.run F sr s.reset ops
  | s, .frame :: ops =>
    let r := s.process F
    let r' := Sin.run F sr r.1 ops
    (r'.1, r.2 :: r'.2)

end

/-! ### Block processing -/

section
variable {S V : Type}

/-- The output slices of a block before processing: they contain what was there before. -/
abbrev Old (S : Type) := Nat → Nat → S

/-- The slice of `n` frames of channel `c`. -/
def Old.slice (old : Old S) (c n : Nat) : List S := (List.range n).map (old c)

/-- `Constant` (util.rs 37–64): the block is filled with the value; `apply` is `value`. -/
def constant (old : Old S) : UGen Unit S S 1 where
  St := S
  frame s _ := (s, fun _ => s)
  block s xs := (s, fun c => (old.slice c xs.length).map fun _ => s)
  apply s i v := if i = 0 then v else s

/-- `Operation::apply` (math.rs 18–85): the loop over the zipped slices writes `out`. -/
def apply2 (f : S → S → S) : List S → List S → List S → List S
  | a :: as, b :: bs, _ :: os => f a b :: apply2 f as bs os
  | _, _, os => os

/-- `Operation1::apply` (math.rs 164–238). -/
def apply1 (f : S → S) : List S → List S → List S
  | a :: as, _ :: os => f a :: apply1 f as os
  | _, os => os

/-- `MathUGen` (math.rs 92–160) with `n` output channels; `z` is `F::ZERO`. -/
def mathU (f : S → S → S) (z : S) (n : Nat) (old : Old S) : UGen (Nat → S) S V n where
  St := Unit
  frame _ x := ((), fun c => (apply2 f [x c] [x (c + n)] [z]).headD z)
  block _ xs := ((), fun c => apply2 f (xs.map (· c)) (xs.map (· (c + n))) (old.slice c xs.length))
  apply s _ _ := s

/-- `Math1UGen` (math.rs 246–303). -/
def math1U (f : S → S) (z : S) (old : Old S) : UGen S S V 1 where
  St := Unit
  frame _ x := ((), fun _ => (apply1 f [x] [z]).headD z)
  block _ xs := ((), fun c => apply1 f xs (old.slice c xs.length))
  apply s _ _ := s

/-- `for out in output[0].iter_mut() { *out = next() }` (osc.rs 78–80, 164–166, envelopes.rs 158–162, 299–301). -/
def fillWith {σ : Type} (next : σ → σ × S) : σ → List S → σ × List S
  | s, [] => (s, [])
  | s, _ :: os =>
    let r := next s
    let r' := fillWith next r.1 os
    (r'.1, r.2 :: r'.2)

/-- A unit generator whose `process` and `process_block` call the same function for each frame. -/
def nextU {σ : Type} (next : σ → σ × S) (apply : σ → Nat → V → σ) (old : Old S) : UGen Unit S V 1 where
  St := σ
  frame s _ := ((next s).1, fun _ => (next s).2)
  block s xs := ((fillWith next s (old.slice 0 xs.length)).1, fun c => (fillWith next s (old.slice c xs.length)).2)
  apply := apply

end

/-- A function that may panic: the panic is kept in the state. -/
def keep {σ S : Type} (f : σ → R (σ × S)) : R σ → R σ × R S
  | .error e => (.error e, .error e)
  | .ok s => match f s with
    | .error e => (.error e, .error e)
    | .ok (s', x) => (.ok s', .ok x)

/-- The parameters of the wavetable oscillators (osc.rs 43–57, 125–140). -/
def wtApply (sr : Nat) (w : R Os.Wt) (i : Nat) (v : Rat) : R Os.Wt :=
  w.map fun w => match i with
    | 0 => w.freq sr v
    | 1 => w.phaseOffset v
    | _ => w.reset

/-- `SinWt` (osc.rs 97–168). -/
def sinWt (t : Os.Table) (sr : Nat) (old : Old (R Rat)) : UGen Unit (R Rat) Rat 1 :=
  nextU (keep (Os.Wt.next t)) (wtApply sr) old

/-- `OscWt` (osc.rs 30–90); the frequency is part of the state. -/
def oscWt (ts : List Os.Table) (sr : Nat) (old : Old (R Rat)) : UGen Unit (R Rat) Rat 1 :=
  nextU (σ := R (Os.Wt × Rat))
    (keep fun w => (Os.Wt.nextAa ts w.2 w.1).map fun r => ((r.1, w.2), r.2))
    (fun w i v => w.map fun w => match i with
      | 0 => (w.1.freq sr v, v)
      | 1 => (w.1.phaseOffset v, w.2)
      | _ => (w.1.reset, w.2)) old

/-- `EnvAsr` (envelopes.rs 19–163) without its flags. -/
def envAsr (sr : Nat) (old : Old Rat) : UGen Unit Rat Rat 1 :=
  nextU (fun e : Env.Asr => (e.next.1, e.next.2.1)) (fun e i v => match i with
    | 0 => e.setAttack sr v
    | 1 => e.setRelease sr v
    | 2 => e.release
    | _ => e.restart) old

/-- `EnvAr` (envelopes.rs 174–303) without its flags. -/
def envAr (sr : Nat) (old : Old Rat) : UGen Unit Rat Rat 1 :=
  nextU (fun e : Env.Ar => (e.next.1, e.next.2.1)) (fun e i v => match i with
    | 0 => e.setAttack sr v
    | 1 => e.setRelease sr v
    | _ => e.restart) old

end Verif.Un
