import Verif.Basic

/-!
# Model of `knaster_primitives/src/time.rs`

`Seconds` and `Beats` are pairs of `u32`s. The fields are `Nat`s here; every operation that can
overflow its Rust type in a debug build is checked (`addC`, `subC`, `mulC`), `as u32` casts are
`% 2^32`. The float conversions (`from_secs_f64`, `to_secs_f64`, `Mul<f64>`, `From<Duration>`,
`Mul<Beats>`) are in `Model/Ieee`.
-/

namespace Verif

/-- `SUBSECOND_TESIMALS_PER_SECOND`, time.rs:11 -/
notation "tesPerSec" => (282240000 : Nat)
/-- `SUBBEAT_TESIMALS_PER_BEAT`, time.rs:13 -/
notation "tesPerBeat" => (1476034560 : Nat)

/-- `struct Seconds`, time.rs:25-28 (both fields `u32`) -/
structure Seconds where
  seconds : Nat
  sub : Nat
  deriving DecidableEq, Repr

namespace Seconds

/-- `Seconds::ZERO`, time.rs:31-34 -/
def zero : Seconds := ⟨0, 0⟩
/-- `Seconds::MAX`, time.rs:36-39 -/
def max : Seconds := ⟨U32 - 1, U32 - 1⟩

/-- `from_subsample_tesimals_u64`, time.rs:48-53 -/
def fromTesimals (n : Nat) : R Seconds := do
  let seconds := (n / tesPerSec) % U32
  let prod ← mulC U64 seconds tesPerSec
  let sub ← subC n prod
  return ⟨seconds, sub % U32⟩

/-- `to_subsample_tesimals_u64`, time.rs:55-57 -/
def toTesimals (s : Seconds) : R Nat := do
  let a ← mulC U64 s.seconds tesPerSec
  addC U64 a s.sub

/-- `from_samples`, time.rs:76-84 -/
def fromSamples (samples sampleRate : Nat) : R Seconds := do
  let q ← divC samples sampleRate
  let seconds := q % U32
  let r ← modC samples sampleRate
  let m ← mulC U64 r tesPerSec
  let t ← divC m sampleRate
  return ⟨seconds, t % U32⟩

/-- `to_samples`, time.rs:86-90 -/
def toSamples (s : Seconds) (sampleRate : Nat) : R Nat := do
  let a ← mulC U64 s.seconds sampleRate
  let m ← mulC U64 s.sub sampleRate
  let b ← divC m tesPerSec
  addC U64 a b

/-- `Ord::cmp`, time.rs:149-157 -/
def cmp (a b : Seconds) : Ordering :=
  if a.seconds = b.seconds then compare a.sub b.sub else compare a.seconds b.seconds

/-- `a < b` as derived from `partial_cmp` (time.rs:144-148) -/
def lt (a b : Seconds) : Bool := a.cmp b == .lt
/-- `a <= b` as derived from `partial_cmp` (time.rs:144-148) -/
def le (a b : Seconds) : Bool := a.cmp b != .gt

/-- `checked_sub`, time.rs:99-117. The outer `R` is a panic, the inner `Option` the result. -/
def checkedSub (a b : Seconds) : R (Option Seconds) :=
  if a.lt b then return none
  else if a.sub ≥ b.sub then do
    let s ← subC a.seconds b.seconds
    let t ← subC a.sub b.sub
    return some ⟨s, t⟩
  else do
    let s ← subC a.seconds b.seconds
    let s ← subC s 1
    let d ← subC b.sub a.sub
    let t ← subC tesPerSec d
    return some ⟨s, t⟩

/-- `saturating_sub`, time.rs:119-134 -/
def saturatingSub (a b : Seconds) : R Seconds :=
  if a.le b then return zero
  else if a.sub ≥ b.sub then do
    let s ← subC a.seconds b.seconds
    let t ← subC a.sub b.sub
    return ⟨s, t⟩
  else do
    let s ← subC a.seconds b.seconds
    let s ← subC s 1
    let d ← subC b.sub a.sub
    let t ← subC tesPerSec d
    return ⟨s, t⟩

/-- the `while` loop of `Add`, time.rs:164-167 -/
def carry (per : Nat) (s t : Nat) (hper : 0 < per := by decide) : R (Nat × Nat) :=
  if h : t ≥ per then
    match addC U32 s 1 with
    | .ok s' => carry per s' (t - per) hper
    | .error e => .error e
  else .ok (s, t)
termination_by t
decreasing_by omega

/-- `Add<Seconds> for Seconds`, time.rs:161-170 -/
def add (a b : Seconds) : R Seconds := do
  let s ← addC U32 a.seconds b.seconds
  let t ← addC U32 a.sub b.sub
  let (s, t) ← carry tesPerSec s t
  return ⟨s, t⟩

/-- `Mul<Seconds> for Seconds`, time.rs:181-189 -/
def mul (a b : Seconds) : R Seconds := do
  let s ← mulC U32 a.seconds b.seconds
  let p ← mulC U64 a.sub b.sub
  if p > tesPerSec then
    let s ← addC U32 s ((p / tesPerSec) % U32)
    return ⟨s, (p % tesPerSec) % U32⟩
  else
    return ⟨s, p % U32⟩

end Seconds

/-- `struct Beats`, time.rs:245-248 (both fields `u32`) -/
structure Beats where
  beats : Nat
  sub : Nat
  deriving DecidableEq, Repr

namespace Beats

/-- `Beats::ZERO`, time.rs:251-254 -/
def zero : Beats := ⟨0, 0⟩
/-- `from_beats`, time.rs:263-265 -/
def fromBeats (n : Nat) : Beats := ⟨n, 0⟩

/-- `from_fractional_beats::<FRACTION>`, time.rs:272-276 -/
def fromFractional (fraction beats frac : Nat) : R Beats := do
  if frac < fraction then
    let d ← divC tesPerBeat fraction
    let t ← mulC U32 d frac
    return ⟨beats, t⟩
  else .error .assert

/-- `Ord::cmp`, time.rs:343-350 -/
def cmp (a b : Beats) : Ordering :=
  if a.beats = b.beats then compare a.sub b.sub else compare a.beats b.beats
/-- `a < b` -/
def lt (a b : Beats) : Bool := a.cmp b == .lt

/-- `checked_sub`, time.rs:302-316 -/
def checkedSub (a b : Beats) : R (Option Beats) :=
  if a.lt b then return none
  else if a.sub < b.sub then do
    let s ← subC a.beats b.beats
    let s ← subC s 1
    let d ← subC b.sub a.sub
    let t ← subC tesPerBeat d
    return some ⟨s, t⟩
  else do
    let s ← subC a.beats b.beats
    let t ← subC a.sub b.sub
    return some ⟨s, t⟩

/-- `saturating_sub`, time.rs:319-321 -/
def saturatingSub (a b : Beats) : R Beats := do
  let r ← checkedSub a b
  return r.getD zero

/-- `Add<Beats> for Beats`, time.rs:355-364 -/
def add (a b : Beats) : R Beats := do
  let s ← addC U32 a.beats b.beats
  let t ← addC U32 a.sub b.sub
  let (s, t) ← Seconds.carry tesPerBeat s t
  return ⟨s, t⟩

/-- `Sum for Beats`, time.rs:333-337 -/
def sum (l : List Beats) : R Beats := l.foldlM add zero

end Beats
end Verif
