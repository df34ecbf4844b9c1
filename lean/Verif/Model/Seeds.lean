import Verif.Model.Noise

/-!
# The seeds of random units (`knaster_core_dsp/src/ugens/noise.rs` 10–22)

A global atomic counter gives every unit that needs random numbers its seed.  `fetch_add` is one atomic step, so
a history is the list of the creations in the order in which their `fetch_add` took place, each with the thread
that did it.

Simplifications: `fastrand::Rng` is not modelled, a generator is an arbitrary function from seeds to streams of
numbers; a panic ends the history.  `#[derive(Clone)]` of `WhiteNoise` is left out.
-/

namespace Verif.Ns

/-- The units that take a seed: `WhiteNoise::new` (noise.rs 33–39), `PinkNoise::new` (noise.rs 68–78),
`BrownNoise::new` (noise.rs 133–139), `RandomLin::new` (noise.rs 172–182) and `Galactic` (galactic.rs 145). -/
inductive Kind where
  | white
  | pink
  | brown
  | lin
  | galactic
  deriving DecidableEq, Repr

/-- `next_randomness_seed` (noise.rs 20–22): the old value of the counter and the new one; `fetch_add` wraps. -/
def nextSeed (c : Nat) : Nat × Nat := (c, (c + 1) % U64)

/-- The seed of a new unit and the counter afterwards (noise.rs 34, 69, 134, 173, galactic.rs 145).  `RandomLin`
multiplies and adds with the checked `u64` operators. -/
def seedOf (c : Nat) : Kind → R (Nat × Nat)
  | .lin =>
    let (s, c') := nextSeed c
    if s * 94 < U64 then
      if s * 94 + 53 < U64 then .ok (s * 94 + 53, c') else .error .overflow
    else .error .overflow
  | _ => .ok (nextSeed c)

/-- The seeds of units created one after the other, and the counter afterwards. -/
def seeds (c : Nat) : List Kind → R (List Nat × Nat)
  | [] => .ok ([], c)
  | k :: ks => do
    let (s, c) ← seedOf c k
    let (ss, c) ← seeds c ks
    .ok (s :: ss, c)

/-- What the creations of thread `t` get in a history of two threads. -/
def seedsOf (t : Bool) (h : List (Bool × Kind)) : R (List Nat) := do
  let (ss, _) ← seeds 0 (h.map Prod.snd)
  .ok (((h.map Prod.fst).zip ss).filterMap fun p => if p.1 = t then some p.2 else none)

/-- What can happen to a random line in a graph. -/
inductive LineOp where
  | init (sr : Nat)
  | frame
  | freq (f : Rat)

/-- A random line that takes its numbers from its own generator `r`, and how many it has taken: one in `init`
(noise.rs 192–197), one in a frame that starts a new value (noise.rs 198–206), none when the frequency is set
(noise.rs 209–216). -/
def lineStep (r : Nat → Rat) (s : Rl × Nat) : LineOp → Rl × Nat
  | .init sr => (s.1.init sr (r s.2), s.2 + 1)
  | .frame => ((s.1.process (r s.2)).1, if 1 ≤ s.1.phase + s.1.step then s.2 + 1 else s.2)
  | .freq f => (s.1.freq f, s.2)

/-- A history of a random line, from `new` on, which takes the first number (noise.rs 172–182). -/
def lineRun (r : Nat → Rat) (f : Rat) (ops : List LineOp) : Rl × Nat := ops.foldl (lineStep r) (Rl.new f (r 0), 1)

end Verif.Ns
