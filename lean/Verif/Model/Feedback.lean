import Verif.Basic

/-!
# The two feedback unit generators (`knaster_graph/src/graph.rs` 2357–2470)

`FeedbackSink` and `FeedbackSource` share two buffers and the number of the current one.  A buffer holds
one block; `B` is the type of blocks.
-/

namespace Verif.Fb

/-- The shared state: `buffers` and `bufnum` (graph.rs 2361–2368); `bufnum` is 0 or 1. -/
structure St (B : Type) where
  buf0 : B
  buf1 : B
  one : Bool
  deriving DecidableEq, Repr

variable {B : Type}

/-- The zeroed buffers and `bufnum = 0` (graph.rs 883–890). -/
def St.init (zero : B) : St B := ⟨zero, zero, false⟩

/-- The buffer with the given number. -/
def St.get (s : St B) (one : Bool) : B := if one then s.buf1 else s.buf0

/-- `FeedbackSink::process_block` (graph.rs 2385–2400): copy the input into the current buffer. -/
def sink (s : St B) (x : B) : St B := if s.one then { s with buf1 := x } else { s with buf0 := x }

/-- `FeedbackSource::process_block` (graph.rs 2440–2455): switch to the other buffer and put it out. -/
def source (s : St B) : St B × B := ({ s with one := !s.one }, s.get (!s.one))

/-- One block with the sink before the source in the processing order. -/
def sinkFirst (s : St B) (x : B) : St B × B := source (sink s x)

/-- One block with the source before the sink. -/
def sourceFirst (s : St B) (x : B) : St B × B :=
  let r := source s
  (sink r.1 x, r.2)

/-- The state before block `n` and the block put out in block `n`, for the sink inputs `x`. -/
def run (step : St B → B → St B × B) (s : St B) (x : Nat → B) : Nat → St B
  | 0 => s
  | n + 1 => (step (run step s x n) (x n)).1

/-- What the source puts out in block `n`. -/
def out (step : St B → B → St B × B) (s : St B) (x : Nat → B) (n : Nat) : B :=
  (step (run step s x n) (x n)).2

end Verif.Fb
