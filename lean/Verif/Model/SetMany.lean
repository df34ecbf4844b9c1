import Verif.Model.Params

/-!
# Setting many parameters at once (knaster_graph/src/graph.rs 1397–1404)

Simplifications: as in the model of `Graph::set`, events carry no token and no time (the time is the same for all changes of a
call); what is logged is returned as a list, which the caller of the code does not get.
-/

namespace Verif.Pa

/-- One entry of the list given to `set_many`: the node id, the parameter and the value. -/
structure Change where
  graph : Nat
  key : Nat
  p : Param
  v : Val

/-- `Graph::set_many` (graph.rs 1398–1404): one `set` after the other; errors are logged. -/
def setMany (g : Gr) (s : Sender) : List Change → Sender × List (Except Err _root_.Unit)
  | [] => (s, [])
  | c :: cs =>
    let r := graphSet g s c.graph c.key c.p c.v
    let q := setMany g r.1 cs
    (q.1, r.2 :: q.2)

/-- The audio thread at the start of a block: it takes everything out of the ring (graph_gen.rs 143–149). -/
def Sender.drain (s : Sender) : Sender × List Event := ({ s with queue := [] }, s.queue)

/-- `set_many` while the audio thread is running: after the changes marked `true` a block starts.  The result is the ring and
what each of these blocks took. -/
def setManyDuring (g : Gr) (s : Sender) : List (Change × Bool) → Sender × List (List Event)
  | [] => (s, [])
  | (c, false) :: cs => setManyDuring g (graphSet g s c.graph c.key c.p c.v).1 cs
  | (c, true) :: cs =>
    let d := (graphSet g s c.graph c.key c.p c.v).1.drain
    let q := setManyDuring g d.1 cs
    (q.1, d.2 :: q.2)

end Verif.Pa
