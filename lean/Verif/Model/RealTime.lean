import Verif.Model.Events

/-!
# What the audio thread allocates and frees

The parts of `knaster_graph/src/graph_gen.rs` (90–168, 250–290), `graph.rs` (213–240, 321, 1707–1725, 2197–2220),
`scheduling.rs` (27–36, 136–189) and `handle.rs` (`SchedulingChannelSender::send`) in which memory on the heap changes
hands: schedules (`TaskData`) and the `Arc`s inside `SchedulingToken`s.

* Both threads take small steps.  A chunk of a ring is read item by item; its slots can be written again when the whole
  chunk is done, as in `rtrb`.
* A token is a number.  The memory of a token is freed by whoever drops the last reference to it.
* What an event does to a unit generator and when, is the model of C18–C23 (`applyChange`).  The audio thread may look at
  the waiting and at the received events in any order here; `Verif.Rt.phase_steps` shows that the loops of the code are one
  such order.
* The slots of received events are released one by one, which leaves the senders a little more room than the code.
* A schedule is a number; what it contains is freed with it.  A commit that finds the ring full panics.
* `freed` and `grown` only record what happened.
-/

namespace Verif.Rt

/-- A thread: the audio thread or one of the others. -/
inductive Thread where
  | audio
  | control
  deriving DecidableEq, Repr

/-- What is on the heap. -/
inductive Obj where
  | tasks (n : Nat)
  | token (t : Nat)
  deriving DecidableEq, Repr

/-- Where the control thread is in `commit_changes` (graph.rs 1707–1725). -/
inductive Pc where
  | idle
  /-- in `free_old_task_data`, with a chunk of `n` schedules -/
  | draining (n : Nat)
  | sending
  deriving DecidableEq, Repr

structure RS (V S : Type) where
  /-- `ring_buffer_size` (graph.rs 89), for the three rings (226–230) -/
  cap : Nat
  /-- the capacity of `waiting_parameter_changes` (graph.rs 321), at least that -/
  room : Nat
  /-- `new_task_data` ring: schedules not yet read -/
  fresh : List Nat := []
  /-- slots of the chunk being read that are not released yet -/
  read : Nat := 0
  /-- schedules of the chunk that are still to be read -/
  left : Nat := 0
  /-- `current_task_data` -/
  cur : Nat := 0
  /-- `task_data_to_be_dropped` ring -/
  old : List Nat := []
  /-- the number of the next schedule -/
  next : Nat := 1
  pc : Pc := .idle
  /-- the clones of tokens outside of events -/
  handles : List Nat := []
  nextToken : Nat := 0
  active : List Nat := []
  /-- `scheduling_event_receiver` -/
  ring : List (Event V S) := []
  /-- `waiting_parameter_changes` -/
  waiting : Queue V S := []
  freed : List (Thread × Obj) := []
  /-- how often the audio thread had to make `waiting_parameter_changes` larger -/
  grown : Nat := 0

variable {V S : Type}

/-- The number of references to a token. -/
def RS.refs (s : RS V S) (t : Nat) : Nat :=
  s.handles.count t + (s.ring.map fun e => e.change.token).count (some t) +
    (s.waiting.map fun p => p.1.change.token).count (some t)

/-- A reference has been dropped: the last one frees the memory. -/
def RS.release (s : RS V S) (th : Thread) : Option Nat → RS V S
  | none => s
  | some t => if s.refs t = 0 then { s with freed := s.freed ++ [(th, .token t)] } else s

/-- `VecDeque::push_back`: a full one is moved to a larger allocation. -/
def RS.pushBack (s : RS V S) (p : Event V S × Nat) : RS V S :=
  if s.waiting.length < s.room then { s with waiting := s.waiting ++ [p] }
  else { s with waiting := s.waiting ++ [p], room := 2 * s.room + 1, grown := s.grown + 1 }

/-- The steps of all threads. -/
inductive Step (V S : Type) where
  /-- `SchedulingToken::new` (scheduling.rs 155–159) -/
  | newToken
  /-- `clone` -/
  | clone (t : Nat)
  /-- a handle goes out of scope on some thread -/
  | dropHandle (th : Thread) (t : Nat)
  /-- the store in `activate_inner(self)` (scheduling.rs 185–188); it is followed by `dropHandle` -/
  | activate (t : Nat)
  /-- `SchedulingChannelSender::send`: the token is moved into the event; without room the event is dropped -/
  | send (e : Event V S)
  /-- `free_old_task_data` (graph.rs 2198–2204) -/
  | drain
  /-- the end of it: the chunk is dropped and released (2205–2210) -/
  | drained
  /-- `send_updated_tasks` (graph.rs 2216–2220) -/
  | push
  /-- nothing to send (graph.rs 1712) -/
  | skip
  /-- audio thread: `read_chunk` (graph_gen.rs 92–94) -/
  | chunk
  /-- audio thread: one schedule of the chunk (graph_gen.rs 95–106) -/
  | recv
  /-- audio thread: the chunk is released -/
  | chunkEnd
  /-- audio thread: one waiting event (graph_gen.rs 115–139) -/
  | wait (clock : Nat) (keys : List Nat)
  /-- audio thread: one received event (graph_gen.rs 151–167) -/
  | event (clock : Nat) (keys : List Nat)

/-- The steps of the audio thread. -/
def Step.thread : Step V S → Thread
  | .dropHandle th _ => th
  | .chunk | .recv | .chunkEnd | .wait _ _ | .event _ _ => .audio
  | _ => .control

/-- What an event sees (`BlockEnv`). -/
def RS.env (s : RS V S) (clock : Nat) (keys : List Nat) : BlockEnv := ⟨clock, keys, fun t => s.active.contains t⟩

/-- One step; `none`: it is not possible here. -/
def Step.run (c : GenCfg) (s : RS V S) : Step V S → R (Option (RS V S))
  | .newToken => .ok (some { s with handles := s.nextToken :: s.handles, nextToken := s.nextToken + 1 })
  | .clone t => .ok (if t ∈ s.handles then some { s with handles := t :: s.handles } else none)
  | .dropHandle th t => .ok (if t ∈ s.handles then some ({ s with handles := s.handles.erase t }.release th (some t)) else none)
  | .activate t => .ok (if t ∈ s.handles then some { s with active := t :: s.active } else none)
  | .send e =>
    if ∀ t, e.change.token = some t → t ∈ s.handles then
      let s : RS V S := match e.change.token with
        | some t => { s with handles := s.handles.erase t }
        | none => s
      .ok (some (if s.ring.length < s.cap then { s with ring := s.ring ++ [e] } else s.release .control e.change.token))
    else .ok none
  | .drain => .ok (if s.pc = .idle then some { s with pc := .draining s.old.length } else none)
  | .drained => .ok (match s.pc with
    | .draining n => some { s with
        old := s.old.drop n, pc := .sending, freed := s.freed ++ (s.old.take n).map fun i => (.control, .tasks i) }
    | _ => none)
  | .push => if s.pc = .sending then
      if s.fresh.length + s.read < s.cap then
        .ok (some { s with fresh := s.fresh ++ [s.next], next := s.next + 1, pc := .idle })
      else .error .unwrap
    else .ok none
  | .skip => .ok (if s.pc = .sending then some { s with pc := .idle } else none)
  | .chunk => .ok (if s.left = 0 ∧ s.read = 0 then some { s with left := s.fresh.length } else none)
  | .recv => match s.left, s.fresh with
    | l + 1, td :: fresh => .ok (some
        (if s.old.length < s.cap then { s with fresh := fresh, left := l, read := s.read + 1, cur := td, old := s.old ++ [s.cur] }
        else { s with fresh := fresh, left := l, read := s.read + 1, cur := td, freed := s.freed ++ [(.audio, .tasks s.cur)] }))
    | _, _ => .ok none
  | .chunkEnd => .ok (if s.left = 0 then some { s with read := 0 } else none)
  | .wait clock keys => match s.waiting with
    | [] => .ok none
    | (e, w) :: q =>
      let s' : RS V S := { s with waiting := q }
      if w > c.keep then .ok (some (s'.release .audio e.change.token))
      else do
        match ← applyChange c (s.env clock keys) e with
        | .inl e' => do
          let w' ← addC U32 w 1
          .ok (some (s'.pushBack (e', w')))
        | .inr _ => .ok (some (s'.release .audio e.change.token))
  | .event clock keys => match s.ring with
    | [] => .ok none
    | e :: es => do
      let s' : RS V S := { s with ring := es }
      match ← applyChange c (s.env clock keys) e with
      | .inl e' => .ok (some (if s.waiting.length < s.room then s'.pushBack (e', 0) else s'.release .audio e.change.token))
      | .inr _ => .ok (some (s'.release .audio e.change.token))

/-- A new `Graph` and its `GraphGen` (graph.rs 226–230, 321). -/
def RS.init (cap room : Nat) : RS V S := { cap := cap, room := room }

/-- All histories whose steps satisfy `E`. -/
inductive Reaches (c : GenCfg) (E : RS V S → Step V S → Prop) : RS V S → RS V S → Prop
  | refl (s : RS V S) : Reaches c E s s
  | step {s s' s''} (st : Step V S) : Reaches c E s s' → E s' st → st.run c s' = .ok (some s'') → Reaches c E s s''

end Verif.Rt
