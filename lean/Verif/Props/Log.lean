import Verif.Model.Log

/-!
# C48: log messages from the audio thread arrive whole and in order
-/

namespace Verif.Lg

/-- A complete message: values, then `End`. -/
def msg (body : List Nat) : List Msg := body.map Msg.data ++ [.fin]

/-- The handler is called twice for each message, the message may be split between the two calls. -/
def join2 : List (List Msg) → List (List Msg)
  | a :: b :: l => (a ++ b) :: join2 l
  | _ => []

theorem position_none : ∀ {l : List Msg}, position l = none → .fin ∉ l
  | [], _ => by simp
  | .fin :: _, h => by simp [position] at h
  | .data _ :: l, h => by
    simp only [position, Option.map_eq_none_iff] at h
    simp [position_none h]

theorem position_of_not_mem : ∀ {l : List Msg}, .fin ∉ l → position l = none
  | [], _ => rfl
  | .fin :: _, h => by simp at h
  | .data _ :: l, h => by
    simp only [position, Option.map_eq_none_iff]
    exact position_of_not_mem fun hm => h (List.mem_cons_of_mem _ hm)

theorem position_some : ∀ {l : List Msg} {p : Nat}, position l = some p →
    ∃ body rest, l = msg body ++ rest ∧ body.length = p
  | [], _, h => by simp [position] at h
  | .fin :: l, p, h => by
    simp only [position, Option.some.injEq] at h
    exact ⟨[], l, rfl, h⟩
  | .data n :: l, p, h => by
    simp only [position, Option.map_eq_some_iff] at h
    obtain ⟨p', hp', rfl⟩ := h
    obtain ⟨body, rest, rfl, hb⟩ := position_some hp'
    exact ⟨n :: body, rest, rfl, by simp [hb]⟩

theorem slice_ok {s : List Msg} {a b : Nat} (h : a ≤ b) (hb : b ≤ s.length) : slice s a b = .ok ((s.take b).drop a) :=
  if_pos ⟨h, hb⟩

/-- The two slices together are the next `pos + 1` messages, wherever the ring wraps around. -/
theorem slices (s0 s1 : List Msg) (lastEnd pos : Nat) (h : lastEnd + pos < (s0 ++ s1).length) :
    ∃ a b, slice0 s0 lastEnd pos = .ok a ∧ slice1 s0 s1 lastEnd pos = .ok b ∧
      a ++ b = ((s0 ++ s1).drop lastEnd).take (pos + 1) := by
  have hl : lastEnd + pos < s0.length + s1.length := by simpa using h
  rw [List.take_drop, List.take_append, List.drop_append, List.length_take,
    show lastEnd + (pos + 1) = lastEnd + pos + 1 by omega]
  unfold slice0 slice1
  by_cases h0 : lastEnd ≥ s0.length
  · rw [if_pos h0, if_neg (by omega), if_pos h0, slice_ok (by omega) (by omega)]
    refine ⟨_, _, rfl, rfl, ?_⟩
    rw [List.take_of_length_le (show s0.length ≤ lastEnd + pos + 1 by omega), List.drop_eq_nil_of_le h0,
      show min (lastEnd + pos + 1) s0.length = s0.length by omega,
      show lastEnd + pos + 1 - s0.length = lastEnd + pos - s0.length + 1 by omega]
  · rw [if_neg h0, slice_ok (by omega) (by omega), if_neg h0]
    by_cases h1 : lastEnd + pos < s0.length
    · rw [if_pos h1]
      refine ⟨_, _, rfl, rfl, ?_⟩
      rw [show lastEnd + pos + 1 - s0.length = 0 by omega, show min (lastEnd + pos + 1) s0.length = lastEnd + pos + 1 by omega]
      simp
    · rw [if_neg h1, slice_ok (by omega) (by omega)]
      refine ⟨_, _, rfl, rfl, ?_⟩
      rw [show min (lastEnd + pos + 1) s0.length = s0.length by omega, List.take_of_length_le (Nat.le_refl _),
        List.take_of_length_le (show s0.length ≤ lastEnd + pos + 1 by omega),
        show lastEnd - s0.length = 0 by omega,
        show lastEnd + pos + 1 - s0.length = lastEnd + pos - s0.length + 1 by omega]

theorem recvLoop_spec (s0 s1 : List Msg) : ∀ (fuel lastEnd : Nat), lastEnd ≤ (s0 ++ s1).length →
    (s0 ++ s1).length < fuel + lastEnd →
    ∃ (bodies : List (List Nat)) (rest : List Msg) (calls : List (List Msg)), (s0 ++ s1).drop lastEnd = (bodies.map msg).flatten ++ rest ∧ .fin ∉ rest ∧
      recvLoop s0 s1 fuel lastEnd = .ok (calls, (s0 ++ s1).length - rest.length) ∧ join2 calls = bodies.map msg ∧
      calls.length = 2 * bodies.length
  | 0, lastEnd, h, hf => by omega
  | fuel + 1, lastEnd, h, hf => by
    rw [recvLoop]
    cases hp : position ((s0 ++ s1).drop lastEnd) with
    | none =>
      refine ⟨[], (s0 ++ s1).drop lastEnd, [], by simp, position_none hp, ?_, rfl, rfl⟩
      simp only [List.length_drop]
      rw [show (s0 ++ s1).length - ((s0 ++ s1).length - lastEnd) = lastEnd by omega]
    | some pos =>
      obtain ⟨body, rest, hdrop, hb⟩ := position_some hp
      have hlen := congrArg List.length hdrop
      simp only [List.length_drop, List.length_append, msg, List.length_map, List.length_singleton, hb] at hlen
      have hlt : lastEnd + pos < (s0 ++ s1).length := by
        rw [List.length_append]
        omega
      obtain ⟨a, b, ha, hb', hab⟩ := slices s0 s1 lastEnd pos hlt
      obtain ⟨bodies, rest', calls, h1, h2, h3, h4, h5⟩ := recvLoop_spec s0 s1 fuel (lastEnd + pos + 1) hlt (by omega)
      have hmlen : (msg body).length = pos + 1 := by simp [msg, hb]
      have hrest : rest = (bodies.map msg).flatten ++ rest' := by
        rw [← h1, show lastEnd + pos + 1 = lastEnd + (pos + 1) by omega, ← List.drop_drop, hdrop, ← hmlen,
          List.drop_left]
      refine ⟨body :: bodies, rest', a :: b :: calls, ?_, h2, ?_, ?_, by simp [h5]; omega⟩
      · rw [hdrop, hrest]
        simp
      · simp only [ha, hb', h3, bind_ok, pure_ok]
      · simp only [join2, h4, List.map_cons, List.cons.injEq, and_true]
        rw [hab, hdrop, ← hmlen, List.take_left]

/-- **C48** (one call of `recv`): for every content of the ring and every position of the wrap-around, the handler
gets exactly the complete messages in the ring, each once, in order and in two calls of its own; what follows the
last complete message stays in the ring. -/
theorem C48_recv (r : Ring) : ∃ (bodies : List (List Nat)) (rest : List Msg) (r' : Ring) (calls : List (List Msg)), r.q = (bodies.map msg).flatten ++ rest ∧ .fin ∉ rest ∧
    r.recv = .ok (r', calls) ∧ join2 calls = bodies.map msg ∧ calls.length = 2 * bodies.length ∧
    r'.q = rest ∧ r'.cap = r.cap := by
  have hsplit : r.q.take (min r.q.length (r.cap - r.head)) ++ r.q.drop (min r.q.length (r.cap - r.head)) = r.q :=
    List.take_append_drop _ _
  obtain ⟨bodies, rest, calls, h1, h2, h3, h4, h5⟩ := recvLoop_spec (r.q.take (min r.q.length (r.cap - r.head)))
    (r.q.drop (min r.q.length (r.cap - r.head))) (r.q.length + 1) 0 (Nat.zero_le _) (by rw [hsplit]; omega)
  rw [hsplit] at h1 h3
  simp only [List.drop_zero] at h1
  refine ⟨bodies, rest, { r with q := r.q.drop (r.q.length - rest.length), head := (r.head + (r.q.length - rest.length)) % r.cap },
    calls, h1, h2, by simp only [Ring.recv, h3, bind_ok, pure_ok], h4, h5, ?_, rfl⟩
  show r.q.drop (r.q.length - rest.length) = rest
  have hl : r.q.length - rest.length = (bodies.map msg).flatten.length := by
    rw [h1, List.length_append]
    omega
  rw [hl]
  exact (congrArg (List.drop _) h1).trans List.drop_left

example : (Ring.recv { cap := 8, head := 5, q := [.data 1, .fin, .data 2, .data 3, .fin, .fin, .data 4] }).map (·.2) =
    .ok [[.data 1, .fin], [], [.data 2], [.data 3, .fin], [], [.fin]] := by
  decide

/-- **C48** (several senders): the rings are emptied one after the other, each as described by `C48_recv`; no ring
affects what another one delivers. -/
theorem C48_recv_all : ∀ rs : List Ring, ∃ (rs' : List Ring) (callss : List (List (List Msg))),
    recvAll rs = .ok (rs', callss.flatten) ∧ rs'.length = rs.length ∧ callss.length = rs.length ∧
      ∀ (i : Nat) (r : Ring), rs[i]? = some r → ∃ r' calls, rs'[i]? = some r' ∧ callss[i]? = some calls ∧
        r.recv = .ok (r', calls)
  | [] => ⟨[], [], rfl, rfl, rfl, by simp⟩
  | r :: rs => by
    obtain ⟨-, -, r', calls, -, -, h1, -⟩ := C48_recv r
    obtain ⟨rs', callss, h2, h3, h4, h5⟩ := C48_recv_all rs
    refine ⟨r' :: rs', calls :: callss, by simp [recvAll, h1, h2], by simp [h3], by simp [h4], ?_⟩
    intro i x hx
    cases i with
    | zero =>
      simp only [List.getElem?_cons_zero, Option.some.injEq] at hx
      subst hx
      exact ⟨r', calls, rfl, rfl, h1⟩
    | succ i => exact h5 i x (by simpa using hx)

/-! ### Histories -/

/-- The messages sent in a history. -/
def sent : List Op → List (List Nat)
  | [] => []
  | .log body :: ops => body :: sent ops
  | .recv :: ops => sent ops

/-- Whenever something is logged the ring has room for all of it. -/
def Roomy : Ring → List Op → Prop
  | _, [] => True
  | r, .log body :: ops => r.q.length + body.length + 1 ≤ r.cap ∧ Roomy (r.log body) ops
  | r, .recv :: ops => ∀ r' calls, r.recv = .ok (r', calls) → Roomy r' ops

theorem send_all (body : List Nat) : ∀ (r : Ring), r.q.length + body.length ≤ r.cap →
    body.foldl (fun r n => r.send (.data n)) r = { r with q := r.q ++ body.map Msg.data } := by
  induction body with
  | nil => intro r _; simp
  | cons n body ih =>
    intro r h
    simp only [List.length_cons] at h
    have hs : r.send (.data n) = { r with q := r.q ++ [.data n] } := by
      rw [Ring.send, if_pos (by omega)]
    rw [List.foldl_cons, hs, ih]
    · simp
    · simp
      omega

theorem log_room {r : Ring} {body : List Nat} (h : r.q.length + body.length + 1 ≤ r.cap) :
    r.log body = { r with q := r.q ++ msg body } := by
  rw [Ring.log, send_all body r (by omega), Ring.send, if_pos (by simp; omega)]
  simp [msg]

theorem join2_append : ∀ (a b : List (List Msg)) (n : Nat), a.length = 2 * n → join2 (a ++ b) = join2 a ++ join2 b
  | [], b, _, _ => rfl
  | [_], b, n, h => by simp at h; omega
  | x :: y :: a, b, n, h => by
    simp only [List.length_cons] at h
    simp only [List.cons_append, join2]
    rw [join2_append a b (n - 1) (by omega)]

theorem flatten_msg_unique : ∀ {a b : List (List Nat)} {rest : List Msg}, .fin ∉ rest →
    (a.map msg).flatten = (b.map msg).flatten ++ rest → a = b ∧ rest = []
  | [], [], rest, _, h => ⟨rfl, by simpa using h.symm⟩
  | [], x :: b, rest, _, h => by
    have := congrArg List.length h
    simp [msg] at this
  | x :: a, [], rest, hr, h => by
    simp only [List.map_cons, List.flatten_cons, List.map_nil, List.flatten_nil, List.nil_append] at h
    exact absurd (h ▸ (by simp [msg] : Msg.fin ∈ msg x ++ (a.map msg).flatten)) hr
  | x :: a, y :: b, rest, hr, h => by
    simp only [List.map_cons, List.flatten_cons, List.append_assoc] at h
    have key : ∀ (x y : List Nat) (u v : List Msg), msg x ++ u = msg y ++ v → x = y ∧ u = v := by
      intro x
      induction x with
      | nil =>
        intro y u v h
        cases y with
        | nil => exact ⟨rfl, by simpa [msg] using h⟩
        | cons b y => simp [msg] at h
      | cons a x ih =>
        intro y u v h
        cases y with
        | nil => simp [msg] at h
        | cons b y =>
          simp only [msg, List.map_cons, List.cons_append, List.cons.injEq, Msg.data.injEq] at h
          obtain ⟨rfl, h⟩ := h
          obtain ⟨rfl, h'⟩ := ih y u v h
          exact ⟨rfl, h'⟩
    obtain ⟨rfl, h'⟩ := key x y _ _ h
    obtain ⟨rfl, hrest⟩ := flatten_msg_unique hr h'
    exact ⟨rfl, hrest⟩

theorem run_spec : ∀ (ops : List Op) (r : Ring) (pend : List (List Nat)), r.q = (pend.map msg).flatten → Roomy r ops →
    ∃ (r' : Ring) (calls : List (List Msg)) (done left : List (List Nat)), run r ops = .ok (r', calls) ∧
      join2 calls = done.map msg ∧ r'.q = (left.map msg).flatten ∧ pend ++ sent ops = done ++ left
  | [], r, pend, hq, _ => ⟨r, [], [], pend, rfl, rfl, hq, by simp [sent]⟩
  | .log body :: ops, r, pend, hq, hr => by
    obtain ⟨h1, h2⟩ := hr
    have hl := log_room h1
    obtain ⟨r', calls, done, left, e1, e2, e3, e4⟩ := run_spec ops (r.log body) (pend ++ [body]) (by
      rw [hl]
      simp [hq]) h2
    exact ⟨r', calls, done, left, e1, e2, e3, by simpa [sent] using e4⟩
  | .recv :: ops, r, pend, hq, hr => by
    obtain ⟨bodies, rest, r1, calls1, h1, h2, h3, h4, h5, h6, -⟩ := C48_recv r
    obtain ⟨rfl, rfl⟩ := flatten_msg_unique h2 (hq.symm.trans h1)
    obtain ⟨r', calls, done, left, e1, e2, e3, e4⟩ := run_spec ops r1 [] (by simpa using h6) (hr r1 calls1 h3)
    refine ⟨r', calls1 ++ calls, pend ++ done, left, by simp [run, h3, e1], ?_, e3, ?_⟩
    · rw [join2_append _ _ _ h5, h4, e2]
      simp
    · simp only [sent, List.append_assoc]
      simpa using e4

/-- **C48** (histories, restricted): for every interleaving of logging and receiving in which the ring always has
room, for every capacity and every starting position in the ring, the handler gets the messages that were sent, each
once, whole and in order; the ones not yet delivered are in the ring.

Missing: histories in which the ring is full, see the violations. -/
theorem C48_history_partial (cap head : Nat) (ops : List Op) (hr : Roomy { cap := cap, head := head } ops) :
    ∃ (r' : Ring) (calls : List (List Msg)) (done left : List (List Nat)),
      run { cap := cap, head := head } ops = .ok (r', calls) ∧ join2 calls = done.map msg ∧
      r'.q = (left.map msg).flatten ∧ sent ops = done ++ left := by
  obtain ⟨r', calls, done, left, h1, h2, h3, h4⟩ := run_spec ops { cap := cap, head := head } [] rfl hr
  exact ⟨r', calls, done, left, h1, h2, h3, by simpa using h4⟩

example : Roomy { cap := 4, head := 3 } [.log [1], .log [2], .recv, .log [3, 4], .recv] ∧
    (run { cap := 4, head := 3 } [.log [1], .log [2], .recv, .log [3, 4], .recv]).map (fun x => join2 x.2) =
      .ok [[.data 1, .fin], [.data 2, .fin], [.data 3, .data 4, .fin]] := by
  refine ⟨⟨by decide, by decide, ?_⟩, by decide⟩
  intro r' calls h
  have : r' = { cap := 4, head := 3, q := [] } := by
    have h' := congrArg (Except.map Prod.fst) h
    have : (Ring.recv (Ring.log (Ring.log { cap := 4, head := 3 } [1]) [2])).map Prod.fst =
      .ok { cap := 4, head := 3, q := [] } := by decide
    rw [this] at h'
    exact (Except.ok.inj h').symm
  subst this
  exact ⟨by decide, fun _ _ _ => trivial⟩

/-! ### Violations -/

/-- **C48 violated** (merged messages): the `End` of a message does not fit any more, the message is delivered glued
to the next one. -/
theorem C48_merged_violated :
    (run { cap := 5 } [.log [1], .log [2, 3, 4], .recv, .log [5], .recv]).map (fun x => join2 x.2) =
      .ok [[.data 1, .fin], [.data 2, .data 3, .data 4, .data 5, .fin]] := by
  decide

/-- **C48 violated** (lost values): the values that do not fit are dropped, the message is delivered without them. -/
theorem C48_truncated_violated :
    (run { cap := 4 } [.log [1], .log [2, 3, 4], .recv, .log [], .recv]).map (fun x => join2 x.2) =
      .ok [[.data 1, .fin], [.data 2, .data 3, .fin]] := by
  decide

theorem stuck_send (r : Ring) (m : Msg) (h : r.q.length = r.cap) : r.send m = r := by
  rw [Ring.send, if_neg (by omega)]

theorem stuck_foldl (body : List Nat) (r : Ring) (h : r.q.length = r.cap) :
    body.foldl (fun r n => r.send (.data n)) r = r := by
  induction body with
  | nil => rfl
  | cons n body ih => rw [List.foldl_cons, stuck_send r _ h, ih]

theorem stuck_run : ∀ (ops : List Op) (r : Ring), r.q.length = r.cap → .fin ∉ r.q →
    ∃ r', run r ops = .ok (r', []) ∧ r'.q = r.q
  | [], r, _, _ => ⟨r, rfl, rfl⟩
  | .log body :: ops, r, h, hf => by
    have : r.log body = r := by rw [Ring.log, stuck_foldl body r h, stuck_send r _ h]
    rw [run, this]
    exact stuck_run ops r h hf
  | .recv :: ops, r, h, hf => by
    obtain ⟨bodies, rest, r1, calls, h1, h2, h3, h4, h5, h6, h7⟩ := C48_recv r
    have hb : bodies = [] := by
      cases bodies with
      | nil => rfl
      | cons x b => exact absurd (by rw [h1]; simp [msg]) hf
    subst hb
    have hc : calls = [] := by simpa using h5
    subst hc
    have hq : r1.q = r.q := by rw [h6, h1]; simp
    obtain ⟨r', e1, e2⟩ := stuck_run ops r1 (by rw [hq, h7, h]) (by rw [hq]; exact hf)
    exact ⟨r', by simp [run, h3, e1], by rw [e2, hq]⟩

/-- **C48 violated** (the log stops for ever): a message with at least as many values as the ring has places fills
the ring without an `End`.  From then on nothing is ever delivered, whatever is logged and however often `recv` is
called. -/
theorem C48_stuck_violated (cap : Nat) (body : List Nat) (hb : cap ≤ body.length) (ops : List Op) :
    ∃ r', run { cap := cap } (.log body :: ops) = .ok (r', []) := by
  have hsplit : body = body.take cap ++ body.drop cap := (List.take_append_drop _ _).symm
  have hlen : (body.take cap).length = cap := by rw [List.length_take]; omega
  have h1 : Ring.log { cap := cap } body = { cap := cap, q := (body.take cap).map Msg.data } := by
    have hs := send_all (body.take cap) { cap := cap } (by simpa using Nat.min_le_left cap body.length)
    simp only [List.nil_append] at hs
    rw [Ring.log]
    conv => lhs; rw [hsplit, List.foldl_append, hs]
    rw [stuck_foldl _ _ (by simpa using hlen), stuck_send _ _ (by simpa using hlen)]
  rw [run, h1]
  obtain ⟨r', h2, -⟩ := stuck_run ops { cap := cap, q := (body.take cap).map Msg.data } (by simpa using hlen)
    (by
      intro h
      obtain ⟨x, -, hx⟩ := List.mem_map.1 h
      cases hx)
  exact ⟨r', h2⟩

end Verif.Lg
