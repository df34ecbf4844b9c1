import Verif.Model.LogSys
import Verif.Props.Log
import Verif.Lemmas.Ieee

/-!
# C92: several threads log to one receiver
-/

namespace Verif.Lg

/-! ### What a mailbox does

The specification: each sender has a mailbox of its own.  No rings, no slices, no array of receivers. -/

/-- What concerns one sender: it sends something, or its mailbox is emptied. -/
inductive Mine where
  | send (m : Msg)
  | take
  deriving DecidableEq, Repr

/-- The events of sender `k`. -/
def mine (k : Nat) : List Ev → List Mine
  | [] => []
  | .send j m :: es => if j = k then .send m :: mine k es else mine k es
  | .take j :: es => if j = k then .take :: mine k es else mine k es
  | .add _ :: es => mine k es

/-- The capacities of the senders added in a history. -/
def caps : List Ev → List Nat
  | [] => []
  | .add c :: es => c :: caps es
  | .send _ _ :: es => caps es
  | .take _ :: es => caps es

/-- Only senders that exist send, only rings that exist are handled. -/
def Valid : Nat → List Ev → Prop
  | _, [] => True
  | n, .send k _ :: es => k < n ∧ Valid n es
  | n, .take k :: es => k < n ∧ Valid n es
  | n, .add _ :: es => Valid (n + 1) es

/-- What is behind the last `End`. -/
def behind : List Msg → List Msg
  | [] => []
  | .fin :: l => behind l
  | .data v :: l => if .fin ∈ l then behind l else .data v :: l

/-- What a mailbox of a capacity keeps of what is sent, when `unread` is in it at the start: everything that comes
while there is room. -/
def keeps (cap : Nat) : List Msg → List Mine → List Msg
  | _, [] => []
  | unread, .send m :: es =>
    if unread.length < cap then m :: keeps cap (unread ++ [m]) es else keeps cap unread es
  | unread, .take :: es => keeps cap (behind unread) es

/-- Everything a sender sends. -/
def sends : List Mine → List Msg
  | [] => []
  | .send m :: es => m :: sends es
  | .take :: es => sends es

/-- The calls of the handler that come from ring `k`. -/
def gotFrom (k : Nat) (out : List (Nat × List (List Msg))) : List (List Msg) :=
  (out.filter (fun x => x.1 = k)).flatMap (·.2)

/-! ### Adding a sender -/

theorem copyInto_spec : ∀ (ps done : List Ring) (m : Nat),
    copyInto (done.map some ++ List.replicate (ps.length + m) none) done.length ps =
      .ok ((done ++ ps).map some ++ List.replicate m none)
  | [], done, m => by simp [copyInto]
  | p :: ps, done, m => by
    have hs : (done.map some ++ List.replicate ((p :: ps).length + m) none).set done.length (some p) =
        (done ++ [p]).map some ++ List.replicate (ps.length + m) none := by
      rw [List.length_cons, show ps.length + 1 + m = (ps.length + m) + 1 by omega, List.replicate_succ]
      rw [List.set_append_right _ _ (by simp)]
      simp
    rw [copyInto, if_pos (by simp), hs]
    have := copyInto_spec ps (done ++ [p]) m
    simp only [List.length_append, List.length_singleton] at this
    rw [this]
    simp

theorem assumeInit_some : ∀ l : List Ring, assumeInit (l.map some) = .ok l
  | [] => rfl
  | p :: l => by simp [assumeInit, assumeInit_some l]

/-- **C92** (adding a sender): all rings stay as they are with everything that is in them, and the new sender writes to
a new empty ring behind them. -/
theorem C92_add (rc : Recv) (capacity : Nat) :
    rc.sender capacity = .ok (rc.channels, ⟨rc.rings ++ [{ cap := capacity }]⟩) := by
  have h := copyInto_spec rc.rings [] 1
  simp only [List.map_nil, List.nil_append, List.length_nil] at h
  have hs : ((rc.rings.map some ++ List.replicate 1 none).set rc.rings.length (some { cap := capacity })) =
      (rc.rings ++ [({ cap := capacity } : Ring)]).map some := by
    rw [List.set_append_right _ _ (by simp)]
    simp
  show (do
    let array ← copyInto (List.replicate (rc.rings.length + 1) none) 0 rc.rings
    let array ← if rc.rings.length < array.length then .ok (array.set rc.rings.length (some { cap := capacity }))
      else .error .index
    let rings ← assumeInit array
    return (rc.rings.length, (⟨rings⟩ : Recv))) = _
  rw [h]
  simp only [bind_ok]
  rw [if_pos (by simp), hs, assumeInit_some]
  rfl

example : (Recv.sender ⟨[{ cap := 3, head := 1, q := [.data 7, .fin] }, { cap := 2 }]⟩ 5).map (fun x => (x.1, x.2.channels)) =
    .ok (2, 3) := by decide

/-! ### Histories -/

theorem behind_append : ∀ (bodies : List (List Nat)) (rest : List Msg), .fin ∉ rest →
    behind ((bodies.map msg).flatten ++ rest) = rest := by
  have hrest : ∀ rest : List Msg, .fin ∉ rest → behind rest = rest := by
    intro rest h
    cases rest with
    | nil => rfl
    | cons x l =>
      cases x with
      | fin => simp at h
      | data v => rw [behind, if_neg fun hm => h (List.mem_cons_of_mem _ hm)]
  have hbody : ∀ (body : List Nat) (l : List Msg), behind (msg body ++ l) = behind l := by
    intro body l
    induction body with
    | nil => simp [msg, behind]
    | cons v body ih =>
      have : msg (v :: body) ++ l = .data v :: (msg body ++ l) := by simp [msg]
      rw [this, behind, if_pos (by simp [msg]), ih]
  intro bodies rest h
  induction bodies with
  | nil => simpa using hrest rest h
  | cons b bodies ih =>
    rw [List.map_cons, List.flatten_cons, List.append_assoc, hbody, ih]

theorem gotFrom_append (k : Nat) (a b : List (Nat × List (List Msg))) :
    gotFrom k (a ++ b) = gotFrom k a ++ gotFrom k b := by
  simp [gotFrom]

/-- One ring over a history. -/
theorem run_ring : ∀ (es : List Ev) (rc : Recv), Valid rc.channels es →
    ∃ rc' out, rc.run es = .ok (rc', out) ∧ rc'.rings.map (·.cap) = rc.rings.map (·.cap) ++ caps es ∧
      (∀ (k : Nat) (r : Ring), rc.rings[k]? = some r → ∃ (r' : Ring) (done : List (List Nat)),
        rc'.rings[k]? = some r' ∧ join2 (gotFrom k out) = done.map msg ∧ (gotFrom k out).length = 2 * done.length ∧
        r.q ++ keeps r.cap r.q (mine k es) = (done.map msg).flatten ++ r'.q) ∧
      ∀ (k c : Nat), rc.channels ≤ k → (caps es)[k - rc.channels]? = some c → ∃ (r' : Ring) (done : List (List Nat)),
        rc'.rings[k]? = some r' ∧ join2 (gotFrom k out) = done.map msg ∧ (gotFrom k out).length = 2 * done.length ∧
        keeps c [] (mine k es) = (done.map msg).flatten ++ r'.q
  | [], rc, _ => by
    refine ⟨rc, [], rfl, by simp [caps], ?_, by simp [caps]⟩
    intro k r hr
    exact ⟨r, [], hr, rfl, rfl, by simp [mine, keeps]⟩
  | .send j m :: es, rc, hv => by
    obtain ⟨hj, hv⟩ := hv
    have hj' : j < rc.rings.length := hj
    obtain ⟨rj, hrj⟩ : ∃ rj, rc.rings[j]? = some rj := ⟨_, List.getElem?_eq_getElem hj'⟩
    obtain ⟨rc', out, h1, h2, h3, h4⟩ := run_ring es ⟨rc.rings.set j (rj.send m)⟩ (by
      simpa [Recv.channels] using hv)
    have hcap : (rj.send m).cap = rj.cap := by
      unfold Ring.send
      split <;> rfl
    refine ⟨rc', out, ?_, ?_, ?_, ?_⟩
    · simp only [Recv.run, Recv.step, hrj, bind_ok, h1, pure_ok, List.nil_append]
    · rw [h2, caps]
      congr 1
      rw [List.map_set, hcap]
      apply List.ext_getElem?
      intro i
      by_cases hi : j = i
      · subst hi
        rw [List.getElem?_set_self (by simpa using hj'), List.getElem?_map, hrj]
        rfl
      · rw [List.getElem?_set_ne hi]
    · intro k r hr
      by_cases hk : j = k
      · subst hk
        rw [hrj] at hr
        cases hr
        obtain ⟨r', done, a1, a2, a3, a4⟩ := h3 j (rj.send m) (List.getElem?_set_self hj')
        refine ⟨r', done, a1, a2, a3, ?_⟩
        rw [← a4, hcap]
        simp only [mine, if_true, keeps, Ring.send]
        by_cases hl : rj.q.length < rj.cap
        · simp [hl]
        · simp [hl]
      · obtain ⟨r', done, a1, a2, a3, a4⟩ := h3 k r (by simpa [hk] using hr)
        exact ⟨r', done, a1, a2, a3, by simpa only [mine, if_neg hk] using a4⟩
    · intro k c hk hc
      have hk' : (⟨rc.rings.set j (rj.send m)⟩ : Recv).channels = rc.channels := by simp [Recv.channels]
      obtain ⟨r', done, a1, a2, a3, a4⟩ := h4 k c (by rw [hk']; exact hk) (by rw [hk']; exact hc)
      exact ⟨r', done, a1, a2, a3, by simpa only [mine, if_neg (show ¬ j = k by omega)] using a4⟩
  | .take j :: es, rc, hv => by
    obtain ⟨hj, hv⟩ := hv
    have hj' : j < rc.rings.length := hj
    obtain ⟨rj, hrj⟩ : ∃ rj, rc.rings[j]? = some rj := ⟨_, List.getElem?_eq_getElem hj'⟩
    obtain ⟨bodies, rest, r1, calls, b1, b2, b3, b4, b5, b6, b7⟩ := C48_recv rj
    obtain ⟨rc', out, h1, h2, h3, h4⟩ := run_ring es ⟨rc.rings.set j r1⟩ (by simpa [Recv.channels] using hv)
    refine ⟨rc', (j, calls) :: out, ?_, ?_, ?_, ?_⟩
    · simp only [Recv.run, Recv.step, hrj, bind_ok, b3, h1, pure_ok, List.singleton_append]
    · rw [h2, caps]
      congr 1
      rw [List.map_set, b7]
      apply List.ext_getElem?
      intro i
      by_cases hi : j = i
      · subst hi
        rw [List.getElem?_set_self (by simpa using hj'), List.getElem?_map, hrj]
        rfl
      · rw [List.getElem?_set_ne hi]
    · intro k r hr
      by_cases hk : j = k
      · subst hk
        rw [hrj] at hr
        cases hr
        obtain ⟨r', done, a1, a2, a3, a4⟩ := h3 j r1 (List.getElem?_set_self hj')
        have hg : gotFrom j ((j, calls) :: out) = calls ++ gotFrom j out := by simp [gotFrom]
        refine ⟨r', bodies ++ done, a1, ?_, ?_, ?_⟩
        · rw [hg, join2_append _ _ _ b5, b4, a2, List.map_append]
        · rw [hg, List.length_append, b5, a3, List.length_append]
          omega
        · simp only [mine, if_true, keeps]
          rw [b7, b6] at a4
          rw [b1, behind_append _ _ b2, List.append_assoc, a4]
          simp
      · obtain ⟨r', done, a1, a2, a3, a4⟩ := h3 k r (by simpa [hk] using hr)
        have hg : gotFrom k ((j, calls) :: out) = gotFrom k out := by simp [gotFrom, hk]
        rw [hg]
        exact ⟨r', done, a1, a2, a3, by simpa only [mine, if_neg hk] using a4⟩
    · intro k c hk hc
      have hk' : (⟨rc.rings.set j r1⟩ : Recv).channels = rc.channels := by simp [Recv.channels]
      obtain ⟨r', done, a1, a2, a3, a4⟩ := h4 k c (by rw [hk']; exact hk) (by rw [hk']; exact hc)
      have hjk : ¬ j = k := by omega
      have hg : gotFrom k ((j, calls) :: out) = gotFrom k out := by simp [gotFrom, hjk]
      rw [hg]
      exact ⟨r', done, a1, a2, a3, by simpa only [mine, if_neg hjk] using a4⟩
  | .add c0 :: es, rc, hv => by
    obtain ⟨rc', out, h1, h2, h3, h4⟩ := run_ring es ⟨rc.rings ++ [{ cap := c0 }]⟩ (by
      have : Valid (rc.channels + 1) es := hv
      simpa [Recv.channels] using this)
    refine ⟨rc', out, ?_, ?_, ?_, ?_⟩
    · simp only [Recv.run, Recv.step, C92_add, bind_ok, h1, pure_ok, List.nil_append]
    · rw [h2, caps]
      simp
    · intro k r hr
      have hk : k < rc.rings.length := (List.getElem?_eq_some_iff.1 hr).1
      obtain ⟨r', done, a1, a2, a3, a4⟩ := h3 k r (by rw [List.getElem?_append_left hk]; exact hr)
      exact ⟨r', done, a1, a2, a3, by simpa only [mine] using a4⟩
    · intro k c hk hc
      have hch : (⟨rc.rings ++ [{ cap := c0 }]⟩ : Recv).channels = rc.channels + 1 := by simp [Recv.channels]
      by_cases hk' : k = rc.channels
      · subst hk'
        rw [Nat.sub_self] at hc
        simp only [caps, List.getElem?_cons_zero, Option.some.injEq] at hc
        subst hc
        obtain ⟨r', done, a1, a2, a3, a4⟩ := h3 rc.channels { cap := c0 } (by simp [Recv.channels])
        exact ⟨r', done, a1, a2, a3, by simpa only [mine, List.nil_append] using a4⟩
      · obtain ⟨r', done, a1, a2, a3, a4⟩ := h4 k c (by rw [hch]; omega) (by
          rw [hch]
          have : k - rc.channels = (k - (rc.channels + 1)) + 1 := by omega
          rw [this, caps, List.getElem?_cons_succ] at hc
          exact hc)
        exact ⟨r', done, a1, a2, a3, by simpa only [mine] using a4⟩

/-- **C92** (every sender has a mailbox): whatever the threads do in whatever order, nothing panics, and for each
sender, what the handler gets from its ring and what is still in the ring is what a mailbox of the capacity of the
sender keeps.  Only the events of that sender matter; the messages it completes come whole, once and in order. -/
theorem C92_mailbox (es : List Ev) (hv : Valid 0 es) :
    ∃ rc out, Recv.new.run es = .ok (rc, out) ∧ rc.channels = (caps es).length ∧
      ∀ (k c : Nat), (caps es)[k]? = some c → ∃ (r : Ring) (done : List (List Nat)),
        rc.rings[k]? = some r ∧ r.cap = c ∧ join2 (gotFrom k out) = done.map msg ∧
        (gotFrom k out).length = 2 * done.length ∧ keeps c [] (mine k es) = (done.map msg).flatten ++ r.q := by
  obtain ⟨rc, out, h1, h2, -, h4⟩ := run_ring es Recv.new hv
  simp only [Recv.new, List.map_nil, List.nil_append] at h2
  refine ⟨rc, out, h1, ?_, ?_⟩
  · rw [← h2]
    simp [Recv.channels]
  · intro k c hc
    obtain ⟨r, done, a1, a2, a3, a4⟩ := h4 k c (Nat.zero_le _) hc
    refine ⟨r, done, a1, ?_, a2, a3, a4⟩
    have := congrArg (·[k]?) h2
    simp only [List.getElem?_map, a1, Option.map_some, hc, Option.some.injEq] at this
    exact this

example : Valid 0 [.add 3, .send 0 (.data 1), .add 2, .send 1 (.data 7), .take 0, .send 0 .fin, .send 1 .fin, .take 0,
      .send 0 (.data 2), .take 1] ∧
    (Recv.new.run [.add 3, .send 0 (.data 1), .add 2, .send 1 (.data 7), .take 0, .send 0 .fin, .send 1 .fin, .take 0,
      .send 0 (.data 2), .take 1]).map (·.2) = .ok [(0, []), (0, [[.data 1, .fin], []]), (1, [[.data 7, .fin], []])] := by
  constructor
  · simp [Valid]
  · decide

/-- What a mailbox keeps is part of what was sent, in the same order. -/
theorem keeps_sublist (cap : Nat) : ∀ (ms : List Mine) (unread : List Msg), (keeps cap unread ms).Sublist (sends ms)
  | [], _ => List.Sublist.refl _
  | .send m :: ms, unread => by
    rw [keeps, sends]
    split
    · exact (keeps_sublist cap ms _).cons_cons m
    · exact (keeps_sublist cap ms _).cons m
  | .take :: ms, unread => keeps_sublist cap ms _

/-- Everything fits: whenever something is sent there is room for it. -/
def Fits (cap : Nat) : List Msg → List Mine → Prop
  | _, [] => True
  | unread, .send m :: es => unread.length < cap ∧ Fits cap (unread ++ [m]) es
  | unread, .take :: es => Fits cap (behind unread) es

theorem keeps_all (cap : Nat) : ∀ (ms : List Mine) (unread : List Msg),
    keeps cap unread ms = sends ms ↔ Fits cap unread ms
  | [], _ => by simp [keeps, sends, Fits]
  | .send m :: ms, unread => by
    rw [keeps, sends, Fits]
    by_cases h : unread.length < cap
    · rw [if_pos h, List.cons.injEq, keeps_all cap ms]
      simp [h]
    · rw [if_neg h]
      refine ⟨fun he => ?_, fun he => absurd he.1 h⟩
      have := (keeps_sublist cap ms unread).length_le
      rw [he] at this
      simp at this
  | .take :: ms, unread => by
    rw [keeps, sends, Fits, keeps_all cap ms]

/-- **C92** (nothing is lost if and only if it fits): everything that a sender sends is kept exactly if there is room
each time; other senders never matter. -/
theorem C92_lost (es : List Ev) (hv : Valid 0 es) (k c : Nat) (hc : (caps es)[k]? = some c) :
    ∃ rc out, Recv.new.run es = .ok (rc, out) ∧ ∃ (r : Ring) (done : List (List Nat)), rc.rings[k]? = some r ∧
      join2 (gotFrom k out) = done.map msg ∧ ((done.map msg).flatten ++ r.q).Sublist (sends (mine k es)) ∧
      ((done.map msg).flatten ++ r.q = sends (mine k es) ↔ Fits c [] (mine k es)) := by
  obtain ⟨rc, out, h1, -, h3⟩ := C92_mailbox es hv
  obtain ⟨r, done, a1, -, a3, -, a5⟩ := h3 k c hc
  refine ⟨rc, out, h1, r, done, a1, a3, ?_, ?_⟩
  · rw [← a5]
    exact keeps_sublist c _ _
  · rw [← a5]
    exact keeps_all c _ _

example : Fits 2 [] (mine 1 [.add 1, .add 2, .send 1 (.data 4), .send 0 (.data 1), .send 1 .fin, .take 1, .send 1 (.data 5)]) ∧
    ¬ Fits 2 [] [.send (.data 4), .send (.data 5), .take, .send .fin] := by
  constructor
  · simp [mine, Fits, behind]
  · simp [Fits, behind]

/-- `recv` with nothing in between handles every ring once, in the order in which the senders were added. -/
theorem C92_recv (rc : Recv) : ∃ rc' out, rc.run ((List.range rc.channels).map Ev.take) = .ok (rc', out) ∧
    rc.recv = .ok (rc', out.flatMap (·.2)) := by
  have key : ∀ (rs pre : List Ring), ∃ rs' out,
      Recv.run ⟨pre ++ rs⟩ ((List.range' pre.length rs.length).map Ev.take) = .ok (⟨pre ++ rs'⟩, out) ∧
      recvAll rs = .ok (rs', out.flatMap (·.2)) := by
    intro rs
    induction rs with
    | nil => intro pre; exact ⟨[], [], by simp [Recv.run], rfl⟩
    | cons r rs ih =>
      intro pre
      obtain ⟨-, -, r1, calls, -, -, b3, -⟩ := C48_recv r
      obtain ⟨rs', out, e1, e2⟩ := ih (pre ++ [r1])
      refine ⟨r1 :: rs', (pre.length, calls) :: out, ?_, ?_⟩
      · have hs : (pre ++ r :: rs).set pre.length r1 = pre ++ [r1] ++ rs := by
          rw [List.set_append_right _ _ (le_refl _)]
          simp
        have hg : (pre ++ r :: rs)[pre.length]? = some r := by simp
        simp only [List.length_append, List.length_singleton] at e1
        simp only [List.length_cons, List.range'_succ, List.map_cons, Recv.run, Recv.step, hg, b3, bind_ok, pure_ok, hs,
          e1]
        simp
      · simp [recvAll, b3, e2]
  obtain ⟨rs', out, e1, e2⟩ := key rc.rings []
  refine ⟨⟨rs'⟩, out, ?_, ?_⟩
  · simpa [List.range_eq_range', Recv.channels] using e1
  · simp [Recv.recv, e2]

/-- **C92 violated** (order): messages of different senders do not arrive in the order in which they were sent.  Here
sender 1 logs first, and the handler gets the message of sender 0 first. -/
theorem C92_order_violated :
    (Recv.new.run [.add 4, .add 4, .send 1 (.data 1), .send 1 .fin, .send 0 (.data 2), .send 0 .fin, .take 0, .take 1]).map
      (fun x => join2 (x.2.flatMap (·.2))) = .ok [[.data 2, .fin], [.data 1, .fin]] := by
  decide

/-! ### Values -/

/-- The values that the types can have. -/
def Src.Wf : Src → Prop
  | .f32 x => Fl.Rep 24 (-149) x
  | .f64 x => Fl.Rep 53 (-1074) x
  | .usize n => n < U64
  | .u64 n => n < U64
  | .u32 n => n < 2 ^ 32
  | .u16 n => n < 2 ^ 16
  | .u8 n => n < 2 ^ 8
  | .i64 i => -2 ^ 63 ≤ i ∧ i < 2 ^ 63
  | .i32 i => -2 ^ 31 ≤ i ∧ i < 2 ^ 31
  | .i16 i => -2 ^ 15 ≤ i ∧ i < 2 ^ 15
  | .i8 i => -2 ^ 7 ≤ i ∧ i < 2 ^ 7
  | _ => True

/-- What is meant by a value before it becomes a message: a text, a number, or a time. -/
inductive Meaning where
  | text (s : String)
  | number (x : ℚ)
  | time (s : Seconds)
  | nothing

/-- The meaning of a value given to `rt_log!`. -/
def Src.meaning : Src → Meaning
  | .str s => .text s
  | .f64 x | .f32 x => .number x
  | .usize n | .u64 n | .u32 n | .u16 n | .u8 n => .number n
  | .i64 i | .i32 i | .i16 i | .i8 i => .number i
  | .seconds s => .time s

/-- The meaning of a message. -/
def Val.meaning : Val → Meaning
  | .str s => .text s
  | .float x => .number x
  | .unsigned n => .number n
  | .signed i => .number i
  | .timestamp s => .time s
  | .end => .nothing

theorem asU64_small {n : Nat} (h : n < U64) : asU64 n = n := Nat.mod_eq_of_lt h

theorem asI64_small {i : Int} (h : -2 ^ 63 ≤ i) (h' : i < 2 ^ 63) : asI64 i = i := by
  unfold asI64
  omega

/-- **C92** (values): every value of every type becomes a message with the same meaning. -/
theorem C92_values (v : Src) (h : v.Wf) : (Val.ofSrc v).meaning = v.meaning := by
  cases v with
  | str s => rfl
  | f64 x => rfl
  | f32 x =>
    obtain ⟨m, e, hx, hm, he⟩ := h
    have : Fl.rnd64 x = x := Fl.rnd_rep ⟨m, e, hx, lt_trans hm (by norm_num), by omega⟩
    simp only [Val.ofSrc, Val.meaning, Src.meaning, this]
  | usize n =>
    have h' : asU64 n = n := asU64_small h
    simp only [Val.ofSrc, Val.meaning, Src.meaning, h']
  | u64 n => rfl
  | u32 n =>
    have h' : asU64 n = n := asU64_small (by simp only [Src.Wf] at h; omega)
    simp only [Val.ofSrc, Val.meaning, Src.meaning, h']
  | u16 n =>
    have h' : asU64 n = n := asU64_small (by simp only [Src.Wf] at h; omega)
    simp only [Val.ofSrc, Val.meaning, Src.meaning, h']
  | u8 n =>
    have h' : asU64 n = n := asU64_small (by simp only [Src.Wf] at h; omega)
    simp only [Val.ofSrc, Val.meaning, Src.meaning, h']
  | i64 i => rfl
  | i32 i =>
    have h' : asI64 i = i := by simp only [Src.Wf] at h; exact asI64_small (by omega) (by omega)
    simp only [Val.ofSrc, Val.meaning, Src.meaning, h']
  | i16 i =>
    have h' : asI64 i = i := by simp only [Src.Wf] at h; exact asI64_small (by omega) (by omega)
    simp only [Val.ofSrc, Val.meaning, Src.meaning, h']
  | i8 i =>
    have h' : asI64 i = i := by simp only [Src.Wf] at h; exact asI64_small (by omega) (by omega)
    simp only [Val.ofSrc, Val.meaning, Src.meaning, h']
  | seconds s => rfl

example : (Src.f32 (3 / 8)).Wf ∧ (Src.i8 (-128)).Wf :=
  ⟨⟨3, -3, by decide +kernel, by norm_num, by norm_num⟩, by simp [Src.Wf]⟩

/-- **C92 violated** (the fallback): with the sender that writes to the `log` crate a message does not arrive whole:
every value is a record of its own, and the mark of the end is printed as text, so that a message cannot be told from
the same message that ends with the text "End" and something behind it. -/
theorem C92_fallback_violated (showFloat : ℚ → String) (a b : List Src) :
    (fallback showFloat a).length = a.length + 1 ∧
      fallback showFloat (a ++ .str "End" :: b) = fallback showFloat a ++ fallback showFloat b := by
  simp [fallback, Val.ofSrc, Val.display]

end Verif.Lg
