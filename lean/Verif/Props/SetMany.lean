import Verif.Model.SetMany
import Verif.Props.ParamNames

/-!
# C107: setting many parameters at once
-/

namespace Verif.Pa

/-- What a change asks for: the node is one of this graph and the parameter is one it has. -/
def Means (g : Gr) (c : Change) (e : Event) : Prop :=
  e.node = c.key ∧ e.value = c.v ∧ ∃ n, g.nodes.lookup c.key = some n ∧ e.parameter < n.params.length ∧
    match c.p with
    | .index i => e.parameter = i
    | .desc d => Names n e.parameter d

/-- The changes of a list that mean something, in order. -/
inductive Picked (g : Gr) : List Change → List Event → Prop
  | nil : Picked g [] []
  | take {c e cs es} : Means g c e → Picked g cs es → Picked g (c :: cs) (e :: es)
  | skip {c cs es} : (∀ e, ¬ Means g c e) → Picked g cs es → Picked g (c :: cs) es

/-- The nodes are ones of this graph, and all numbers of parameters fit into 16 bits. -/
structure Plain (g : Gr) (cs : List Change) : Prop where
  mine : ∀ c ∈ cs, c.graph = g.id
  count : ∀ k n, g.nodes.lookup k = some n → n.params.length < 65536
  index : ∀ c ∈ cs, ∀ i, c.p = .index i → i < 65536

theorem Plain.tail {g c cs} (h : Plain g (c :: cs)) : Plain g cs :=
  ⟨fun x hx => h.mine x (List.mem_cons_of_mem _ hx), h.count, fun x hx => h.index x (List.mem_cons_of_mem _ hx)⟩

theorem mine_ok (x : Nat) : U64 - 1 - x ≠ x := by
  omega

theorem set_means {g : Gr} {s : Sender} {c cs e} (hp : Plain g (c :: cs)) (h : Means g c e) :
    graphSet g s c.graph c.key c.p c.v = s.send e := by
  obtain ⟨h1, h2, n, hn, h3, h4⟩ := h
  have hu : u16 n.params.length = n.params.length := Nat.mod_eq_of_lt (hp.count _ _ hn)
  have he : e = ⟨c.key, e.parameter, c.v⟩ := by cases e; simp_all
  have hm : ¬ U64 - 1 - c.graph = g.id := by rw [hp.mine c (by simp)]; exact mine_ok _
  rw [graphSet, if_neg hm]
  simp only [hn]
  cases hc : c.p with
  | index i =>
    simp only [hc] at h4
    subst h4
    have hi : u16 e.parameter = e.parameter := Nat.mod_eq_of_lt (hp.index c (by simp) _ hc)
    simp only [hu, hi, if_neg (Nat.not_le.2 h3)]
    rw [← he]
  | desc d =>
    simp only [hc] at h4
    simp only [position_of_names h4]
    rw [← he]

theorem set_nothing {g : Gr} {s : Sender} {c cs} (hp : Plain g (c :: cs)) (h : ∀ e, ¬ Means g c e) :
    ∃ r, graphSet g s c.graph c.key c.p c.v = (s, .error r) := by
  have hm : ¬ U64 - 1 - c.graph = g.id := by rw [hp.mine c (by simp)]; exact mine_ok _
  rw [graphSet, if_neg hm]
  cases hn : g.nodes.lookup c.key with
  | none => exact ⟨_, rfl⟩
  | some n =>
    have hu : u16 n.params.length = n.params.length := Nat.mod_eq_of_lt (hp.count _ _ hn)
    cases hc : c.p with
    | index i =>
      have hi : u16 i = i := Nat.mod_eq_of_lt (hp.index c (by simp) _ hc)
      have : n.params.length ≤ i := by
        by_contra hlt
        exact h ⟨c.key, i, c.v⟩ ⟨rfl, rfl, n, hn, by simpa using hlt, by rw [hc]⟩
      simp only [hu, hi, if_pos this]
      exact ⟨_, rfl⟩
    | desc d =>
      cases hd : n.position d with
      | none => simp only [hd]; exact ⟨_, rfl⟩
      | some i =>
        exfalso
        obtain ⟨hlt, hi, hj⟩ := List.findIdx?_eq_some_iff_getElem.1 hd
        refine h ⟨c.key, i, c.v⟩ ⟨rfl, rfl, n, hn, hlt, ?_⟩
        rw [hc]
        refine ⟨by simpa [List.getElem?_eq_getElem hlt] using hi, fun j hji => ?_⟩
        have := hj j hji
        have hjl : j < n.params.length := Nat.lt_trans hji hlt
        rw [List.getElem?_eq_getElem hjl]
        simpa using this

theorem send_room {s : Sender} {e : Event} (ha : s.abandoned = false) (h : s.queue.length < s.cap) :
    s.send e = ({ s with queue := s.queue ++ [e] }, .ok ()) := by
  simp [Sender.send, ha, h]

theorem send_full {s : Sender} {e : Event} (ha : s.abandoned = false) (h : s.cap ≤ s.queue.length) :
    s.send e = (s, .error .ringFull) := by
  simp [Sender.send, ha, Nat.not_lt.2 h]

/-- **C107**, what is sent: the changes that mean something are sent in order, each once, as far as there is room, and the others
change nothing.  Missing: the nodes are taken to be of this graph and the indices to be below 65536 (see C36), and see below for a
ring without room and for blocks that start in between. -/
theorem C107_sent_partial {g : Gr} : ∀ (cs : List Change) {es : List Event} {s : Sender}, Plain g cs → Picked g cs es →
    s.abandoned = false → (setMany g s cs).1 = { s with queue := s.queue ++ es.take (s.cap - s.queue.length) } := by
  intro cs
  induction cs with
  | nil =>
    intro es s _ h _
    cases h
    simp [setMany]
  | cons c cs ih =>
    intro es s hp h ha
    cases h with
    | skip h1 h2 =>
      obtain ⟨r, hr⟩ := set_nothing (s := s) hp h1
      simp only [setMany, hr]
      exact ih hp.tail h2 ha
    | @take _ e _ es h1 h2 =>
      simp only [setMany, set_means hp h1]
      by_cases hroom : s.queue.length < s.cap
      · rw [send_room ha hroom]
        simp only
        rw [ih (s := { s with queue := s.queue ++ [e] }) hp.tail h2 ha]
        obtain ⟨m, hm⟩ : ∃ m, s.cap - s.queue.length = m + 1 := ⟨s.cap - s.queue.length - 1, by omega⟩
        have : s.cap - (s.queue ++ [e]).length = m := by simp; omega
        rw [this, hm]
        simp
      · rw [send_full ha (Nat.not_lt.1 hroom)]
        simp only
        rw [ih hp.tail h2 ha]
        have : s.cap - s.queue.length = 0 := by omega
        simp [this]

/-- **C107**, with blocks in between: whenever the audio thread takes what is there, the changes that mean something arrive in order
and each once if the ring has room for them. -/
theorem C107_during_partial {g : Gr} : ∀ (cs : List (Change × Bool)) {es : List Event} {s : Sender},
    Plain g (cs.map Prod.fst) → Picked g (cs.map Prod.fst) es → s.abandoned = false →
    s.queue.length + es.length ≤ s.cap →
    (setManyDuring g s cs).2.flatten ++ (setManyDuring g s cs).1.queue = s.queue ++ es := by
  intro cs
  induction cs with
  | nil =>
    intro es s _ h _ _
    cases h
    simp [setManyDuring]
  | cons x cs ih =>
    obtain ⟨c, b⟩ := x
    intro es s hp h ha hl
    rw [List.map_cons] at hp h
    cases h with
    | skip h1 h2 =>
      obtain ⟨r, hr⟩ := set_nothing (s := s) hp h1
      cases b with
      | false => simp only [setManyDuring, hr]; exact ih hp.tail h2 ha hl
      | true =>
        simp only [setManyDuring, hr, Sender.drain, List.flatten_cons, List.append_assoc]
        rw [ih hp.tail h2 (s := { s with queue := [] }) ha (by simp; omega)]
        simp
    | @take _ e _ es h1 h2 =>
      have hroom : s.queue.length < s.cap := by simp at hl; omega
      cases b with
      | false =>
        simp only [setManyDuring, set_means hp h1, send_room ha hroom]
        rw [ih hp.tail h2 (s := { s with queue := s.queue ++ [e] }) ha (by simp at hl ⊢; omega)]
        simp
      | true =>
        simp only [setManyDuring, set_means hp h1, send_room ha hroom, Sender.drain, List.flatten_cons, List.append_assoc]
        rw [ih hp.tail h2 (s := { s with queue := [] }) ha (by simp at hl ⊢; omega)]
        simp

/-- **C107 is violated**, room: with less room than changes the last ones are lost, whatever they are; `set_many` returns nothing. -/
theorem C107_room_violated {g : Gr} {cs : List Change} {es : List Event} {s : Sender} (hp : Plain g cs) (h : Picked g cs es)
    (ha : s.abandoned = false) (hc : s.cap < s.queue.length + es.length) (hq : s.queue.length ≤ s.cap) :
    (setMany g s cs).1.queue.length = s.cap ∧ (setMany g s cs).1.queue ≠ s.queue ++ es := by
  rw [C107_sent_partial cs hp h ha]
  have h1 : (s.queue ++ es.take (s.cap - s.queue.length)).length = s.cap := by
    simp only [List.length_append, List.length_take]
    omega
  refine ⟨h1, fun he => ?_⟩
  have := congrArg List.length he
  rw [h1] at this
  simp only [List.length_append] at this
  omega

theorem during_none {g : Gr} : ∀ (cs : List Change) (s : Sender),
    setManyDuring g s (cs.map fun c => (c, false)) = ((setMany g s cs).1, []) := by
  intro cs
  induction cs with
  | nil => intro s; rfl
  | cons c cs ih => intro s; simp only [List.map_cons, setManyDuring, setMany, ih]

theorem during_split {g : Gr} (c : Change) (bs : List Change) : ∀ (xs : List Change) (s : Sender),
    setManyDuring g s (xs.map (fun c => (c, false)) ++ (c, true) :: bs.map fun c => (c, false)) =
      ((setMany g (setMany g s (xs ++ [c])).1.drain.1 bs).1, [(setMany g s (xs ++ [c])).1.queue]) := by
  intro xs
  induction xs with
  | nil => intro s; simp [setManyDuring, setMany, during_none, Sender.drain]
  | cons a xs ih => intro s; simp only [List.map_cons, List.cons_append, setManyDuring, setMany, ih]

/-- **C107 is violated**, at once: however the changes are divided into two parts, a block can start in between.  It plays with the
first part only; the second part waits for the next block. -/
theorem C107_at_once_violated {g : Gr} {xs bs : List Change} {c : Change} {es fs : List Event} {s : Sender}
    (hp : Plain g (xs ++ [c])) (hq : Plain g bs) (h : Picked g (xs ++ [c]) es) (h' : Picked g bs fs) (ha : s.abandoned = false)
    (hs : s.queue = []) (hc : es.length + fs.length ≤ s.cap) :
    ∃ cs, cs.map Prod.fst = xs ++ c :: bs ∧ (setManyDuring g s cs).2 = [es] ∧ (setManyDuring g s cs).1.queue = fs := by
  refine ⟨xs.map (fun c => (c, false)) ++ (c, true) :: bs.map fun c => (c, false), by simp [Function.comp_def], ?_, ?_⟩
  · rw [during_split, C107_sent_partial _ hp h ha]
    simp [hs, List.take_of_length_le (show es.length ≤ s.cap by omega)]
  · rw [during_split, C107_sent_partial _ hp h ha]
    simp only [Sender.drain]
    rw [C107_sent_partial (s := { s with queue := [] }) _ hq h' ha]
    simp [List.take_of_length_le (show fs.length ≤ s.cap by omega)]

/-- A graph with two nodes, and three changes of which the second names a parameter that is not there. -/
def duo : Gr := { id := 3, nodes := [(0, .ugen [("freq", .float), ("reset", .trigger)]), (1, .envelope)] }

def three : List Change := [⟨3, 0, .desc "reset", .trigger⟩, ⟨3, 1, .desc "freq", .trigger⟩, ⟨3, 1, .index 2, .trigger⟩]

theorem duo_lookup {k n} (h : duo.nodes.lookup k = some n) :
    k = 0 ∧ n = .ugen [("freq", .float), ("reset", .trigger)] ∨ k = 1 ∧ n = .envelope := by
  simp only [duo, List.lookup_cons, List.lookup_nil] at h
  split at h
  · next hk => exact .inl ⟨by simpa using hk, by simpa using h.symm⟩
  · split at h
    · next hk => exact .inr ⟨by simpa using hk, by simpa using h.symm⟩
    · simp at h

/-- The hypotheses of the theorems hold there: `three` is plain, and its first and third change are the ones that mean something. -/
example : Plain duo three ∧ Picked duo three [⟨0, 1, .trigger⟩, ⟨1, 2, .trigger⟩] := by
  refine ⟨⟨?_, ?_, ?_⟩, .take ?_ (.skip ?_ (.take ?_ .nil))⟩
  · intro c hc
    simp only [three, List.mem_cons, List.not_mem_nil, or_false] at hc
    rcases hc with rfl | rfl | rfl <;> rfl
  · intro k n h
    rcases duo_lookup h with ⟨-, rfl⟩ | ⟨-, rfl⟩ <;> simp [Shape.params]
  · intro c hc i hi
    simp only [three, List.mem_cons, List.not_mem_nil, or_false] at hc
    rcases hc with rfl | rfl | rfl <;> simp at hi
    omega
  · refine ⟨rfl, rfl, _, rfl, by simp [Shape.params], ?_⟩
    refine ⟨rfl, fun j hj => ?_⟩
    obtain rfl : j = 0 := by simpa using hj
    simp [Shape.params]
  · rintro e ⟨h1, h2, n, hn, h3, h4⟩
    rcases duo_lookup hn with ⟨hk, -⟩ | ⟨-, rfl⟩
    · simp at hk
    · have h5 := h4.1
      simp only [Shape.params, List.length_cons, List.length_nil] at h3
      obtain h | h | h | h : e.parameter = 0 ∨ e.parameter = 1 ∨ e.parameter = 2 ∨ e.parameter = 3 := by omega
      all_goals rw [h] at h5; simp [Shape.params] at h5
  · exact ⟨rfl, rfl, _, rfl, by simp [Shape.params], rfl⟩

end Verif.Pa
