import Verif.Model.RealTime
import Mathlib.Data.List.Perm.Basic
import Mathlib.Data.List.Range
import Mathlib.Data.List.Count

/-!
# C100: the audio thread neither allocates nor frees memory

The model is `Model/RealTime.lean`.
-/

namespace Verif.Rt

variable {V S : Type} {c : GenCfg}

/-- No restriction on the history. -/
def Any (_ : RS V S) (_ : Step V S) : Prop := True

/-! ### Small facts -/

theorem bind_inv {α β : Type} {x : R α} {f : α → R β} {c : β} (h : (x >>= f) = .ok c) : ∃ a, x = .ok a ∧ f a = .ok c := by
  cases x with
  | error e => cases h
  | ok a => exact ⟨a, rfl, h⟩

/-- An event that stays keeps its token. -/
theorem applyChange_token {env : BlockEnv} {e e' : Event V S} (h : applyChange c env e = .ok (.inl e')) :
    e'.change = e.change := by
  unfold applyChange at h
  obtain ⟨⟨r, d, e1⟩, h1, h2⟩ := bind_inv h
  have he : e1.change = e.change := by
    cases ht : e.time with
    | none =>
      simp only [ht, pure_ok, Except.ok.injEq, Prod.mk.injEq] at h1
      rw [← h1.2.2]
    | some t =>
      simp only [ht] at h1
      obtain ⟨⟨d', t'⟩, -, h4⟩ := bind_inv h1
      simp only [pure_ok, Except.ok.injEq, Prod.mk.injEq] at h4
      rw [← h4.2.2]
  simp only at h2
  split at h2
  · split at h2
    · simp at h2
    · simp only [pure_ok, Except.ok.injEq, Sum.inl.injEq] at h2
      rw [← h2, he]
  · simp only [pure_ok, Except.ok.injEq, Sum.inl.injEq] at h2
    rw [← h2, he]

/-- What a step can be, with the computation of the event left out. -/
inductive Move (c : GenCfg) (s : RS V S) : Step V S → RS V S → Prop
  | newToken : Move c s .newToken { s with handles := s.nextToken :: s.handles, nextToken := s.nextToken + 1 }
  | clone (t : Nat) : t ∈ s.handles → Move c s (.clone t) { s with handles := t :: s.handles }
  | dropHandle (th : Thread) (t : Nat) : t ∈ s.handles →
      Move c s (.dropHandle th t) ({ s with handles := s.handles.erase t }.release th (some t))
  | activate (t : Nat) : t ∈ s.handles → Move c s (.activate t) { s with active := t :: s.active }
  | sendSome (e : Event V S) (t : Nat) : e.change.token = some t → t ∈ s.handles → s.ring.length < s.cap →
      Move c s (.send e) { s with handles := s.handles.erase t, ring := s.ring ++ [e] }
  | sendNone (e : Event V S) : e.change.token = none → s.ring.length < s.cap → Move c s (.send e) { s with ring := s.ring ++ [e] }
  | fullSome (e : Event V S) (t : Nat) : e.change.token = some t → t ∈ s.handles →
      Move c s (.send e) ({ s with handles := s.handles.erase t }.release .control (some t))
  | fullNone (e : Event V S) : e.change.token = none → Move c s (.send e) s
  | drain : s.pc = .idle → Move c s .drain { s with pc := .draining s.old.length }
  | drained (n : Nat) : s.pc = .draining n → Move c s .drained { s with
      old := s.old.drop n, pc := .sending, freed := s.freed ++ (s.old.take n).map fun i => (.control, .tasks i) }
  | push : s.pc = .sending → s.fresh.length + s.read < s.cap →
      Move c s .push { s with fresh := s.fresh ++ [s.next], next := s.next + 1, pc := .idle }
  | skip : s.pc = .sending → Move c s .skip { s with pc := .idle }
  | chunk : Move c s .chunk { s with left := s.fresh.length }
  | recvRoom (l td : Nat) (fresh : List Nat) : s.fresh = td :: fresh → s.old.length < s.cap →
      Move c s .recv { s with fresh := fresh, left := l, read := s.read + 1, cur := td, old := s.old ++ [s.cur] }
  | recvFull (l td : Nat) (fresh : List Nat) : s.fresh = td :: fresh → ¬ s.old.length < s.cap →
      Move c s .recv { s with fresh := fresh, left := l, read := s.read + 1, cur := td, freed := s.freed ++ [(.audio, .tasks s.cur)] }
  | chunkEnd : Move c s .chunkEnd { s with read := 0 }
  | waitKeep (n : Nat) (ks : List Nat) (e e' : Event V S) (w w' : Nat) (q : Queue V S) : s.waiting = (e, w) :: q →
      e'.change = e.change → Move c s (.wait n ks) ({ s with waiting := q }.pushBack (e', w'))
  | waitDrop (n : Nat) (ks : List Nat) (e : Event V S) (w : Nat) (q : Queue V S) : s.waiting = (e, w) :: q →
      Move c s (.wait n ks) ({ s with waiting := q }.release .audio e.change.token)
  | eventKeep (n : Nat) (ks : List Nat) (e e' : Event V S) (es : List (Event V S)) : s.ring = e :: es →
      e'.change = e.change → s.waiting.length < s.room → Move c s (.event n ks) ({ s with ring := es }.pushBack (e', 0))
  | eventDrop (n : Nat) (ks : List Nat) (e : Event V S) (es : List (Event V S)) : s.ring = e :: es →
      Move c s (.event n ks) ({ s with ring := es }.release .audio e.change.token)

theorem move_of_run {s s' : RS V S} {st : Step V S} (h : st.run c s = .ok (some s')) : Move c s st s' := by
  cases st with
  | newToken => simp only [Step.run, Except.ok.injEq, Option.some.injEq] at h; subst h; exact .newToken
  | clone t =>
    simp only [Step.run, Except.ok.injEq] at h
    split at h <;> simp at h
    subst h; exact .clone t ‹_›
  | dropHandle th t =>
    simp only [Step.run, Except.ok.injEq] at h
    split at h <;> simp at h
    subst h; exact .dropHandle th t ‹_›
  | activate t =>
    simp only [Step.run, Except.ok.injEq] at h
    split at h <;> simp at h
    subst h; exact .activate t ‹_›
  | send e =>
    simp only [Step.run] at h
    split at h
    · rename_i ht
      cases hk : e.change.token with
      | none =>
        simp only [hk, Except.ok.injEq, Option.some.injEq] at h
        split at h
        · subst h; exact .sendNone e hk ‹_›
        · subst h; exact .fullNone e hk
      | some t =>
        simp only [hk, Except.ok.injEq, Option.some.injEq] at h
        split at h
        · subst h; exact .sendSome e t hk (ht t hk) ‹_›
        · subst h; exact .fullSome e t hk (ht t hk)
    · simp at h
  | drain =>
    simp only [Step.run, Except.ok.injEq] at h
    split at h <;> simp at h
    subst h; exact .drain ‹_›
  | drained =>
    simp only [Step.run, Except.ok.injEq] at h
    split at h
    · simp only [Option.some.injEq] at h
      subst h; exact .drained _ ‹_›
    · simp at h
  | push =>
    simp only [Step.run] at h
    split at h
    · split at h
      · simp only [Except.ok.injEq, Option.some.injEq] at h
        subst h; exact .push ‹_› ‹_›
      · cases h
    · simp at h
  | skip =>
    simp only [Step.run, Except.ok.injEq] at h
    split at h <;> simp at h
    subst h; exact .skip ‹_›
  | chunk =>
    simp only [Step.run, Except.ok.injEq] at h
    split at h <;> simp at h
    subst h; exact .chunk
  | recv =>
    simp only [Step.run] at h
    split at h
    · simp only [Except.ok.injEq, Option.some.injEq] at h
      split at h
      · subst h; exact .recvRoom _ _ _ ‹_› ‹_›
      · subst h; exact .recvFull _ _ _ ‹_› ‹_›
    · simp at h
  | chunkEnd =>
    simp only [Step.run, Except.ok.injEq] at h
    split at h <;> simp at h
    subst h; exact .chunkEnd
  | wait n ks =>
    simp only [Step.run] at h
    split at h
    · simp at h
    · rename_i e w q hq
      split at h
      · simp only [Except.ok.injEq, Option.some.injEq] at h
        subst h; exact .waitDrop _ _ e w q hq
      · obtain ⟨r, h1, h⟩ := bind_inv h
        cases r with
        | inl e' =>
          simp only at h
          obtain ⟨w', -, h⟩ := bind_inv h
          simp only [Except.ok.injEq, Option.some.injEq] at h
          subst h; exact .waitKeep _ _ e e' w w' q hq (applyChange_token h1)
        | inr a =>
          simp only [Except.ok.injEq, Option.some.injEq] at h
          subst h; exact .waitDrop _ _ e w q hq
  | event n ks =>
    simp only [Step.run] at h
    split at h
    · simp at h
    · rename_i e es hq
      obtain ⟨r, h1, h⟩ := bind_inv h
      cases r with
      | inl e' =>
        simp only [Except.ok.injEq, Option.some.injEq] at h
        split at h
        · subst h; exact .eventKeep _ _ e e' es hq (applyChange_token h1) ‹_›
        · subst h; exact .eventDrop _ _ e es hq
      | inr a =>
        simp only [Except.ok.injEq, Option.some.injEq] at h
        subst h; exact .eventDrop _ _ e es hq

/-- Induction over histories. -/
theorem Reaches.inv {E : RS V S → Step V S → Prop} {P : RS V S → Prop} {s s' : RS V S} (h : Reaches c E s s') (h0 : P s)
    (hstep : ∀ x st y, P x → E x st → Move c x st y → P y) : P s' := by
  induction h with
  | refl => exact h0
  | step st _ he hr ih => exact hstep _ _ _ ih he (move_of_run hr)

theorem Reaches.trans {E : RS V S → Step V S → Prop} {s s' s'' : RS V S} (h : Reaches c E s s') (h' : Reaches c E s' s'') :
    Reaches c E s s'' := by
  induction h' with
  | refl => exact h
  | step st _ he hr ih => exact .step st ih he hr

/-! ### What `release` and `pushBack` leave alone -/

theorem release_eq (s : RS V S) (th : Thread) (o : Option Nat) : ∃ l, s.release th o = { s with freed := s.freed ++ l } ∧
    ∀ x ∈ l, ∃ t, o = some t ∧ x = (th, .token t) ∧ s.refs t = 0 := by
  cases o with
  | none => exact ⟨[], by simp [RS.release], by simp⟩
  | some t =>
    unfold RS.release
    simp only
    split
    · exact ⟨[(th, .token t)], rfl, by simpa using ‹_›⟩
    · exact ⟨[], by simp, by simp⟩

theorem pushBack_eq (s : RS V S) (p : Event V S × Nat) : ∃ r g, s.pushBack p = { s with waiting := s.waiting ++ [p], room := r, grown := g } ∧
    (s.waiting.length < s.room → r = s.room ∧ g = s.grown) := by
  unfold RS.pushBack
  split
  · exact ⟨s.room, s.grown, rfl, fun _ => ⟨rfl, rfl⟩⟩
  · exact ⟨_, _, rfl, fun h => absurd h ‹_›⟩

/-! ### Allocating -/

/-- **C100**: the audio thread never has to make room for the events that wait. -/
theorem C100_no_growth {E : RS V S → Step V S → Prop} {cap room : Nat} {s : RS V S} (h : Reaches c E (.init cap room) s) :
    s.grown = 0 ∧ s.room = room ∧ s.waiting.length ≤ room := by
  refine h.inv (P := fun s => s.grown = 0 ∧ s.room = room ∧ s.waiting.length ≤ room) ⟨rfl, rfl, by simp [RS.init]⟩ ?_
  rintro x st y ⟨h1, h2, h3⟩ - hm
  cases hm with
  | dropHandle th t _ => obtain ⟨l, e, -⟩ := release_eq { x with handles := x.handles.erase t } th (some t); rw [e]; exact ⟨h1, h2, h3⟩
  | fullSome e t _ _ => obtain ⟨l, e, -⟩ := release_eq { x with handles := x.handles.erase t } .control (some t); rw [e]; exact ⟨h1, h2, h3⟩
  | waitKeep n ks e e' w w' q hq he =>
    obtain ⟨r, g, e1, e2⟩ := pushBack_eq { x with waiting := q } (e', w')
    rw [hq] at h3
    simp only [List.length_cons] at h3
    obtain ⟨rfl, rfl⟩ := e2 (by simp only; omega)
    rw [e1]
    refine ⟨h1, h2, ?_⟩
    simp only [List.length_append, List.length_cons, List.length_nil]
    omega
  | waitDrop n ks e w q hq =>
    obtain ⟨l, e1, -⟩ := release_eq { x with waiting := q } .audio e.change.token
    rw [e1]
    rw [hq] at h3
    simp only [List.length_cons] at h3
    exact ⟨h1, h2, by simp only; omega⟩
  | eventKeep n ks e e' es hq he hr =>
    obtain ⟨r, g, e1, e2⟩ := pushBack_eq { x with ring := es } (e', 0)
    obtain ⟨rfl, rfl⟩ := e2 hr
    rw [e1]
    refine ⟨h1, h2, ?_⟩
    simp only [List.length_append, List.length_cons, List.length_nil]
    omega
  | eventDrop n ks e es hq => obtain ⟨l, e1, -⟩ := release_eq { x with ring := es } .audio e.change.token; rw [e1]; exact ⟨h1, h2, h3⟩
  | _ => exact ⟨h1, h2, h3⟩

/-! ### Schedules -/

/-- The schedules that have been freed, by any thread. -/
def freedTasks (s : RS V S) : List Nat := s.freed.filterMap fun x => match x.2 with | .tasks i => some i | .token _ => none

theorem freedTasks_release (s : RS V S) (th : Thread) (o : Option Nat) : freedTasks (s.release th o) = freedTasks s := by
  obtain ⟨l, e, hl⟩ := release_eq s th o
  have : l.filterMap (fun x : Thread × Obj => match x.2 with | .tasks i => some i | .token _ => none) = [] := by
    rw [List.filterMap_eq_nil_iff]
    intro x hx
    obtain ⟨t, -, rfl, -⟩ := hl x hx
    rfl
  rw [e]
  simp only [freedTasks, List.filterMap_append, this, List.append_nil]

/-- Everything a step of events can change. -/
theorem release_rest (s : RS V S) (th : Thread) (o : Option Nat) :
    (s.release th o).old = s.old ∧ (s.release th o).cur = s.cur ∧ (s.release th o).fresh = s.fresh ∧ (s.release th o).next = s.next ∧
    (s.release th o).cap = s.cap ∧ (s.release th o).pc = s.pc ∧ (s.release th o).handles = s.handles ∧
    (s.release th o).nextToken = s.nextToken ∧ (s.release th o).ring = s.ring ∧ (s.release th o).waiting = s.waiting := by
  obtain ⟨l, e, -⟩ := release_eq s th o
  rw [e]
  simp

theorem pushBack_rest (s : RS V S) (p : Event V S × Nat) :
    (s.pushBack p).old = s.old ∧ (s.pushBack p).cur = s.cur ∧ (s.pushBack p).fresh = s.fresh ∧ (s.pushBack p).next = s.next ∧
    (s.pushBack p).cap = s.cap ∧ (s.pushBack p).pc = s.pc ∧ (s.pushBack p).handles = s.handles ∧
    (s.pushBack p).nextToken = s.nextToken ∧ (s.pushBack p).ring = s.ring ∧ (s.pushBack p).waiting = s.waiting ++ [p] ∧
    (s.pushBack p).freed = s.freed := by
  obtain ⟨r, g, e, -⟩ := pushBack_eq s p
  rw [e]
  simp

/-- Where the schedules are. -/
def places (s : RS V S) : List Nat := freedTasks s ++ s.old ++ s.cur :: s.fresh

/-- **C100**: every schedule that was made is in exactly one place: it is waiting to be played, being played, on its way back,
or freed; none is freed twice, none is lost. -/
theorem C100_tasks_once {E : RS V S → Step V S → Prop} {cap room : Nat} {s : RS V S} (h : Reaches c E (.init cap room) s) :
    (places s).Perm (List.range s.next) := by
  refine h.inv (P := fun s => (places s).Perm (List.range s.next)) (by simp [places, freedTasks, RS.init]) ?_
  have key : ∀ {x y : RS V S}, freedTasks y = freedTasks x → y.old = x.old → y.cur = x.cur → y.fresh = x.fresh → y.next = x.next →
      (places x).Perm (List.range x.next) → (places y).Perm (List.range y.next) := by
    intro x y h1 h2 h3 h4 h5 h6
    unfold places at h6 ⊢
    rw [h1, h2, h3, h4, h5]
    exact h6
  intro x st y hp _ hm
  cases hm with
  | dropHandle th t _ =>
    obtain ⟨r1, r2, r3, r4, -⟩ := release_rest { x with handles := x.handles.erase t } th (some t)
    exact key (freedTasks_release _ _ _) r1 r2 r3 r4 hp
  | fullSome e t _ _ =>
    obtain ⟨r1, r2, r3, r4, -⟩ := release_rest { x with handles := x.handles.erase t } .control (some t)
    exact key (freedTasks_release _ _ _) r1 r2 r3 r4 hp
  | waitDrop n ks e w q hq =>
    obtain ⟨r1, r2, r3, r4, -⟩ := release_rest { x with waiting := q } .audio e.change.token
    exact key (freedTasks_release _ _ _) r1 r2 r3 r4 hp
  | eventDrop n ks e es hq =>
    obtain ⟨r1, r2, r3, r4, -⟩ := release_rest { x with ring := es } .audio e.change.token
    exact key (freedTasks_release _ _ _) r1 r2 r3 r4 hp
  | waitKeep n ks e e' w w' q hq he =>
    obtain ⟨r1, r2, r3, r4, -, -, -, -, -, -, r⟩ := pushBack_rest { x with waiting := q } (e', w')
    exact key (by simp only [freedTasks, r]) r1 r2 r3 r4 hp
  | eventKeep n ks e e' es hq he hr =>
    obtain ⟨r1, r2, r3, r4, -, -, -, -, -, -, r⟩ := pushBack_rest { x with ring := es } (e', 0)
    exact key (by simp only [freedTasks, r]) r1 r2 r3 r4 hp
  | drained n hpc =>
    have e : places { x with old := x.old.drop n, pc := .sending, freed := x.freed ++ (x.old.take n).map fun i => (.control, .tasks i) } =
        places x := by
      simp only [places, freedTasks, List.filterMap_append, List.filterMap_map, Function.comp_def, List.filterMap_some]
      rw [List.append_assoc (List.filterMap _ _) (List.take n x.old), List.take_append_drop]
    rw [e]
    exact hp
  | push h1 h2 =>
    have e : places { x with fresh := x.fresh ++ [x.next], next := x.next + 1, pc := Pc.idle } = places x ++ [x.next] := by
      simp [places, freedTasks]
    rw [e]
    show (places x ++ [x.next]).Perm (List.range (x.next + 1))
    rw [List.range_succ]
    exact hp.append_right _
  | recvRoom l td fresh hf hr =>
    have e : places { x with fresh := fresh, left := l, read := x.read + 1, cur := td, old := x.old ++ [x.cur] } = places x := by
      simp [places, freedTasks, hf]
    rw [e]
    exact hp
  | recvFull l td fresh hf hr =>
    refine List.Perm.trans ?_ hp
    have e : places { x with fresh := fresh, left := l, read := x.read + 1, cur := td, freed := x.freed ++ [(.audio, .tasks x.cur)] } =
        freedTasks x ++ (x.cur :: (x.old ++ td :: fresh)) := by
      simp [places, freedTasks]
    rw [e]
    unfold places
    rw [hf, List.append_assoc]
    exact List.Perm.append_left _ List.perm_middle.symm
  | _ => exact hp

/-- The commits start their clean-up when there is at least one free place for a schedule. -/
def Unhurried (s : RS V S) (st : Step V S) : Prop := st = .drain → s.fresh.length < s.cap

/-- **C100** for schedules: if no commit starts while the ring is full of schedules that have not been played, the audio
thread frees none.

Missing: commits that start then, see `C100_tasks_violated`. -/
theorem C100_tasks_partial {cap room : Nat} {s : RS V S} (h : Reaches c Unhurried (.init cap room) s) (i : Nat) :
    (Thread.audio, Obj.tasks i) ∉ s.freed := by
  have hb : (∀ i, (Thread.audio, Obj.tasks i) ∉ s.freed) ∧ s.fresh.length + s.old.length ≤ s.cap ∧
      (∀ n, s.pc = .draining n → n ≤ s.old.length ∧ s.fresh.length + s.old.length < s.cap + n) ∧
      (s.pc = .sending → s.fresh.length + s.old.length < s.cap) := by
    refine h.inv (P := fun s => (∀ i, (Thread.audio, Obj.tasks i) ∉ s.freed) ∧ s.fresh.length + s.old.length ≤ s.cap ∧
      (∀ n, s.pc = .draining n → n ≤ s.old.length ∧ s.fresh.length + s.old.length < s.cap + n) ∧
      (s.pc = .sending → s.fresh.length + s.old.length < s.cap)) (by simp [RS.init]) ?_
    rintro x st y hx he hm
    have rel : ∀ (z : RS V S) (th : Thread) (o : Option Nat), z.freed = x.freed → z.old = x.old → z.fresh = x.fresh → z.cap = x.cap →
        z.pc = x.pc → (∀ i, (Thread.audio, Obj.tasks i) ∉ (z.release th o).freed) ∧
        (z.release th o).fresh.length + (z.release th o).old.length ≤ (z.release th o).cap ∧
        (∀ n, (z.release th o).pc = .draining n → n ≤ (z.release th o).old.length ∧
          (z.release th o).fresh.length + (z.release th o).old.length < (z.release th o).cap + n) ∧
        ((z.release th o).pc = .sending → (z.release th o).fresh.length + (z.release th o).old.length < (z.release th o).cap) := by
      intro z th o h1 h2 h3 h4 h5
      obtain ⟨l, e, hl⟩ := release_eq z th o
      rw [e]
      simp only [h1, h2, h3, h4, h5]
      refine ⟨?_, hx.2⟩
      intro i hi
      rcases List.mem_append.1 hi with hi | hi
      · exact hx.1 i hi
      · obtain ⟨t, -, h6, -⟩ := hl _ hi
        simp at h6
    obtain ⟨h1, h2, h3, h4⟩ := hx
    cases hm with
    | dropHandle th t _ => exact rel _ _ _ rfl rfl rfl rfl rfl
    | fullSome e t _ _ => exact rel _ _ _ rfl rfl rfl rfl rfl
    | waitDrop n ks e w q hq => exact rel _ _ _ rfl rfl rfl rfl rfl
    | eventDrop n ks e es hq => exact rel _ _ _ rfl rfl rfl rfl rfl
    | waitKeep n ks e e' w w' q hq he =>
      obtain ⟨r1, -, r3, -, r5, r6, -, -, -, -, r⟩ := pushBack_rest { x with waiting := q } (e', w')
      rw [r1, r3, r5, r6, r]
      exact ⟨h1, h2, h3, h4⟩
    | eventKeep n ks e e' es hq he hr =>
      obtain ⟨r1, -, r3, -, r5, r6, -, -, -, -, r⟩ := pushBack_rest { x with ring := es } (e', 0)
      rw [r1, r3, r5, r6, r]
      exact ⟨h1, h2, h3, h4⟩
    | drain hpc =>
      have := he rfl
      refine ⟨h1, h2, ?_, by simp⟩
      intro n hn
      simp only [Pc.draining.injEq] at hn
      subst hn
      simp only
      omega
    | drained n hpc =>
      have := h3 n hpc
      refine ⟨?_, ?_, by simp, ?_⟩
      · intro i hi
        simp only [List.mem_append, List.mem_map] at hi
        rcases hi with hi | ⟨j, -, hj⟩
        · exact h1 i hi
        · simp at hj
      · simp only [List.length_drop]; omega
      · intro _; simp only [List.length_drop]; omega
    | push hpc hr =>
      have := h4 hpc
      refine ⟨h1, ?_, by simp, by simp⟩
      simp only [List.length_append, List.length_cons, List.length_nil]
      omega
    | skip hpc => exact ⟨h1, h2, by simp, by simp⟩
    | recvRoom l td fresh hf hr =>
      rw [hf] at h2 h3 h4
      simp only [List.length_cons, List.length_append, List.length_nil] at h2 h3 h4 ⊢
      refine ⟨h1, by omega, ?_, ?_⟩
      · intro n hn; have := h3 n hn; omega
      · intro hn; have := h4 hn; omega
    | recvFull l td fresh hf hr =>
      rw [hf] at h2
      simp only [List.length_cons] at h2
      omega
    | _ => exact ⟨h1, h2, h3, h4⟩
  exact hb.1 i

/-! ### Tokens -/

/-- How often a token has been freed, by any thread. -/
def timesFreed (s : RS V S) (t : Nat) : Nat := s.freed.countP fun x => x.2 = .token t

/-- Every token that was made is freed once, at the moment the last reference is gone. -/
def TokOk (s : RS V S) : Prop := ∀ t, timesFreed s t + (if s.refs t = 0 then 0 else 1) = if t < s.nextToken then 1 else 0

theorem tok_same {x y : RS V S} (h : TokOk x) (h1 : ∀ t, timesFreed y t = timesFreed x t) (h2 : y.nextToken = x.nextToken)
    (h3 : ∀ t, y.refs t = 0 ↔ x.refs t = 0) : TokOk y := by
  intro t
  have := h t
  rw [h1, h2]
  simp only [h3]
  exact this

theorem tok_release {x y : RS V S} (h : TokOk x) (th : Thread) (o : Option Nat) (h1 : y.freed = x.freed) (h2 : y.nextToken = x.nextToken)
    (h3 : ∀ t, x.refs t = y.refs t + if o = some t then 1 else 0) : TokOk (y.release th o) := by
  cases o with
  | none => exact tok_same h (fun t => by simp [timesFreed, RS.release, h1]) h2 (fun t => by have := h3 t; simp at this; simp [RS.release, this])
  | some u =>
    unfold RS.release
    simp only
    split
    · rename_i hu
      intro t
      have ht := h t
      have ht3 := h3 t
      have er : ({ y with freed := y.freed ++ [(th, .token u)] } : RS V S).refs t = y.refs t := rfl
      have ef : timesFreed { y with freed := y.freed ++ [(th, .token u)] } t = timesFreed x t + if u = t then 1 else 0 := by
        simp only [timesFreed, List.countP_append, h1, List.countP_cons, List.countP_nil, Obj.token.injEq, decide_eq_true_eq]
        omega
      rw [er, ef]
      show _ = if t < y.nextToken then 1 else 0
      rw [h2]
      by_cases hut : u = t
      · subst hut
        simp only [if_true] at ht3 ⊢
        rw [if_neg (by omega)] at ht
        rw [if_pos hu]
        omega
      · simp only [Option.some.injEq, hut, if_false] at ht3 ⊢
        rw [Nat.add_zero] at ht3
        rw [← ht3]
        omega
    · rename_i hu
      refine tok_same h (fun t => by simp [timesFreed, h1]) h2 ?_
      intro t
      have := h3 t
      by_cases hut : u = t
      · subst hut
        simp only [if_true] at this
        omega
      · simp only [Option.some.injEq, hut, if_false, Nat.add_zero] at this
        rw [this]

theorem count_erase_add {l : List Nat} {t : Nat} (h : t ∈ l) (u : Nat) : l.count u = (l.erase t).count u + if t = u then 1 else 0 := by
  rw [List.count_erase]
  by_cases htu : t = u
  · subst htu
    have := List.count_pos_iff.2 h
    simp
    omega
  · simp [htu]

theorem tokOk {E : RS V S → Step V S → Prop} {cap room : Nat} {s : RS V S} (h : Reaches c E (.init cap room) s) : TokOk s := by
  refine h.inv (P := TokOk) (by intro t; simp [RS.init, timesFreed, RS.refs]) ?_
  intro x st y hx _ hm
  cases hm with
  | newToken =>
    intro t
    have ht := hx t
    have er : ({ x with handles := x.nextToken :: x.handles, nextToken := x.nextToken + 1 } : RS V S).refs t =
        x.refs t + if x.nextToken = t then 1 else 0 := by
      simp only [RS.refs, List.count_cons, beq_iff_eq]
      omega
    rw [er]
    show timesFreed x t + _ = if t < x.nextToken + 1 then 1 else 0
    by_cases htn : x.nextToken = t
    · subst htn
      simp only [if_true, Nat.lt_irrefl, if_false, Nat.lt_succ_self] at ht ⊢
      rw [if_neg (by omega)]
      omega
    · simp only [htn, if_false, Nat.add_zero]
      rw [ht]
      by_cases hl : t < x.nextToken
      · rw [if_pos hl, if_pos (by omega)]
      · rw [if_neg hl, if_neg (by omega)]
  | clone t ht =>
    refine tok_same hx (fun _ => rfl) rfl ?_
    intro u
    have hp := List.count_pos_iff.2 ht
    simp only [RS.refs, List.count_cons, beq_iff_eq]
    by_cases htu : t = u
    · subst htu; simp; omega
    · simp [htu]
  | dropHandle th t ht =>
    refine tok_release hx th (some t) rfl rfl ?_
    intro u
    have := count_erase_add ht u
    simp only [RS.refs, Option.some.injEq]
    omega
  | fullSome e t _ ht =>
    refine tok_release hx .control (some t) rfl rfl ?_
    intro u
    have := count_erase_add ht u
    simp only [RS.refs, Option.some.injEq]
    omega
  | sendSome e t he ht hr =>
    refine tok_same hx (fun _ => rfl) rfl ?_
    intro u
    have := count_erase_add ht u
    simp only [RS.refs, List.map_append, List.map_cons, List.map_nil, List.count_append, he, List.count_cons, List.count_nil,
      beq_iff_eq, Option.some.injEq]
    omega
  | sendNone e he hr =>
    refine tok_same hx (fun _ => rfl) rfl ?_
    intro u
    simp [RS.refs, List.count_append, he]
  | waitDrop n ks e w q hq =>
    refine tok_release hx .audio _ rfl rfl ?_
    intro u
    simp only [RS.refs, hq, List.map_cons, List.count_cons, beq_iff_eq]
    omega
  | eventDrop n ks e es hq =>
    refine tok_release hx .audio _ rfl rfl ?_
    intro u
    simp only [RS.refs, hq, List.map_cons, List.count_cons, beq_iff_eq]
    omega
  | waitKeep n ks e e' w w' q hq he =>
    obtain ⟨-, -, -, -, -, -, r7, r8, r9, r10, r11⟩ := pushBack_rest { x with waiting := q } (e', w')
    refine tok_same hx (fun t => by simp only [timesFreed, r11]) r8 ?_
    intro u
    simp only [RS.refs, r7, r9, r10, hq, List.map_cons, List.map_append, List.map_nil, List.count_append, List.count_cons,
      List.count_nil, he]
    omega
  | eventKeep n ks e e' es hq he hr =>
    obtain ⟨-, -, -, -, -, -, r7, r8, r9, r10, r11⟩ := pushBack_rest { x with ring := es } (e', 0)
    refine tok_same hx (fun t => by simp only [timesFreed, r11]) r8 ?_
    intro u
    simp only [RS.refs, r7, r9, r10, hq, List.map_cons, List.map_append, List.map_nil, List.count_append, List.count_cons,
      List.count_nil, he]
    omega
  | drained n hpc =>
    refine tok_same hx ?_ rfl (fun _ => Iff.rfl)
    intro t
    simp only [timesFreed, List.countP_append, List.countP_map]
    have : List.countP ((fun x : Thread × Obj => decide (x.2 = .token t)) ∘ fun i => (Thread.control, Obj.tasks i)) (x.old.take n) = 0 := by
      rw [List.countP_eq_zero]
      intro a _
      simp
    omega
  | recvFull l td fresh hf hr =>
    refine tok_same hx ?_ rfl (fun _ => Iff.rfl)
    intro t
    simp [timesFreed, List.countP_append]
  | _ => exact tok_same hx (fun _ => rfl) rfl (fun _ => Iff.rfl)

/-- **C100**: the memory of a token is freed exactly once, and not before the last reference to it is gone; none is leaked. -/
theorem C100_tokens_once {E : RS V S → Step V S → Prop} {cap room : Nat} {s : RS V S} (h : Reaches c E (.init cap room) s)
    {t : Nat} (ht : t < s.nextToken) : timesFreed s t = if s.refs t = 0 then 1 else 0 := by
  have := tokOk h t
  rw [if_pos ht] at this
  split at this <;> rename_i h0 <;> simp only [h0] <;> simp <;> omega

/-- The number of events with the token that are on their way. -/
def pending (s : RS V S) (t : Nat) : Nat :=
  (s.ring.map fun e => e.change.token).count (some t) + (s.waiting.map fun p => p.1.change.token).count (some t)

theorem refs_eq (s : RS V S) (t : Nat) : s.refs t = s.handles.count t + pending s t := by
  simp only [RS.refs, pending]; omega

/-- A clone of every token is kept outside of the audio thread until the events with it are gone. -/
def Keeping (s : RS V S) (st : Step V S) : Prop :=
  (∀ t, st ≠ .dropHandle .audio t) ∧
  (∀ t, st = .dropHandle .control t → s.handles.count t = 1 → pending s t = 0) ∧
  ∀ e t, st = .send e → e.change.token = some t → 2 ≤ s.handles.count t

/-- **C100** for tokens: if a clone is kept until all events with the token are gone, the audio thread frees none.

Missing: letting go of a token after sending changes with it, as `activate_inner(self)` asks for: `C100_token_violated`. -/
theorem C100_token_partial {cap room : Nat} {s : RS V S} (h : Reaches c Keeping (.init cap room) s) (t : Nat) :
    (Thread.audio, Obj.token t) ∉ s.freed := by
  have hb : ∀ t, (Thread.audio, Obj.token t) ∉ s.freed ∧ (0 < pending s t → t ∈ s.handles) := by
    refine h.inv (P := fun s => ∀ t, (Thread.audio, Obj.token t) ∉ s.freed ∧ (0 < pending s t → t ∈ s.handles))
      (by intro t; simp [RS.init, pending]) ?_
    intro x st y hx he hm
    cases hm with
    | newToken => intro t; exact ⟨(hx t).1, fun hp => List.mem_cons_of_mem _ ((hx t).2 hp)⟩
    | clone u hu => intro t; exact ⟨(hx t).1, fun hp => List.mem_cons_of_mem _ ((hx t).2 hp)⟩
    | dropHandle th u hu =>
      intro t
      obtain ⟨l, e, hl⟩ := release_eq { x with handles := x.handles.erase u } th (some u)
      rw [e]
      cases th with
      | audio => exact absurd rfl (he.1 u)
      | control =>
        refine ⟨?_, ?_⟩
        · intro hi
          rcases List.mem_append.1 hi with hi | hi
          · exact (hx t).1 hi
          · obtain ⟨t', -, h6, -⟩ := hl _ hi
            simp at h6
        · intro hp
          have hp' : 0 < pending x t := hp
          have hm := (hx t).2 hp'
          have h3 := count_erase_add hu t
          have h4 := List.count_pos_iff.2 hm
          show t ∈ x.handles.erase u
          rw [← List.count_pos_iff]
          by_cases hut : u = t
          · subst hut
            have h5 := he.2.1 u rfl
            simp only [if_true] at h3
            by_cases h6 : x.handles.count u = 1
            · have := h5 h6; omega
            · omega
          · simp only [hut, if_false] at h3
            omega
    | activate u hu => intro t; exact hx t
    | sendSome e u heu hu hr =>
      intro t
      refine ⟨(hx t).1, ?_⟩
      intro hp
      have h3 := count_erase_add hu t
      show t ∈ x.handles.erase u
      rw [← List.count_pos_iff]
      by_cases hut : u = t
      · subst hut
        have := he.2.2 e u rfl heu
        simp only [if_true] at h3
        omega
      · have hp' : 0 < pending x t := by
          simp only [pending, List.map_append, List.map_cons, List.map_nil, List.count_append, heu, List.count_cons, List.count_nil,
            beq_iff_eq, Option.some.injEq, hut, if_false] at hp ⊢
          omega
        have := List.count_pos_iff.2 ((hx t).2 hp')
        simp only [hut, if_false] at h3
        omega
    | sendNone e heu hr =>
      intro t
      refine ⟨(hx t).1, ?_⟩
      intro hp
      refine (hx t).2 ?_
      simpa [pending, List.count_append, heu] using hp
    | fullSome e u heu hu =>
      intro t
      obtain ⟨l, e1, hl⟩ := release_eq { x with handles := x.handles.erase u } .control (some u)
      rw [e1]
      refine ⟨?_, ?_⟩
      · intro hi
        rcases List.mem_append.1 hi with hi | hi
        · exact (hx t).1 hi
        · obtain ⟨t', -, h6, -⟩ := hl _ hi
          simp at h6
      · intro hp
        have hp' : 0 < pending x t := hp
        have h4 := List.count_pos_iff.2 ((hx t).2 hp')
        have h3 := count_erase_add hu t
        show t ∈ x.handles.erase u
        rw [← List.count_pos_iff]
        by_cases hut : u = t
        · subst hut
          have := he.2.2 e u rfl heu
          simp only [if_true] at h3
          omega
        · simp only [hut, if_false] at h3
          omega
    | drained n hpc =>
      intro t
      refine ⟨?_, (hx t).2⟩
      intro hi
      rcases List.mem_append.1 hi with hi | hi
      · exact (hx t).1 hi
      · simp only [List.mem_map] at hi
        obtain ⟨j, -, hj⟩ := hi
        simp at hj
    | recvFull l td fresh hf hr =>
      intro t
      refine ⟨?_, (hx t).2⟩
      intro hi
      rcases List.mem_append.1 hi with hi | hi
      · exact (hx t).1 hi
      · simp at hi
    | waitKeep n ks e e' w w' q hq heq =>
      intro t
      obtain ⟨-, -, -, -, -, -, r7, r8, r9, r10, r11⟩ := pushBack_rest { x with waiting := q } (e', w')
      rw [r11, r7]
      refine ⟨(hx t).1, fun hp => (hx t).2 ?_⟩
      simp only [pending, r9, r10, List.map_append, List.map_cons, List.map_nil, List.count_append, List.count_cons,
        List.count_nil, heq] at hp
      simp only [pending, hq, List.map_cons, List.count_cons]
      omega
    | eventKeep n ks e e' es hq heq hr =>
      intro t
      obtain ⟨-, -, -, -, -, -, r7, r8, r9, r10, r11⟩ := pushBack_rest { x with ring := es } (e', 0)
      rw [r11, r7]
      refine ⟨(hx t).1, fun hp => (hx t).2 ?_⟩
      simp only [pending, r9, r10, List.map_append, List.map_cons, List.map_nil, List.count_append, List.count_cons,
        List.count_nil, heq] at hp
      simp only [pending, hq, List.map_cons, List.count_cons]
      omega
    | waitDrop n ks e w q hq =>
      intro t
      obtain ⟨l, e1, hl⟩ := release_eq { x with waiting := q } .audio e.change.token
      rw [e1]
      refine ⟨?_, fun hp => (hx t).2 ?_⟩
      · intro hi
        rcases List.mem_append.1 hi with hi | hi
        · exact (hx t).1 hi
        · obtain ⟨t', h5, h6, h7⟩ := hl _ hi
          simp only [Prod.mk.injEq, true_and, Obj.token.injEq] at h6
          subst h6
          have h8 := (hx t).2 (by simp only [pending, hq, List.map_cons, h5, List.count_cons_self]; omega)
          have h9 := List.count_pos_iff.2 h8
          rw [refs_eq] at h7
          simp only at h7
          omega
      · simp only [pending, hq, List.map_cons, List.count_cons] at hp ⊢
        omega
    | eventDrop n ks e es hq =>
      intro t
      obtain ⟨l, e1, hl⟩ := release_eq { x with ring := es } .audio e.change.token
      rw [e1]
      refine ⟨?_, fun hp => (hx t).2 ?_⟩
      · intro hi
        rcases List.mem_append.1 hi with hi | hi
        · exact (hx t).1 hi
        · obtain ⟨t', h5, h6, h7⟩ := hl _ hi
          simp only [Prod.mk.injEq, true_and, Obj.token.injEq] at h6
          subst h6
          have h8 := (hx t).2 (by simp only [pending, hq, List.map_cons, h5, List.count_cons_self]; omega)
          have h9 := List.count_pos_iff.2 h8
          rw [refs_eq] at h7
          simp only at h7
          omega
      · simp only [pending, hq, List.map_cons, List.count_cons] at hp ⊢
        omega
    | _ => exact hx
  exact (hb t).1

/-- C100 is violated for tokens: whenever all handles of a token are gone while a change with it is on its way, it is the
audio thread that frees the memory of the token, whatever happens then. -/
theorem C100_token_violated {E : RS V S → Step V S → Prop} {cap room : Nat} {s s' : RS V S} {t : Nat}
    (h : Reaches c E (.init cap room) s) (hh : t ∉ s.handles) (hp : 0 < pending s t) (h' : Reaches c E s s')
    (hgone : pending s' t = 0) : (Thread.audio, Obj.token t) ∈ s'.freed := by
  have ht : t < s.nextToken := by
    have h1 := tokOk h t
    rw [if_neg (by rw [refs_eq]; omega)] at h1
    by_cases hlt : t < s.nextToken
    · exact hlt
    · rw [if_neg hlt] at h1; omega
  have hb : t ∉ s'.handles ∧ t < s'.nextToken ∧ (0 < pending s' t ∨ (Thread.audio, Obj.token t) ∈ s'.freed) := by
    refine h'.inv (P := fun s' => t ∉ s'.handles ∧ t < s'.nextToken ∧ (0 < pending s' t ∨ (Thread.audio, Obj.token t) ∈ s'.freed))
      ⟨hh, ht, .inl hp⟩ ?_
    rintro x st y ⟨h1, h2, h3⟩ - hm
    have hc0 := List.count_eq_zero.2 h1
    -- dropping one reference to `o`
    have rel : ∀ (z : RS V S) (o : Option Nat), z.handles = x.handles → z.nextToken = x.nextToken → z.freed = x.freed →
        pending x t = pending z t + (if o = some t then 1 else 0) →
        t ∉ (z.release .audio o).handles ∧ t < (z.release .audio o).nextToken ∧
        (0 < pending (z.release .audio o) t ∨ (Thread.audio, Obj.token t) ∈ (z.release .audio o).freed) := by
      intro z o e1 e2 e3 e4
      obtain ⟨-, -, -, -, -, -, r7, r8, r9, r10⟩ := release_rest z .audio o
      refine ⟨by rw [r7, e1]; exact h1, by rw [r8, e2]; exact h2, ?_⟩
      have ep : pending (z.release .audio o) t = pending z t := by simp only [pending, r9, r10]
      rw [ep]
      rcases h3 with h3 | h3
      · by_cases hz : 0 < pending z t
        · exact .inl hz
        · right
          by_cases ho : o = some t
          · subst ho
            have : z.refs t = 0 := by rw [refs_eq, e1]; omega
            simp [RS.release, this]
          · rw [if_neg ho] at e4
            omega
      · right
        obtain ⟨l, e, -⟩ := release_eq z .audio o
        rw [e]
        exact List.mem_append_left _ (e3 ▸ h3)
    cases hm with
    | newToken =>
      refine ⟨?_, Nat.lt_succ_of_lt h2, h3⟩
      simp only [List.mem_cons, not_or]
      exact ⟨by omega, h1⟩
    | clone u hu =>
      refine ⟨?_, h2, h3⟩
      simp only [List.mem_cons, not_or]
      exact ⟨fun e => h1 (e ▸ hu), h1⟩
    | dropHandle th u hu =>
      obtain ⟨l, e, -⟩ := release_eq { x with handles := x.handles.erase u } th (some u)
      rw [e]
      refine ⟨fun hm => h1 (List.mem_of_mem_erase hm), h2, ?_⟩
      rcases h3 with h3 | h3
      · exact .inl h3
      · exact .inr (List.mem_append_left _ h3)
    | fullSome e0 u _ hu =>
      obtain ⟨l, e, -⟩ := release_eq { x with handles := x.handles.erase u } .control (some u)
      rw [e]
      refine ⟨fun hm => h1 (List.mem_of_mem_erase hm), h2, ?_⟩
      rcases h3 with h3 | h3
      · exact .inl h3
      · exact .inr (List.mem_append_left _ h3)
    | sendSome e u heu hu hr =>
      refine ⟨fun hm => h1 (List.mem_of_mem_erase hm), h2, ?_⟩
      rcases h3 with h3 | h3
      · left
        simp only [pending, List.map_append, List.count_append] at h3 ⊢
        omega
      · exact .inr h3
    | sendNone e heu hr =>
      refine ⟨h1, h2, ?_⟩
      rcases h3 with h3 | h3
      · left
        simp only [pending, List.map_append, List.count_append] at h3 ⊢
        omega
      · exact .inr h3
    | drained n hpc => exact ⟨h1, h2, h3.imp id (List.mem_append_left _)⟩
    | recvFull l td fresh hf hr => exact ⟨h1, h2, h3.imp id (List.mem_append_left _)⟩
    | waitKeep n ks e e' w w' q hq heq =>
      obtain ⟨-, -, -, -, -, -, r7, r8, r9, r10, r11⟩ := pushBack_rest { x with waiting := q } (e', w')
      rw [r11, r7, r8]
      refine ⟨h1, h2, h3.imp ?_ id⟩
      intro hp
      simp only [pending, hq, List.map_cons, List.count_cons] at hp
      simp only [pending, r9, r10, List.map_append, List.map_cons, List.map_nil, List.count_append, List.count_cons,
        List.count_nil, heq]
      omega
    | eventKeep n ks e e' es hq heq hr =>
      obtain ⟨-, -, -, -, -, -, r7, r8, r9, r10, r11⟩ := pushBack_rest { x with ring := es } (e', 0)
      rw [r11, r7, r8]
      refine ⟨h1, h2, h3.imp ?_ id⟩
      intro hp
      simp only [pending, hq, List.map_cons, List.count_cons] at hp
      simp only [pending, r9, r10, List.map_append, List.map_cons, List.map_nil, List.count_append, List.count_cons,
        List.count_nil, heq]
      omega
    | waitDrop n ks e w q hq =>
      refine rel _ _ rfl rfl rfl ?_
      simp only [pending, hq, List.map_cons, List.count_cons, beq_iff_eq]
      omega
    | eventDrop n ks e es hq =>
      refine rel _ _ rfl rfl rfl ?_
      simp only [pending, hq, List.map_cons, List.count_cons, beq_iff_eq]
      omega
    | _ => exact ⟨h1, h2, h3⟩
  rcases hb.2.2 with h3 | h3
  · omega
  · exact h3

/-! ### A full ring -/

/-- `k` commits have been made and none was received. -/
def filled (cap room k : Nat) : RS V S := { RS.init cap room with fresh := List.range' 1 k, next := k + 1 }

theorem fill {cap room : Nat} : ∀ k, k ≤ cap → Reaches c Any (RS.init cap room : RS V S) (filled cap room k) := by
  intro k
  induction k with
  | zero => intro _; exact .refl _
  | succ k ih =>
    intro hk
    refine .step .push (.step .drained (.step .drain (ih (by omega)) trivial rfl) trivial rfl) trivial ?_
    simp only [Step.run, filled, RS.init, List.length_range', if_true]
    rw [if_pos (by omega)]
    simp [List.range'_concat, Nat.add_comm]

/-- The commit has cleaned up, and `j` of the schedules have been received. -/
def received (cap room j : Nat) : RS V S :=
  { RS.init cap room with fresh := List.range' (1 + j) (cap - j), next := cap + 1, pc := .sending, left := cap - j, read := j, cur := j, old := List.range j }

theorem receive {cap room : Nat} : ∀ j, j ≤ cap → Reaches c Any (RS.init cap room : RS V S) (received cap room j) := by
  intro j
  induction j with
  | zero =>
    intro _
    refine .step .chunk (.step .drained (.step .drain (fill cap (Nat.le_refl _)) trivial rfl) trivial rfl) trivial ?_
    simp [Step.run, filled, RS.init, received]
  | succ j ih =>
    intro hj
    refine .step .recv (ih (by omega)) trivial ?_
    obtain ⟨d, hd⟩ : ∃ d, cap - j = d + 1 := ⟨cap - j - 1, by omega⟩
    have hd' : cap - (j + 1) = d := by omega
    simp only [Step.run, received, RS.init, hd, hd', List.range'_succ, List.length_range]
    rw [if_pos (by omega)]
    simp [List.range_succ, Nat.add_comm, Nat.add_left_comm]

/-- C100 is violated for schedules, whatever the size of the ring: a commit looks for schedules to free while the ring is full,
the audio thread receives all of them before the commit sends the next one, and has no room to give that one back. -/
theorem C100_tasks_violated (c : GenCfg) {cap room : Nat} (hc : 0 < cap) :
    ∃ s : RS V S, Reaches c Any (RS.init cap room) s ∧ (Thread.audio, Obj.tasks cap) ∈ s.freed := by
  have h := receive (c := c) (V := V) (S := S) (room := room) cap (Nat.le_refl _)
  have h1 : Reaches c Any (RS.init cap room : RS V S)
      { RS.init cap room with next := cap + 1, pc := .sending, cur := cap, old := List.range cap } := by
    refine .step .chunkEnd h trivial ?_
    simp [Step.run, received, RS.init]
  have h2 : Reaches c Any (RS.init cap room : RS V S)
      { RS.init cap room with fresh := [cap + 1], next := cap + 2, cur := cap, old := List.range cap } := by
    refine .step .push h1 trivial ?_
    simp [Step.run, RS.init, hc]
  have h3 : Reaches c Any (RS.init cap room : RS V S)
      { RS.init cap room with fresh := [cap + 1], left := 1, next := cap + 2, cur := cap, old := List.range cap } := by
    refine .step .chunk h2 trivial ?_
    simp [Step.run, RS.init]
  refine ⟨{ RS.init cap room with next := cap + 2, read := 1, cur := cap + 1, old := List.range cap, freed := [(.audio, .tasks cap)] },
    .step .recv h3 trivial ?_, by simp⟩
  simp [Step.run, RS.init]

/-! ### The loops of the code are such histories -/

theorem run_wait {env : BlockEnv} {s : RS V S} (ha : env.active = fun t => s.active.contains t) : s.env env.clock env.keys = env := by
  cases env
  simp only at ha
  subst ha
  rfl

theorem release_active (s : RS V S) (th : Thread) (o : Option Nat) : (s.release th o).active = s.active ∧ (s.release th o).room = s.room := by
  obtain ⟨l, e, -⟩ := release_eq s th o
  rw [e]
  exact ⟨rfl, rfl⟩

theorem pushBack_active (s : RS V S) (p : Event V S × Nat) (h : s.waiting.length < s.room) :
    (s.pushBack p).active = s.active ∧ (s.pushBack p).room = s.room := by
  obtain ⟨r, g, e, h1⟩ := pushBack_eq s p
  rw [e]
  exact ⟨rfl, (h1 h).1⟩

theorem wait_steps {env : BlockEnv} : ∀ (n : Nat) {s : RS V S} {q' : Queue V S} {out out' : List (Applied V S)},
    (env.active = fun t => s.active.contains t) → s.waiting.length ≤ s.room → n ≤ s.waiting.length →
    loopWaiting c env n s.waiting out = .ok (q', out') →
    ∃ s', Reaches c Any s s' ∧ s'.waiting = q' ∧ s'.ring = s.ring ∧ s'.active = s.active ∧ s'.room = s.room ∧ q'.length ≤ s.room := by
  intro n
  induction n with
  | zero =>
    intro s q' out out' ha hr hn h
    simp only [loopWaiting, Except.ok.injEq, Prod.mk.injEq] at h
    exact ⟨s, .refl s, h.1, rfl, rfl, rfl, h.1 ▸ hr⟩
  | succ n ih =>
    intro s q' out out' ha hr hn h
    cases hq : s.waiting with
    | nil => rw [hq] at hn; simp at hn
    | cons p q =>
      obtain ⟨e, w⟩ := p
      rw [hq] at h hr hn
      simp only [List.length_cons] at hr hn
      simp only [loopWaiting] at h
      have henv := run_wait (s := s) ha
      have drop : ∀ {out'' : List (Applied V S)}, loopWaiting c env n q out'' = .ok (q', out') →
          (Step.wait env.clock env.keys).run c s = .ok (some ({ s with waiting := q }.release .audio e.change.token)) →
          ∃ s', Reaches c Any s s' ∧ s'.waiting = q' ∧ s'.ring = s.ring ∧ s'.active = s.active ∧ s'.room = s.room ∧ q'.length ≤ s.room := by
        intro out'' h hrun
        obtain ⟨-, -, -, -, -, -, -, -, r9, r10⟩ := release_rest { s with waiting := q } .audio e.change.token
        obtain ⟨a1, a2⟩ := release_active { s with waiting := q } .audio e.change.token
        obtain ⟨s', k1, k2, k3, k4, k5, k6⟩ := ih (s := { s with waiting := q }.release .audio e.change.token) (q' := q') (out := out'') (out' := out')
          (by rw [a1]; exact ha) (by rw [r10, a2]; simp only; omega) (by rw [r10]; simp only; omega) (by rw [r10]; exact h)
        exact ⟨s', (Reaches.step _ (.refl s) trivial hrun).trans k1, k2, k3.trans r9, k4.trans a1, k5.trans a2, by rw [a2] at k6; exact k6⟩
      split at h
      · rename_i hw
        exact drop h (by simp only [Step.run, hq, if_pos hw])
      · rename_i hw
        obtain ⟨r, h1, h⟩ := bind_inv h
        cases r with
        | inr a =>
          simp only at h
          exact drop h (by simp only [Step.run, hq, if_neg hw, henv, h1, bind_ok])
        | inl e' =>
          simp only at h
          obtain ⟨w', h2, h⟩ := bind_inv h
          obtain ⟨-, -, -, -, -, -, -, -, r9, r10, -⟩ := pushBack_rest { s with waiting := q } (e', w')
          obtain ⟨a1, a2⟩ := pushBack_active { s with waiting := q } (e', w') (by simp only; omega)
          simp only at r9 r10 a1 a2
          obtain ⟨s', k1, k2, k3, k4, k5, k6⟩ := ih (s := { s with waiting := q }.pushBack (e', w')) (q' := q') (out := out) (out' := out')
            (by rw [a1]; exact ha) (by rw [r10, a2, List.length_append]; simp only [List.length_cons, List.length_nil]; omega)
            (by rw [r10, List.length_append]; simp only [List.length_cons, List.length_nil]; omega) (by rw [r10]; exact h)
          have hrun : (Step.wait env.clock env.keys).run c s = .ok (some ({ s with waiting := q }.pushBack (e', w'))) := by
            simp only [Step.run, hq, if_neg hw, henv, h1, h2, bind_ok]
          exact ⟨s', (Reaches.step _ (.refl s) trivial hrun).trans k1, k2, k3.trans r9, k4.trans a1, k5.trans a2, by rw [a2] at k6; exact k6⟩

theorem event_steps {env : BlockEnv} : ∀ (new : List (Event V S)) {s : RS V S} {q' : Queue V S} {out out' : List (Applied V S)},
    (env.active = fun t => s.active.contains t) → s.room = c.cap → s.ring = new → loopNew c env new s.waiting out = .ok (q', out') →
    ∃ s', Reaches c Any s s' ∧ s'.waiting = q' ∧ s'.ring = [] := by
  intro new
  induction new with
  | nil =>
    intro s q' out out' ha hr hn h
    simp only [loopNew, Except.ok.injEq, Prod.mk.injEq] at h
    exact ⟨s, .refl s, h.1, hn⟩
  | cons e es ih =>
    intro s q' out out' ha hr hn h
    simp only [loopNew] at h
    have henv := run_wait (s := s) ha
    obtain ⟨r, h1, h⟩ := bind_inv h
    have drop : ∀ {out'' : List (Applied V S)}, loopNew c env es s.waiting out'' = .ok (q', out') →
        (Step.event env.clock env.keys).run c s = .ok (some ({ s with ring := es }.release .audio e.change.token)) →
        ∃ s', Reaches c Any s s' ∧ s'.waiting = q' ∧ s'.ring = [] := by
      intro out'' h hrun
      obtain ⟨-, -, -, -, -, -, -, -, r9, r10⟩ := release_rest { s with ring := es } .audio e.change.token
      obtain ⟨a1, a2⟩ := release_active { s with ring := es } .audio e.change.token
      obtain ⟨s', k1, k2, k3⟩ := ih (s := { s with ring := es }.release .audio e.change.token) (q' := q') (out := out'') (out' := out')
        (by rw [a1]; exact ha) (by rw [a2]; exact hr) r9 (by rw [r10]; exact h)
      exact ⟨s', (Reaches.step _ (.refl s) trivial hrun).trans k1, k2, k3⟩
    cases r with
    | inr a =>
      simp only at h
      exact drop h (by simp only [Step.run, hn, henv, h1, bind_ok])
    | inl e' =>
      simp only at h
      by_cases hw : s.waiting.length < c.cap
      · rw [if_pos hw] at h
        obtain ⟨-, -, -, -, -, -, -, -, r9, r10, -⟩ := pushBack_rest { s with ring := es } (e', 0)
        obtain ⟨a1, a2⟩ := pushBack_active { s with ring := es } (e', 0) (by simp only; omega)
        simp only at r9 r10 a1 a2
        obtain ⟨s', k1, k2, k3⟩ := ih (s := { s with ring := es }.pushBack (e', 0)) (q' := q') (out := out) (out' := out')
          (by rw [a1]; exact ha) (by rw [a2]; exact hr) r9 (by rw [r10]; exact h)
        have hrun : (Step.event env.clock env.keys).run c s = .ok (some ({ s with ring := es }.pushBack (e', 0))) := by
          simp only [Step.run, hn, henv, h1, bind_ok]
          rw [if_pos (by omega)]
        exact ⟨s', (Reaches.step _ (.refl s) trivial hrun).trans k1, k2, k3⟩
      · rw [if_neg hw] at h
        refine drop h ?_
        simp only [Step.run, hn, henv, h1, bind_ok]
        rw [if_neg (by omega)]

/-- The event phase of a block (`eventPhase`, C18–C23) is a history of these steps and leaves the same queue. -/
theorem phase_steps {env : BlockEnv} {s : RS V S} {q' : Queue V S} {out : List (Applied V S)}
    (ha : env.active = fun t => s.active.contains t) (hr : s.room = c.cap) (hl : s.waiting.length ≤ s.room)
    (h : eventPhase c env s.ring s.waiting = .ok (q', out)) :
    ∃ s', Reaches c Any s s' ∧ s'.waiting = q' ∧ s'.ring = [] := by
  unfold eventPhase at h
  obtain ⟨⟨q1, o1⟩, h1, h2⟩ := bind_inv h
  obtain ⟨s1, k1, k2, k3, k4, k5, -⟩ := wait_steps _ ha hl (Nat.le_refl _) h1
  simp only at h2
  rw [← k2] at h2
  obtain ⟨s2, l1, l2, l3⟩ := event_steps _ (s := s1) (by rw [k4]; exact ha) (k5.trans hr) k3 h2
  exact ⟨s2, k1.trans l1, l2, l3⟩

/-! ### Histories that meet the hypotheses -/

/-- Several steps; `none` if one of them is not possible. -/
def runAll (c : GenCfg) : RS V S → List (Step V S) → Option (RS V S)
  | s, [] => some s
  | s, st :: sts => match st.run c s with
    | .ok (some s') => runAll c s' sts
    | _ => none

theorem reaches_runAll {E : RS V S → Step V S → Prop} {sts : List (Step V S)} : ∀ {s s' : RS V S}, (∀ x, ∀ st ∈ sts, E x st) →
    runAll c s sts = some s' → Reaches c E s s' := by
  induction sts with
  | nil =>
    intro s s' _ h
    simp only [runAll, Option.some.injEq] at h
    subst h
    exact .refl s
  | cons st sts ih =>
    intro s s' he h
    simp only [runAll] at h
    split at h
    · exact (Reaches.step st (.refl s) (he s st (by simp)) ‹_›).trans (ih (fun x y hy => he x y (List.mem_cons_of_mem _ hy)) h)
    · simp at h

/-- A change of parameter 0 of node 7 with token 0. -/
def ev : Event Nat Nat := ⟨⟨7, 0, some 1, none, some 0⟩, none⟩

/-- A token as it is meant to be used: two changes with it are sent, it is activated, and the audio thread applies both. -/
def story : List (Step Nat Nat) :=
  [.newToken, .clone 0, .clone 0, .send ev, .send ev, .activate 0, .dropHandle .control 0, .event 0 [7], .event 0 [7]]

/-- The hypotheses of `C100_token_violated` are met: before the first change is applied all handles are gone, two changes are
on their way; after the second one the audio thread has freed the token. -/
example : ∃ s s' : RS Nat Nat, Reaches ⟨64, 48000, 4, 750⟩ Any (.init 4 4) s ∧ Reaches ⟨64, 48000, 4, 750⟩ Any s s' ∧
    0 ∉ s.handles ∧ pending s 0 = 2 ∧ s.freed = [] ∧ pending s' 0 = 0 ∧ s'.freed = [(.audio, .token 0)] := by
  obtain ⟨s, h1, h2, h3, h4, s', h5, h6, h7⟩ : ∃ s : RS Nat Nat, runAll ⟨64, 48000, 4, 750⟩ (.init 4 4) (story.take 7) = some s ∧
      0 ∉ s.handles ∧ pending s 0 = 2 ∧ s.freed = [] ∧ ∃ s', runAll ⟨64, 48000, 4, 750⟩ s (story.drop 7) = some s' ∧
      pending s' 0 = 0 ∧ s'.freed = [(.audio, .token 0)] :=
    ⟨_, rfl, by decide, by decide, by decide, _, rfl, by decide, by decide⟩
  exact ⟨s, s', reaches_runAll (fun _ _ _ => trivial) h1, reaches_runAll (fun _ _ _ => trivial) h5, h2, h3, h4, h6, h7⟩

/-- A history as in `C100_tasks_partial` and `C100_token_partial`: a commit, a block, another commit that frees the first
schedule; and a token of which a clone is kept until the change is applied. -/
example : ∃ s : RS Nat Nat, Reaches ⟨64, 48000, 4, 750⟩ Unhurried (.init 4 4) s ∧ s.freed = [(.control, .tasks 0)] := by
  have h0 : Reaches ⟨64, 48000, 4, 750⟩ Unhurried (RS.init 4 4 : RS Nat Nat) _ :=
    .step .chunkEnd (.step .recv (.step .chunk (.step .push (.step .drained (.step .drain (.refl _) (fun _ => by decide) rfl)
      (by intro h; cases h) rfl) (by intro h; cases h) rfl) (by intro h; cases h) rfl) (by intro h; cases h) rfl)
      (by intro h; cases h) rfl
  exact ⟨_, .step .drained (.step .drain h0 (fun _ => by decide) rfl) (by intro h; cases h) rfl, rfl⟩

example : ∃ s : RS Nat Nat, Reaches ⟨64, 48000, 4, 750⟩ Keeping (.init 4 4) s ∧ s.freed = [(.control, .token 0)] := by
  have triv : ∀ (x : RS Nat Nat) (st : Step Nat Nat), (∀ th t, st ≠ .dropHandle th t) → (∀ e, st ≠ .send e) → Keeping x st :=
    fun x st h1 h2 => ⟨fun t => h1 _ t, fun t e => absurd e (h1 _ t), fun e t e1 => absurd e1 (h2 e)⟩
  have h0 : Reaches ⟨64, 48000, 4, 750⟩ Keeping (RS.init 4 4 : RS Nat Nat) _ :=
    .step (.clone 0) (.step .newToken (.refl _) (triv _ _ (by simp) (by simp)) rfl) (triv _ _ (by simp) (by simp)) rfl
  have h1 : Reaches ⟨64, 48000, 4, 750⟩ Keeping (RS.init 4 4 : RS Nat Nat) _ :=
    .step (.send ev) h0 ⟨by simp, by simp, fun e t h1 h2 => by
      simp only [Step.send.injEq] at h1
      subst h1
      simp only [ev, Option.some.injEq] at h2
      subst h2
      decide⟩ rfl
  have h2 : Reaches ⟨64, 48000, 4, 750⟩ Keeping (RS.init 4 4 : RS Nat Nat) _ :=
    .step (.event 0 [7]) (.step (.activate 0) h1 (triv _ _ (by simp) (by simp)) rfl) (triv _ _ (by simp) (by simp)) rfl
  exact ⟨_, .step (.dropHandle .control 0) h2 ⟨by simp, fun t h _ => by
    simp only [Step.dropHandle.injEq, true_and] at h
    subst h
    decide, by simp⟩ rfl, rfl⟩

end Verif.Rt
