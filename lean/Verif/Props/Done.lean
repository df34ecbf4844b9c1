import Verif.Model.Done

/-!
# C35: done actions
-/

namespace Verif.Dn

/-- The frames at which a unit generator was done, of its calls in a block. -/
def doneFrames (calls : List Call) : List Nat :=
  calls.filterMap fun c => match c with
    | .done n => some n
    | _ => none

/-- Nothing but reports of being done. -/
def OnlyDone (calls : List Call) : Prop := ∀ c ∈ calls, ∃ n, c = .done n

theorem foldl_done : ∀ (calls : List Call) (f : Flags), OnlyDone calls →
    calls.foldl Flags.call f = { f with done := (doneFrames calls).getLast?.or f.done } := by
  intro calls
  induction calls with
  | nil => intro f _; rfl
  | cons c calls ih =>
    intro f h
    obtain ⟨n, rfl⟩ := h c (by simp)
    have h' : OnlyDone calls := fun c hc => h c (List.mem_cons_of_mem _ hc)
    rw [List.foldl_cons, ih _ h']
    simp only [Flags.call, doneFrames, List.filterMap_cons]
    congr 1
    rw [List.getLast?_cons]
    cases (List.filterMap (fun c => match c with | Call.done n => some n | _ => none) calls).getLast? <;> rfl

/-- C35: what a wrapped unit generator that only reports being done requests: nothing when it is not done or the action is
`None`, its own removal for `FreeSelf`, the removal of the graph from exactly the frame it was (last) done for `FreeParent`. -/
theorem C35_action (a : Action) (calls : List Call) (h : OnlyDone calls) (f : Flags) :
    ((wrDone a calls f).2 = true ↔ a = .freeSelf ∧ calls ≠ []) ∧
    (wrDone a calls f).1.removeParent =
      (match a, (doneFrames calls).getLast? with
        | .freeParent, some n => some n
        | _, _ => f.removeParent) := by
  have hd : (doneFrames calls).getLast? = none ↔ calls = [] := by
    rw [List.getLast?_eq_none_iff]
    constructor
    · intro he
      cases calls with
      | nil => rfl
      | cons c cs =>
        obtain ⟨n, rfl⟩ := h c (by simp)
        simp [doneFrames] at he
    · intro he; rw [he]; rfl
  simp only [wrDone, foldl_done calls _ h, Flags.clearNode, Option.or_none]
  cases hl : (doneFrames calls).getLast? with
  | none =>
    rw [hl] at hd
    have : calls = [] := hd.1 rfl
    cases a <;> simp [this]
  | some n =>
    rw [hl] at hd
    have : calls ≠ [] := fun e => by simpa using hd.2 e
    cases a <;> simp [this, Flags.call]

theorem foldl_calls : ∀ (calls : List Call) (f : Flags),
    (calls.foldl Flags.call f).supported = f.supported ∧
    ((calls.foldl Flags.call f).removeSelf = true ↔ f.removeSelf = true ∨ f.supported = true ∧ Call.removeSelf ∈ calls) ∧
    ((calls.foldl Flags.call f).done = none ↔ f.done = none ∧ ∀ n, Call.done n ∉ calls) := by
  intro calls
  induction calls with
  | nil => intro f; simp
  | cons c calls ih =>
    intro f
    rw [List.foldl_cons]
    obtain ⟨h1, h2, h3⟩ := ih (f.call c)
    rw [h1, h2, h3]
    cases c with
    | done n =>
      refine ⟨rfl, by simp [Flags.call], ?_⟩
      simp only [Flags.call, reduceCtorEq, false_and, false_iff, not_and]
      intro _ h
      exact h n (by simp)
    | removeParent n => simp [Flags.call]
    | removeSelf =>
      cases hs : f.supported <;> simp [Flags.call, hs]

/-- C35: whatever a wrapped unit generator calls, its node is freed if it asked for that, or if it was done and the action is
`FreeSelf`, and only then, whatever happened before in the same block. -/
theorem C35_self (a : Action) (calls : List Call) (f : Flags) :
    (wrDone a calls f).2 = true ↔ Call.removeSelf ∈ calls ∨ a = .freeSelf ∧ ∃ n, Call.done n ∈ calls := by
  obtain ⟨h1, h2, h3⟩ := foldl_calls calls { f.clearNode with supported := true }
  simp only [Flags.clearNode, Bool.false_eq_true, false_or, true_and] at h1 h2 h3
  simp only [wrDone, Flags.clearNode]
  cases hd : (List.foldl Flags.call ⟨true, none, false, f.removeParent⟩ calls).done with
  | none =>
    have := h3.1 hd
    simp only [hd, h2]
    constructor
    · exact .inl
    · rintro (h | ⟨-, n, h⟩)
      · exact h
      · exact absurd h (this n)
  | some n =>
    have hex : ∃ n, Call.done n ∈ calls := by
      refine Classical.byContradiction fun hne => ?_
      rw [h3.2 fun n hn => hne ⟨n, hn⟩] at hd
      cases hd
    cases a with
    | none => simp [hd, h2]
    | freeParent => simp [hd, h2, Flags.call]
    | freeSelf => simp [hd, hex, Flags.call, h1]

/-- C35: without the wrapper in front of it, a unit generator that asks for its removal does not even set the flag. -/
theorem C35_unsupported (calls : List Call) (f : Flags) (hs : f.supported = false) :
    (calls.foldl Flags.call f).removeSelf = f.removeSelf := by
  obtain ⟨-, h2, -⟩ := foldl_calls calls f
  rw [hs] at h2
  simp only [Bool.false_eq_true, false_and, or_false] at h2
  exact Bool.eq_iff_iff.2 h2

example : (wrDone .none [.done 3, .removeSelf] .new).2 = true ∧ (wrDone .freeSelf [.done 3] .new).2 = true ∧
    (wrDone .none [.done 3] .new).2 = false ∧ ([Call.done 3, .removeSelf].foldl Flags.call .new).removeSelf = false := by decide

/-- The frame from which a task wants its graph removed. -/
def Task.asks : Task → Option Nat
  | .wrapped .freeParent calls => (doneFrames calls).getLast?
  | _ => none

/-- The calls of a task. -/
def Task.calls : Task → List Call
  | .plain c => c
  | .wrapped _ c => c

theorem run_parent {t : Task} (h : OnlyDone t.calls) (f : Flags) :
    (t.run f).1.removeParent = t.asks.or f.removeParent := by
  cases t with
  | plain calls =>
    simp only [Task.run, Task.asks, Option.none_or]
    rw [foldl_done calls _ h]
  | wrapped a calls =>
    simp only [Task.run]
    rw [(C35_action a calls h f).2]
    cases a <;> simp only [Task.asks, Option.none_or]
    cases (doneFrames calls).getLast? <;> rfl

theorem runTasks_parent : ∀ (ts : List Task) (f : Flags), (∀ t ∈ ts, OnlyDone t.calls) →
    (runTasks ts f).1.removeParent = (ts.filterMap Task.asks).getLast?.or f.removeParent := by
  intro ts
  induction ts with
  | nil => intro f _; rfl
  | cons t ts ih =>
    intro f h
    rw [runTasks, ih _ fun t' ht => h t' (List.mem_cons_of_mem _ ht), run_parent (h t (by simp))]
    cases ha : t.asks with
    | none => simp [ha]
    | some n =>
      simp only [List.filterMap_cons, ha, List.getLast?_cons, Option.some_or]
      cases (ts.filterMap Task.asks).getLast? <;> rfl

/-- The frame from which the tasks of a block want their graph removed. -/
def removal (ts : List Task) : Option Nat := (ts.filterMap Task.asks).getLast?

/-- C35, what happens in every case: the graph puts out its signal before the frame that the last asking task of the
processing order names, and zeros from that frame on, and asks to be removed. -/
theorem C35_last {S : Type} (zero : S) (xs : List S) (ts : List Task) (h : ∀ t ∈ ts, OnlyDone t.calls) (f : Nat)
    (h1 : removal ts = some f) :
    (Gen.new.block zero xs ts).1 = ⟨true, true⟩ ∧
    (Gen.new.block zero xs ts).2.length = xs.length ∧
    ∀ i (hi : i < xs.length), (Gen.new.block zero xs ts).2[i]? = some (if i < f then xs[i] else zero) := by
  have hp : (runTasks ts .new).1.removeParent = some f := by
    rw [removal] at h1
    rw [runTasks_parent ts .new h, h1]; rfl
  have e : Gen.new.block zero xs ts = (⟨true, true⟩, if f < xs.length then zeroFrom zero f xs else xs) := by
    simp [Gen.block, Gen.new, hp]
  rw [e]
  refine ⟨rfl, ?_, ?_⟩
  · simp only
    split
    · simp [zeroFrom]; omega
    · rfl
  · intro i hi
    simp only
    split
    · rename_i hf
      by_cases hif : i < f
      · rw [zeroFrom, List.getElem?_append_left (by simp; omega), List.getElem?_take_of_lt hif, if_pos hif]
        exact List.getElem?_eq_getElem hi
      · rw [zeroFrom, List.getElem?_append_right (by simp; omega), if_neg hif, List.getElem?_replicate]
        rw [if_pos]
        simp; omega
    · rw [if_pos (by omega)]
      exact List.getElem?_eq_getElem hi

/-- C35: if exactly one task of a block asks for the removal of the graph, the graph puts out its signal before that frame
and zeros from that frame on, and asks to be removed.

Missing: several tasks asking in the same block; the last one in the processing order wins (`C35_last`), not the earliest frame
(`C35_two_violated`, and `C35_two_iff` for when that matters). -/
theorem C35_frame_partial {S : Type} (zero : S) (xs : List S) (ts : List Task) (h : ∀ t ∈ ts, OnlyDone t.calls) (f : Nat)
    (h1 : ts.filterMap Task.asks = [f]) :
    (Gen.new.block zero xs ts).1 = ⟨true, true⟩ ∧
    (Gen.new.block zero xs ts).2.length = xs.length ∧
    ∀ i (hi : i < xs.length), (Gen.new.block zero xs ts).2[i]? = some (if i < f then xs[i] else zero) :=
  C35_last zero xs ts h f (by rw [removal, h1]; rfl)

/-- C35: the graph falls silent at the earliest frame any of its tasks asks for, as one would expect, exactly if the last
asking task of the processing order asks for that frame, or both lie behind the block.  (The signal must not be zero by
itself, otherwise nobody can tell.  The statement holds for every frame that is not later than any frame asked for, so in
particular for the earliest one.) -/
theorem C35_two_iff {S : Type} (zero : S) (xs : List S) (hx : ∀ x ∈ xs, x ≠ zero) (ts : List Task)
    (h : ∀ t ∈ ts, OnlyDone t.calls) (first last : Nat) (hl : removal ts = some last)
    (hmin : ∀ n ∈ ts.filterMap Task.asks, first ≤ n) :
    (∀ i (hi : i < xs.length), (Gen.new.block zero xs ts).2[i]? = some (if i < first then xs[i] else zero)) ↔
    last = first ∨ xs.length ≤ first := by
  have hlm : first ≤ last := hmin last (List.mem_of_getLast? hl)
  have hb := (C35_last zero xs ts h last hl).2.2
  constructor
  · intro hA
    refine Classical.byContradiction fun hcon => ?_
    have h1 : first < xs.length := by omega
    have h2 : first < last := by omega
    have e := (hb first h1).symm.trans (hA first h1)
    rw [if_pos h2, if_neg (by omega)] at e
    exact hx _ (List.getElem_mem h1) (Option.some.inj e)
  · intro hor i hi
    rw [hb i hi]
    rcases hor with e | e
    · rw [e]
    · rw [if_pos (by omega), if_pos (by omega)]

-- two tasks that ask in the wrong order
example : removal [Task.wrapped .freeParent [.done 1], .wrapped .freeParent [.done 3]] = some 3 ∧
    [Task.wrapped .freeParent [.done 1], .wrapped .freeParent [.done 3]].filterMap Task.asks = [1, 3] := by decide

/-- C35: before the block in which the removal is asked for, the graph puts out its signal; afterwards it is silent for ever
and asks to be removed. -/
theorem C35_later {S : Type} (zero : S) (xs : Nat → List S) (ts : Nat → List Task)
    (h : ∀ n, ∀ t ∈ ts n, OnlyDone t.calls) (k : Nat) (hbefore : ∀ n < k, removal (ts n) = none) :
    (∀ n < k, Gen.out zero xs ts n = xs n ∧ Gen.run zero xs ts n = .new) ∧
    (∀ f, removal (ts k) = some f → ∀ n, k < n →
      Gen.out zero xs ts n = List.replicate (xs n).length zero ∧ (Gen.run zero xs ts n).removeMe = true) := by
  have hrun : ∀ n ≤ k, Gen.run zero xs ts n = .new := by
    intro n
    induction n with
    | zero => intro _; rfl
    | succ n ih =>
      intro hn
      rw [Gen.run, ih (by omega)]
      have hp : (runTasks (ts n) .new).1.removeParent = none := by
        have hb := hbefore n (by omega)
        rw [removal] at hb
        rw [runTasks_parent (ts n) .new (h n), hb]; rfl
      simp [Gen.block, Gen.new, hp]
  constructor
  · intro n hn
    refine ⟨?_, hrun n (by omega)⟩
    have hp : (runTasks (ts n) .new).1.removeParent = none := by
      have hb := hbefore n hn
      rw [removal] at hb
      rw [runTasks_parent (ts n) .new (h n), hb]; rfl
    rw [Gen.out, hrun n (by omega)]
    simp [Gen.block, Gen.new, hp]
  · intro f hf
    have hp : (runTasks (ts k) .new).1.removeParent = some f := by
      rw [removal] at hf
      rw [runTasks_parent (ts k) .new (h k), hf]; rfl
    have hfreed : ∀ n, k < n → Gen.run zero xs ts n = ⟨true, true⟩ := by
      intro n
      induction n with
      | zero => intro hn; omega
      | succ n ih =>
        intro hn
        rcases Nat.lt_or_ge k n with hk | hk
        · rw [Gen.run, ih hk]
          simp [Gen.block]
        · have : n = k := by omega
          subst this
          rw [Gen.run, hrun n (Nat.le_refl _)]
          simp [Gen.block, Gen.new, hp]
    intro n hn
    rw [Gen.out, hfreed n hn]
    simp [Gen.block]

-- an envelope with `FreeParent` that is done at frame 2 of a block of 4 frames
example : ([Task.wrapped .freeParent [.done 2], .wrapped .none [.done 1]].filterMap Task.asks = [2]) ∧
    (Gen.new.block 0 [5, 6, 7, 8] [.wrapped .freeParent [.done 2], .wrapped .none [.done 1]]).2 = [5, 6, 0, 0] := by decide

/-- C35 is violated if two nodes of a graph are done in the same block: here the first one is done at frame 1, but the graph
still puts out its signal at frames 1 and 2. -/
theorem C35_two_violated :
    (Gen.new.block 0 [5, 6, 7, 8] [.wrapped .freeParent [.done 1], .wrapped .freeParent [.done 3]]).2 = [5, 6, 7, 0] := by decide

/-- C35: the removal of the node itself does not touch the graph, and the other way round. -/
theorem C35_independent (ts : List Task) (h : ∀ t ∈ ts, OnlyDone t.calls)
    (hno : ∀ t ∈ ts, ∀ c, t ≠ .wrapped .freeParent c) {S : Type} (zero : S) (xs : List S) :
    Gen.new.block zero xs ts = (Gen.new, xs) := by
  have ha : ts.filterMap Task.asks = [] := by
    rw [List.filterMap_eq_nil_iff]
    intro t ht
    cases t with
    | plain c => rfl
    | wrapped a c =>
      cases a with
      | none => rfl
      | freeSelf => rfl
      | freeParent => exact absurd rfl (hno _ ht c)
  have hp : (runTasks ts .new).1.removeParent = none := by
    rw [runTasks_parent ts .new h, ha]; rfl
  simp [Gen.block, Gen.new, hp]

end Verif.Dn
