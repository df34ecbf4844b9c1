import Mathlib.Data.List.Induction
import Verif.Lemmas.Lifetime

/-!
# C71: no block touches a buffer that has been freed, and the audio thread frees none

The statements are about every interleaving of the small steps of the two threads (`Reaches`).
-/

namespace Verif.Li

open Verif.G
open Verif.Sys (bind_inv)

/-- The end of a run passes a test. -/
def passes (x : R (Option LS)) (t : LS → Bool) : Bool := match x with
  | .ok (some s) => t s
  | _ => false

theorem exists_of_passes {x : R (Option LS)} {t : LS → Bool} (h : passes x t = true) :
    ∃ s, x = .ok (some s) ∧ t s = true := by
  match x, h with
  | .ok (some s), h => exact ⟨s, rfl, h⟩

/-- A whole `commit_changes` that finds no flag set, without looking at the allocations. -/
def commit : List Step := [.freeNodes (fun _ => false) (fun _ => false), .drain, .send]

/-- The start of a block that finds one new schedule. -/
def arrive : List Step := [.recv, .take]

/-- **No use after free.**  Whatever the two threads do and however their steps are interleaved, as long as
new schedules are only made for graphs in which all sources are live: at no moment is an allocation freed that
the current schedule, its output task or one of the unit generators it runs has a pointer into. -/
theorem C71_partial {sl bs} {s : LS} (h : Reaches sl bs Sourced s) {b : Nat} (ht : s.blockTouches b) :
    s.alive b := by
  have hs := h.safe (fun _ _ h => h)
  have e : b = s.base := by
    rcases ht with ⟨t, ht, h1 | h1 | ⟨p, i, h1, h2⟩⟩ | ⟨i, h1, h2⟩
    · obtain ⟨i, h2, h3⟩ := List.mem_map.1 h1
      exact hs.cur.ins t ht i h2 b h3
    · rw [h1]; exact hs.cur.out t ht
    · exact hs.held t ht p i h1 b h2
    · exact hs.cur.outs i h1 b h2
  rw [LS.alive, holders_eq]
  refine List.mem_append_right _ ?_
  rw [mem_rest, e, LS.base]
  cases ha : s.cur.arc with
  | none => exact .inr (.inr (.inr rfl))
  | some c => exact .inr (.inr (.inl rfl))

/-- A graph whose buffer grows while the old schedule is running, with a node that keeps a pointer. -/
def grown : List Step :=
  [.edit (.push 0 1 []), .edit (.push 1 1 [0]), .edit (.param ⟨0, 0⟩ 0 (.index 0) ⟨1, 0⟩ true)] ++ commit ++ arrive ++
    [.edit (.push 0 4 [])] ++ commit ++ [.recv]

example : ∃ s, Reaches id 2 Sourced s ∧ s.blockTouches 1 ∧ s.alive 1 ∧ s.alive 0 ∧
    ∃ t ∈ s.cur.sch.tasks, s.ar t.key 0 = some (.mem 1 2) := by
  obtain ⟨s, h1, h2⟩ := exists_of_passes (x := runG id 2 (.init 0 0 1 2 4) grown)
    (t := fun s => s.cur.sch.tasks.any (fun t => decide (s.ar t.key 0 = some (.mem 1 2))) && decide (s.alive 1) && decide (s.alive 0))
    (by decide +kernel)
  simp only [Bool.and_eq_true, List.any_eq_true, decide_eq_true_eq] at h2
  obtain ⟨⟨⟨t, ht, hp⟩, h3⟩, h4⟩ := h2
  refine ⟨s, reaches_runG (.init 0 0 1 4) (by simp [grown, commit, arrive, Step.legal]) h1,
    .inl ⟨t, ht, .inr (.inr ⟨0, _, hp, rfl⟩)⟩, h3, h4, t, ht, hp⟩

/-- The edits that lead to a use after free: a node is freed and used as a source in the same edit, in which
the buffer grows. -/
def stale : List Step :=
  [.edit (.push 0 1 []), .edit (.push 1 1 [])] ++ commit ++ arrive ++
    [.edit (.free ⟨0, 0⟩), .edit (.connect (.node ⟨0, 0⟩) 0 0 (.node ⟨1, 0⟩) true false), .edit (.push 0 4 [])] ++
    commit ++ arrive ++ [.freeNodes (fun _ => false) (fun f => f == 1), .freeBuf 0, .drain, .send]

/-- **The claim fails for sources that have been freed.**  All calls succeed and the audio thread has applied
both schedules before anything is freed, yet the block reads from an allocation that has been freed. -/
theorem C71_stale_violated : ∃ s : LS, Reaches id 2 (fun _ _ => True) s ∧ s.gone = false ∧ s.pc = .idle ∧
    ∃ b, s.blockTouches b ∧ ¬ s.alive b := by
  obtain ⟨s, h1, h2⟩ := exists_of_passes (x := runAll id 2 (.init 0 0 1 2 4) stale)
    (t := fun s => !s.gone && decide (s.pc = .idle) && s.cur.sch.tasks.any (fun t => decide (some 0 ∈ t.ins.map bufOf)) &&
      !decide (s.alive 0)) (by decide +kernel)
  simp only [Bool.and_eq_true, List.any_eq_true, decide_eq_true_eq, Bool.not_eq_true', decide_eq_false_iff_not] at h2
  obtain ⟨⟨⟨hg, hp⟩, ⟨t, ht, hin⟩⟩, h3⟩ := h2
  exact ⟨s, reaches_runAll (fun _ _ => trivial) (.init 0 0 1 4) (by simp [stale, commit, arrive, Step.legal]) h1,
    hg, hp, 0, .inl ⟨t, ht, .inl hin⟩, h3⟩

/-- **The audio thread frees no buffer** while the `Graph` exists, whatever was done to the graph. -/
theorem C71_audio {sl bs} {E : LS → Step → Prop} {s s' : LS} (h : Reaches sl bs E s) (hg : s.gone = false)
    {st : Step} (ha : st.audio = true) (hr : st.run sl bs s = .ok (some s')) {b : Nat} (hb : s.alive b) : s'.alive b := by
  obtain ⟨-, -, h2, h3, h4, -⟩ := rest_audio ha hr
  rw [LS.alive, holders_eq, hg] at hb
  rw [LS.alive, holders_eq, h4, hg, h2, h3]
  simp only [Bool.false_eq_true, if_false] at hb ⊢
  rcases List.mem_append.1 hb with hb | hb
  · exact List.mem_append_left _ hb
  · refine List.mem_append_left _ ?_
    rcases h.hold.listed hg b hb with rfl | hm
    · simp
    · exact List.mem_cons_of_mem _ hm

example : ∃ s s', Reaches id 2 (fun _ _ => True) s ∧ s.gone = false ∧ Step.take.run id 2 s = .ok (some s') ∧
    s.alive 0 ∧ s.arc = 0 ∧ s'.arc = 1 ∧ s'.alive 0 := by
  obtain ⟨s, h1, h2⟩ := exists_of_passes (x := runAll id 2 (.init 0 0 1 2 4) grown)
    (t := fun s => !s.gone && decide (s.alive 0) && decide (s.arc = 0) &&
      passes (Step.take.run id 2 s) (fun s' => decide (s'.arc = 1) && decide (s'.alive 0))) (by decide +kernel)
  simp only [Bool.and_eq_true, decide_eq_true_eq, Bool.not_eq_true'] at h2
  obtain ⟨⟨⟨hg, h3⟩, h4⟩, h5⟩ := h2
  obtain ⟨s', h6, h7⟩ := exists_of_passes h5
  simp only [Bool.and_eq_true, decide_eq_true_eq] at h7
  exact ⟨s, s', reaches_runAll (fun _ _ => trivial) (.init 0 0 1 4) (by simp [grown, commit, arrive, Step.legal]) h1,
    hg, h6, h3, h4, h7.1, h7.2⟩

/-- After the `Graph` has been dropped the audio thread does free buffers. -/
theorem C71_dropped_violated : ∃ s s' : LS, Reaches id 2 Sourced s ∧ Step.take.run id 2 s = .ok (some s') ∧
    s.alive 0 ∧ ¬ s'.alive 0 := by
  obtain ⟨s, h1, h2⟩ := exists_of_passes (x := runG id 2 (.init 0 0 1 2 4) ([.edit (.push 0 4 [])] ++ commit ++ [.drop, .take, .recv]))
    (t := fun s => decide (s.alive 0) &&
      passes (Step.take.run id 2 s) (fun s' => !decide (s'.alive 0))) (by decide +kernel)
  simp only [Bool.and_eq_true, decide_eq_true_eq] at h2
  obtain ⟨s', h6, h7⟩ := exists_of_passes h2.2
  simp only [Bool.not_eq_true', decide_eq_false_iff_not] at h7
  exact ⟨s, s', reaches_runG (.init 0 0 1 4) (by simp [commit, Step.legal]) h1, h6, h2.1, h7⟩

/-! ### Replaced buffers are freed -/

theorem sweep {sl bs} : ∀ (l : List Nat) (s : LS), s.gone = false → s.pc = .freeing → s.toFree = l → l.Nodup →
    s.a.alloc.buf ∉ l → (∀ b ∈ s.rest, b = s.a.alloc.buf) →
    runAll sl bs s ((List.range l.length).reverse.map .freeBuf) = .ok (some { s with toFree := [] }) := by
  intro l
  induction l using List.reverseRecOn with
  | nil =>
    intro s _ _ h _ _ _
    cases s
    simp only at h
    subst h
    rfl
  | append_singleton l x ih =>
    intro s hg hp ht hn hb hr
    rw [List.length_append, List.length_singleton, List.range_succ, List.reverse_append, List.reverse_singleton,
      List.singleton_append, List.map_cons, runAll]
    have hx : s.toFree[l.length]? = some x := by simp [ht]
    have hxb : x ≠ s.a.alloc.buf := by rintro rfl; simp at hb
    have hcount : s.holders.count x = 1 := by
      rw [holders_eq, hg, ht]
      simp only [Bool.false_eq_true, if_false, List.count_append, List.count_cons]
      have h1 : s.rest.count x = 0 := List.count_eq_zero.2 fun hm => hxb (hr x hm)
      have h2 : l.count x = 0 := by
        refine List.count_eq_zero.2 fun hm => ?_
        rw [List.nodup_append] at hn
        exact hn.2.2 x hm x (by simp) rfl
      have h3 : (s.a.alloc.buf == x) = false := by simpa using fun h => hxb h.symm
      simp [h1, h2, h3]
    have he : s.toFree.eraseIdx l.length = l := by rw [ht]; simp [List.eraseIdx_append_of_length_le]
    simp only [Step.run, hp, ne_eq, not_true_eq_false, if_false, hx, hcount, if_true, he, bind_ok]
    have := ih { s with toFree := l } hg hp rfl (by rw [List.nodup_append] at hn; exact hn.1)
      (fun h => hb (List.mem_append_left _ h)) hr
    simp only [hp] at this
    exact this

/-- **Replaced buffers are freed by the control thread.**  When the audio thread has caught up and the task
data it handed back have no allocation left in them, the loop of `free_old` (graph.rs 1922–1932) frees
everything but the newest allocation. -/
theorem C71_freed {sl bs} {E : LS → Step → Prop} {s : LS} (h : Reaches sl bs E s) (hg : s.gone = false)
    (hp : s.pc = .freeing) (hr : s.ring = []) (ho : ∀ td ∈ s.old, td.arc = none) (hc : s.cur.arc = none) :
    ∃ s', runAll sl bs s ((List.range s.toFree.length).reverse.map .freeBuf) = .ok (some s') ∧
      ∀ b, s'.alive b ↔ b = s.a.alloc.buf := by
  have hh := h.hold
  have hn := hh.newest
  rw [hr] at hn
  simp only [List.getLast?_nil, Option.getD_none, hc] at hn
  have hrest : ∀ b ∈ s.rest, b = s.a.alloc.buf := by
    intro b hb
    rw [mem_rest, hr, hc] at hb
    rcases hb with ⟨td, h1, -⟩ | ⟨td, h1, h2⟩ | h1 | h1
    · simp at h1
    · rw [ho td h1] at h2; simp at h2
    · simp at h1
    · rw [h1, hn]
  refine ⟨_, sweep s.toFree s hg hp rfl hh.nodup (fun hm => Nat.lt_irrefl _ (hh.lt _ hm)) hrest, ?_⟩
  intro b
  rw [LS.alive, holders_eq]
  simp only [hg, Bool.false_eq_true, if_false, List.singleton_append, List.mem_cons]
  exact ⟨fun hb => hb.elim id (hrest b), .inl⟩

example : ∃ s, Reaches id 2 (fun _ _ => True) s ∧ s.gone = false ∧ s.pc = .freeing ∧ s.ring = [] ∧
    (∀ td ∈ s.old, td.arc = none) ∧ s.old ≠ [] ∧ s.cur.arc = none ∧ s.toFree = [0] := by
  obtain ⟨s, h1, h2⟩ := exists_of_passes (x := runAll id 2 (.init 0 0 1 2 4)
      (grown ++ [.take, .freeNodes (fun _ => false) (fun _ => false)]))
    (t := fun s => !s.gone && decide (s.pc = .freeing) && s.ring.isEmpty && s.old.all (fun td => td.arc.isNone) &&
      !s.old.isEmpty && s.cur.arc.isNone && decide (s.toFree = [0])) (by decide +kernel)
  simp only [Bool.and_eq_true, decide_eq_true_eq, Bool.not_eq_true', List.isEmpty_iff, List.all_eq_true,
    Option.isNone_iff_eq_none, List.isEmpty_eq_false_iff] at h2
  obtain ⟨⟨⟨⟨⟨⟨a, b⟩, c⟩, d⟩, e⟩, f⟩, i⟩ := h2
  exact ⟨s, reaches_runAll (fun _ _ => trivial) (.init 0 0 1 4) (by simp [grown, commit, arrive, Step.legal]) h1,
    a, b, c, d, e, f, i⟩

/-- One commit is not always enough: `free_old` looks at the allocations before `free_old_task_data` drops the
task data that still hold them. -/
theorem C71_late_violated : ∃ s s' : LS, Reaches id 2 Sourced s ∧ s.ring = [] ∧ s.cur.arc = none ∧
    runAll id 2 s ([.freeNodes (fun _ => false) (fun _ => false)] ++
      (List.range s.toFree.length).reverse.map .freeBuf ++ [.drain, .send]) = .ok (some s') ∧
    s'.toFree ≠ [] ∧ ∀ b ∈ s'.toFree, s'.holders.count b = 1 := by
  obtain ⟨s, h1, h2⟩ := exists_of_passes (x := runG id 2 (.init 0 0 1 2 4)
      ([.edit (.push 0 4 [])] ++ commit ++ [.edit (.push 0 4 [])] ++ commit ++ [.recv, .recv, .take]))
    (t := fun s => s.ring.isEmpty && s.cur.arc.isNone &&
      passes (runAll id 2 s ([.freeNodes (fun _ => false) (fun _ => false)] ++
        (List.range s.toFree.length).reverse.map .freeBuf ++ [.drain, .send]))
        (fun s' => !s'.toFree.isEmpty && s'.toFree.all (fun b => decide (s'.holders.count b = 1)))) (by decide +kernel)
  simp only [Bool.and_eq_true, List.isEmpty_iff, Option.isNone_iff_eq_none] at h2
  obtain ⟨s', h6, h7⟩ := exists_of_passes h2.2
  simp only [Bool.and_eq_true, Bool.not_eq_true', List.isEmpty_eq_false_iff, List.all_eq_true, decide_eq_true_eq] at h7
  exact ⟨s, s', reaches_runG (.init 0 0 1 4) (by simp [commit, Step.legal]) h1, h2.1.1, h2.1.2, h6, h7⟩

/-! ### Old schedules go back to the control thread -/

/-- **Old task data are not dropped on the audio thread** if no schedule arrives between
`free_old_task_data` and `send_updated_tasks`: the ring for old task data has room. -/
theorem C71_old {sl bs} {E : LS → Step → Prop} (hE : ∀ s st, E s st → Calm s st) {s s' : LS}
    (h : Reaches sl bs E s) (hr : Step.recv.run sl bs s = .ok (some s')) : s'.old = s.old ++ [s.cur] := by
  have := (h.room hE).1
  simp only [Step.run] at hr
  split at hr
  · simp at hr
  next td ring hring =>
  simp only [Except.ok.injEq, Option.some.injEq] at hr
  subst hr
  rw [hring, List.length_cons] at this
  exact if_pos (by omega)

example : ∃ s s', Reaches id 2 Calm s ∧ Step.recv.run id 2 s = .ok (some s') ∧ s'.old.length = 1 := by
  obtain ⟨s1, h1, h1'⟩ := exists_of_passes (x := Step.run id 2 (.init 0 0 1 2 1) (.edit (.push 0 4 [])))
    (t := fun s => passes (Step.run id 2 s (.freeNodes (fun _ => false) (fun _ => false)))
      (fun s => passes (Step.run id 2 s .drain)
        (fun s => passes (Step.run id 2 s .send)
          (fun s => passes (Step.run id 2 s .recv) (fun s => decide (s.old.length = 1)))))) (by decide +kernel)
  obtain ⟨s2, h2, h2'⟩ := exists_of_passes h1'
  obtain ⟨s3, h3, h3'⟩ := exists_of_passes h2'
  obtain ⟨s4, h4, h4'⟩ := exists_of_passes h3'
  obtain ⟨s5, h5, h5'⟩ := exists_of_passes h4'
  exact ⟨s4, s5, ((((Reaches.init 0 0 1 1).step (.edit (.push 0 4 [])) trivial trivial h1).step
    (.freeNodes (fun _ => false) (fun _ => false)) trivial trivial h2).step .drain trivial trivial h3).step .send trivial trivial h4, h5, by simpa using h5'⟩

/-- Otherwise they may be: the ring is as large as the one for new task data, and one schedule more than
that can arrive between two calls of `free_old_task_data`. -/
theorem C71_old_violated : ∃ s s' : LS, Reaches id 2 Sourced s ∧ s.gone = false ∧
    Step.recv.run id 2 s = .ok (some s') ∧ s'.old.length = s.old.length := by
  obtain ⟨s, h1, h2⟩ := exists_of_passes (x := runG id 2 (.init 0 0 1 2 1)
      ([.edit (.push 0 1 [])] ++ commit ++ [.edit (.push 0 1 []), .freeNodes (fun _ => false) (fun _ => false), .drain, .recv, .send]))
    (t := fun s => !s.gone && passes (Step.recv.run id 2 s) (fun s' => decide (s'.old.length = s.old.length))) (by decide +kernel)
  simp only [Bool.and_eq_true, Bool.not_eq_true'] at h2
  obtain ⟨s', h6, h7⟩ := exists_of_passes h2.2
  exact ⟨s, s', reaches_runG (.init 0 0 1 1) (by simp [commit, Step.legal]) h1, h2.1, h6, by simpa using h7⟩

/-! ### The inputs of the processor -/

/-- **Short input slices are undefined behaviour.**  `AudioProcessor::run` is a safe function and checks the
number of slices; it reads past the end of a slice exactly if a connected channel is shorter than a block. -/
theorem C71_inputs_violated (numIn bs : Nat) (lens chans : List Nat) :
    readInputs numIn bs lens chans = .undefined ↔
      lens.length = numIn ∧ (∀ c ∈ chans, c < numIn) ∧ ∃ c ∈ chans, ∃ n, lens[c]? = some n ∧ n < bs := by
  unfold readInputs
  by_cases h1 : lens.length = numIn
  · subst h1
    simp only [ne_eq, not_true_eq_false, if_false, true_and]
    by_cases h2 : ∀ c ∈ chans, c < lens.length
    · have : (chans.any fun c => decide (lens.length ≤ c)) = false := by
        rw [List.any_eq_false]
        intro c hc
        have := h2 c hc
        simp only [decide_eq_true_eq]
        omega
      rw [this]
      simp only [Bool.false_eq_true, if_false]
      have e : (chans.all fun c => decide (bs ≤ lens.getD c 0)) = true ↔ ¬ ∃ c ∈ chans, ∃ n, lens[c]? = some n ∧ n < bs := by
        rw [List.all_eq_true]
        constructor
        · rintro h ⟨c, hc, n, hn, hlt⟩
          have := h c hc
          simp only [List.getD, hn, Option.getD_some, decide_eq_true_eq] at this
          omega
        · intro h c hc
          simp only [decide_eq_true_eq]
          by_contra hlt
          have hl := h2 c hc
          refine h ⟨c, hc, lens[c], by simp [hl], ?_⟩
          simp only [List.getD, List.getElem?_eq_getElem hl, Option.getD_some] at hlt
          omega
      by_cases h3 : (chans.all fun c => decide (bs ≤ lens.getD c 0)) = true
      · rw [if_pos h3]
        have := e.1 h3
        simp [this]
      · rw [if_neg h3]
        rw [e, not_not] at h3
        simp only [true_iff]
        exact ⟨h2, h3⟩
    · have : (chans.any fun c => decide (lens.length ≤ c)) = true := by
        rw [List.any_eq_true]
        simp only [not_forall] at h2
        obtain ⟨c, hc, hlt⟩ := h2
        exact ⟨c, hc, by simpa using Nat.le_of_not_lt hlt⟩
      rw [this]
      simp [h2]
  · simp [h1]

/-- In particular for one connected input and an empty slice. -/
example : readInputs 1 64 [0] [0] = .undefined := by decide

/-- Slices of the block size are fine. -/
theorem C71_inputs {numIn bs : Nat} {lens chans : List Nat} (h1 : lens.length = numIn) (h2 : ∀ c ∈ chans, c < numIn)
    (h3 : ∀ n ∈ lens, bs ≤ n) : readInputs numIn bs lens chans = .fine := by
  subst h1
  unfold readInputs
  have h4 : (chans.any fun c => decide (lens.length ≤ c)) = false := by
    rw [List.any_eq_false]
    intro c hc
    have := h2 c hc
    simp only [decide_eq_true_eq]
    omega
  have h5 : (chans.all fun c => decide (bs ≤ lens.getD c 0)) = true := by
    rw [List.all_eq_true]
    intro c hc
    have hl := h2 c hc
    simp only [decide_eq_true_eq, List.getD, List.getElem?_eq_getElem hl, Option.getD_some]
    exact h3 _ (List.getElem_mem hl)
  rw [if_neg (by simp), h4, h5]
  rfl

example : readInputs 2 4 [4, 5] [1, 0] = .fine := C71_inputs rfl (by decide) (by decide)

end Verif.Li
