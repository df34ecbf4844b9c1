import Verif.Lemmas.Races
import Verif.Props.Lifetime

/-!
# C77: the threads do not race for unit generators, task data and buffers

The statements are about the traces of all histories (`Run`).  `HB`, `Ordered` and `Paired`
(`Lemmas/Races.lean`) are about traces alone and do not mention the state.
-/

namespace Verif.Ra

open Verif.G (Key)
open Verif.Li (LS)

/-- **Unit generators and task data are handed over properly.**  Whatever the two threads do and however their
steps are interleaved, also with sources that have been freed: of every two accesses to the same unit generator
or the same task data by different threads, the earlier one happens before the later one, by the order of a
thread and the pushing and popping of rings alone.  Nothing is touched after it has been freed, so nothing is
freed twice. -/
theorem C77_units {sl bs E r tr} (h : Run sl bs E r tr) : (∀ k, Ordered tr (.unit k)) ∧ ∀ n, Ordered tr (.td n) := by
  obtain ⟨own, hO, -⟩ := h.units
  exact ⟨fun k => hO.ordered _ trivial, fun n => hO.ordered _ trivial⟩

/-- **Buffers are handed over and given back properly**, as long as new schedules are only made for graphs in
which all sources are live: of every two accesses to the same allocation by different threads the earlier one
happens before the later one, by the order of a thread, the rings and the counts of the `Arc`s, and no allocation
is touched after it has been freed. -/
theorem C77_buffers_partial {sl bs r tr} (h : Run sl bs Li.Sourced r tr) (b : Nat) : Ordered tr (.buf b) :=
  (h.bufs fun _ _ h => h).ordered b

/-- **No data race and no use after free**, for everything that both threads touch. -/
theorem C77_partial {sl bs r tr} (h : Run sl bs Li.Sourced r tr) (o : Obj) : Ordered tr o := by
  cases o with
  | unit k => exact (C77_units h).1 k
  | td n => exact (C77_units h).2 n
  | buf b => exact C77_buffers_partial h b

/-- **The edges are those of the libraries.**  Every slot of a ring is written at most once and read at most once, and what is
acquired has been released before. -/
theorem C77_slots {sl bs E r tr} (h : Run sl bs E r tr) : Paired tr := h.slots.1

/-- The unit generators a block runs are those of the current task data, so none of them has been freed. -/
theorem C77_current {sl bs E r tr} (h : Run sl bs E r tr) {k : Key} (hk : k ∈ owned r.cur.tasks) :
    ∀ t, (t, Act.free (.unit k)) ∉ tr := by
  obtain ⟨own, hO, hU⟩ := h.units
  exact (hO.th (.unit k) _ trivial (hU.cur.units k hk)).2

/-- The allocation the audio thread holds has not been freed. -/
theorem C77_held_partial {sl bs r tr} (h : Run sl bs Li.Sourced r tr) : ∀ t, (t, Act.free (.buf r.l.arc)) ∉ tr :=
  fun t hf => (h.bufs fun _ _ h => h).freed _ t hf ((h.bufs fun _ _ h => h).heldH _ (h.bufs fun _ _ h => h).heldArc)

/-! ### Examples -/

/-- `RStep.legal`, computed for what is easy to compute. -/
def legalB (r : RS) : RStep → Bool
  | .graph (.edit (.commit _ _)) => false
  | .graph _ => true
  | .call _ => true
  | .block bufs => bufs.all fun b => r.l.cur.sch.tasks.any fun t => decide (some b ∈ t.ins.map Li.bufOf)  || decide (b = t.out.1)

/-- The test of the steps of the graph. -/
def condB (ok : LS → Li.Step → Bool) (r : RS) : RStep → Bool
  | .graph st => ok r.l st
  | _ => true

/-- Several steps with their trace. -/
def runR (ok : LS → Li.Step → Bool) (sl : Key → Nat) (bs : Nat) : RS → List Ev → List RStep → R (Option (RS × List Ev))
  | r, tr, [] => .ok (some (r, tr))
  | r, tr, st :: sts => do
    if legalB r st && condB ok r st then
      match ← st.run sl bs r with
      | none => .ok none
      | some (r', acts) => runR ok sl bs r' (tr ++ acts.map fun a => (st.th, a)) sts
    else .ok none

theorem legal_of {r : RS} {st : RStep} (h : legalB r st = true) : st.legal r := by
  cases st with
  | graph st =>
    cases st with
    | edit op => cases op <;> first | trivial | simp [legalB] at h
    | _ => trivial
  | call k => trivial
  | block bufs =>
    intro b hb
    have := List.all_eq_true.1 h b hb
    obtain ⟨t, ht, h1⟩ := List.any_eq_true.1 this
    rw [Bool.or_eq_true, decide_eq_true_eq, decide_eq_true_eq] at h1
    exact .inl ⟨t, ht, h1.imp_right .inl⟩

theorem run_runR {ok : LS → Li.Step → Bool} {E : LS → Li.Step → Prop} (hE : ∀ s st, ok s st = true → E s st) {sl bs} :
    ∀ {sts : List RStep} {r r' : RS} {tr tr' : List Ev}, Run sl bs E r tr →
      runR ok sl bs r tr sts = .ok (some (r', tr')) → Run sl bs E r' tr'
  | [], r, r', tr, tr', h, hr => by
    simp only [runR, Except.ok.injEq, Option.some.injEq, Prod.mk.injEq] at hr
    rw [← hr.1, ← hr.2]; exact h
  | st :: sts, r, r', tr, tr', h, hr => by
    rw [runR] at hr
    split at hr
    · next hg =>
      rw [Bool.and_eq_true] at hg
      obtain ⟨o, h1, hr⟩ := Sys.bind_inv hr
      cases o with
      | none => simp at hr
      | some x =>
        obtain ⟨r1, acts⟩ := x
        refine run_runR hE (.step st h (legal_of hg.1) ?_ h1) hr
        cases st with
        | graph st => exact hE _ _ hg.2
        | _ => trivial
    · simp at hr

/-- The trace of a run passes a test. -/
def passesR (x : R (Option (RS × List Ev))) (t : List Ev → Bool) : Bool := match x with
  | .ok (some s) => t s.2
  | _ => false

theorem exists_of_passesR {x : R (Option (RS × List Ev))} {t : List Ev → Bool} (h : passesR x t = true) :
    ∃ r tr, x = .ok (some (r, tr)) ∧ t tr = true := by
  match x, h with
  | .ok (some s), h => exact ⟨s.1, s.2, rfl, h⟩

/-- A node is pushed, runs, is freed and replaced by a node that needs more memory; everything old comes back
and is freed. -/
def replaced : List RStep :=
  [.graph (.edit (.push 0 1 []))] ++ (Li.commit ++ Li.arrive).map .graph ++ [.block [0], .call 0,
    .graph (.edit (.free ⟨0, 0⟩)), .graph (.edit (.push 0 4 []))] ++ (Li.commit ++ Li.arrive).map .graph ++
  [.block [1], .graph (.freeNodes (fun _ => false) (fun f => f == 1)), .graph (.freeBuf 0), .graph .drain, .graph .send]

/-- The events are there in this order. -/
def inOrder : List Ev → List Ev → Bool
  | [], _ => true
  | _ :: _, [] => false
  | e :: es, x :: xs => if e = x then inOrder es xs else inOrder (e :: es) xs

theorem inOrder_cons {e : Ev} {es : List Ev} : ∀ {tr : List Ev}, inOrder (e :: es) tr = true →
    ∃ i : Nat, tr[i]? = some e ∧ inOrder es (tr.drop (i + 1)) = true
  | [], h => by simp [inOrder] at h
  | x :: xs, h => by
    rw [inOrder] at h
    split at h
    · next he => exact ⟨0, by rw [he]; rfl, h⟩
    · obtain ⟨i, h1, h2⟩ := inOrder_cons h
      exact ⟨i + 1, h1, h2⟩

/-- Both threads touch the unit generator 0, the task data 1 and the allocation 0, and the control thread frees
all three. -/
example : ∃ r tr, Run id 2 Li.Sourced r tr ∧
    inOrder [(.control, .access (.unit 0)), (.audio, .access (.unit 0)), (.control, .free (.unit 0))] tr = true ∧
    inOrder [(.control, .access (.td 1)), (.audio, .access (.td 1)), (.control, .free (.td 1))] tr = true ∧
    inOrder [(.control, .access (.buf 0)), (.audio, .access (.buf 0)), (.control, .free (.buf 0))] tr = true := by
  obtain ⟨r, tr, h1, h2⟩ := exists_of_passesR (x := runR Li.sourcedB id 2 (.init 0 0 1 2 4) initTrace replaced)
    (t := fun tr =>
      inOrder [(.control, .access (.unit 0)), (.audio, .access (.unit 0)), (.control, .free (.unit 0))] tr &&
      inOrder [(.control, .access (.td 1)), (.audio, .access (.td 1)), (.control, .free (.td 1))] tr &&
      inOrder [(.control, .access (.buf 0)), (.audio, .access (.buf 0)), (.control, .free (.buf 0))] tr)
    (by decide +kernel)
  simp only [Bool.and_eq_true] at h2
  exact ⟨r, tr, run_runR (fun _ _ => Li.sourced_of) (.init 0 0 1 4) h1, h2.1.1, h2.1.2, h2.2⟩

/-- If the ring for old task data is full, the audio thread frees what it would have sent back: here the unit
generator of a node that has been freed.  That is ordered, too. -/
example : ∃ r tr, Run id 2 Li.Sourced r tr ∧
    inOrder [(.control, .access (.unit 0)), (.audio, .access (.unit 0)), (.audio, .free (.unit 0))] tr = true := by
  obtain ⟨r, tr, h1, h2⟩ := exists_of_passesR (x := runR Li.sourcedB id 2 (.init 0 0 1 2 1) initTrace
      ([.graph (.edit (.push 0 1 []))] ++ Li.commit.map .graph ++ [.graph (.edit (.free ⟨0, 0⟩)),
        .graph (.edit (.push 0 1 [])), .graph (.freeNodes (fun _ => false) (fun _ => false)), .graph .drain,
        .graph .recv, .graph .take, .block [0], .graph .send, .graph .recv]))
    (t := inOrder [(.control, .access (.unit 0)), (.audio, .access (.unit 0)), (.audio, .free (.unit 0))])
    (by decide +kernel)
  exact ⟨r, tr, run_runR (fun _ _ => Li.sourced_of) (.init 0 0 1 1) h1, h2⟩

/-- **The claim fails for sources that have been freed**: the control thread frees an allocation, and the audio
thread, whose schedule was made afterwards, uses it. -/
theorem C77_stale_violated : ∃ r tr, Run id 2 (fun _ _ => True) r tr ∧ ∃ b, ¬ Ordered tr (.buf b) := by
  obtain ⟨r, tr, h1, h2⟩ := exists_of_passesR (x := runR (fun _ _ => true) id 2 (.init 0 0 1 2 4) initTrace
      (Li.stale.map .graph ++ [.block [0]]))
    (t := fun tr => inOrder [(.control, .free (.buf 0)), (.audio, .access (.buf 0))] tr) (by decide +kernel)
  refine ⟨r, tr, run_runR (fun _ _ _ => trivial) (.init 0 0 1 4) h1, 0, fun ho => ?_⟩
  obtain ⟨i, h3, h4⟩ := inOrder_cons h2
  obtain ⟨j, h5, -⟩ := inOrder_cons h4
  rw [List.getElem?_drop] at h5
  exact (ho i _ _ _ (by omega) h3 h5 (.inr rfl) (.inl rfl)).1 rfl

end Verif.Ra
