import Verif.Model.Engine
import Verif.Props.System
import Verif.Props.Events

/-!
# Lemmas about the whole graph with parameter changes

The calls before a block are the same as unit generators that first make the calls and then process.
-/

namespace Verif.Eng

open Verif.G
open Verif.T (NU TD UG)
open Verif.Sys (Y Sim SchOk runUnits runUnits_eq newest_snd schOk_newest bind_inv)
open Verif.EventSpec

section
variable {S St V Sm : Type}

/-- Calls on a unit generator, one after the other. -/
def callAll (app : Key → UCall V Sm → St → St) (k : Key) (cs : List (UCall V Sm)) (s : St) : St :=
  cs.foldl (fun s c => app k c s) s

/-- The calls the applied changes make on the unit generator of node `k`. -/
def callsFor (out : List (Applied V Sm)) (k : Key) : List (UCall V Sm) :=
  (out.filter fun a => a.change.key = k).flatMap fun a => a.calls.map toUnit

/-- A unit generator that makes the calls and then processes. -/
def withCalls (app : Key → UCall V Sm → St → St) (cs : Key → List (UCall V Sm)) (proc : Proc S St) : Proc S St :=
  fun k s => proc k (callAll app k (cs k) s)

theorem callUnits_eq (app : Key → UCall V Sm → St → St) (ts : List (Key × UG))
    (hown : ∀ p ∈ ts, ∃ n, p.2 = .own p.1 n) : ∀ (out : List (Applied V Sm)) (h : Key → St),
    (∀ a ∈ out, (ts.map Prod.fst)[a.task]? = some a.change.key) →
    callUnits app (ts.map Prod.snd) h out = fun k => callAll app k (callsFor out k) (h k) := by
  intro out
  induction out with
  | nil => intro h _; rfl
  | cons a out ih =>
    intro h ha
    have h1 := ha a (List.mem_cons_self ..)
    rw [List.getElem?_map, Option.map_eq_some_iff] at h1
    obtain ⟨p, hp, hk⟩ := h1
    obtain ⟨n, hn⟩ := hown p (List.mem_of_getElem? hp)
    have h2 : (ts.map Prod.snd)[a.task]? = some (.own a.change.key n) := by
      rw [List.getElem?_map, hp, ← hk, Option.map_some, hn]
    rw [callUnits, h2]
    simp only
    rw [ih _ (fun b hb => ha b (List.mem_cons_of_mem _ hb))]
    funext k
    by_cases hka : k = a.change.key
    · subst hka
      simp [callsFor, callAll]
    · have hka' : ¬ a.change.key = k := fun e => hka e.symm
      simp [callsFor, callAll, hka, hka']

/-- Running the tasks after the calls. -/
theorem runTasks_calls (app : Key → UCall V Sm → St → St) (cs : Key → List (UCall V Sm)) (proc : Proc S St) (bs : Nat)
    (inp : Nat → Nat → S) (ar : List ArChange) : ∀ (ts : List Task) (m : Mem S) (h1 h : Key → St),
    (ts.map Task.key).Nodup → (∀ k ∈ ts.map Task.key, h1 k = callAll app k (cs k) (h k)) →
    (∀ k, k ∉ ts.map Task.key → h1 k = h k) →
    runTasks proc bs inp ar m h1 ts = runTasks (withCalls app cs proc) bs inp ar m h ts := by
  intro ts
  induction ts with
  | nil =>
    intro m h1 h _ _ h3
    have : h1 = h := funext fun k => h3 k (by simp)
    rw [this]
    rfl
  | cons t ts ih =>
    intro m h1 h hnd h2 h3
    simp only [List.map_cons, List.nodup_cons] at hnd
    rw [runTasks, runTasks]
    have e1 : h1 t.key = callAll app t.key (cs t.key) (h t.key) := h2 _ (by simp)
    simp only [withCalls, e1]
    refine ih _ _ _ hnd.2 ?_ ?_
    · intro k hk
      have hne : k ≠ t.key := fun e => hnd.1 (e ▸ hk)
      simp only [hne, if_false]
      exact h2 k (by simp [hk])
    · intro k hk
      by_cases hkt : k = t.key
      · simp [hkt]
      · simp only [hkt, if_false]
        exact h3 k (by simpa [hkt] using hk)

/-- The task data a block works with. -/
theorem sim_apply {y : Y S St} {t : T.S} (h : Sim y t) (hs : SchOk y) :
    ∃ td, T.applyAll y.cur.2 (y.ring.map Prod.snd) = .ok td ∧ td.keys = y.newest.1.tasks.map Task.key ∧
      td.keys.Nodup ∧ ∀ p ∈ td.tasks, ∃ n, p.2 = .own p.1 n := by
  have hi := h.reach.inv
  obtain ⟨t', log, hb, -, hk, hown, -⟩ := T.block_spec hi
  rw [T.block] at hb
  obtain ⟨c, hc, hb⟩ := bind_inv hb
  obtain ⟨ts, hts, hb⟩ := bind_inv hb
  simp only [Except.ok.injEq, Prod.mk.injEq] at hb
  obtain ⟨-, rfl⟩ := hb
  have hnd : (t.ring.getLast?.getD t.cur).keys.Nodup := hi.nodup _ (by
    cases hl : t.ring.getLast? with
    | none => simp
    | some x => exact List.mem_cons_of_mem _ (List.mem_of_getLast? hl))
  rw [← hk] at hnd
  rw [newest_snd h, schOk_newest hs] at hk
  rw [h.cur, h.ring] at hc
  exact ⟨c, hc, hk, hnd, fun p hp => ⟨_, hown p hp⟩⟩

/-- A block after calls on its unit generators. -/
theorem block_calls [Zero S] {bs : Nat} {y : Y S St} {t : T.S} (h : Sim y t) (hs : SchOk y)
    (app : Key → UCall V Sm → St → St) (cs : Key → List (UCall V Sm)) (proc : Proc S St) (inp : Nat → Nat → S)
    (hk : ∀ k, k ∉ y.newest.1.tasks.map Task.key → cs k = []) :
    Sys.block bs { y with heap := fun k => callAll app k (cs k) (y.heap k) } proc inp =
      Sys.block bs y (withCalls app cs proc) inp := by
  obtain ⟨td, h1, h2, h3, h4⟩ := sim_apply h hs
  have e : runTasks proc bs inp y.newest.1.ar y.mem (fun k => callAll app k (cs k) (y.heap k)) y.newest.1.tasks =
      runTasks (withCalls app cs proc) bs inp y.newest.1.ar y.mem y.heap y.newest.1.tasks :=
    runTasks_calls app cs proc bs inp _ _ _ _ _ (h2 ▸ h3) (fun _ _ => rfl) (fun k hkn => by
      simp [hk k hkn, callAll])
  have r1 := fun (p : Proc S St) (hp : Key → St) => runUnits_eq p bs inp y.newest.1.ar y.newest.1.tasks td.tasks
    y.mem hp h2 h4
  have en : ({ y with heap := fun k => callAll app k (cs k) (y.heap k) } : Y S St).newest = y.newest := rfl
  rw [Sys.block, Sys.block, en]
  simp only [h1, bind_ok, r1, e]

theorem queueAt_congr {c : GenCfg} {i1 i2 : Nat → BlockIn V Sm} : ∀ n, (∀ b < n, i1 b = i2 b) →
    queueAt c i1 n = queueAt c i2 n := by
  intro n
  induction n with
  | zero => intro _; rfl
  | succ n ih =>
    intro h
    rw [queueAt, queueAt, ih (fun b hb => h b (Nat.lt_succ_of_lt hb)), h n (Nat.lt_succ_self n)]

theorem outAt_congr {c : GenCfg} {i1 i2 : Nat → BlockIn V Sm} (n : Nat) (h : ∀ b ≤ n, i1 b = i2 b) :
    outAt c i1 n = outAt c i2 n := by
  rw [outAt, outAt, queueAt_congr n (fun b hb => h b (Nat.le_of_lt hb)), h n (Nat.le_refl n)]

end

end Verif.Eng
