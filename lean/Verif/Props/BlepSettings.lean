import Verif.Model.FloatBlep

/-!
# C93: the oscillator plays what it was last told to play
-/

namespace Verif.Fl

open Verif.Pb

/-- The waveform an operation asks for. -/
def askedWave : Op ℚ → Option Waveform
  | .waveform w => some w
  | _ => none

/-- The pulse width an operation asks for. -/
def askedWidth : Op ℚ → Option ℚ
  | .pulseWidth w => some w
  | _ => none

/-- The sample rate an operation asks for. -/
def askedRate : Op ℚ → Option ℚ
  | .setSampleRate sr => some sr
  | _ => none

/-- The last thing asked for in a history. -/
def lastAsked {α : Type} (f : Op ℚ → Option α) (ops : List (Op ℚ)) : Option α := (ops.filterMap f).getLast?

theorem lastAsked_cons {α : Type} (f : Op ℚ → Option α) (op : Op ℚ) (ops : List (Op ℚ)) (d : α) :
    (lastAsked f (op :: ops)).getD d = (lastAsked f ops).getD ((f op).getD d) := by
  unfold lastAsked
  cases h : f op with
  | none => simp [h]
  | some a => simp [h, List.getLast?_cons]

/-- The state after one operation. -/
def blepAfter (fl : ℚ → ℚ) (b : PolyBlep ℚ) : Op ℚ → PolyBlep ℚ
  | .sample => blepInc fl b
  | op => blepOp fl b op

theorem blepRun_step (fl : ℚ → ℚ) (o : Others) (b : PolyBlep ℚ) (op : Op ℚ) (ops : List (Op ℚ)) :
    (blepRun fl o b (op :: ops)).1 = (blepRun fl o (blepAfter fl b op) ops).1 := by
  cases op <;> rfl

/-- **C93**: after any history the waveform, the pulse width and the sample rate are the ones asked for last, or the
first ones if nobody asked; the pulse width is rounded to the sample type. -/
theorem C93_settings (fl : ℚ → ℚ) (o : Others) (ops : List (Op ℚ)) : ∀ b : PolyBlep ℚ,
    (blepRun fl o b ops).1.waveform = (lastAsked askedWave ops).getD b.waveform ∧
    (blepRun fl o b ops).1.pw = ((lastAsked askedWidth ops).map fl).getD b.pw ∧
    (blepRun fl o b ops).1.sr = (lastAsked askedRate ops).getD b.sr := by
  have hm : ∀ (op : Op ℚ) (ops : List (Op ℚ)) (d : ℚ), ((lastAsked askedWidth (op :: ops)).map fl).getD d =
      ((lastAsked askedWidth ops).map fl).getD (((askedWidth op).map fl).getD d) := by
    intro op ops d
    unfold lastAsked
    cases h : askedWidth op with
    | none => simp [h]
    | some a =>
      simp only [List.filterMap_cons, h, List.getLast?_cons]
      cases (ops.filterMap askedWidth).getLast? <;> simp
  induction ops with
  | nil => intro b; exact ⟨rfl, rfl, rfl⟩
  | cons op ops ih =>
    intro b
    rw [blepRun_step, lastAsked_cons, lastAsked_cons, hm]
    obtain ⟨h1, h2, h3⟩ := ih (blepAfter fl b op)
    rw [h1, h2, h3]
    cases op <;> simp [blepAfter, blepInc, blepOp, blepSetFreq, blepSync, askedWave, askedWidth, askedRate]

theorem blepRun_append (fl : ℚ → ℚ) (o : Others) (ops ops' : List (Op ℚ)) : ∀ b : PolyBlep ℚ,
    blepRun fl o b (ops ++ ops') = ((blepRun fl o (blepRun fl o b ops).1 ops').1,
      (blepRun fl o b ops).2 ++ (blepRun fl o (blepRun fl o b ops).1 ops').2) := by
  induction ops with
  | nil => intro b; rfl
  | cons op ops ih =>
    intro b
    cases op <;> simp [blepRun, ih]

/-- **C93**: the sample after any history is the one of the waveform asked for last, at the phase reached, unless the
frequency is at or above a quarter of the sample rate; then it is a sine. -/
theorem C93_plays (fl : ℚ → ℚ) (o : Others) (ops : List (Op ℚ)) (b : PolyBlep ℚ) :
    (blepRun fl o b (ops ++ [.sample])).2 = (blepRun fl o b ops).2 ++
      [if fl ((blepRun fl o b ops).1.sr / 4) ≤ blepHz fl (blepRun fl o b ops).1
        then o.sin (fl ((blepRun fl o b ops).1.t * o.tau))
        else waveF fl o ((lastAsked askedWave ops).getD b.waveform) (((lastAsked askedWidth ops).map fl).getD b.pw)
          (blepRun fl o b ops).1.t (blepRun fl o b ops).1.dt] := by
  rw [blepRun_append, ← (C93_settings fl o ops b).1, ← (C93_settings fl o ops b).2.1]
  simp [blepRun, blepNext]

/-- A history in which several waveforms are asked for. -/
example : lastAsked askedWave [.waveform .tri, .sample, .waveform .saw, .pulseWidth (1 / 3), .sample] = some .saw ∧
    lastAsked askedWidth [.waveform .tri, .sample, .waveform .saw, .pulseWidth (1 / 3), .sample] = some (1 / 3) ∧
    lastAsked askedRate [.waveform .tri, .sample, .waveform .saw, .pulseWidth (1 / 3), .sample] = none :=
  ⟨rfl, rfl, rfl⟩

end Verif.Fl
