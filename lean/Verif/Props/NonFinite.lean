import Verif.Model.NonFinite
import Mathlib.Tactic.Linarith
import Mathlib.Tactic.Ring
import Mathlib.Tactic.FieldSimp

/-!
# C88: a unit recovers from a number that is not finite

One sample or one parameter value that is infinite or not a number should not spoil a unit for ever: once its inputs are finite again,
so are its outputs after some time.
-/

namespace Verif.Nf

/-- A number that is infinite or not a number. -/
def Bad (x : Xf) : Prop := ∀ q, x ≠ .fin q

/-- A unit without parameters recovers: after any frames, whatever they were, silence at its input gives finite output from some frame
on. -/
def Recovers {σ : Type} (frame : σ → Xf → σ × Xf) (s : σ) : Prop :=
  ∀ xs : List Xf, ∃ n, ∀ m ≥ n,
    ¬ Bad ((frame ((run (C := Unit) (fun s _ => s) frame s ((xs ++ List.replicate m (Xf.fin 0)).map .frame)).1) (.fin 0)).2)

variable {F : Format}

theorem bad_nan : Bad .nan := fun _ => Xf.noConfusion

theorem bad_inf (s : Bool) : Bad (.inf s) := fun _ => Xf.noConfusion

theorem not_bad_fin (q : ℚ) : ¬ Bad (.fin q) := fun h => h q rfl

theorem bad_ite {c : Prop} [Decidable c] {x y : Xf} (hx : Bad x) (hy : Bad y) : Bad (if c then x else y) := by
  by_cases h : c
  · rwa [if_pos h]
  · rwa [if_neg h]

theorem bad_neg {x : Xf} (h : Bad x) : Bad (neg x) := by
  cases x with
  | fin q => exact absurd h (not_bad_fin q)
  | inf s => exact bad_inf _
  | nan => exact bad_nan

theorem bad_add_left {x : Xf} (y : Xf) (h : Bad x) : Bad (add F x y) := by
  cases x with
  | fin q => exact absurd h (not_bad_fin q)
  | nan => exact bad_nan
  | inf s =>
    cases y with
    | fin q => exact bad_inf _
    | nan => exact bad_nan
    | inf t =>
      by_cases e : s = t
      · rw [add, if_pos e]; exact bad_inf _
      · rw [add, if_neg e]; exact bad_nan

theorem bad_add_right (x : Xf) {y : Xf} (h : Bad y) : Bad (add F x y) := by
  cases y with
  | fin q => exact absurd h (not_bad_fin q)
  | nan => cases x <;> exact bad_nan
  | inf t =>
    cases x with
    | fin q => exact bad_inf _
    | nan => exact bad_nan
    | inf s =>
      by_cases e : s = t
      · rw [add, if_pos e]; exact bad_inf _
      · rw [add, if_neg e]; exact bad_nan

theorem bad_sub_left {x : Xf} (y : Xf) (h : Bad x) : Bad (sub F x y) := bad_add_left _ h

theorem bad_sub_right (x : Xf) {y : Xf} (h : Bad y) : Bad (sub F x y) := bad_add_right _ (bad_neg h)

theorem bad_mul_left {x : Xf} (y : Xf) (h : Bad x) : Bad (mul F x y) := by
  cases x with
  | fin q => exact absurd h (not_bad_fin q)
  | nan => exact bad_nan
  | inf s =>
    cases y with
    | fin q =>
      by_cases e : q = 0
      · rw [mul, if_pos e]; exact bad_nan
      · rw [mul, if_neg e]; exact bad_inf _
    | nan => exact bad_nan
    | inf t => exact bad_inf _

theorem bad_mul_right (x : Xf) {y : Xf} (h : Bad y) : Bad (mul F x y) := by
  cases y with
  | fin q => exact absurd h (not_bad_fin q)
  | nan => cases x <;> exact bad_nan
  | inf t =>
    cases x with
    | fin q =>
      by_cases e : q = 0
      · rw [mul, if_pos e]; exact bad_nan
      · rw [mul, if_neg e]; exact bad_inf _
    | nan => exact bad_nan
    | inf s => exact bad_inf _

/-- C88, the reason: adding, subtracting and multiplying never make a finite number of one that is not. -/
theorem C88_strict (x y : Xf) (h : Bad x ∨ Bad y) : Bad (add F x y) ∧ Bad (sub F x y) ∧ Bad (mul F x y) := by
  rcases h with h | h
  · exact ⟨bad_add_left _ h, bad_sub_left _ h, bad_mul_left _ h⟩
  · exact ⟨bad_add_right _ h, bad_sub_right _ h, bad_mul_right _ h⟩

/-! ### Filters -/

theorem run_append {σ C : Type} (set : σ → C → σ) (frame : σ → Xf → σ × Xf) (ops ops' : List (FOp C)) : ∀ s,
    run set frame s (ops ++ ops') =
      ((run set frame (run set frame s ops).1 ops').1, (run set frame s ops).2 ++ (run set frame (run set frame s ops).1 ops').2) := by
  induction ops with
  | nil => intro s; rfl
  | cons o ops ih =>
    intro s
    cases o with
    | set c => exact ih _
    | frame x => simp only [List.cons_append, run, ih]

/-- A set of states that a unit never leaves, where all output is bad: whatever happens, all output is bad. -/
theorem stuck {σ C : Type} (set : σ → C → σ) (frame : σ → Xf → σ × Xf) (P : σ → Prop) (hs : ∀ s c, P s → P (set s c))
    (hf : ∀ s x, P s → P (frame s x).1 ∧ Bad (frame s x).2) (ops : List (FOp C)) : ∀ s, P s →
    P (run set frame s ops).1 ∧ ∀ y ∈ (run set frame s ops).2, Bad y := by
  induction ops with
  | nil => intro s h; exact ⟨h, fun y hy => absurd hy List.not_mem_nil⟩
  | cons o ops ih =>
    intro s h
    cases o with
    | set c => exact ih _ (hs s c h)
    | frame x =>
      have i := ih _ (hf s x h).1
      refine ⟨i.1, fun y hy => ?_⟩
      rcases List.mem_cons.1 hy with rfl | hy
      · exact (hf s x h).2
      · exact i.2 y hy

/-- What happens before, a frame that leads to a stuck state, and what happens after. -/
theorem stuck_after {σ C : Type} (set : σ → C → σ) (frame : σ → Xf → σ × Xf) (P : σ → Prop) (hs : ∀ s c, P s → P (set s c))
    (hf : ∀ s x, P s → P (frame s x).1 ∧ Bad (frame s x).2) (b : Xf) (hb : ∀ s, P (frame s b).1 ∧ Bad (frame s b).2) (s : σ)
    (before after : List (FOp C)) :
    ∀ y ∈ (run set frame s (before ++ .frame b :: after)).2.drop (run set frame s before).2.length, Bad y := by
  intro y hy
  rw [run_append, List.drop_left' rfl] at hy
  rcases List.mem_cons.1 hy with rfl | hy
  · exact (hb _).2
  · exact (stuck set frame P hs hf after _ (hb _).1).2 y hy

/-- A unit that is stuck after a bad frame does not recover. -/
theorem not_recovers {σ : Type} (frame : σ → Xf → σ × Xf) (P : σ → Prop) (hf : ∀ s x, P s → P (frame s x).1 ∧ Bad (frame s x).2)
    (s : σ) (hb : ∃ b, P (frame s b).1) : ¬ Recovers frame s := by
  intro h
  obtain ⟨b, hb⟩ := hb
  obtain ⟨n, h⟩ := h [b]
  refine h n (Nat.le_refl n) (hf _ _ ?_).2
  exact (stuck (C := Unit) (fun s _ => s) frame P (fun _ _ h => h) hf _ _ hb).1

theorem set_last (sr : ℚ) (p : OnePole) (c : OpSet) : (p.set F sr c).last = p.last := by
  cases c with
  | cutoff f => rfl
  | init r =>
    rw [OnePole.set, OnePole.init]
    split <;> rfl

theorem lp_stuck (p : OnePole) (x : Xf) (h : Bad p.last) : Bad (p.lp F x).1.last ∧ Bad (p.lp F x).2 :=
  ⟨bad_add_right _ (bad_mul_left _ h), bad_add_right _ (bad_mul_left _ h)⟩

theorem hp_stuck (p : OnePole) (x : Xf) (h : Bad p.last) : Bad (p.hp F x).1.last ∧ Bad (p.hp F x).2 :=
  ⟨bad_add_right _ (bad_mul_left _ h), bad_sub_right _ (bad_add_right _ (bad_mul_left _ h))⟩

theorem lp_bad (p : OnePole) {b : Xf} (h : Bad b) : Bad (p.lp F b).1.last ∧ Bad (p.lp F b).2 :=
  ⟨bad_add_left _ (bad_mul_left _ h), bad_add_left _ (bad_mul_left _ h)⟩

theorem hp_bad (p : OnePole) {b : Xf} (h : Bad b) : Bad (p.hp F b).1.last ∧ Bad (p.hp F b).2 :=
  ⟨bad_add_left _ (bad_mul_left _ h), bad_sub_left _ h⟩

/-- C88 is false for the one pole filters: after one bad sample every output is bad, whatever comes after it: samples, new cutoff
frequencies, another `init`. -/
theorem C88_onepole_violated (sr : ℚ) (p : OnePole) (b : Xf) (hb : Bad b) (before after : List (FOp OpSet)) :
    (∀ y ∈ (run (OnePole.set F sr) (OnePole.lp F) p (before ++ .frame b :: after)).2.drop
        (run (OnePole.set F sr) (OnePole.lp F) p before).2.length, Bad y) ∧
      ∀ y ∈ (run (OnePole.set F sr) (OnePole.hp F) p (before ++ .frame b :: after)).2.drop
        (run (OnePole.set F sr) (OnePole.hp F) p before).2.length, Bad y :=
  ⟨stuck_after _ _ (fun p => Bad p.last) (fun p c h => (set_last (F := F) sr p c).symm ▸ h) lp_stuck b (fun p => lp_bad p hb) p before after,
    stuck_after _ _ (fun p => Bad p.last) (fun p c h => (set_last (F := F) sr p c).symm ▸ h) hp_stuck b (fun p => hp_bad p hb) p before after⟩

/-- C88 is false for the one pole filters with any coefficients. -/
theorem C88_onepole_recovers_violated (p : OnePole) : ¬ Recovers (OnePole.lp F) p ∧ ¬ Recovers (OnePole.hp F) p :=
  ⟨not_recovers _ (fun p => Bad p.last) lp_stuck p ⟨.nan, (lp_bad p bad_nan).1⟩,
    not_recovers _ (fun p => Bad p.last) hp_stuck p ⟨.nan, (hp_bad p bad_nan).1⟩⟩

/-- C88 is false for the cutoff frequency of the one pole filters: one frame with a cutoff that is not a number, and all later output is
bad, although the cutoff is set again and all samples are finite. -/
theorem C88_cutoff_violated (hexp : F.exp .nan = .nan) (sr : ℚ) (p : OnePole) (x : Xf) (after : List (FOp OpSet)) :
    (∀ y ∈ (run (OnePole.set F sr) (OnePole.lp F) p (.set (.cutoff .nan) :: .frame x :: after)).2, Bad y) ∧
      ∀ y ∈ (run (OnePole.set F sr) (OnePole.hp F) p (.set (.cutoff .nan) :: .frame x :: after)).2, Bad y := by
  have hn : (p.set F sr (.cutoff .nan)).b1 = .nan := hexp
  have hl : Bad ((p.set F sr (.cutoff .nan)).lp F x).1.last := bad_add_right _ (bad_mul_right _ (hn.symm ▸ bad_nan))
  constructor
  · intro y hy
    rcases List.mem_cons.1 hy with rfl | hy
    · exact hl
    · exact (stuck _ _ (fun p => Bad p.last) (fun p c h => (set_last (F := F) sr p c).symm ▸ h) lp_stuck after _ hl).2 y hy
  · intro y hy
    rcases List.mem_cons.1 hy with rfl | hy
    · exact bad_sub_right _ hl
    · exact (stuck _ _ (fun p => Bad p.last) (fun p c h => (set_last (F := F) sr p c).symm ▸ h) hp_stuck after _ hl).2 y hy

/-- C88, what would help: after `reset` the filter is in the state of a new one with its coefficients, whatever happened. -/
theorem C88_onepole_reset (p : OnePole) (x : Xf) : p.reset.last = .fin 0 ∧ p.reset.a0 = p.a0 ∧ p.reset.b1 = p.b1 ∧
    (p.reset.lp F x).2 = ((⟨.fin 0, p.a0, p.b1⟩ : OnePole).lp F x).2 := ⟨rfl, rfl, rfl, rfl⟩

theorem svf_stuck (s : Svf) (x : Xf) (h : Bad s.ic1 ∧ Bad s.ic2) :
    (Bad (s.frame F x).1.ic1 ∧ Bad (s.frame F x).1.ic2) ∧ Bad (s.frame F x).2 := by
  refine ⟨⟨bad_sub_right _ h.1, bad_sub_right _ h.2⟩, bad_add_right _ (bad_mul_right _ (bad_add_left _ (bad_add_left _ h.2)))⟩

theorem svf_bad (s : Svf) {b : Xf} (h : Bad b) : (Bad (s.frame F b).1.ic1 ∧ Bad (s.frame F b).1.ic2) ∧ Bad (s.frame F b).2 := by
  have h3 : Bad (sub F b s.ic2) := bad_sub_left _ h
  exact ⟨⟨bad_sub_left _ (bad_mul_right _ (bad_add_right _ (bad_mul_right _ h3))),
    bad_sub_left _ (bad_mul_right _ (bad_add_right _ (bad_mul_right _ h3)))⟩,
    bad_add_left _ (bad_add_left _ (bad_mul_right _ h))⟩

/-- C88 is false for the state variable filter: after one bad sample every output is bad, for all filter types, whatever samples come and
whatever the coefficients become. -/
theorem C88_svf_violated (s : Svf) (b : Xf) (hb : Bad b) (before after : List (FOp SvCoef)) :
    (∀ y ∈ (run Svf.set (Svf.frame F) s (before ++ .frame b :: after)).2.drop (run Svf.set (Svf.frame F) s before).2.length, Bad y) ∧
      ¬ Recovers (Svf.frame F) s :=
  ⟨stuck_after Svf.set (Svf.frame F) (fun s => Bad s.ic1 ∧ Bad s.ic2) (fun _ _ h => h) svf_stuck b (fun s => svf_bad s hb) s before after,
    not_recovers _ (fun s => Bad s.ic1 ∧ Bad s.ic2) svf_stuck s ⟨.nan, (svf_bad s bad_nan).1⟩⟩

theorem low_stuck (s : Low) (x : Xf) (h : Bad s.old) : Bad (s.frame F x).1.old ∧ Bad (s.frame F x).2 :=
  ⟨bad_add_left _ (bad_mul_left _ h), bad_add_left _ (bad_mul_left _ h)⟩

theorem low_bad (s : Low) {b : Xf} (h : Bad b) : Bad (s.frame F b).1.old ∧ Bad (s.frame F b).2 :=
  ⟨bad_add_right _ (bad_mul_left _ h), bad_add_right _ (bad_mul_left _ h)⟩

/-- C88 is false for the low pass filters of the reverb, whatever its parameters become. -/
theorem C88_galactic_violated (s : Low) (b : Xf) (hb : Bad b) (before after : List (FOp Xf)) :
    (∀ y ∈ (run Low.set (Low.frame F) s (before ++ .frame b :: after)).2.drop (run Low.set (Low.frame F) s before).2.length, Bad y) ∧
      ¬ Recovers (Low.frame F) s :=
  ⟨stuck_after Low.set (Low.frame F) (fun s => Bad s.old) (fun _ _ h => h) low_stuck b (fun s => low_bad s hb) s before after,
    not_recovers _ (fun s => Bad s.old) low_stuck s ⟨.nan, (low_bad s bad_nan).1⟩⟩

/-! ### Units that keep nothing -/

/-- C88 for a unit that computes each output from the input of the same frame: it recovers at once. -/
theorem C88_pointwise (f : Xf → Xf) (h0 : ¬ Bad (f (.fin 0))) : Recovers (fun (_ : Unit) x => ((), f x)) () := by
  intro xs
  exact ⟨0, fun m _ => h0⟩

/-- C88 for gain and offset (`wr_mul`, `wr_add`, `wr_sub`): with a finite operand in the range of the format they recover at once. -/
theorem C88_arith (hfl : F.fl 0 = 0) (hbig : 0 < F.big) (v : ℚ) (hv : |F.fl v| < F.big) (hv' : |F.fl (-v)| < F.big) :
    Recovers (fun (_ : Unit) x => ((), mul F x (.fin v))) () ∧ Recovers (fun (_ : Unit) x => ((), add F x (.fin v))) () ∧
      Recovers (fun (_ : Unit) x => ((), sub F x (.fin v))) () := by
  refine ⟨C88_pointwise _ ?_, C88_pointwise _ ?_, C88_pointwise _ ?_⟩
  · rw [mul, rnd, zero_mul, hfl, if_pos (by rwa [abs_zero])]; exact not_bad_fin _
  · rw [add, rnd, zero_add, if_pos hv]; exact not_bad_fin _
  · rw [sub, neg, add, rnd, zero_add, if_pos hv']; exact not_bad_fin _

/-! ### Delays -/

/-- What frame `i` of a delay is: first what the buffer holds, then the input of `delay` frames before. -/
theorem delay_frames {V : Type} (xs : List V) : ∀ s : SDelay V, s.wp < s.buf.length → s.delay < s.buf.length →
    ∃ s' ys, s.frames xs = .ok (s', ys) ∧ ys.length = xs.length ∧ ∀ i < xs.length,
      ys[i]? = if i < s.delay then s.buf[(s.wp + i + s.buf.length - s.delay) % s.buf.length]? else xs[i - s.delay]? := by
  induction xs with
  | nil => intro s _ _; exact ⟨s, [], rfl, rfl, fun i h => absurd h (Nat.not_lt_zero i)⟩
  | cons x xs ih =>
    intro s hw hd
    have h0 : 0 < s.buf.length := by omega
    have hm : (s.wp + s.buf.length - s.delay) % s.buf.length < (s.buf.set s.wp x).length := by
      rw [List.length_set]; exact Nat.mod_lt _ h0
    have hf : s.frame x = .ok ({ s with buf := s.buf.set s.wp x, wp := (s.wp + 1) % s.buf.length },
        (s.buf.set s.wp x)[(s.wp + s.buf.length - s.delay) % s.buf.length]) := by
      unfold SDelay.frame
      rw [if_pos hw, subC, if_pos (by omega), bind_ok, modC, if_neg (by omega), bind_ok, List.getElem?_eq_getElem hm]
      simp only [modC, if_neg (show ¬ s.buf.length = 0 by omega), bind_ok, pure_ok]
    obtain ⟨s', ys, e, hl, hy⟩ := ih { s with buf := s.buf.set s.wp x, wp := (s.wp + 1) % s.buf.length }
      (by simp only [List.length_set]; exact Nat.mod_lt _ h0) (by simpa only [List.length_set] using hd)
    refine ⟨s', (s.buf.set s.wp x)[(s.wp + s.buf.length - s.delay) % s.buf.length] :: ys, ?_, ?_, ?_⟩
    · rw [SDelay.frames, hf, bind_ok, e, bind_ok, pure_ok]
    · rw [List.length_cons, List.length_cons, hl]
    · intro i hi
      simp only [List.length_set] at hy
      have hwrap : ∀ j, j < s.delay → (s.wp + j + s.buf.length - s.delay) % s.buf.length ≠ s.wp := by
        intro j hj he
        by_cases hlt : s.wp + j + s.buf.length - s.delay < s.buf.length
        · rw [Nat.mod_eq_of_lt hlt] at he; omega
        · rw [Nat.mod_eq_sub_mod (by omega), Nat.mod_eq_of_lt (by omega)] at he; omega
      cases i with
      | zero =>
        rw [List.getElem?_cons_zero, ← List.getElem?_eq_getElem hm]
        by_cases hz : 0 < s.delay
        · rw [if_pos hz, Nat.add_zero, List.getElem?_set_ne]
          exact (hwrap 0 hz).symm
        · have hz : s.delay = 0 := by omega
          rw [if_neg (by omega), hz, Nat.sub_zero, Nat.sub_zero, Nat.add_mod_right, Nat.mod_eq_of_lt hw, List.getElem?_set_self hw,
            List.getElem?_cons_zero]
      | succ i =>
        rw [List.getElem?_cons_succ, hy i (by simpa using hi)]
        have hidx : i < s.delay → ((s.wp + 1) % s.buf.length + i + s.buf.length - s.delay) % s.buf.length =
            (s.wp + (i + 1) + s.buf.length - s.delay) % s.buf.length := by
          intro hid
          by_cases hlt : s.wp + 1 < s.buf.length
          · rw [Nat.mod_eq_of_lt hlt]; congr 1; omega
          · have : s.wp + 1 = s.buf.length := by omega
            rw [this, Nat.mod_self, show s.wp + (i + 1) + s.buf.length - s.delay = (0 + i + s.buf.length - s.delay) + s.buf.length by omega,
              Nat.add_mod_right]
        by_cases h1 : i + 1 < s.delay
        · rw [if_pos (by omega), if_pos h1, hidx (by omega), List.getElem?_set_ne (hwrap (i + 1) h1).symm]
        · rw [if_neg h1]
          by_cases h2 : i < s.delay
          · rw [if_pos h2, hidx h2, show s.wp + (i + 1) + s.buf.length - s.delay = s.wp + s.buf.length by omega, Nat.add_mod_right,
              Nat.mod_eq_of_lt hw, List.getElem?_set_self hw, show i + 1 - s.delay = 0 by omega, List.getElem?_cons_zero]
          · rw [if_neg h2, show i + 1 - s.delay = (i - s.delay) + 1 by omega, List.getElem?_cons_succ]

/-- C88 for the sample delay: every output is a sample that came in `delay` frames ago, so a bad sample is one bad output. -/
theorem C88_delay {V : Type} (s : SDelay V) (hw : s.wp < s.buf.length) (hd : s.delay < s.buf.length) (xs : List V) :
    ∃ s' ys, s.frames xs = .ok (s', ys) ∧ ys.length = xs.length ∧ ∀ i, i + s.delay < xs.length → ys[i + s.delay]? = xs[i]? := by
  obtain ⟨s', ys, e, hl, h⟩ := delay_frames xs s hw hd
  refine ⟨s', ys, e, hl, fun i hi => ?_⟩
  rw [h _ hi, if_neg (by omega), Nat.add_sub_cancel]

example : ∃ s : SDelay Xf, s.wp < s.buf.length ∧ s.delay < s.buf.length ∧ 0 < s.delay :=
  ⟨⟨[.fin 0, .nan, .fin 0], 1, 2⟩, by decide, by decide, by decide⟩

/-- Reading, writing something made of what was read and the input, and an output made of them: both allpass delays. -/
def gen (F : Format) (w o : Xf → Xf → Xf) (s : ADelay) (x : Xf) : R (ADelay × Xf) := do
  let r ← s.read F
  let s ← r.1.write (w r.2 x)
  return (s, o r.2 x)

theorem gen_ok {w o : Xf → Xf → Xf} {s s' : ADelay} {x y : Xf} (h : gen F w o s x = .ok (s', y)) (hc : s.clearLeft = 0) :
    ∃ b, s.buf[s.rf]? = some b ∧ y = o (s.interp F b) x ∧ s'.prevOut = s.interp F b ∧ s'.clearLeft = 0 ∧
      s'.buf = s.buf.set s.wf (w (s.interp F b) x) ∧ s'.rf = (s.rf + 1) % s.buf.length ∧ s'.wf = (s.wf + 1) % s.buf.length := by
  unfold gen ADelay.read at h
  rw [if_neg (by omega)] at h
  cases hb : s.buf[s.rf]? with
  | none => rw [hb] at h; cases h
  | some b =>
    have hlen : s.buf.length ≠ 0 := by
      intro e
      rw [List.getElem?_eq_none (by omega)] at hb
      cases hb
    simp only [hb, modC, if_neg hlen, bind_ok, pure_ok, ADelay.write] at h
    by_cases hw : s.wf < s.buf.length
    · simp only [if_pos hw, bind_ok, Except.ok.injEq, Prod.mk.injEq] at h
      obtain ⟨rfl, rfl⟩ := h
      exact ⟨b, rfl, rfl, rfl, hc, rfl, rfl, rfl⟩
    · rw [if_neg hw] at h; cases h

theorem gen_stuck (w o : Xf → Xf → Xf) (ho : ∀ y x, Bad y → Bad (o y x)) (ops : List (FOp (Nat × Xf))) : ∀ s : ADelay,
    s.clearLeft = 0 → Bad s.prevOut → ∀ s' ys, runA (gen F w o) s ops = .ok (s', ys) → ∀ y ∈ ys, Bad y := by
  induction ops with
  | nil =>
    intro s _ _ s' ys h
    cases h
    exact fun y hy => absurd hy List.not_mem_nil
  | cons op ops ih =>
    intro s hc hp s' ys h
    cases op with
    | set c => exact ih _ (by exact hc) (by exact hp) s' ys h
    | frame x =>
      cases hr : gen F w o s x with
      | error e => rw [runA, hr] at h; cases h
      | ok r =>
        obtain ⟨b, _, hy, hpo, hc', _⟩ := gen_ok (s' := r.1) (y := r.2) hr hc
        have hi : Bad (s.interp F b) := bad_add_left _ (bad_mul_right _ (bad_sub_right _ hp))
        cases hr' : runA (gen F w o) r.1 ops with
        | error e => rw [runA, hr, bind_ok, hr'] at h; cases h
        | ok r' =>
          rw [runA, hr, bind_ok, hr', bind_ok, pure_ok] at h
          cases h
          intro y hm
          rcases List.mem_cons.1 hm with rfl | hm
          · rw [hy]; exact ho _ _ hi
          · exact ih r.1 hc' (hpo ▸ hi) r'.1 r'.2 hr' y hm

/-- As long as the bad sample is in the buffer, at `0`. -/
theorem gen_run (w o : Xf → Xf → Xf) (ho : ∀ y x, Bad y → Bad (o y x)) (n : Nat) (xs : List Xf) : ∀ (k : Nat) (s : ADelay),
    s.clearLeft = 0 → 0 < k → k ≤ n → s.buf.length = n → s.rf = k % n → s.wf = k % n → (∃ b, Bad b ∧ s.buf[0]? = some b) →
    ∀ s' ys, runA (gen F w o) s (xs.map .frame) = .ok (s', ys) → ∀ y ∈ ys.drop (n - k), Bad y := by
  induction xs with
  | nil =>
    intro k s _ _ _ _ _ _ _ s' ys h
    cases h
    intro y hy
    rw [List.drop_nil] at hy
    exact absurd hy List.not_mem_nil
  | cons x xs ih =>
    intro k s hc hk hkn hl hrf hwf hbad s' ys h
    cases hr : gen F w o s x with
    | error e => rw [List.map_cons, runA, hr] at h; cases h
    | ok r =>
      obtain ⟨b, hb, hy, hpo, hc', hbuf, hrf', hwf'⟩ := gen_ok (s' := r.1) (y := r.2) hr hc
      cases hr' : runA (gen F w o) r.1 (xs.map .frame) with
      | error e => rw [List.map_cons, runA, hr, bind_ok, hr'] at h; cases h
      | ok r' =>
        rw [List.map_cons, runA, hr, bind_ok, hr', bind_ok, pure_ok] at h
        cases h
        by_cases he : k = n
        · subst he
          rw [Nat.mod_self] at hrf
          obtain ⟨b', hb', e⟩ := hbad
          rw [hrf, e] at hb
          obtain rfl := Option.some.inj hb
          have hi : Bad (s.interp F b') := bad_add_left _ (bad_mul_right _ (bad_sub_left _ hb'))
          rw [Nat.sub_self, List.drop_zero]
          intro y hm
          rcases List.mem_cons.1 hm with rfl | hm
          · rw [hy]; exact ho _ _ hi
          · exact gen_stuck w o ho _ r.1 hc' (hpo ▸ hi) r'.1 r'.2 hr' y hm
        · have hkm : k % n = k := Nat.mod_eq_of_lt (by omega)
          rw [show n - k = (n - (k + 1)) + 1 by omega, List.drop_succ_cons]
          refine ih (k + 1) r.1 hc' (by omega) (by omega) ?_ ?_ ?_ ?_ r'.1 r'.2 hr'
          · rw [hbuf, List.length_set, hl]
          · rw [hrf', hrf, hl, hkm]
          · rw [hwf', hwf, hl, hkm]
          · obtain ⟨b', hb', e⟩ := hbad
            refine ⟨b', hb', ?_⟩
            rw [hbuf, List.getElem?_set_ne (by omega)]
            exact e

theorem gen_new (w o : Xf → Xf → Xf) (ho : ∀ y x, Bad y → Bad (o y x)) (hw : ∀ y x, Bad x → Bad (w y x)) (n : Nat) (b : Xf) (hb : Bad b)
    (xs : List Xf) (s' : ADelay) (ys : List Xf) (h : runA (gen F w o) (.new n) ((b :: xs).map .frame) = .ok (s', ys)) :
    ∀ y ∈ ys.drop n, Bad y := by
  cases hr : gen F w o (.new n) b with
  | error e => rw [List.map_cons, runA, hr] at h; cases h
  | ok r =>
    obtain ⟨b', h', hy, hpo, hc', hbuf, hrf', hwf'⟩ := gen_ok (s' := r.1) (y := r.2) hr rfl
    have hl : (ADelay.new n).buf.length = n := List.length_replicate
    have hn : 0 < n := by
      have := (List.getElem?_eq_some_iff.1 h').1
      rw [hl] at this
      exact Nat.lt_of_le_of_lt (Nat.zero_le _) this
    cases hr' : runA (gen F w o) r.1 (xs.map .frame) with
    | error e => rw [List.map_cons, runA, hr, bind_ok, hr'] at h; cases h
    | ok r' =>
      rw [List.map_cons, runA, hr, bind_ok, hr', bind_ok, pure_ok] at h
      cases h
      rw [show n = (n - 1) + 1 by omega, List.drop_succ_cons]
      refine gen_run w o ho n xs 1 r.1 hc' (by omega) hn ?_ ?_ ?_ ⟨w ((ADelay.new n).interp F b') b, hw _ _ hb, ?_⟩ r'.1 r'.2 hr'
      · rw [hbuf, List.length_set, hl]
      · rw [hrf', hl]; rfl
      · rw [hwf', hl]; rfl
      · rw [hbuf]; exact List.getElem?_set_self (by rw [hl]; exact hn)

/-- C88 is false for the allpass delay: a bad sample that comes out of the buffer spoils the interpolation, and no sample, delay time or
position brings it back. -/
theorem C88_allpass_stuck_violated (s : ADelay) (hc : s.clearLeft = 0) (hp : Bad s.prevOut) (ops : List (FOp (Nat × Xf))) (fb : Xf) :
    (∀ s' ys, runA (ADelay.frame F) s ops = .ok (s', ys) → ∀ y ∈ ys, Bad y) ∧
      ∀ s' ys, runA (ADelay.fbFrame F fb) s ops = .ok (s', ys) → ∀ y ∈ ys, Bad y :=
  ⟨gen_stuck (fun _ x => x) (fun y _ => y) (fun _ _ h => h) ops s hc hp,
    gen_stuck (fun y x => add F (mul F y fb) x) (fun y x => sub F y (mul F fb (add F (mul F y fb) x))) (fun _ _ h => bad_sub_left _ h) ops
      s hc hp⟩

/-- C88 is false for the allpass delays: the first sample of a new delay is bad, and from frame `n` on, the length of its buffer, all
outputs are bad whatever samples come. -/
theorem C88_allpass_violated (n : Nat) (b : Xf) (hb : Bad b) (xs : List Xf) (fb : Xf) :
    (∀ s' ys, runA (ADelay.frame F) (.new n) ((b :: xs).map .frame) = .ok (s', ys) → ∀ y ∈ ys.drop n, Bad y) ∧
      ∀ s' ys, runA (ADelay.fbFrame F fb) (.new n) ((b :: xs).map .frame) = .ok (s', ys) → ∀ y ∈ ys.drop n, Bad y :=
  ⟨gen_new (fun _ x => x) (fun y _ => y) (fun _ _ h => h) (fun _ _ h => h) n b hb xs,
    gen_new (fun y x => add F (mul F y fb) x) (fun y x => sub F y (mul F fb (add F (mul F y fb) x))) (fun _ _ h => bad_sub_left _ h)
      (fun _ _ h => bad_add_right _ h) n b hb xs⟩

/-! ### Oscillators -/

theorem wrap_inf (fuel : Nat) : wrap F fuel (.inf false) = none := by
  induction fuel with
  | zero => rfl
  | succ n ih => exact ih

/-- C88 is false for the phasor: with an infinite frequency its loop never ends. -/
theorem C88_phasor_hang_violated (mult : ℚ) (hm : 0 < mult) (p : Phasor) (q : ℚ) (hp : p.phase = .fin q) (fuel : Nat) :
    (p.freq F mult (.inf false)).frame F fuel = none := by
  have hs : (p.freq F mult (.inf false)).step = .inf false := by
    simp only [Phasor.freq, mul]
    rw [if_neg hm.ne', decide_eq_false (not_lt.2 hm.le)]; rfl
  have ha : add F (p.freq F mult (.inf false)).phase (p.freq F mult (.inf false)).step = .inf false := by
    rw [hs, show (p.freq F mult (.inf false)).phase = .fin q from hp]; rfl
  rw [Phasor.frame, ha, wrap_inf]; rfl

/-- The phases that the phasor does not leave. -/
def Lost (x : Xf) : Prop := x = .nan ∨ x = .inf true

theorem lost_add {x : Xf} (y : Xf) (h : Lost x) : Lost (add F x y) := by
  rcases h with rfl | rfl
  · exact .inl rfl
  · cases y with
    | fin q => exact .inr rfl
    | nan => exact .inl rfl
    | inf t => cases t; exact .inl rfl; exact .inr rfl

theorem lost_wrap {x : Xf} (n : Nat) (h : Lost x) : wrap F (n + 1) x = some x := by
  rcases h with rfl | rfl <;> rfl

/-- Frames of a phasor, each after setting the frequency to some number. -/
def phasorRun (F : Format) (mult : ℚ) : Phasor → List Xf → Option (Phasor × List Xf)
  | p, [] => some (p, [])
  | p, f :: fs => do
    let r ← (p.freq F mult f).frame F 1
    let r' ← phasorRun F mult r.1 fs
    return (r'.1, r.2 :: r'.2)

theorem phasor_lost (mult : ℚ) (fs : List Xf) : ∀ p : Phasor, Lost p.phase → ∃ p' ys, phasorRun F mult p fs = some (p', ys) ∧
    ys.length = fs.length ∧ ∀ y ∈ ys, Bad y := by
  induction fs with
  | nil => intro p _; exact ⟨p, [], rfl, rfl, fun y hy => absurd hy List.not_mem_nil⟩
  | cons f fs ih =>
    intro p h
    have ha : Lost (add F (p.freq F mult f).phase (p.freq F mult f).step) := lost_add _ h
    obtain ⟨p', ys, e, hl, hb⟩ := ih { p.freq F mult f with phase := add F (p.freq F mult f).phase (p.freq F mult f).step } ha
    refine ⟨p', p.phase :: ys, ?_, by rw [List.length_cons, List.length_cons, hl], ?_⟩
    · rw [phasorRun, Phasor.frame, lost_wrap 0 ha]
      simp only [Option.map_some, Option.bind_eq_bind, Option.bind_some, e]
      rfl
    · intro y hy
      rcases List.mem_cons.1 hy with rfl | hy
      · rcases h with h | h
        · rw [h]; exact bad_nan
        · rw [h]; exact bad_inf _
      · exact hb y hy

/-- C88 is false for the phasor: one frame with a frequency that is not a number or negative and infinite, and all later outputs are bad,
whatever the frequency is set to. -/
theorem C88_phasor_violated (mult : ℚ) (hm : 0 < mult) (p : Phasor) (q : ℚ) (hp : p.phase = .fin q) (b : Xf) (hb : Lost b)
    (fs : List Xf) : ∃ p' ys, phasorRun F mult p (b :: fs) = some (p', .fin q :: ys) ∧ ys.length = fs.length ∧ ∀ y ∈ ys, Bad y := by
  have hs : Lost (p.freq F mult b).step := by
    rcases hb with rfl | rfl
    · exact .inl rfl
    · right
      simp only [Phasor.freq, mul]
      rw [if_neg hm.ne', decide_eq_false (not_lt.2 hm.le)]; rfl
  have ha : Lost (add F (p.freq F mult b).phase (p.freq F mult b).step) := by
    rw [show (p.freq F mult b).phase = .fin q from hp]
    rcases hs with h | h
    · rw [h]; exact .inl rfl
    · rw [h]; exact .inr rfl
  obtain ⟨p', ys, e, hl, h⟩ := phasor_lost (F := F) mult fs
    { p.freq F mult b with phase := add F (p.freq F mult b).phase (p.freq F mult b).step } ha
  refine ⟨p', ys, ?_, hl, h⟩
  rw [phasorRun, Phasor.frame, lost_wrap 0 ha]
  simp only [Option.map_some, Option.bind_eq_bind, Option.bind_some, e]
  rw [show (p.freq F mult b).phase = .fin q from hp]
  rfl

theorem sine_stuck (s : Sine) (h : Bad s.phase) : Bad (s.frame F).1.phase := by
  exact bad_ite (bad_sub_left _ (bad_add_left _ h)) (bad_add_left _ h)

/-- Frames and settings of a `SinNumeric`. -/
def sineRun (F : Format) (sr : ℚ) (s : Sine) (ops : List (FOp SineSet)) : Sine × List Xf :=
  run (Sine.set F sr) (fun s _ => s.frame F) s ops

/-- C88 is false for the numeric sine without a reset: one frame with a bad frequency, and all outputs after that frame are bad, whatever
the frequency and the offset become. -/
theorem C88_sine_violated (hsin : ∀ x, Bad x → Bad (F.sin x)) (sr : ℚ) (s : Sine) (b : Xf) (hb : Bad b) (x : Xf)
    (ops : List (FOp SineSet)) (hr : .set .reset ∉ ops) :
    ∀ y ∈ (sineRun F sr s (.set (.freq b) :: .frame x :: ops)).2.drop 1, Bad y := by
  have h1 : Bad ((s.set F sr (.freq b)).frame F).1.phase := by
    have hi : Bad (divPos F b sr) := by
      cases b with
      | fin q => exact absurd hb (not_bad_fin q)
      | inf t => exact bad_inf t
      | nan => exact bad_nan
    exact bad_ite (bad_sub_left _ (bad_add_right _ hi)) (bad_add_right _ hi)
  have key : ∀ (ops : List (FOp SineSet)) (s : Sine), .set .reset ∉ ops → Bad s.phase → ∀ y ∈ (sineRun F sr s ops).2, Bad y := by
    intro ops
    induction ops with
    | nil => intro s _ _ y hy; exact absurd hy List.not_mem_nil
    | cons o ops ih =>
      intro s hr hs
      have hr' : FOp.set SineSet.reset ∉ ops := fun h => hr (List.mem_cons_of_mem _ h)
      cases o with
      | set c =>
        cases c with
        | freq f => exact ih _ hr' (by exact hs)
        | offset f => exact ih _ hr' (by exact hs)
        | reset => exact absurd List.mem_cons_self hr
      | frame x =>
        intro y hy
        rcases List.mem_cons.1 hy with rfl | hy
        · exact hsin _ (bad_mul_left _ (bad_add_left _ hs))
        · exact ih _ hr' (sine_stuck s hs) y hy
  exact key ops _ hr h1

/-- C88 for the numeric sine with a reset: set the frequency and the offset and reset, and it plays what a new one does, whatever
happened before. -/
theorem C88_sine_reset (sr : ℚ) (s s₀ : Sine) (f o : Xf) (ops : List (FOp SineSet)) :
    sineRun F sr s (.set (.freq f) :: .set (.offset o) :: .set .reset :: ops) =
      sineRun F sr s₀ (.set (.freq f) :: .set (.offset o) :: .set .reset :: ops) := rfl

/-! ### Smoothing -/

/-- The values that a unit receives in some blocks. -/
def blocks (F : Format) (r : Ramp) (bs : List Nat) : Ramp × List (Option Xf) := r.run F (bs.map .block)

theorem next_keeps (r : Ramp) (bs : Nat) : (r.next F bs).1.start = r.start ∧ (r.next F bs).1.stop = r.stop := by
  unfold Ramp.next
  split
  · exact ⟨rfl, rfl⟩
  · split
    · exact ⟨rfl, rfl⟩
    · split <;> exact ⟨rfl, rfl⟩

theorem blocks_bad (bs : List Nat) : ∀ r : Ramp, (Bad r.start ∨ Bad r.stop) →
    ((blocks F r bs).1.start = r.start ∧ (blocks F r bs).1.stop = r.stop) ∧ ∀ y, some y ∈ (blocks F r bs).2 → Bad y := by
  induction bs with
  | nil => intro r _; exact ⟨⟨rfl, rfl⟩, fun y hy => absurd hy List.not_mem_nil⟩
  | cons b bs ih =>
    intro r h
    have k := next_keeps (F := F) r b
    have i := ih (r.next F b).1 (by rw [k.1, k.2]; exact h)
    refine ⟨⟨i.1.1.trans k.1, i.1.2.trans k.2⟩, fun y hy => ?_⟩
    have hv : Bad (r.value F) := by
      rcases h with h | h
      · exact bad_add_right _ h
      · exact bad_add_left _ (bad_mul_left _ (bad_sub_left _ h))
    rcases List.mem_cons.1 hy with e | hy
    · unfold Ramp.next at e
      split at e
      · cases e
      · split at e
        · cases e; exact hv
        · split at e <;> · cases e; exact hv
    · exact i.2 y hy

/-- C88 is false for smoothing: a parameter is set to a bad number and later to another number, at any time; no value of the ramp to the
new number is finite, not even the last. -/
theorem C88_smooth_violated (r : Ramp) (b v : Xf) (hb : Bad b) (bs bs' : List Nat) (y : Xf)
    (hy : some y ∈ (blocks F ((blocks F (r.set F b) bs).1.set F v) bs').2) : Bad y := by
  have h := (blocks_bad (F := F) bs (r.set F b) (.inr hb)).1
  refine (blocks_bad bs' _ (.inl ?_)).2 y hy
  have hst : (blocks F (r.set F b) bs).1.stop = b := h.2
  have hst' : Bad (blocks F (r.set F b) bs).1.stop := by rw [hst]; exact hb
  exact bad_ite hst' (bad_add_left _ (bad_mul_left _ (bad_sub_left _ hst')))

/-- C88 for smoothing: when a ramp has come to its end, the next one starts where it should have ended, so the number before is forgotten:
it is the ramp of any other state with the same end and length. -/
theorem C88_smooth_partial (r r' : Ramp) (hd : r.done = true) (hd' : r'.done = true) (hs : r.stop = r'.stop) (hl : r.dur = r'.dur)
    (ha : r.audioRate = r'.audioRate) (v : Xf) (ops : List ROp) : (r.set F v).run F ops = (r'.set F v).run F ops := by
  have : r.set F v = r'.set F v := by
    simp only [Ramp.set, hd, hd', hs, hl, ha, if_true]
  rw [this]

/-! ### Examples -/

/-- Exact numbers below `2 ^ 128`. -/
def sample : Format :=
  { fl := id, big := 2 ^ 128, exp := fun x => if x = .nan then .nan else .fin (1 / 2), sin := fun x => if Bad' x then .nan else .fin 0
    minusTau := -6, tau := 6 }
where
  /-- See `Bad`. -/
  Bad' : Xf → Bool
    | .fin _ => false
    | _ => true

example : sample.exp .nan = .nan := rfl

example (x : Xf) (h : Bad x) : Bad (sample.sin x) := by
  cases x with
  | fin q => exact absurd h (not_bad_fin q)
  | inf s => exact bad_nan
  | nan => exact bad_nan

/-- A low pass filter that hears an infinite sample among ones. -/
example : (run (OnePole.set sample 48000) (OnePole.lp sample) (lpfNew (.fin 440))
    [.set (.init 48000), .frame (.fin 1), .frame (.inf false), .frame (.fin 1), .set (.cutoff (.fin 100)), .frame (.fin 1)]).2 =
      [.fin (1 / 2), .inf false, .inf false, .inf false] := by decide +kernel

/-- An allpass delay of two frames. -/
example : (runA (ADelay.frame sample) (.new 2) [.frame .nan, .frame (.fin 0), .frame (.fin 0), .frame (.fin 0)]).toOption.map (·.2) =
    some [.fin 0, .fin 0, .nan, .nan] := by decide +kernel

/-- A ramp from a number that is not a number to 1. -/
example : (blocks sample ((blocks sample ((⟨.fin 0, .fin 0, 2, 0, true, true⟩ : Ramp).set sample .nan) [64, 64, 64]).1.set sample (.fin 1))
    [64, 64, 64, 64]).2 = [some .nan, some .nan, some .nan, none] := by decide +kernel

example : ∃ r : Ramp, r.done = true ∧ (r.set sample (.fin 1)).run sample [.block 1, .block 1, .block 1] =
    (⟨.fin 0, .fin 1, 2, 2, true, true⟩, [some (.fin 0), some (.fin (1 / 2)), some (.fin 1)]) :=
  ⟨⟨.nan, .fin 0, 2, 2, true, true⟩, rfl, by decide +kernel⟩

example : ∃ p : Phasor, ∃ q, p.phase = .fin q ∧ Lost .nan ∧ (0 : ℚ) < 1 / 48000 := ⟨⟨.fin 0, .fin 0⟩, 0, rfl, .inl rfl, by norm_num⟩

example : (phasorRun sample (1 / 48000) ⟨.fin 0, .fin 0⟩ [.fin 12000, .nan, .fin 12000, .fin 12000]).map (·.2) =
    some [.fin 0, .fin (1 / 4), .nan, .nan] := by decide +kernel

example : sample.fl 0 = 0 ∧ 0 < sample.big ∧ |sample.fl 3| < sample.big ∧ |sample.fl (-3)| < sample.big := by decide +kernel

end Verif.Nf
