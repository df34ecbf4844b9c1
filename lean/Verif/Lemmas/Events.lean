import Verif.Model.Events
import Verif.Props.Time
import Mathlib.Data.List.Basic
import Mathlib.Logic.Function.Iterate

/-!
# Panic-free pure form of the event phase, and provenance of queued and applied changes
-/

namespace Verif
open TimeSpec

namespace EventSpec

/-- Number of whole samples in a duration. -/
def samplesOf (sr : Nat) (s : Seconds) : Nat := ticks s * sr / 282240000

/-- Sensible configuration. -/
structure CfgOk (c : GenCfg) : Prop where
  bs_pos : 0 < c.bs
  bs_lt : c.bs < 4294967296
  sr_pos : 0 < c.sr
  sr_lt : c.sr < 4294967296
  keep_lt : c.keep + 2 < 4294967296

/-- The time of the event, if any, is in normal form. -/
def TimeOk {V S} (e : Event V S) : Prop := ∀ t, e.time = some t → Normal t.seconds

/-- The time of every event ever received is in normal form. -/
def InsOk {V S} (ins : Nat → BlockIn V S) : Prop := ∀ b, ∀ e ∈ (ins b).new, TimeOk e

end EventSpec
open EventSpec

/-- Length of a block in ticks, rounded down. -/
def blockTicks (c : GenCfg) : Nat := c.bs * 282240000 / c.sr

def fromTicks (n : Nat) : Seconds := ⟨n / 282240000, n % 282240000⟩

theorem ticks_fromTicks (n : Nat) : ticks (fromTicks n) = n := by
  simp only [ticks, fromTicks]; omega

theorem normal_fromTicks {n : Nat} (h : n < limit) : Normal (fromTicks n) := by
  simp only [Normal, fromTicks, limit] at *
  omega

theorem ticks_lt_limit {s : Seconds} (h : Normal s) : ticks s < limit := by
  simp only [ticks, Normal, limit] at *; omega

def dueT (c : GenCfg) (clock : Nat) (t : STime) : Nat :=
  samplesOf c.sr t.seconds - (if t.absolute then clock else 0)

def nextT (c : GenCfg) (t : STime) : STime :=
  if t.absolute then t else ⟨fromTicks (ticks t.seconds - blockTicks c), false⟩

theorem toSamples_samplesOf {s : Seconds} {sr : Nat} (hs : Normal s) (hrate : sr < U32) :
    s.toSamples sr = .ok (samplesOf sr s) := by
  rw [toSamples_eq hs (by omega)]
  congr 1
  unfold samplesOf ticks
  rw [Nat.add_mul]
  have : s.seconds * 282240000 * sr = 282240000 * (s.seconds * sr) := by ring
  rw [this, Nat.mul_add_div (by decide)]

theorem fromSamples_block {c : GenCfg} (hc : CfgOk c) :
    ∃ b, Seconds.fromSamples c.bs c.sr = .ok b ∧ Normal b ∧ ticks b = blockTicks c := by
  have h : c.bs < 4294967296 * c.sr :=
    lt_of_lt_of_le hc.bs_lt (Nat.le_mul_of_pos_right _ hc.sr_pos)
  refine ⟨_, fromSamples_eq hc.sr_pos (le_of_lt hc.sr_lt) h, fromSamples_normal hc.sr_pos h, ?_⟩
  unfold blockTicks ticks
  simp only
  conv_rhs => rw [← Nat.div_add_mod c.bs c.sr, Nat.add_mul, Nat.mul_assoc]
  rw [Nat.mul_add_div hc.sr_pos]

theorem untilDue_eq {c : GenCfg} (hc : CfgOk c) {t : STime} (ht : Normal t.seconds) (clock : Nat) :
    t.untilDue c.bs c.sr clock = .ok (dueT c clock t, nextT c t) := by
  have h1 := toSamples_samplesOf ht hc.sr_lt
  obtain ⟨b, hb, nb, tb⟩ := fromSamples_block hc
  obtain ⟨s, abs⟩ := t
  cases abs
  · by_cases hz : s = Seconds.zero
    · subst hz
      have e1 : samplesOf c.sr Seconds.zero = 0 := by simp [samplesOf, ticks, Seconds.zero]
      have e2 : fromTicks (ticks Seconds.zero - blockTicks c) = Seconds.zero := by
        simp [fromTicks, ticks, Seconds.zero]
      simp [STime.untilDue, dueT, nextT, e1, e2]
    · obtain ⟨d, hd, nd, td⟩ := C26_saturating_sub ht nb
      simp only at hd td h1
      have e2 : d = fromTicks (ticks s - blockTicks c) := by
        apply normal_ext nd
        · apply normal_fromTicks
          have := ticks_lt_limit ht
          simp only at this
          omega
        · rw [ticks_fromTicks, td, tb]
      simp [STime.untilDue, dueT, nextT, hz, h1, hb, hd, e2]
  · simp only at h1
    simp [STime.untilDue, dueT, nextT, h1]

theorem nextT_normal {c : GenCfg} {t : STime} (ht : Normal t.seconds) :
    Normal (nextT c t).seconds := by
  unfold nextT
  split
  · exact ht
  · apply normal_fromTicks
    have := ticks_lt_limit ht
    omega

section
variable {V S : Type}

def dueE (c : GenCfg) (clock : Nat) (e : Event V S) : Nat :=
  match e.time with
  | none => 0
  | some t => dueT c clock t

def nextE (c : GenCfg) (e : Event V S) : Event V S := { e with time := e.time.map (nextT c) }

def tokenOk (env : BlockEnv) (ch : Change V S) : Bool :=
  match ch.token with | none => true | some t => env.active t

def readyE (c : GenCfg) (env : BlockEnv) (e : Event V S) : Prop :=
  tokenOk env e.change = true ∧ dueE c env.clock e < c.bs ∧ e.change.key ∈ env.keys

instance (c : GenCfg) (env : BlockEnv) (e : Event V S) : Decidable (readyE c env e) := by
  unfold readyE; infer_instance

def mkApplied (c : GenCfg) (env : BlockEnv) (e : Event V S) : Applied V S :=
  ⟨e.change, env.keys.idxOf e.change.key, dueE c env.clock e⟩

@[simp] theorem nextE_change (c : GenCfg) (e : Event V S) : (nextE c e).change = e.change := rfl

@[simp] theorem iter_nextE_change (c : GenCfg) (e : Event V S) (j : Nat) :
    ((nextE c)^[j] e).change = e.change := by
  induction j generalizing e with
  | zero => rfl
  | succ n ih => rw [Function.iterate_succ_apply, ih]; rfl

theorem nextE_ok {c : GenCfg} {e : Event V S} (h : TimeOk e) : TimeOk (nextE c e) := by
  intro t ht
  simp only [nextE, Option.map_eq_some_iff] at ht
  obtain ⟨t0, h0, rfl⟩ := ht
  exact nextT_normal (h _ h0)

theorem iter_nextE_ok {c : GenCfg} {e : Event V S} (h : TimeOk e) (j : Nat) :
    TimeOk ((nextE c)^[j] e) := by
  induction j generalizing e with
  | zero => exact h
  | succ n ih => rw [Function.iterate_succ_apply]; exact ih (nextE_ok h)

theorem findIdx?_beq (l : List Nat) (k : Nat) :
    l.findIdx? (· == k) = if k ∈ l then some (l.idxOf k) else none := by
  induction l with
  | nil => simp
  | cons a l ih =>
    rw [List.findIdx?_cons, ih]
    by_cases h : a = k
    · subst h; simp
    · have h' : ¬ (k = a) := fun e => h e.symm
      by_cases hk : k ∈ l <;> simp [h, h', hk]

theorem applyChange_eq {c : GenCfg} (hc : CfgOk c) (env : BlockEnv) {e : Event V S}
    (he : TimeOk e) :
    applyChange c env e =
      .ok (if readyE c env e then .inr (mkApplied c env e) else .inl (nextE c e)) := by
  obtain ⟨⟨key, param, value, smoothing, token⟩, time⟩ := e
  have hbs := hc.bs_pos
  cases time with
  | none =>
    by_cases hk : key ∈ env.keys <;> cases token <;>
      simp [applyChange, findIdx?_beq, readyE, dueE, nextE, mkApplied, hbs, tokenOk, hk]
    split <;> simp_all
  | some t =>
    have hd := untilDue_eq hc (he t rfl) env.clock
    by_cases hlt : dueT c env.clock t < c.bs <;>
    by_cases hk : key ∈ env.keys <;> cases token <;>
      simp [applyChange, hd, findIdx?_beq, readyE, dueE, nextE, mkApplied, tokenOk, hk, hlt]
    split <;> simp_all

/-- what stays of a queue entry -/
def keep1 (c : GenCfg) (env : BlockEnv) (x : Event V S × Nat) : Option (Event V S × Nat) :=
  if x.2 > c.keep then none else if readyE c env x.1 then none else some (nextE c x.1, x.2 + 1)
/-- what a queue entry applies -/
def out1 (c : GenCfg) (env : BlockEnv) (x : Event V S × Nat) : Option (Applied V S) :=
  if x.2 > c.keep then none else if readyE c env x.1 then some (mkApplied c env x.1) else none
def keepN (c : GenCfg) (env : BlockEnv) (e : Event V S) : Option (Event V S × Nat) :=
  if readyE c env e then none else some (nextE c e, 0)
def outN (c : GenCfg) (env : BlockEnv) (e : Event V S) : Option (Applied V S) :=
  if readyE c env e then some (mkApplied c env e) else none

theorem loopWaiting_eq {c : GenCfg} (hc : CfgOk c) (env : BlockEnv) (q1 : Queue V S) :
    ∀ (q2 : Queue V S) (out : List (Applied V S)), (∀ x ∈ q1, TimeOk x.1) →
      loopWaiting c env q1.length (q1 ++ q2) out =
        .ok (q2 ++ q1.filterMap (keep1 c env), out ++ q1.filterMap (out1 c env)) := by
  induction q1 with
  | nil => intro q2 out _; simp [loopWaiting]
  | cons x q1 ih =>
    intro q2 out hq
    obtain ⟨e, w⟩ := x
    have he : TimeOk e := hq (e, w) (by simp)
    have hq' : ∀ x ∈ q1, TimeOk x.1 := fun x hx => hq x (by simp [hx])
    simp only [List.length_cons, List.cons_append, loopWaiting]
    by_cases hw : w > c.keep
    · rw [if_pos hw, ih _ _ hq']
      simp [keep1, out1, hw]
    · rw [if_neg hw, applyChange_eq hc env he]
      by_cases hr : readyE c env e
      · simp only [hr, if_true, bind_ok]
        rw [ih _ _ hq']
        simp [keep1, out1, hw, hr]
      · have hadd : addC U32 w 1 = .ok (w + 1) := by
          have := hc.keep_lt
          rw [addC, if_pos (by omega)]
        simp only [hr, if_false, bind_ok, hadd]
        rw [List.append_assoc, ih _ _ hq']
        simp [keep1, out1, hw, hr]

theorem loopNew_eq {c : GenCfg} (hc : CfgOk c) (env : BlockEnv) (es : List (Event V S)) :
    ∀ (q : Queue V S) (out : List (Applied V S)), (∀ e ∈ es, TimeOk e) →
      loopNew c env es q out =
        .ok (q ++ (es.filterMap (keepN c env)).take (c.cap - q.length),
          out ++ es.filterMap (outN c env)) := by
  induction es with
  | nil => intro q out _; simp [loopNew]
  | cons e es ih =>
    intro q out hq
    have he : TimeOk e := hq e (by simp)
    have hq' : ∀ x ∈ es, TimeOk x := fun x hx => hq x (by simp [hx])
    simp only [loopNew]
    rw [applyChange_eq hc env he]
    by_cases hr : readyE c env e
    · simp only [hr, if_true, bind_ok]
      rw [ih _ _ hq']
      simp [keepN, outN, hr]
    · simp only [hr, if_false, bind_ok]
      rw [ih _ _ hq']
      by_cases hcap : q.length < c.cap
      · have : c.cap - q.length = (c.cap - (q.length + 1)) + 1 := by omega
        simp [keepN, outN, hr, hcap, this]
      · have : c.cap - q.length = 0 := by omega
        simp [keepN, outN, hr, hcap, this]

/-- Pure form of `eventPhase`. -/
def phaseQ (c : GenCfg) (env : BlockEnv) (new : List (Event V S)) (q : Queue V S) : Queue V S :=
  q.filterMap (keep1 c env) ++
    (new.filterMap (keepN c env)).take (c.cap - (q.filterMap (keep1 c env)).length)
def phaseO (c : GenCfg) (env : BlockEnv) (new : List (Event V S)) (q : Queue V S) :
    List (Applied V S) :=
  q.filterMap (out1 c env) ++ new.filterMap (outN c env)

theorem eventPhase_eq {c : GenCfg} (hc : CfgOk c) (env : BlockEnv) {new : List (Event V S)}
    {q : Queue V S} (hn : ∀ e ∈ new, TimeOk e) (hq : ∀ x ∈ q, TimeOk x.1) :
    eventPhase c env new q = .ok (phaseQ c env new q, phaseO c env new q) := by
  have h1 := loopWaiting_eq hc env q [] [] hq
  simp only [List.append_nil, List.nil_append] at h1
  simp only [eventPhase, h1, bind_ok]
  rw [loopNew_eq hc env new _ _ hn]
  rfl

variable {c : GenCfg} {ins : Nat → BlockIn V S}

/-- Pure form of `queueAt`. -/
def queueP (c : GenCfg) (ins : Nat → BlockIn V S) : Nat → Queue V S
  | 0 => []
  | b + 1 => phaseQ c ((ins b).env c b) (ins b).new (queueP c ins b)
def outP (c : GenCfg) (ins : Nat → BlockIn V S) (b : Nat) : List (Applied V S) :=
  phaseO c ((ins b).env c b) (ins b).new (queueP c ins b)

/-- Event `e`, received in block `k`, as it is seen in block `k + j`. -/
def seen (c : GenCfg) (e : Event V S) (j : Nat) : Event V S := (nextE c)^[j] e

@[simp] theorem seen_change (e : Event V S) (j : Nat) : (seen c e j).change = e.change := by
  simp [seen]

theorem seen_succ (e : Event V S) (j : Nat) : seen c e (j + 1) = nextE c (seen c e j) := by
  simp [seen, Function.iterate_succ_apply']

/-- Ready in block `k + j`. -/
def readyAt (c : GenCfg) (ins : Nat → BlockIn V S) (e : Event V S) (k j : Nat) : Prop :=
  readyE c ((ins (k + j)).env c (k + j)) (seen c e j)

/-- Every queue entry comes from an event received `w + 1` blocks ago that has not been ready
since. -/
theorem queueP_provenance {b : Nat} {x : Event V S × Nat} (hx : x ∈ queueP c ins b) :
    ∃ k e, k + (x.2 + 1) = b ∧ e ∈ (ins k).new ∧ x.1 = seen c e (x.2 + 1) ∧ x.2 ≤ c.keep + 1 ∧
      ∀ i ≤ x.2, ¬ readyAt c ins e k i := by
  induction b generalizing x with
  | zero => simp [queueP] at hx
  | succ b ih =>
    simp only [queueP, phaseQ, List.mem_append] at hx
    rcases hx with hx | hx
    · simp only [List.mem_filterMap] at hx
      obtain ⟨y, hy, hyx⟩ := hx
      simp only [keep1] at hyx
      split at hyx
      · simp at hyx
      · rename_i hk
        split at hyx
        · simp at hyx
        · rename_i hr
          simp only [Option.some.injEq] at hyx
          subst hyx
          obtain ⟨k, e, hke, hmem, hye, hage, hnot⟩ := ih hy
          refine ⟨k, e, by simp; omega, hmem, ?_, by simp; omega, ?_⟩
          · simp only [seen_succ] at hye ⊢
            rw [hye]
          · intro i hi
            simp only at hi
            rcases Nat.lt_or_ge y.2 i with h | h
            · have hi' : i = y.2 + 1 := by omega
              subst hi'
              rw [readyAt, ← hye, hke]
              exact hr
            · exact hnot i h
    · have hx := List.mem_of_mem_take hx
      simp only [List.mem_filterMap] at hx
      obtain ⟨e, he, hex⟩ := hx
      simp only [keepN] at hex
      split at hex
      · simp at hex
      · rename_i hr
        simp only [Option.some.injEq] at hex
        subst hex
        refine ⟨b, e, by simp, he, by simp [seen], by simp, ?_⟩
        intro i hi
        have : i = 0 := by simpa using hi
        subst this
        simpa [readyAt, seen] using hr

theorem queueP_ok (hi : InsOk ins) {b : Nat} : ∀ x ∈ queueP c ins b, TimeOk x.1 := by
  intro x hx
  obtain ⟨k, e, _, hmem, hxe, _⟩ := queueP_provenance hx
  rw [hxe]
  exact iter_nextE_ok (hi k e hmem) _

theorem queueAt_eq (hc : CfgOk c) (hi : InsOk ins) (b : Nat) :
    queueAt c ins b = .ok (queueP c ins b) := by
  induction b with
  | zero => rfl
  | succ b ih =>
    simp only [queueAt, ih, bind_ok]
    rw [eventPhase_eq hc _ (hi b) (queueP_ok hi)]
    rfl

theorem outAt_eq (hc : CfgOk c) (hi : InsOk ins) (b : Nat) :
    outAt c ins b = .ok (outP c ins b) := by
  simp only [outAt, queueAt_eq hc hi, bind_ok]
  rw [eventPhase_eq hc _ (hi b) (queueP_ok hi)]
  rfl

/-- Every applied change comes from an event received at most `keep + 1` blocks ago, at the first
block in which it was ready. -/
theorem outP_provenance {b : Nat} {a : Applied V S} (ha : a ∈ outP c ins b) :
    ∃ k j e, k + j = b ∧ e ∈ (ins k).new ∧ j ≤ c.keep + 1 ∧
      a = mkApplied c ((ins b).env c b) (seen c e j) ∧ readyAt c ins e k j ∧
      ∀ i < j, ¬ readyAt c ins e k i := by
  simp only [outP, phaseO, List.mem_append, List.mem_filterMap] at ha
  rcases ha with ⟨x, hx, hxa⟩ | ⟨e, he, hea⟩
  · obtain ⟨k, e, hke, hmem, hxe, hage, hnot⟩ := queueP_provenance hx
    simp only [out1] at hxa
    split at hxa
    · simp at hxa
    · rename_i hk
      split at hxa
      · rename_i hr
        simp only [Option.some.injEq] at hxa
        refine ⟨k, x.2 + 1, e, hke, hmem, by omega, ?_, ?_, fun i hi => hnot i (by omega)⟩
        · rw [← hxa, ← hxe]
        · rw [readyAt, ← hxe, hke]; exact hr
      · simp at hxa
  · simp only [outN] at hea
    split at hea
    · rename_i hr
      simp only [Option.some.injEq] at hea
      refine ⟨b, 0, e, rfl, he, by omega, ?_, ?_, fun i hi => by omega⟩
      · rw [← hea]; rfl
      · exact hr
    · simp at hea

/-- An accepted event that is not ready waits in the queue. -/
theorem queueP_waits {k : Nat} {e : Event V S} (he : e ∈ (ins k).new)
    (hcap : (queueP c ins k).length + (ins k).new.length ≤ c.cap) (j : Nat) (hj : j ≤ c.keep + 1)
    (hnot : ∀ i ≤ j, ¬ readyAt c ins e k i) :
    (seen c e (j + 1), j) ∈ queueP c ins (k + (j + 1)) := by
  induction j with
  | zero =>
    simp only [queueP, phaseQ, List.mem_append]
    right
    rw [List.take_of_length_le]
    · rw [List.mem_filterMap]
      refine ⟨e, he, ?_⟩
      have := hnot 0 (Nat.le_refl _)
      simp only [readyAt, seen, Function.iterate_zero, id_eq, Nat.add_zero] at this
      simp [keepN, this, seen]
    · have h1 := List.length_filterMap_le (keep1 c ((ins k).env c k)) (queueP c ins k)
      have h2 := List.length_filterMap_le (keepN c ((ins k).env c k)) (ins k).new
      omega
  | succ j ih =>
    have ih := ih (by omega) (fun i hi => hnot i (by omega))
    rw [← Nat.add_assoc]
    simp only [queueP, phaseQ, List.mem_append]
    left
    rw [List.mem_filterMap]
    refine ⟨_, ih, ?_⟩
    have := hnot (j + 1) (Nat.le_refl _)
    simp only [readyAt] at this
    simp only [keep1, this, if_false]
    rw [if_neg (by omega)]
    simp [seen_succ]

/-- An accepted event is applied in the first block in which it is ready, if that is within the
retention window. -/
theorem outP_complete {k j : Nat} {e : Event V S} (he : e ∈ (ins k).new)
    (hcap : (queueP c ins k).length + (ins k).new.length ≤ c.cap) (hj : j ≤ c.keep + 1)
    (hr : readyAt c ins e k j) (hnot : ∀ i < j, ¬ readyAt c ins e k i) :
    mkApplied c ((ins (k + j)).env c (k + j)) (seen c e j) ∈ outP c ins (k + j) := by
  simp only [outP, phaseO, List.mem_append, List.mem_filterMap]
  rcases j with _ | j
  · right
    refine ⟨e, he, ?_⟩
    simp only [readyAt, seen, Function.iterate_zero, id_eq, Nat.add_zero] at hr
    simp [outN, hr, seen]
  · left
    refine ⟨_, queueP_waits he hcap j (by omega) (fun i hi => hnot i (by omega)), ?_⟩
    simp only [readyAt] at hr
    simp only [out1]
    rw [if_neg (by omega)]
    simp [hr]

/-- Number of queued copies of a change before block `b`. -/
def queued [DecidableEq V] [DecidableEq S] (c : GenCfg) (ins : Nat → BlockIn V S)
    (ch : Change V S) (b : Nat) : Nat :=
  (queueP c ins b).countP (fun x => x.1.change = ch)

theorem countP_filterMap_split {α β γ : Type} (f : α → Option β) (g : α → Option γ)
    (p : α → Bool) (pf : β → Bool) (pg : γ → Bool) (l : List α)
    (h : ∀ a, (match f a with | some b => (pf b).toNat | none => 0) +
      (match g a with | some b => (pg b).toNat | none => 0) ≤ (p a).toNat) :
    (l.filterMap f).countP pf + (l.filterMap g).countP pg ≤ l.countP p := by
  induction l with
  | nil => simp
  | cons a l ih =>
    have := h a
    cases hf : f a <;> cases hg : g a <;> simp only [hf, hg, Nat.zero_add, Nat.add_zero] at this
    · simp only [List.filterMap_cons, hf, hg, List.countP_cons]; split <;> omega
    · rename_i y
      simp only [List.filterMap_cons, hf, hg, List.countP_cons]
      cases hy : pg y <;> cases hp : p a <;> simp_all <;> omega
    · rename_i y
      simp only [List.filterMap_cons, hf, hg, List.countP_cons]
      cases hy : pf y <;> cases hp : p a <;> simp_all <;> omega
    · rename_i y z
      simp only [List.filterMap_cons, hf, hg, List.countP_cons]
      cases hy : pf y <;> cases hz : pg z <;> cases hp : p a <;> simp_all <;> omega

theorem count_step [DecidableEq V] [DecidableEq S] (ch : Change V S) (env : BlockEnv)
    (new : List (Event V S)) (q : Queue V S) :
    (phaseQ c env new q).countP (fun x => x.1.change = ch) +
      (phaseO c env new q).countP (fun a => a.change = ch) ≤
    q.countP (fun x => x.1.change = ch) + new.countP (fun e => e.change = ch) := by
  have h1 := countP_filterMap_split (keep1 c env) (out1 c env)
    (fun x => decide (x.1.change = ch)) (fun x => decide (x.1.change = ch))
    (fun a => decide (a.change = ch)) q (by
      intro x
      simp only [keep1, out1]
      by_cases h : x.2 > c.keep
      · simp [h]
      · by_cases hr : readyE c env x.1 <;> simp [h, hr, mkApplied] <;> exact Nat.le_refl _)
  have h2 := countP_filterMap_split (keepN c env) (outN c env)
    (fun x => decide (x.change = ch)) (fun x => decide (x.1.change = ch))
    (fun a => decide (a.change = ch)) new (by
      intro x
      simp only [keepN, outN]
      by_cases hr : readyE c env x <;> simp [hr, mkApplied] <;> exact Nat.le_refl _)
  simp only [phaseQ, phaseO, List.countP_append]
  have h3 := (List.take_sublist (c.cap - (q.filterMap (keep1 c env)).length)
    (new.filterMap (keepN c env))).countP_le (p := fun x => decide (x.1.change = ch))
  omega

/-- Number of times a change was sent / applied before block `b`. -/
def sentBefore [DecidableEq V] [DecidableEq S] (ins : Nat → BlockIn V S) (ch : Change V S) :
    Nat → Nat
  | 0 => 0
  | b + 1 => sentBefore ins ch b + (ins b).new.countP (fun e => e.change = ch)

def appliedBefore [DecidableEq V] [DecidableEq S] (c : GenCfg) (ins : Nat → BlockIn V S)
    (ch : Change V S) : Nat → Nat
  | 0 => 0
  | b + 1 => appliedBefore c ins ch b + (outP c ins b).countP (fun a => a.change = ch)

theorem count_run [DecidableEq V] [DecidableEq S] (ch : Change V S) (b : Nat) :
    queued c ins ch b + appliedBefore c ins ch b ≤ sentBefore ins ch b := by
  induction b with
  | zero => simp [queued, queueP, appliedBefore]
  | succ b ih =>
    have := count_step (c := c) ch ((ins b).env c b) (ins b).new (queueP c ins b)
    simp only [queued, queueP, appliedBefore, sentBefore, outP] at *
    omega

/-- All events received before block `b`, in order. -/
def receivedBefore (ins : Nat → BlockIn V S) : Nat → List (Event V S)
  | 0 => []
  | b + 1 => receivedBefore ins b ++ (ins b).new

theorem filterMap_map_sublist {α β γ : Type} (f : α → Option β) (g : β → γ) (h : α → γ)
    (hf : ∀ a b, f a = some b → g b = h a) (l : List α) :
    ((l.filterMap f).map g).Sublist (l.map h) := by
  induction l with
  | nil => simp
  | cons a l ih =>
    rw [List.filterMap_cons]
    cases hfa : f a with
    | none => exact List.Sublist.cons _ ih
    | some b =>
      simp only [List.map_cons]
      rw [hf a b hfa]
      exact ih.cons_cons _

theorem queueP_sublist (b : Nat) :
    ((queueP c ins b).map (·.1.change)).Sublist ((receivedBefore ins b).map (·.change)) := by
  induction b with
  | zero => simp [queueP, receivedBefore]
  | succ b ih =>
    simp only [queueP, phaseQ, receivedBefore, List.map_append]
    refine List.Sublist.append ?_ ?_
    · refine (filterMap_map_sublist _ _ (·.1.change) ?_ _).trans ih
      intro x y hxy
      simp only [keep1] at hxy
      split at hxy
      · simp at hxy
      · split at hxy
        · simp at hxy
        · simp only [Option.some.injEq] at hxy
          subst hxy; simp
    · refine ((List.take_sublist _ _).map _).trans (filterMap_map_sublist _ _ _ ?_ _)
      intro x y hxy
      simp only [keepN] at hxy
      split at hxy
      · simp at hxy
      · simp only [Option.some.injEq] at hxy
        subst hxy; simp

theorem outP_sublist (b : Nat) :
    ((outP c ins b).map (·.change)).Sublist ((receivedBefore ins (b + 1)).map (·.change)) := by
  simp only [outP, phaseO, receivedBefore, List.map_append]
  refine List.Sublist.append ?_ ?_
  · refine (filterMap_map_sublist _ _ (·.1.change) ?_ _).trans (queueP_sublist b)
    intro x y hxy
    simp only [out1] at hxy
    split at hxy
    · simp at hxy
    · split at hxy
      · simp only [Option.some.injEq] at hxy
        subst hxy; simp [mkApplied]
      · simp at hxy
  · refine filterMap_map_sublist _ _ _ ?_ _
    intro x y hxy
    simp only [outN] at hxy
    split at hxy
    · simp only [Option.some.injEq] at hxy
      subst hxy; simp [mkApplied]
    · simp at hxy

end
end Verif
