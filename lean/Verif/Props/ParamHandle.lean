import Verif.Model.ParamHandle
import Verif.Props.Events
import Mathlib.Data.List.Induction

/-!
# C86: what is asked of a parameter handle is what its unit generator is told

Specification vocabulary: what a method of a `Parameter` asks for (`What`), when (`When`), the frame that is (`due`),
and the operations of a run that were accepted (`accepted`).
-/

namespace Verif.Ph
open TimeSpec EventSpec

variable {V S : Type}

/-- What is asked for. -/
inductive What (V S : Type) where
  | value (v : PVal V)
  | smoothing (x : S)

/-- When it is asked for. -/
inductive When where
  | now
  | at (s : Seconds)
  | after (s : Seconds)

/-- What the methods of `Parameter` are for. -/
def Method.what : Method V S → What V S
  | .set v | .setTime v _ | .setAt v _ | .setAfter v _ => .value v
  | .smooth x | .smoothTime x _ | .smoothAt x _ | .smoothAfter x _ => .smoothing x
  | .trig | .trigTime _ | .trigAt _ | .trigAfter _ => .value .trigger

/-- The time given to the methods of `Parameter`. -/
def Method.when : Method V S → When
  | .set _ | .smooth _ | .trig => .now
  | .setAt _ s | .smoothAt _ s | .trigAt s => .at s
  | .setAfter _ s | .smoothAfter _ s | .trigAfter s => .after s
  | .setTime _ t | .smoothTime _ t | .trigTime t => if t.absolute then .at t.seconds else .after t.seconds

/-- The frame asked for, for a change that is received in block `k`. -/
def due (c : GenCfg) (k : Nat) : When → Nat
  | .now => k * c.bs
  | .at s => ticks s * c.sr / 282240000
  | .after s => k * c.bs + ticks s * c.sr / 282240000

/-- The one call that carries out a request on the task with the given index. -/
def What.call (task param : Nat) : What V S → Call (PVal V) S
  | .value v => .value task param v
  | .smoothing x => .smoothing task param x

/-- The events of the operations of a run that were accepted. -/
def accepted : List (Op V S) → List (Option (Except SendErr Unit)) → List (Ev V S)
  | o :: os, some (.ok ()) :: rs => o.event?.toList ++ accepted os rs
  | _ :: os, _ :: rs => accepted os rs
  | _, _ => []

/-- Neither is the graph freed nor its `GraphGen` dropped. -/
def Alive (ops : List (Op V S)) : Prop := ∀ o ∈ ops, o ≠ .free ∧ o ≠ .drop

/-- Number of blocks in a run. -/
def blocks (ops : List (Op V S)) : Nat := (ops.filter fun o => match o with | .block => true | _ => false).length

/-- What the event phase sees in the blocks of a run: the events received, the keys of the running nodes and the
activated tokens. -/
def insOf (bl : List (List (Ev V S))) (keys : Nat → List Nat) (active : Nat → Nat → Bool) : Nat → BlockIn (PVal V) S :=
  fun b => ⟨bl.getD b [], keys b, active b⟩

/-! ### Runs -/

theorem run_append (ch : Chan V S) (xs ys : List (Op V S)) :
    ch.run (xs ++ ys) = (((ch.run xs).1.run ys).1, (ch.run xs).2.1 ++ ((ch.run xs).1.run ys).2.1,
      (ch.run xs).2.2 ++ ((ch.run xs).1.run ys).2.2) := by
  induction xs generalizing ch with
  | nil => simp [Chan.run]
  | cons o xs ih => simp [Chan.run, ih, List.append_assoc]

theorem run_results (ch : Chan V S) (xs : List (Op V S)) : (ch.run xs).2.1.length = xs.length := by
  induction xs generalizing ch with
  | nil => rfl
  | cons o xs ih => simp [Chan.run, ih]

theorem run_blocks (ch : Chan V S) (xs : List (Op V S)) : (ch.run xs).2.2.length = blocks xs := by
  induction xs generalizing ch with
  | nil => rfl
  | cons o xs ih =>
    simp only [Chan.run, List.length_append, ih]
    cases o <;> simp [Chan.step, blocks, Nat.add_comm]

theorem accepted_append (xs ys : List (Op V S)) (rs qs : List (Option (Except SendErr Unit))) (h : rs.length = xs.length) :
    accepted (xs ++ ys) (rs ++ qs) = accepted xs rs ++ accepted ys qs := by
  induction xs generalizing rs with
  | nil => cases rs with
    | nil => simp [accepted]
    | cons => simp at h
  | cons o xs ih =>
    cases rs with
    | nil => simp at h
    | cons r rs =>
      have h' : rs.length = xs.length := by simpa using h
      rcases r with _ | (_ | ⟨⟨⟩⟩) <;> simp [accepted, ih rs h', List.append_assoc]

theorem run_fifo (ch : Chan V S) (hf : ch.freed = false) (ha : ch.abandoned = false) (xs : List (Op V S)) (hx : Alive xs) :
    (ch.run xs).1.freed = false ∧ (ch.run xs).1.abandoned = false ∧ (ch.run xs).1.cap = ch.cap ∧
      (ch.run xs).2.2.flatten ++ (ch.run xs).1.ring = ch.ring ++ accepted xs (ch.run xs).2.1 := by
  induction xs generalizing ch with
  | nil => simp [Chan.run, accepted, hf, ha]
  | cons o xs ih =>
    have hx' : Alive xs := fun o ho => hx o (List.mem_cons_of_mem _ ho)
    have ho := hx o List.mem_cons_self
    have send : ∀ e : Ev V S, (ch.send e).1.freed = false ∧ (ch.send e).1.abandoned = false ∧ (ch.send e).1.cap = ch.cap ∧
        (ch.send e).1.ring = ch.ring ++ (match (ch.send e).2 with | .ok () => [e] | .error _ => []) := by
      intro e
      by_cases h : ch.ring.length < ch.cap <;> simp [Chan.send, ha, hf, h]
    cases o with
    | call key param m =>
      obtain ⟨s1, s2, s3, s4⟩ := send (m.event key param)
      obtain ⟨i1, i2, i3, i4⟩ := ih _ s1 s2 hx'
      refine ⟨i1, i2, i3.trans s3, ?_⟩
      simp only [Chan.run, Chan.step, Option.toList_none, List.nil_append] at i4 ⊢
      rw [i4, s4]
      cases (ch.send (m.event key param)).2 with
      | ok u => simp [accepted, Op.event?]
      | error => simp [accepted]
    | set key param t =>
      obtain ⟨s1, s2, s3, s4⟩ := send (t.event key param)
      obtain ⟨i1, i2, i3, i4⟩ := ih _ s1 s2 hx'
      refine ⟨i1, i2, i3.trans s3, ?_⟩
      simp only [Chan.run, Chan.step, Option.toList_none, List.nil_append] at i4 ⊢
      rw [i4, s4]
      cases (ch.send (t.event key param)).2 with
      | ok u => simp [accepted, Op.event?]
      | error => simp [accepted]
    | block =>
      have hb : ch.block = ({ ch with ring := [] }, ch.ring) := by simp [Chan.block, hf]
      obtain ⟨i1, i2, i3, i4⟩ := ih { ch with ring := [] } hf ha hx'
      simp only [Chan.run, Chan.step, hb, Option.toList_some]
      refine ⟨i1, i2, i3, ?_⟩
      simp only [accepted, List.cons_append, List.nil_append, List.flatten_cons, List.append_assoc]
      rw [i4]
      simp
    | free => exact absurd rfl ho.1
    | drop => exact absurd rfl ho.2

/-! ### The channel -/

/-- **C86.**  While the graph is alive, everything that was accepted is received by the audio thread once and in the
order of the calls, from whatever handles and threads they come; and a call is accepted if and only if fewer changes
than the ring holds were accepted and not yet received. -/
theorem C86_channel (cap : Nat) (ops : List (Op V S)) (hx : Alive ops) :
    ((Chan.init V S cap).run ops).2.2.flatten ++ ((Chan.init V S cap).run ops).1.ring =
      accepted ops ((Chan.init V S cap).run ops).2.1 ∧
    ∀ pre o post e, ops = pre ++ o :: post → o.event? = some e →
      (((Chan.init V S cap).run ops).2.1[pre.length]? = some (some (.ok ())) ↔
        (accepted pre ((Chan.init V S cap).run pre).2.1).length < ((Chan.init V S cap).run pre).2.2.flatten.length + cap) ∧
      (((Chan.init V S cap).run ops).2.1[pre.length]? = some (some (.error .pushChange)) ↔
        ¬ (accepted pre ((Chan.init V S cap).run pre).2.1).length < ((Chan.init V S cap).run pre).2.2.flatten.length + cap) := by
  refine ⟨by simpa [Chan.init] using (run_fifo (Chan.init V S cap) rfl rfl ops hx).2.2.2, ?_⟩
  rintro pre o post e rfl he
  obtain ⟨f1, f2, f3, f4⟩ := run_fifo (Chan.init V S cap) rfl rfl pre (fun o ho => hx o (by simp [ho]))
  have hcap : ((Chan.init V S cap).run pre).1.cap = cap := f3
  have hlen : ((Chan.init V S cap).run pre).2.2.flatten.length + ((Chan.init V S cap).run pre).1.ring.length =
      (accepted pre ((Chan.init V S cap).run pre).2.1).length := by
    rw [← List.length_append, f4]; simp [Chan.init]
  have hres : ((Chan.init V S cap).run (pre ++ o :: post)).2.1[pre.length]? =
      some (((Chan.init V S cap).run pre).1.step o).2.1 := by
    rw [run_append]
    simp only
    rw [List.getElem?_append_right (by rw [run_results]), run_results, Nat.sub_self]
    rfl
  have hstep : (((Chan.init V S cap).run pre).1.step o).2.1 = some (((Chan.init V S cap).run pre).1.send e).2 := by
    cases o <;> simp only [Op.event?, Option.some.injEq, reduceCtorEq] at he
    · subst he; rfl
    · subst he; rfl
  rw [hres, hstep, ← hlen]
  by_cases h : ((Chan.init V S cap).run pre).1.ring.length < cap
  · simp [Chan.send, f2, hcap, h]
  · simp [Chan.send, f2, hcap, h]

theorem first_block (ch : Chan V S) (hf : ch.freed = false) (ha : ch.abandoned = false) {e : Ev V S} (he : e ∈ ch.ring)
    (ys : List (Op V S)) (hx : Alive ys) (hb : 0 < blocks ys) : e ∈ (ch.run ys).2.2.getD 0 [] := by
  induction ys generalizing ch with
  | nil => simp [blocks] at hb
  | cons o ys ih =>
    have hx' : Alive ys := fun o ho => hx o (List.mem_cons_of_mem _ ho)
    have ho := hx o List.mem_cons_self
    have send : ∀ x : Ev V S, (ch.send x).1.freed = false ∧ (ch.send x).1.abandoned = false ∧ e ∈ (ch.send x).1.ring := by
      intro x
      by_cases h : ch.ring.length < ch.cap <;> simp [Chan.send, ha, hf, h, he]
    cases o with
    | call key param m =>
      obtain ⟨s1, s2, s3⟩ := send (m.event key param)
      simpa [Chan.run, Chan.step] using ih _ s1 s2 s3 hx' (by simpa [blocks] using hb)
    | set key param t =>
      obtain ⟨s1, s2, s3⟩ := send (t.event key param)
      simpa [Chan.run, Chan.step] using ih _ s1 s2 s3 hx' (by simpa [blocks] using hb)
    | block => simpa [Chan.run, Chan.step, Chan.block, hf] using he
    | free => exact absurd rfl ho.1
    | drop => exact absurd rfl ho.2

/-- An accepted call is received in the next block. -/
theorem received_call (cap : Nat) (pre post : List (Op V S)) (o : Op V S) (e : Ev V S) (he : o.event? = some e)
    (hx : Alive (pre ++ o :: post))
    (hacc : ((Chan.init V S cap).run (pre ++ o :: post)).2.1[pre.length]? = some (some (.ok ())))
    (hk : blocks pre < blocks (pre ++ o :: post)) :
    e ∈ ((Chan.init V S cap).run (pre ++ o :: post)).2.2.getD (blocks pre) [] := by
  obtain ⟨f1, f2, f3, f4⟩ := run_fifo (Chan.init V S cap) rfl rfl pre (fun o ho => hx o (by simp [ho]))
  have hxp : Alive post := fun o ho => hx o (by simp [ho])
  have hres : ((Chan.init V S cap).run (pre ++ o :: post)).2.1[pre.length]? =
      some (((Chan.init V S cap).run pre).1.step o).2.1 := by
    rw [run_append]
    simp only
    rw [List.getElem?_append_right (by rw [run_results]), run_results, Nat.sub_self]
    rfl
  have hstep : ((Chan.init V S cap).run pre).1.step o =
      ((((Chan.init V S cap).run pre).1.send e).1, some (((Chan.init V S cap).run pre).1.send e).2, none) := by
    cases o <;> simp only [Op.event?, Option.some.injEq, reduceCtorEq] at he
    · subst he; rfl
    · subst he; rfl
  have hbl : blocks (pre ++ o :: post) = blocks pre + blocks post := by
    cases o <;> simp [Op.event?] at he <;> simp [blocks]
  rw [hres, hstep, Option.some.injEq, Option.some.injEq] at hacc
  generalize hch : ((Chan.init V S cap).run pre).1 = ch at *
  have hlt : ch.ring.length < ch.cap := by
    by_contra hn
    simp [Chan.send, f2, hn] at hacc
  have hsend : ch.send e = ({ ch with ring := ch.ring ++ [e] }, .ok ()) := by simp [Chan.send, f2, hlt]
  have hfb := first_block { ch with ring := ch.ring ++ [e] } f1 f2 (e := e) (by simp) post hxp (by omega)
  rw [run_append, List.getD_eq_getElem?_getD]
  simp only
  rw [List.getElem?_append_right (by rw [run_blocks]), run_blocks, Nat.sub_self, ← List.getD_eq_getElem?_getD, hch]
  simpa [Chan.run, hstep, hsend] using hfb

/-! ### From the handle to the unit generator -/

/-- The times of everything that is received are in normal form if those of everything that is sent are. -/
theorem ins_ok (cap : Nat) (ops : List (Op V S)) (hx : Alive ops) (hn : ∀ o ∈ ops, ∀ e, o.event? = some e → TimeOk e)
    (keys : Nat → List Nat) (active : Nat → Nat → Bool) :
    InsOk (insOf ((Chan.init V S cap).run ops).2.2 keys active) := by
  intro b e he
  have hmem : e ∈ ((Chan.init V S cap).run ops).2.2.flatten := by
    change e ∈ ((Chan.init V S cap).run ops).2.2.getD b [] at he
    rw [List.getD_eq_getElem?_getD] at he
    cases h : ((Chan.init V S cap).run ops).2.2[b]? with
    | none => rw [h] at he; simp at he
    | some l => rw [h] at he; exact List.mem_flatten.2 ⟨l, List.mem_of_getElem? h, by simpa using he⟩
  have h1 := (C86_channel cap ops hx).1
  have h2 : e ∈ accepted ops ((Chan.init V S cap).run ops).2.1 := by rw [← h1]; simp [hmem]
  have h3 : ∀ (os : List (Op V S)) rs, e ∈ accepted os rs → ∃ o ∈ os, o.event? = some e := by
    intro os
    induction os with
    | nil => intro rs h; simp [accepted] at h
    | cons o os ih =>
      intro rs h
      cases rs with
      | nil => simp [accepted] at h
      | cons r rs =>
        rcases r with _ | (_ | ⟨⟨⟩⟩)
        · obtain ⟨o', h1, h2⟩ := ih rs (by simpa [accepted] using h)
          exact ⟨o', List.mem_cons_of_mem _ h1, h2⟩
        · obtain ⟨o', h1, h2⟩ := ih rs (by simpa [accepted] using h)
          exact ⟨o', List.mem_cons_of_mem _ h1, h2⟩
        · simp only [accepted, List.mem_append, Option.mem_toList] at h
          rcases h with h | h
          · exact ⟨o, List.mem_cons_self, h⟩
          · obtain ⟨o', h1, h2⟩ := ih rs h
            exact ⟨o', List.mem_cons_of_mem _ h1, h2⟩
  obtain ⟨o, ho, hoe⟩ := h3 _ _ h2
  exact hn o ho e hoe


/-- **C86.**  A call of any method of a `Parameter` that is accepted makes exactly the call it stands for on the unit
generator of its node, at the frame asked for: in the block with that frame and after being told how far into the block it
is, or at the start of the next block if the frame is past.  This holds in every run of calls from all handles and blocks.

Missing for the full claim: the waiting changes must fit, the frame must be within the time changes are kept, and for
`*_after` the sample rate must divide the ticks of a second (C19, C20: false without); the node runs in that block. -/
theorem C86_applied_partial {c : GenCfg} (hc : CfgOk c) (hu : c.bs ≤ 65536) (cap : Nat) (pre post : List (Op V S))
    (key param : Nat) (m : Method V S) (keys : Nat → List Nat) (active : Nat → Nat → Bool)
    (hx : Alive (pre ++ .call key param m :: post))
    (hn : ∀ o ∈ pre ++ .call key param m :: post, ∀ e, o.event? = some e → TimeOk e)
    (hacc : ((Chan.init V S cap).run (pre ++ .call key param m :: post)).2.1[pre.length]? = some (some (.ok ())))
    (hk : blocks pre < blocks (pre ++ .call key param m :: post))
    (hsr : c.sr ∣ 282240000 ∨ ∀ s, m.when ≠ .after s)
    (hroom : Room c (insOf ((Chan.init V S cap).run (pre ++ .call key param m :: post)).2.2 keys active) (blocks pre))
    (hwin : due c (blocks pre) m.when / c.bs ≤ blocks pre + c.keep + 1)
    (hkey : key ∈ keys (max (blocks pre) (due c (blocks pre) m.when / c.bs))) :
    ∃ out a,
      outAt c (insOf ((Chan.init V S cap).run (pre ++ .call key param m :: post)).2.2 keys active)
        (max (blocks pre) (due c (blocks pre) m.when / c.bs)) = .ok out ∧
      a ∈ out ∧ (keys (max (blocks pre) (due c (blocks pre) m.when / c.bs)))[a.task]? = some key ∧
      a.calls =
        (if due c (blocks pre) m.when ≤ max (blocks pre) (due c (blocks pre) m.when / c.bs) * c.bs then []
         else [.setDelay a.task param (due c (blocks pre) m.when - max (blocks pre) (due c (blocks pre) m.when / c.bs) * c.bs)])
          ++ [m.what.call a.task param] := by
  set ops := pre ++ .call key param m :: post with hops
  set ins := insOf ((Chan.init V S cap).run ops).2.2 keys active with hins
  set k := blocks pre with hkd
  have hrec : m.event key param ∈ (ins k).new := received_call cap pre post _ (m.event key param) rfl hx hacc hk
  have hio : InsOk ins := ins_ok cap ops hx hn keys active
  have hkeye : (m.event key param).change.key = key := by cases m <;> rfl
  have htok : (m.event key param).change.token = none := by cases m <;> rfl
  have htar : target c k (m.event key param) = due c k m.when := by
    have hs : ∀ s, samplesOf c.sr s = ticks s * c.sr / 282240000 := fun s => rfl
    cases m with
    | setTime v t => rcases t with ⟨s, _ | _⟩ <;> simp [target, Method.event, Method.when, due, hs]
    | smoothTime v t => rcases t with ⟨s, _ | _⟩ <;> simp [target, Method.event, Method.when, due, hs]
    | trigTime t => rcases t with ⟨s, _ | _⟩ <;> simp [target, Method.event, Method.when, due, hs]
    | _ => simp [target, Method.event, Method.when, due, hs, timeAt, timeAfter]
  have hex : ExactTime c (m.event key param) := by
    rcases hsr with h | h
    · exact .inl h
    · right
      intro t ht
      cases m with
      | set v => simp [Method.event] at ht
      | smooth v => simp [Method.event] at ht
      | trig => simp [Method.event] at ht
      | setAt v s => simp [Method.event, timeAt] at ht; subst ht; rfl
      | smoothAt v s => simp [Method.event, timeAt] at ht; subst ht; rfl
      | trigAt s => simp [Method.event, timeAt] at ht; subst ht; rfl
      | setAfter v s => exact absurd rfl (h s)
      | smoothAfter v s => exact absurd rfl (h s)
      | trigAfter s => exact absurd rfl (h s)
      | setTime v t' =>
        simp [Method.event] at ht; subst ht
        by_contra hab
        exact h t'.seconds (by simp [Method.when, hab])
      | smoothTime v t' =>
        simp [Method.event] at ht; subst ht
        by_contra hab
        exact h t'.seconds (by simp [Method.when, hab])
      | trigTime t' =>
        simp [Method.event] at ht; subst ht
        by_contra hab
        exact h t'.seconds (by simp [Method.when, hab])
  set f := due c k m.when with hf
  have hb := hc.bs_pos
  have hdm := Nat.div_add_mod f c.bs
  have hml := Nat.mod_lt f hb
  rw [Nat.mul_comm] at hdm
  obtain ⟨out, ho, a, ha, hac, had⟩ := C20_applied_partial hc hio (k := k) (b := max k (f / c.bs)) hrec hex hroom
    (Nat.le_max_left _ _) (by omega)
    ⟨by rw [hkeye]; exact hkey, by rw [htok]; simp⟩
    (by
      rw [htar]
      have := Nat.mul_le_mul_right c.bs (Nat.le_max_right k (f / c.bs))
      rw [Nat.add_mul]
      omega)
    (by
      intro b' h1 h2
      right
      rw [htar]
      have h3 : b' + 1 ≤ f / c.bs := by omega
      have := Nat.mul_le_mul_right c.bs h3
      omega)
  refine ⟨out, a, ho, ha, ?_, ?_⟩
  · rw [outAt_eq hc hio, Except.ok.injEq] at ho
    subst ho
    obtain ⟨k', j, e, hkj, he, hj, hae, hr, -⟩ := outP_provenance ha
    have hce : e.change.key = key := by rw [← hkeye, ← hac, hae]; simp [mkApplied]
    have hmem : key ∈ keys (max k (f / c.bs)) := hkey
    have ht : a.task = (keys (max k (f / c.bs))).idxOf key := by
      rw [hae]; simp only [mkApplied, seen_change, BlockIn.env, hce]; rfl
    rw [ht, List.getElem?_eq_getElem (List.idxOf_lt_length_iff.2 hmem), List.getElem_idxOf]
  · rw [htar] at had
    have hlt : a.delay < c.bs := by
      have := Nat.mul_le_mul_right c.bs (Nat.le_max_right k (f / c.bs))
      omega
    rw [C18_calls hlt hu, had, hac]
    have hcalls : (m.event key param).change.smoothing.toList.map (Call.smoothing a.task (m.event key param).change.param) ++
        (m.event key param).change.value.toList.map (Call.value a.task (m.event key param).change.param) =
        [m.what.call a.task param] := by cases m <;> rfl
    have hp : (m.event key param).change.param = param := by cases m <;> rfl
    rw [List.append_assoc, hcalls, hp]
    congr 1
    by_cases h : f ≤ max k (f / c.bs) * c.bs
    · rw [if_pos h, if_pos (by omega)]
    · rw [if_neg h, if_neg (by omega)]

/-- What a tuple given to `HandleTrait::set` asks for: the smoothing and the value. -/
def Tuple.calls (task param : Nat) : Tuple V S → List (Call (PVal V) S)
  | .pv v | .pvt v _ => [.value task param v]
  | .pvst v x _ | .pvs v x => [.smoothing task param x, .value task param v]

/-- The token in a tuple. -/
def Tuple.token? : Tuple V S → Option Nat
  | .pv _ | .pvs _ _ => none
  | .pvt _ t | .pvst _ _ t => some t

/-- **C86.**  An accepted `HandleTrait::set` sets the smoothing, if given, and then the value on the unit generator of its
node, in the first block from the next one on in which the node runs and the token, if given, is active (within the time
changes are kept and if the waiting changes fit). -/
theorem C86_set_partial {c : GenCfg} (hc : CfgOk c) (hu : c.bs ≤ 65536) (cap : Nat) (pre post : List (Op V S))
    (key param : Nat) (t : Tuple V S) (keys : Nat → List Nat) (active : Nat → Nat → Bool)
    (hx : Alive (pre ++ .set key param t :: post))
    (hn : ∀ o ∈ pre ++ .set key param t :: post, ∀ e, o.event? = some e → TimeOk e)
    (hacc : ((Chan.init V S cap).run (pre ++ .set key param t :: post)).2.1[pre.length]? = some (some (.ok ())))
    (hk : blocks pre < blocks (pre ++ .set key param t :: post))
    (hroom : Room c (insOf ((Chan.init V S cap).run (pre ++ .set key param t :: post)).2.2 keys active) (blocks pre))
    {b : Nat} (hb : blocks pre ≤ b) (hwin : b ≤ blocks pre + c.keep + 1)
    (hkey : key ∈ keys b) (htok : ∀ x, t.token? = some x → active b x = true)
    (hfirst : ∀ b', blocks pre ≤ b' → b' < b → key ∉ keys b' ∨ ∃ x, t.token? = some x ∧ active b' x = false) :
    ∃ out a, outAt c (insOf ((Chan.init V S cap).run (pre ++ .set key param t :: post)).2.2 keys active) b = .ok out ∧
      a ∈ out ∧ (keys b)[a.task]? = some key ∧ a.calls = t.calls a.task param := by
  set ops := pre ++ .set key param t :: post with hops
  set ins := insOf ((Chan.init V S cap).run ops).2.2 keys active with hins
  have hrec : t.event key param ∈ (ins (blocks pre)).new := received_call cap pre post _ (t.event key param) rfl hx hacc hk
  have hio : InsOk ins := ins_ok cap ops hx hn keys active
  have hkeye : (t.event key param).change.key = key := by cases t <;> rfl
  have htoke : (t.event key param).change.token = t.token? := by cases t <;> rfl
  have htime : (t.event key param).time = none := by cases t <;> rfl
  have htar : target c (blocks pre) (t.event key param) = blocks pre * c.bs := by simp [target, htime]
  have hbs := hc.bs_pos
  have hmul := Nat.mul_le_mul_right c.bs hb
  obtain ⟨out, ho, a, ha, hac, had⟩ := C20_applied_partial hc hio (k := blocks pre) (b := b) hrec
    (.inr (by simp [htime])) hroom hb (by omega)
    ⟨by rw [hkeye]; exact hkey, by rw [htoke]; exact htok⟩
    (by rw [htar, Nat.add_mul]; omega)
    (by
      intro b' h1 h2
      left
      rintro ⟨h3, h4⟩
      rw [hkeye] at h3
      rw [htoke] at h4
      rcases hfirst b' h1 h2 with h5 | ⟨x, h5, h6⟩
      · exact h5 h3
      · have h7 : active b' x = true := h4 x h5
        rw [h6] at h7
        exact absurd h7 (by decide))
  refine ⟨out, a, ho, ha, ?_, ?_⟩
  · rw [outAt_eq hc hio, Except.ok.injEq] at ho
    subst ho
    obtain ⟨k', j, e, hkj, he, hj, hae, hr, -⟩ := outP_provenance ha
    have hce : e.change.key = key := by rw [← hkeye, ← hac, hae]; simp [mkApplied]
    have ht : a.task = (keys b).idxOf key := by
      rw [hae]; simp only [mkApplied, seen_change, BlockIn.env, hce]; rfl
    rw [ht, List.getElem?_eq_getElem (List.idxOf_lt_length_iff.2 hkey), List.getElem_idxOf]
  · rw [htar] at had
    have hd0 : a.delay = 0 := by omega
    rw [C18_calls (by omega) hu, hd0, hac]
    cases t <;> rfl

/-- A change with smoothing and token that arrives in block 0 and whose token becomes active in block 2. -/
def tokenIns : Nat → BlockIn (PVal Nat) Nat :=
  insOf ((Chan.init Nat Nat 3).run [.set 5 1 (.pvst (.val 9) 6 0), .block, .block, .block]).2.2 (fun _ => [3, 5])
    (fun b _ => decide (2 ≤ b))

example : (outAt ⟨16, 48000, 8, 4⟩ tokenIns 0).map (·.flatMap Applied.calls) = .ok [] ∧
    (outAt ⟨16, 48000, 8, 4⟩ tokenIns 1).map (·.flatMap Applied.calls) = .ok [] ∧
    (outAt ⟨16, 48000, 8, 4⟩ tokenIns 2).map (·.flatMap Applied.calls) = .ok [.smoothing 1 1 6, .value 1 1 (.val 9)] := by
  refine ⟨by decide +kernel, by decide +kernel, by decide +kernel⟩

/-- **C86.**  Once the graph is gone, every call is refused with that error, nothing more is received, and the handles say
that they cannot send. -/
theorem C86_gone (ch : Chan V S) (ops : List (Op V S)) :
    let r := ch.run (.drop :: ops)
    r.2.2.flatten = [] ∧ r.1.isAlive = false ∧
      ∀ (i : Nat) (o : Op V S) (e : Ev V S), ops[i]? = some o → o.event? = some e → r.2.1[i + 1]? = some (some (.error .graphWasFreed)) := by
  have h : ∀ (ops : List (Op V S)) (ch : Chan V S), ch.abandoned = true → ch.ring = [] →
      (ch.run ops).2.2.flatten = [] ∧ (ch.run ops).1.isAlive = false ∧
      ∀ (i : Nat) (o : Op V S) (e : Ev V S), ops[i]? = some o → o.event? = some e → (ch.run ops).2.1[i]? = some (some (.error .graphWasFreed)) := by
    intro ops
    induction ops with
    | nil => intro ch ha hr; simp [Chan.run, Chan.isAlive, ha]
    | cons o ops ih =>
      intro ch ha hr
      have hs : (ch.step o).1.abandoned = true ∧ (ch.step o).1.ring = [] ∧ (ch.step o).2.2.toList.flatten = [] ∧
          ∀ e, o.event? = some e → (ch.step o).2.1 = some (.error .graphWasFreed) := by
        cases o <;> simp [Chan.step, Chan.send, Chan.block, ha, hr, Op.event?]
        split <;> simp [ha, hr]
      obtain ⟨s1, s2, s3, s4⟩ := hs
      obtain ⟨i1, i2, i3⟩ := ih _ s1 s2
      refine ⟨by simp [Chan.run, s3, i1, List.flatten_append], i2, ?_⟩
      intro i o' e ho he
      cases i with
      | zero =>
        simp only [List.getElem?_cons_zero, Option.some.injEq] at ho
        subst ho
        simp [Chan.run, s4 e he]
      | succ i => simpa [Chan.run] using i3 i o' e (by simpa using ho) he
  obtain ⟨h1, h2, h3⟩ := h ops { ch with abandoned := true, ring := [] } rfl rfl
  refine ⟨by simpa [Chan.run, Chan.step] using h1, by simpa [Chan.run, Chan.step] using h2, ?_⟩
  intro i o e ho he
  simpa [Chan.run, Chan.step] using h3 i o e ho he

/-! ### `ParameterChange2` -/

/-- The last of the given options. -/
def latest {α β : Type} (f : α → Option β) (l : List α) : Option β := (l.filterMap f).getLast?

/-- **C86.**  A `ParameterChange2` sends exactly one event, whether it is sent or dropped: of every kind of setting the one
given last. -/
theorem C86_builder (key param : Nat) (ops : List (BOp V S)) :
    let b := ops.foldl Builder.step ⟨key, param, none, none, none, none, false⟩
    let e : Ev V S := ⟨⟨key, param,
      latest (fun o => match o with | .trig => some .trigger | .value v => some v | _ => none) ops,
      latest (fun o => match o with | .smooth x => some x | _ => none) ops,
      latest (fun o => match o with | .token t => some t | _ => none) ops⟩,
      latest (fun o => match o with | .after s => some ⟨s, false⟩ | .at t => some ⟨t.seconds, true⟩ | _ => none) ops⟩
    b.send = [e] ∧ b.drop = [e] := by
  induction ops using List.reverseRecOn with
  | nil => simp [latest, Builder.send, Builder.drop, Builder.event, Builder.taken]
  | append_singleton ops o ih =>
    simp only [List.foldl_append, List.foldl_cons, List.foldl_nil]
    simp only [Builder.send, Builder.drop, Builder.taken, Builder.event] at ih ⊢
    obtain ⟨ih1, ih2⟩ := ih
    have hs : (ops.foldl Builder.step ⟨key, param, none, none, none, none, false⟩ : Builder V S).wasSent = false := by
      by_contra hne
      rw [Bool.not_eq_false] at hne
      rw [hne] at ih2
      simp at ih2
    simp only [if_true, List.cons.injEq, and_true, Event.mk.injEq, Change.mk.injEq] at ih1
    obtain ⟨⟨a1, a2, a3, a4, a5⟩, a6⟩ := ih1
    cases o <;>
      simp [Builder.step, hs, latest, List.filterMap_append, a1, a2, timeAfter, toAbsolute] <;>
      simp [a3, a4, a5, a6, latest]

example : ([.value (.val 1), .smooth 5, .at ⟨⟨2, 0⟩, false⟩, .value (.val 3), .token 4] : List (BOp Nat Nat)).foldl
    Builder.step ⟨7, 2, none, none, none, none, false⟩ = ⟨7, 2, some (.val 3), some 5, some 4, some ⟨⟨2, 0⟩, true⟩, false⟩ := by
  decide

/-- Setting the same kind of time twice: a time that was meant relative is taken as an absolute one by `at`. -/
theorem C86_builder_at_violated : ∃ t : STime, t.absolute = false ∧
    ((Builder.step (⟨7, 0, some (.val 1), none, none, none, false⟩ : Builder Nat Nat) (.at t)).send).map Event.time =
      [some ⟨t.seconds, true⟩] :=
  ⟨timeAfter ⟨1, 0⟩, rfl, rfl⟩

/-! ### Non-vacuity -/

/-- Two handles and three blocks of 16 frames at 48 kHz. -/
def demoOps : List (Op Nat Nat) := [.call 3 1 (.set (.val 8)), .block, .call 5 0 (.setAt (.val 9) ⟨0, 37 * 5880⟩),
  .call 3 1 (.smoothAfter 6 ⟨0, 18 * 5880⟩), .call 3 2 .trig, .block, .block, .block]

example : Alive demoOps ∧ blocks demoOps = 4 ∧ (∀ o ∈ demoOps, ∀ e, o.event? = some e → TimeOk e) ∧
    ((Chan.init Nat Nat 3).run demoOps).2.1 = [some (.ok ()), none, some (.ok ()), some (.ok ()), some (.ok ()), none, none, none] ∧
    (((Chan.init Nat Nat 2).run demoOps).2.1)[4]? = some (some (.error .pushChange)) := by
  refine ⟨?_, rfl, ?_, rfl, rfl⟩
  · intro o ho
    simp only [demoOps, List.mem_cons, List.not_mem_nil, or_false] at ho
    rcases ho with rfl | rfl | rfl | rfl | rfl | rfl | rfl | rfl <;> decide
  · intro o ho e he t ht
    simp only [demoOps, List.mem_cons, List.not_mem_nil, or_false] at ho
    rcases ho with rfl | rfl | rfl | rfl | rfl | rfl | rfl | rfl <;>
      simp only [Op.event?, Option.some.injEq, reduceCtorEq] at he <;> subst he <;>
      simp only [Method.event, Option.some.injEq, reduceCtorEq] at ht <;> subst ht <;> decide

/-- The changes of the demo as the event phase applies them: at frame 37 = 2·16 + 5 and, from block 1 on, at frame
16 + 18 = 2·16 + 2. -/
example : let ins := insOf ((Chan.init Nat Nat 3).run demoOps).2.2 (fun _ => [5, 3]) (fun _ _ => false)
    (outAt ⟨16, 48000, 8, 4⟩ ins 0).map (·.flatMap Applied.calls) = .ok [.value 1 1 (.val 8)] ∧
    (outAt ⟨16, 48000, 8, 4⟩ ins 1).map (·.flatMap Applied.calls) = .ok [.value 1 2 .trigger] ∧
    (outAt ⟨16, 48000, 8, 4⟩ ins 2).map (·.flatMap Applied.calls) =
      .ok [.setDelay 0 0 5, .value 0 0 (.val 9), .setDelay 1 1 2, .smoothing 1 1 6] := by
  refine ⟨by decide +kernel, by decide +kernel, by decide +kernel⟩

/-- The hypotheses of `C86_applied_partial` hold for `set_at` in the demo. -/
example : ∃ out a, outAt ⟨16, 48000, 8, 4⟩ (insOf ((Chan.init Nat Nat 3).run demoOps).2.2 (fun _ => [5, 3]) (fun _ _ => false)) 2 =
      .ok out ∧ a ∈ out ∧ [5, 3][a.task]? = some 5 ∧ a.calls = [.setDelay a.task 0 5, .value a.task 0 (.val 9)] := by
  have := C86_applied_partial (c := ⟨16, 48000, 8, 4⟩) ⟨by decide, by decide, by decide, by decide, by decide⟩ (by decide) 3
    [.call 3 1 (.set (.val 8)), .block] [.call 3 1 (.smoothAfter 6 ⟨0, 18 * 5880⟩), .call 3 2 .trig, .block, .block, .block]
    5 0 (.setAt (.val 9) ⟨0, 37 * 5880⟩) (fun _ => [5, 3]) (fun _ _ => false)
    (by
      intro o ho
      simp only [List.cons_append, List.nil_append, List.mem_cons, List.not_mem_nil, or_false] at ho
      rcases ho with rfl | rfl | rfl | rfl | rfl | rfl | rfl | rfl <;> decide)
    (by
      intro o ho e he t ht
      simp only [List.cons_append, List.nil_append, List.mem_cons, List.not_mem_nil, or_false] at ho
      rcases ho with rfl | rfl | rfl | rfl | rfl | rfl | rfl | rfl <;>
        simp only [Op.event?, Option.some.injEq, reduceCtorEq] at he <;> subst he <;>
        simp only [Method.event, Option.some.injEq, reduceCtorEq] at ht <;> subst ht <;> decide)
    rfl (by decide) (.inl (by decide))
    (by
      have h : ∀ n, received (insOf ((Chan.init Nat Nat 3).run demoOps).2.2 (fun _ => [5, 3]) (fun _ _ => false)) 1 n ≤ 1 := by
        intro n
        induction n with
        | zero => simp [received]
        | succ n ih =>
          simp only [received]
          by_cases h : n < 1
          · have : n = 0 := by omega
            subst this
            decide
          · simp [h]; omega
      have h3 : (insOf ((Chan.init Nat Nat 3).run demoOps).2.2 (fun _ => [5, 3]) (fun _ _ => false) 1).new.length = 3 := rfl
      unfold Room
      exact (Nat.add_le_add (h _) h3.le).trans (by decide))
    (by decide) (by decide)
  exact this

/-! ### Violations -/

/-- C86 is false for a graph that was freed: until its `GraphGen` is dropped the handles say that they can send and that
the changes were accepted, but no block ever receives them; and once the ring is full the error is that of a busy graph. -/
theorem C86_freed_violated (n : Nat) :
    let r := (Chan.init Nat Nat 2).run (.free :: .call 3 1 (.set (.val 8)) :: .call 3 1 .trig :: List.replicate n .block ++ [.call 3 1 .trig])
    r.2.1 = none :: some (.ok ()) :: some (.ok ()) :: List.replicate n none ++ [some (.error .pushChange)] ∧
    r.2.2.flatten = [] ∧ r.1.isAlive = true := by
  have h : ∀ (n : Nat) (ch : Chan Nat Nat), ch.freed = true →
      ch.run (List.replicate n .block) = (ch, List.replicate n none, List.replicate n []) := by
    intro n
    induction n with
    | zero => intro ch _; rfl
    | succ n ih =>
      intro ch hf
      rw [List.replicate_succ, Chan.run, show ch.step .block = (ch, none, some []) by simp [Chan.step, Chan.block, hf]]
      simp [ih ch hf, List.replicate_succ]
  have hr : ∀ ch : Chan Nat Nat, ch.freed = true → ∀ o, ch.run (List.replicate n .block ++ [o]) =
      ((ch.step o).1, List.replicate n none ++ [(ch.step o).2.1], List.replicate n [] ++ (ch.step o).2.2.toList) := by
    intro ch hf o
    rw [run_append, h n ch hf]
    simp [Chan.run]
  simp only [Chan.run, List.cons_append, hr _ (show ((((Chan.init Nat Nat 2).step .free).1.step
    (.call 3 1 (.set (.val 8)))).1.step (.call 3 1 .trig)).1.freed = true from rfl)]
  refine ⟨rfl, ?_, rfl⟩
  simp [Chan.step]

end Verif.Ph
