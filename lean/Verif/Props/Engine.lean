import Verif.Lemmas.Engine
import Verif.Props.Wrappers

/-!
# C76: a parameter change reaches the right unit at the right frame of the playing graph

The whole engine: edits, commits, events and blocks in any order.  The meaning of a block is that of the
dataflow graph of the last commit (`Sys.Means`), where every unit generator first gets the calls of exactly those
changes that were sent to its node and are due.
-/

namespace Verif.Eng

open Verif.G
open Verif.T (NU TD UG)
open Verif.Sys (Y Fine Means isCommit)
open Verif.EventSpec

section
variable {S St V Sm : Type}

/-! ### The meaning -/

/-- One block of a run: the graph, what the unit generators do, the graph inputs and the outputs; the events
received, the nodes in the order of their tasks, the active tokens and the changes applied. -/
structure Rec (S St V Sm : Type) where
  g : Graph
  proc : Proc S St
  inp : Nat → Nat → S
  o : List (List S)
  new : List (Event V Sm)
  keys : List Nat
  active : Nat → Bool
  out : List (Applied V Sm)

/-- The block as one of the graph alone: the unit generators get their calls and then process. -/
def Rec.sys (app : Key → UCall V Sm → St → St) (r : Rec S St V Sm) : Sys.Rec S St :=
  ⟨r.g, withCalls app (callsFor r.out) r.proc, r.inp, r.o⟩

/-- What the event phases of the blocks see. -/
def insOf (rs : List (Rec S St V Sm)) (b : Nat) : BlockIn V Sm :=
  match rs[b]? with
  | some r => ⟨r.new, r.keys, r.active⟩
  | none => ⟨[], [], fun _ => false⟩

/-! ### All histories -/

/-- All interleavings of edits, commits, events and blocks without a panic, with the graph of the last commit that made a
schedule, the blocks so far and the events that were sent and not refused. -/
inductive Hist [Zero S] (P : Graph → Op → Prop) (sl : Key → Nat) (c : GenCfg) (app : Key → UCall V Sm → St → St)
    (heap : Key → St) : E S St V Sm → Graph → List (Rec S St V Sm) → List (Event V Sm) → Prop
  | init (id numIn numOut cap : Nat) :
      Hist P sl c app heap (.init id numIn numOut c.bs cap heap) (.init id numIn numOut) [] []
  | edit {e gc rs sent y'} {op : Op} {r} : Hist P sl c app heap e gc rs sent → isCommit op = false →
      P e.y.g op → Sys.edit sl e.y op = .ok (y', r) → Hist P sl c app heap { e with y := y' } gc rs sent
  | commit {e gc rs sent y'} {rm : Key → Bool} {g1} : Hist P sl c app heap e gc rs sent →
      freeOld rm (fun f => e.y.applied (f + 1)) e.y.g = .ok g1 → (g1.recalc = true → Fine g1) →
      Sys.commit c.bs e.y rm = .ok y' → Hist P sl c app heap { e with y := y' } (if g1.recalc then g1 else gc) rs sent
  | send {e gc rs sent} {ev : Event V Sm} : Hist P sl c app heap e gc rs sent → TimeOk ev →
      Hist P sl c app heap (send e ev).1 gc rs (if (send e ev).2 then sent ++ [ev] else sent)
  | block {e gc rs sent e' o out} (active : Nat → Bool) (proc : Proc S St) (inp : Nat → Nat → S) :
      Hist P sl c app heap e gc rs sent → block c app active e proc inp = .ok (e', o, out) →
      Hist P sl c app heap e' gc (rs ++ [⟨gc, proc, inp, o, e.evs, e'.y.cur.2.keys, active, out⟩]) sent

/-! ### The proof -/

theorem sys_keys [Zero S] {P sl} {bs : Nat} (hbs : 0 < bs) {heap : Key → St} {y : Y S St} {gc : Graph}
    {rs : List (Sys.Rec S St)} (h : Sys.Hist P sl bs heap y gc rs) (k : Key) :
    k ∈ y.newest.1.tasks.map Task.key ↔ Live gc k := by
  induction h with
  | init id numIn numOut cap =>
    simp [Y.newest, Y.init, Live, Graph.init, Graph.get]
  | edit hy hop _ he ih =>
    obtain ⟨t, hs⟩ := (hy.good hbs).sim
    obtain ⟨-, -, -, h3, h4, -⟩ := Sys.sim_edit hs (hy.good hbs).wf hop he
    rw [Y.newest, h3, h4]
    exact ih
  | @commit y y' gc rs rm g1 hy hfo hfine hc ih =>
    obtain ⟨t, hs⟩ := (hy.good hbs).sim
    obtain ⟨-, -, h3, -, -, -, -, g1', hfo', hw1, hcase⟩ := Sys.sim_commit hs (hy.good hbs).wf hc
    rw [hfo] at hfo'
    simp only [Except.ok.injEq] at hfo'
    subst hfo'
    rcases hcase with ⟨hr, -, hring, -⟩ | ⟨hr, -, sch, td, hms, hring⟩
    · rw [hr, Y.newest, hring, h3]; exact ih
    · rw [hr, Y.newest, hring]
      simp only [if_true, List.getLast?_concat, Option.getD_some]
      obtain ⟨rem, hco⟩ := Sys.makeSchedule_keys hms
      exact (order_nodup_mem hw1 hco).2 k
  | @block y y' gc rs o proc inp hy hb ih =>
    obtain ⟨t, hs⟩ := (hy.good hbs).sim
    obtain ⟨y2, o2, hb2, -, -, -, -, -, h4, -, h5, -⟩ := Sys.sim_block (bs := bs) hs (hy.good hbs).sch proc inp
    rw [hb] at hb2
    simp only [Except.ok.injEq, Prod.mk.injEq] at hb2
    obtain ⟨rfl, rfl⟩ := hb2
    rw [Y.newest, h4]
    simp only [List.getLast?_nil, Option.getD_none]
    rw [h5]
    exact ih

theorem insOf_lt {rs : List (Rec S St V Sm)} {r : Rec S St V Sm} {b : Nat} (hb : b < rs.length) :
    insOf (rs ++ [r]) b = insOf rs b := by
  rw [insOf, insOf, List.getElem?_append_left hb]

theorem insOf_last (rs : List (Rec S St V Sm)) (r : Rec S St V Sm) :
    insOf (rs ++ [r]) rs.length = ⟨r.new, r.keys, r.active⟩ := by
  rw [insOf, List.getElem?_concat_length]

theorem insOf_ok {rs : List (Rec S St V Sm)} (h : ∀ r ∈ rs, ∀ ev ∈ r.new, TimeOk ev) : InsOk (insOf rs) := by
  intro b ev hev
  rw [insOf] at hev
  cases hr : rs[b]? with
  | none => rw [hr] at hev; simp at hev
  | some r => rw [hr] at hev; exact h r (List.mem_of_getElem? hr) ev hev

/-- What holds in every history. -/
structure Good [Zero S] (P : Graph → Op → Prop) (sl : Key → Nat) (c : GenCfg) (app : Key → UCall V Sm → St → St)
    (heap : Key → St) (e : E S St V Sm) (gc : Graph) (rs : List (Rec S St V Sm)) (sent : List (Event V Sm)) : Prop where
  sys : Sys.Hist P sl c.bs heap e.y gc (rs.map (Rec.sys app))
  clock : e.clock = rs.length * c.bs
  evs : ∀ ev ∈ e.evs, TimeOk ev
  new : ∀ r ∈ rs, ∀ ev ∈ r.new, TimeOk ev
  keys : ∀ r ∈ rs, ∀ k, k ∈ r.keys ↔ Live r.g k
  queue : queueAt c (insOf rs) rs.length = .ok e.queue
  out : ∀ b r, rs[b]? = some r → outAt c (insOf rs) b = .ok r.out
  fifo : rs.flatMap Rec.new ++ e.evs = sent

/-- What the event phase of the next block does. -/
theorem phase_spec {c : GenCfg} (hc : CfgOk c) {rs : List (Rec S St V Sm)} {q : Queue V Sm} {evs : List (Event V Sm)}
    (hnew : ∀ r ∈ rs, ∀ ev ∈ r.new, TimeOk ev) (hq : queueAt c (insOf rs) rs.length = .ok q)
    (hevs : ∀ ev ∈ evs, TimeOk ev) (keys : List Nat) (active : Nat → Bool) :
    ∃ q' out, eventPhase c ⟨rs.length * c.bs, keys, active⟩ evs q = .ok (q', out) ∧
      ∀ a ∈ out, keys[a.task]? = some a.change.key := by
  rw [queueAt_eq hc (insOf_ok hnew), Except.ok.injEq] at hq
  refine ⟨_, _, eventPhase_eq hc _ hevs (fun x hx => queueP_ok (insOf_ok hnew) x (hq ▸ hx)), ?_⟩
  intro a ha
  have key : ∀ ev : Event V Sm, readyE c ⟨rs.length * c.bs, keys, active⟩ ev →
      keys[(mkApplied c ⟨rs.length * c.bs, keys, active⟩ ev).task]? =
        some (mkApplied c ⟨rs.length * c.bs, keys, active⟩ ev).change.key := by
    intro ev hev
    simp only [mkApplied]
    have hmem : ev.change.key ∈ keys := hev.2.2
    rw [List.getElem?_eq_getElem (List.idxOf_lt_length_iff.2 hmem), List.getElem_idxOf]
  simp only [phaseO, List.mem_append, List.mem_filterMap] at ha
  rcases ha with ⟨x, -, hx⟩ | ⟨ev, -, hev⟩
  · simp only [out1] at hx
    split at hx
    · simp at hx
    · split at hx
      · next hr => simp only [Option.some.injEq] at hx; subst hx; exact key _ hr
      · simp at hx
  · simp only [outN] at hev
    split at hev
    · next hr => simp only [Option.some.injEq] at hev; subst hev; exact key _ hr
    · simp at hev

/-- A block of the engine is a block of the graph whose unit generators get their calls first. -/
theorem block_spec [Zero S] {P sl} {c : GenCfg} (hc : CfgOk c) {app : Key → UCall V Sm → St → St} {heap : Key → St}
    {e : E S St V Sm} {gc : Graph} {rs : List (Rec S St V Sm)} {sent} (h : Good P sl c app heap e gc rs sent)
    (active : Nat → Bool) (proc : Proc S St) (inp : Nat → Nat → S) :
    ∃ keys q out y o, (∀ k, k ∈ keys ↔ Live gc k) ∧
      eventPhase c ⟨rs.length * c.bs, keys, active⟩ e.evs e.queue = .ok (q, out) ∧
      Sys.block c.bs e.y (withCalls app (callsFor out) proc) inp = .ok (y, o) ∧ y.cur.2.keys = keys ∧
      block c app active e proc inp = (do
        let clock ← addC U64 e.clock c.bs
        .ok ({ e with y := y, clock := clock, evs := [], queue := q }, o, out)) := by
  have hg := h.sys.good hc.bs_pos
  obtain ⟨t, hs⟩ := hg.sim
  obtain ⟨td, h1, h2, h3, h4⟩ := sim_apply hs hg.sch
  obtain ⟨q, out, hp, hk⟩ := phase_spec hc h.new h.queue h.evs td.keys active
  have hcu := callUnits_eq app td.tasks h4 out e.y.heap hk
  have hmem : ∀ a ∈ out, a.change.key ∈ td.keys := fun a ha => List.mem_of_getElem? (hk a ha)
  have hbc := block_calls (bs := c.bs) hs hg.sch app (callsFor out) proc inp (by
    intro k hkn
    rw [← h2] at hkn
    rw [callsFor, List.flatMap_eq_nil_iff]
    intro a ha
    rw [List.mem_filter] at ha
    have := hmem a ha.1
    rw [show a.change.key = k by simpa using ha.2] at this
    exact absurd this hkn)
  obtain ⟨y, o, hb, -, hsch, -, -, -, -, -, hcur, -⟩ :=
    Sys.sim_block (bs := c.bs) hs hg.sch (withCalls app (callsFor out) proc) inp
  refine ⟨td.keys, q, out, y, o, ?_, hp, hb, ?_, ?_⟩
  · intro k
    rw [h2]
    exact sys_keys hc.bs_pos h.sys k
  · have := hsch y.cur (by simp)
    rw [hcur] at this
    rw [h2]
    exact this
  · rw [block, h1]
    simp only [bind_ok]
    rw [h.clock, hp]
    simp only [bind_ok, hcu]
    rw [hbc, hb]
    rfl

theorem Hist.good [Zero S] {P sl} {c : GenCfg} (hc : CfgOk c) {app : Key → UCall V Sm → St → St} {heap : Key → St}
    {e : E S St V Sm} {gc : Graph} {rs : List (Rec S St V Sm)} {sent} (h : Hist P sl c app heap e gc rs sent) :
    Good P sl c app heap e gc rs sent := by
  induction h with
  | init id numIn numOut cap =>
    exact ⟨.init id numIn numOut cap, by simp [E.init], by simp [E.init], by simp, by simp, rfl, by simp, by simp [E.init]⟩
  | edit _ hop hP he ih => exact ⟨.edit ih.sys hop hP he, ih.clock, ih.evs, ih.new, ih.keys, ih.queue, ih.out, ih.fifo⟩
  | commit _ hfo hf hcm ih => exact ⟨.commit ih.sys hfo hf hcm, ih.clock, ih.evs, ih.new, ih.keys, ih.queue, ih.out, ih.fifo⟩
  | @send e gc rs sent ev _ hev ih =>
    rw [Eng.send]
    split
    · refine ⟨ih.sys, ih.clock, ?_, ih.new, ih.keys, ih.queue, ih.out, by
        rw [if_pos rfl, ← ih.fifo, List.append_assoc]⟩
      intro x hx
      simp only [List.mem_append, List.mem_singleton] at hx
      rcases hx with hx | rfl
      · exact ih.evs x hx
      · exact hev
    · exact ih
  | @block e gc rs sent e' o out active proc inp _ hb ih =>
    obtain ⟨keys, q, out', y, o', hk, hp, hsb, hky, hbl⟩ := block_spec hc ih active proc inp
    rw [hb] at hbl
    obtain ⟨clock, hcl, hbl⟩ := Sys.bind_inv hbl.symm
    simp only [Except.ok.injEq, Prod.mk.injEq] at hbl
    obtain ⟨rfl, rfl, rfl⟩ := hbl
    have hclock : clock = e.clock + c.bs := by
      rw [addC] at hcl
      split at hcl
      · simpa using hcl.symm
      · simp at hcl
    have hcg : ∀ b < rs.length, insOf (rs ++ [⟨gc, proc, inp, o', e.evs, y.cur.2.keys, active, out'⟩]) b = insOf rs b :=
      fun b hb => insOf_lt hb
    have hq' : queueAt c (insOf (rs ++ [⟨gc, proc, inp, o', e.evs, y.cur.2.keys, active, out'⟩])) rs.length = .ok e.queue := by
      rw [queueAt_congr _ hcg, ih.queue]
    refine ⟨?_, ?_, by simp, ?_, ?_, ?_, ?_, by simp [← ih.fifo]⟩
    · rw [List.map_append]
      exact .block _ inp ih.sys hsb
    · simp only [List.length_append, List.length_singleton, Nat.add_mul, Nat.one_mul, hclock, ih.clock]
    · intro r hr
      simp only [List.mem_append, List.mem_singleton] at hr
      rcases hr with hr | rfl
      · exact ih.new r hr
      · exact ih.evs
    · intro r hr
      simp only [List.mem_append, List.mem_singleton] at hr
      rcases hr with hr | rfl
      · exact ih.keys r hr
      · rw [hky]; exact hk
    · rw [List.length_append, List.length_singleton, queueAt, hq']
      simp only [bind_ok, insOf_last, BlockIn.env]
      rw [hky, hp]
      rfl
    · intro b r hr
      by_cases hb : b < rs.length
      · rw [List.getElem?_append_left hb] at hr
        rw [outAt_congr b (fun b' hb' => hcg b' (Nat.lt_of_le_of_lt hb' hb))]
        exact ih.out b r hr
      · have hlen : b = rs.length := by
          have := (List.getElem?_eq_some_iff.1 hr).1
          simp only [List.length_append, List.length_singleton] at this
          omega
        subst hlen
        rw [List.getElem?_concat_length, Option.some.injEq] at hr
        subst hr
        rw [outAt, hq']
        simp only [bind_ok, insOf_last, BlockIn.env]
        rw [hky, hp]
        rfl

/-! ### The claims -/

/-- The calls a change that is due `d` frames into a block is to make on its unit generator. -/
def specCalls (ch : Change V Sm) (d : Nat) : List (UCall V Sm) :=
  (if d = 0 then [] else [.delay ch.param d]) ++ ch.smoothing.toList.map (.smoothing ch.param) ++
    ch.value.toList.map (.value ch.param)

theorem calls_spec {c : GenCfg} (hu : c.bs ≤ 65536) {a : Applied V Sm} (ha : a.delay < c.bs) :
    a.calls.map toUnit = specCalls a.change a.delay := by
  rw [C18_calls ha hu, specCalls]
  simp only [List.map_append, List.map_map]
  congr 1
  congr 1
  split <;> rfl

/-- **C76.**  In every interleaving of edits, commits, events and blocks, every block puts out what the graph
of the last commit means, where every unit generator first gets the calls of the changes to its own node that
the event phase applies in that block; the nodes the event phase sees are those of that graph; and no block
panics before the clock overflows.

Missing for the full claim: graphs that are not `Fine`, edits that do not ask for a new schedule and what happens
after a panic, as in C67; the changes that are dropped, as in C20. -/
theorem C76_partial [Zero S] {P sl} {c : GenCfg} (hc : CfgOk c) {app : Key → UCall V Sm → St → St} {heap : Key → St}
    {e : E S St V Sm} {gc : Graph} {rs : List (Rec S St V Sm)} {sent} (h : Hist P sl c app heap e gc rs sent) :
    Means c.bs heap (rs.map (Rec.sys app)) e.y.heap ∧
    (∀ b r, rs[b]? = some r → outAt c (insOf rs) b = .ok r.out ∧ ∀ k, k ∈ r.keys ↔ Live r.g k) ∧
    ((rs.length + 1) * c.bs < U64 → ∀ active proc inp, ∃ x, block c app active e proc inp = .ok x) := by
  have hg := h.good hc
  refine ⟨(hg.sys.good hc.bs_pos).means,
    fun b r hr => ⟨hg.out b r hr, hg.keys r (List.mem_of_getElem? hr)⟩, ?_⟩
  intro hlt active proc inp
  obtain ⟨keys, q, out, y, o, -, -, -, -, hb⟩ := block_spec hc hg active proc inp
  rw [hb, addC, if_pos]
  · exact ⟨_, rfl⟩
  · rw [hg.clock]
    rw [Nat.add_mul, Nat.one_mul] at hlt
    exact hlt

/-- **C76.**  A change that was sent is called on the unit generator of its node, in the first block in which it is
due, its node is in the graph and its token is active, with the delay that leads to its frame. -/
theorem C76_arrives_partial [Zero S] {P sl} {c : GenCfg} (hc : CfgOk c) (hu : c.bs ≤ 65536)
    {app : Key → UCall V Sm → St → St} {heap : Key → St}
    {e : E S St V Sm} {gc : Graph} {rs : List (Rec S St V Sm)} {sent} (h : Hist P sl c app heap e gc rs sent)
    {k b : Nat} {rk rb : Rec S St V Sm} (hk : rs[k]? = some rk) (hb : rs[b]? = some rb)
    {ev : Event V Sm} (hev : ev ∈ rk.new) (hx : ExactTime c ev) (hroom : Room c (insOf rs) k)
    (hkb : k ≤ b) (hwin : b - k ≤ c.keep + 1)
    (hlive : Live rb.g ev.change.key) (htok : ∀ t, ev.change.token = some t → rb.active t = true)
    (hdue : target c k ev < (b + 1) * c.bs)
    (hfirst : ∀ b' r', k ≤ b' → b' < b → rs[b']? = some r' →
      ¬ Live r'.g ev.change.key ∨ (∃ t, ev.change.token = some t ∧ r'.active t = false) ∨
        (b' + 1) * c.bs ≤ target c k ev) :
    ∃ pre post, callsFor rb.out ev.change.key = pre ++ specCalls ev.change (target c k ev - b * c.bs) ++ post := by
  have hg := h.good hc
  have hi : ∀ b r, rs[b]? = some r → insOf rs b = ⟨r.new, r.keys, r.active⟩ := by
    intro b r hr; rw [insOf, hr]
  have hbl : b < rs.length := (List.getElem?_eq_some_iff.1 hb).1
  obtain ⟨out, ho, a, ha, hac, had⟩ := C20_applied_partial hc (insOf_ok hg.new) (k := k) (b := b) (e := ev)
    (by rw [hi k rk hk]; exact hev) hx hroom hkb hwin
    (by
      rw [Available, hi b rb hb]
      exact ⟨(hg.keys rb (List.mem_of_getElem? hb) _).2 hlive, htok⟩) hdue (by
      intro b' h1 h2
      have hb' : b' < rs.length := Nat.lt_trans h2 hbl
      have hr' : rs[b']? = some rs[b'] := List.getElem?_eq_getElem hb'
      rcases hfirst b' _ h1 h2 hr' with h3 | ⟨t, h3, h4⟩ | h3
      · left
        rw [Available, hi b' _ hr']
        exact fun h4 => h3 ((hg.keys _ (List.mem_of_getElem? hr') _).1 h4.1)
      · left
        rw [Available, hi b' _ hr']
        intro h5
        have := h5.2 t h3
        exact absurd (h4.symm.trans this) (by decide)
      · exact .inr h3)
  rw [hg.out b rb hb, Except.ok.injEq] at ho
  subst ho
  have hdl : a.delay < c.bs := by
    rw [had]
    rw [Nat.add_mul] at hdue
    have := hc.bs_pos
    omega
  have hmem : a ∈ rb.out.filter fun a => a.change.key = ev.change.key := by
    rw [List.mem_filter]
    exact ⟨ha, by simp [hac]⟩
  obtain ⟨l1, l2, hl⟩ := List.append_of_mem hmem
  refine ⟨l1.flatMap (fun a => a.calls.map toUnit), l2.flatMap (fun a => a.calls.map toUnit), ?_⟩
  rw [callsFor, hl, List.flatMap_append, List.flatMap_cons, calls_spec hu hdl, hac, had, List.append_assoc]

/-- **C76.**  The unit generators get no other calls: all calls on the unit generator of node `n` in block `b` are
those of changes that were sent to node `n`, are due in that block at the frame their delay leads to (or late), and
could not have been applied before. -/
theorem C76_sound [Zero S] {P sl} {c : GenCfg} (hc : CfgOk c) (hu : c.bs ≤ 65536)
    {app : Key → UCall V Sm → St → St} {heap : Key → St}
    {e : E S St V Sm} {gc : Graph} {rs : List (Rec S St V Sm)} {sent} (h : Hist P sl c app heap e gc rs sent)
    (hx : ∀ r ∈ rs, ∀ ev ∈ r.new, ExactTime c ev)
    {b : Nat} {rb : Rec S St V Sm} (hb : rs[b]? = some rb) (n : Key) :
    ∃ l : List (Change V Sm × Nat), callsFor rb.out n = l.flatMap (fun p => specCalls p.1 p.2) ∧
      ∀ p ∈ l, p.1.key = n ∧ p.2 < c.bs ∧ Live rb.g n ∧ ∃ k rk ev, k ≤ b ∧ rs[k]? = some rk ∧ ev ∈ rk.new ∧
        ev.change = p.1 ∧ p.2 = target c k ev - b * c.bs ∧ target c k ev < (b + 1) * c.bs ∧
        (∀ t, p.1.token = some t → rb.active t = true) ∧
        ∀ b' r', k ≤ b' → b' < b → rs[b']? = some r' →
          ¬ Live r'.g n ∨ (∃ t, p.1.token = some t ∧ r'.active t = false) ∨ (b' + 1) * c.bs ≤ target c k ev := by
  have hg := h.good hc
  have hi : ∀ b r, rs[b]? = some r → insOf rs b = ⟨r.new, r.keys, r.active⟩ := by
    intro b r hr; rw [insOf, hr]
  have hex : ∀ k, ∀ ev ∈ (insOf rs k).new, ExactTime c ev := by
    intro k ev hev
    cases hr : rs[k]? with
    | none => rw [insOf, hr] at hev; simp at hev
    | some r => rw [hi k r hr] at hev; exact hx r (List.mem_of_getElem? hr) ev hev
  have hs := fun a ha => C18_C19_sound hc (insOf_ok hg.new) hex (hg.out b rb hb) (a := a) ha
  refine ⟨(rb.out.filter fun a => a.change.key = n).map fun a => (a.change, a.delay), ?_, ?_⟩
  · rw [callsFor, List.flatMap_map]
    refine List.flatMap_congr fun a ha => ?_
    obtain ⟨-, -, -, -, -, -, -, h6, -⟩ := hs a (List.mem_filter.1 ha).1
    exact calls_spec hu h6
  · intro p hp
    obtain ⟨a, ha, rfl⟩ := List.mem_map.1 hp
    rw [List.mem_filter] at ha
    have hkey : a.change.key = n := by simpa using ha.2
    obtain ⟨k, ev, h1, h2, h3, h4, h5, h6, h7, h8, h9⟩ := hs a ha.1
    rw [Available, hi b rb hb, ← h3, hkey] at h8
    cases hrk : rs[k]? with
    | none => rw [insOf, hrk] at h2; simp at h2
    | some rk =>
      rw [hi k rk hrk] at h2
      refine ⟨hkey, h6, (hg.keys rb (List.mem_of_getElem? hb) n).1 h8.1, k, rk, ev, h1, hrk, h2, h3.symm, h5, h4,
        h8.2, ?_⟩
      intro b' r' h10 h11 hr'
      rcases h9 b' h10 h11 with h12 | h12
      · rw [Available, hi b' r' hr', ← h3, hkey] at h12
        by_cases hl : Live r'.g n
        · right
          left
          have h13 : ¬ ∀ t, a.change.token = some t → r'.active t = true :=
            fun h14 => h12 ⟨(hg.keys r' (List.mem_of_getElem? hr') n).2 hl, h14⟩
          push Not at h13
          obtain ⟨t, h14, h15⟩ := h13
          exact ⟨t, h14, by simpa using h15⟩
        · exact .inl hl
      · exact .inr (.inr h12)

theorem received_eq (rs : List (Rec S St V Sm)) : ∀ b, b ≤ rs.length →
    receivedBefore (insOf rs) b = (rs.take b).flatMap Rec.new := by
  intro b
  induction b with
  | zero => intro _; rfl
  | succ b ih =>
    intro hb
    have hr : rs[b]? = some rs[b] := List.getElem?_eq_getElem (by omega)
    rw [receivedBefore, ih (by omega), insOf, hr, List.take_succ, hr, List.flatMap_append]
    simp

/-- **C76.**  Everything that was sent is received once and in order, and the changes applied in a block are applied in
the order in which they were sent. -/
theorem C76_order [Zero S] {P sl} {c : GenCfg} (hc : CfgOk c)
    {app : Key → UCall V Sm → St → St} {heap : Key → St}
    {e : E S St V Sm} {gc : Graph} {rs : List (Rec S St V Sm)} {sent} (h : Hist P sl c app heap e gc rs sent) :
    rs.flatMap Rec.new ++ e.evs = sent ∧
    ∀ (b : Nat) (rb : Rec S St V Sm), rs[b]? = some rb → (rb.out.map Applied.change).Sublist (sent.map Event.change) := by
  have hg := h.good hc
  refine ⟨hg.fifo, fun b rb hb => ?_⟩
  have hlt : b < rs.length := (List.getElem?_eq_some_iff.1 hb).1
  have h1 := C21_in_block_order hc (insOf_ok hg.new) (hg.out b rb hb)
  rw [received_eq rs (b + 1) (by omega)] at h1
  refine h1.trans (List.Sublist.map _ ?_)
  rw [← hg.fifo]
  refine List.Sublist.trans ?_ (List.sublist_append_left _ _)
  conv => rhs; rw [← List.take_append_drop (b + 1) rs]
  rw [List.flatMap_append]
  exact List.sublist_append_left _ _

/-! ### Together with `WrPreciseTiming` -/

/-- The unit generator of node `n` is the wrapper of `Model/Wrappers.lean` around `u`: `emb` are its states, `rd` the
frames of the block it reads, `wr` the samples it writes. -/
structure Precise {I T : Type} {outs : Nat} (u : W.UGen I T V outs) (params : Nat)
    (app : Key → UCall V Sm → St → St) (proc : Proc S St) (n : Key) (emb : W.PT u.St V → St)
    (rd : List (List S) → List (Nat × List S) → List I) (wr : W.Block T outs → Nat → Nat → S) : Prop where
  delay : ∀ {p p' : W.PT u.St V} {i d}, p.setDelay params i d = .ok p' → app n (.delay i d) (emb p) = emb p'
  value : ∀ {p p' : W.PT u.St V} {i v}, p.apply u params i v = .ok p' → app n (.value i v) (emb p) = emb p'
  block : ∀ {p p' : W.PT u.St V} {ins ps o}, p.block u 0 (rd ins ps) = .ok (p', o) →
    proc n (emb p) ins ps = (emb p', wr o)

theorem callAll_sendAll {I T : Type} {outs : Nat} {u : W.UGen I T V outs} {params : Nat}
    {app : Key → UCall V Sm → St → St} {proc : Proc S St} {n : Key} {emb : W.PT u.St V → St} {rd wr}
    (hp : Precise u params app proc n emb rd wr) : ∀ (chs : List (W.Delayed V)) (p p' : W.PT u.St V),
    (∀ d ∈ chs, 0 < d.1) → W.sendAll u params p chs = .ok p' →
    callAll app n (chs.flatMap fun d => specCalls ⟨n, d.2.1, some d.2.2, none, none⟩ d.1) (emb p) = emb p' := by
  intro chs
  induction chs with
  | nil =>
    intro p p' _ h
    simp only [W.sendAll, Except.ok.injEq] at h
    subst h
    rfl
  | cons d chs ih =>
    intro p p' hd h
    obtain ⟨d, i, v⟩ := d
    have h0 : d ≠ 0 := Nat.pos_iff_ne_zero.1 (hd _ (List.mem_cons_self ..))
    rw [W.sendAll] at h
    cases h1 : p.setDelay params i d with
    | error e => simp [h1] at h
    | ok p1 =>
      rw [h1] at h
      simp only at h
      cases h2 : p1.apply u params i v with
      | error e => simp [h2] at h
      | ok p2 =>
        rw [h2] at h
        simp only at h
        have := ih p2 p' (fun x hx => hd x (List.mem_cons_of_mem _ hx)) h
        rw [List.flatMap_cons, callAll, List.foldl_append]
        rw [← this, ← hp.value h2, ← hp.delay h1]
        simp [specCalls, h0, callAll]

/-- **C76.**  A node with precise timing: if the changes to it in a block all lie behind the first frame and
come in the order of their frames, the node puts out what it means to process frame by frame and to apply every change
right before its frame.

Missing: changes that are due at the first frame, that are out of order, or too many (C30 and C31 are violated
for those). -/
theorem C76_sample_exact_partial [Zero S] {I T : Type} {outs : Nat} {u : W.UGen I T V outs} (hu : W.Lawful u)
    {params : Nat} {app : Key → UCall V Sm → St → St} {rb : Rec S St V Sm} {n : Key} {emb : W.PT u.St V → St} {rd wr}
    (hp : Precise u params app rb.proc n emb rd wr)
    {bs : Nat} {st st' : Key → St} {out : Key → Nat → Nat → S}
    (hb : BlockSpec rb.g bs (rb.sys app).proc rb.inp st st' out)
    {es : List (Option Edge)} {ps : List PEdge} (hl : Live rb.g n) (hes : rb.g.ins n = some es)
    (hps : rb.g.pars n = some ps) {p : W.PT u.St V} (hst : st n = emb p) (h0 : p.cnt = 0)
    {chs : List (W.Delayed V)}
    (hcalls : callsFor rb.out n = chs.flatMap fun d => specCalls ⟨n, d.2.1, some d.2.2, none, none⟩ d.1)
    (hsort : chs.Pairwise (fun a b => a.1 ≤ b.1))
    (hin : ∀ d ∈ chs, 0 < d.1 ∧ d.1 < (rd (es.map (edgeVal bs rb.inp out))
      (ps.map fun pe => (pe.param, (List.range bs).map (out pe.source pe.chan)))).length ∧ d.2.1 < params)
    (hroom : chs.length ≤ p.waiting.length) :
    let xs := rd (es.map (edgeVal bs rb.inp out))
      (ps.map fun pe => (pe.param, (List.range bs).map (out pe.source pe.chan)))
    ∃ p', st' n = emb p' ∧ p'.inner = (W.refRun u chs 0 p.inner xs).1 ∧ p'.cnt = 0 ∧
      p'.waiting.length = p.waiting.length ∧ out n = wr (W.toBlock (W.refRun u chs 0 p.inner xs).2) := by
  intro xs
  obtain ⟨p1, p2, h1, h2, h3, h4, h5⟩ := W.C30_precise_partial hu p h0 chs xs hsort hin hroom
  have hstep := hb.step n es ps hl hes hps
  have hc := callAll_sendAll hp chs p p1 (fun d hd => (hin d hd).1) h1
  simp only [Rec.sys, withCalls] at hstep
  rw [hst, hcalls, hc, hp.block h2] at hstep
  simp only [Prod.mk.injEq] at hstep
  exact ⟨p2, hstep.1.symm, h3, h4, h5, hstep.2.symm⟩

end

/-! ### A history -/

/-- Steps of a run, for the examples. -/
inductive Step
  | ed (op : Op)
  | com
  | ev (e : Event Nat Unit)
  | blk

/-- Blocks of 4 frames at 4 frames a second. -/
def demoCfg : GenCfg := ⟨4, 4, 4, 1⟩

theorem demoCfg_ok : CfgOk demoCfg := ⟨by decide, by decide, by decide, by decide, by decide⟩

/-- Every node puts out its parameter, with precise timing. -/
def demoApp (_ : Key) (call : UCall Nat Unit) (p : W.PT Nat Nat) : W.PT Nat Nat :=
  match call with
  | .delay i d => ((W.PT.setDelay 1 p i d).toOption).getD p
  | .value i v => ((W.PT.apply W.hold 1 p i v).toOption).getD p
  | .smoothing _ _ => p

def demoProc : Proc Nat (W.PT Nat Nat) := fun _ p _ _ =>
  match W.PT.block W.hold 0 p [(), (), (), ()] with
  | .ok (p, o) => (p, fun _ i => (o 0).getD i 0)
  | .error _ => (p, fun _ _ => 0)

abbrev DemoE := E Nat (W.PT Nat Nat) Nat Unit

/-- What is looked at in a block: the outputs, the events received and the calls on node 0. -/
structure Obs where
  o : List (List Nat)
  new : List (Event Nat Unit)
  calls : List (UCall Nat Unit)
  deriving DecidableEq

def Rec.obs (r : Rec Nat (W.PT Nat Nat) Nat Unit) : Obs := ⟨r.o, r.new, callsFor r.out 0⟩

/-- Run the steps. -/
def demoRun (e : DemoE) : List Step → R (DemoE × List Obs)
  | [] => .ok (e, [])
  | .ed op :: ss => do
    let (y, _) ← Sys.edit id e.y op
    demoRun { e with y := y } ss
  | .com :: ss => do
    let y ← Sys.commit 4 e.y (fun _ => false)
    demoRun { e with y := y } ss
  | .ev ev :: ss => demoRun (send e ev).1 ss
  | .blk :: ss => do
    let (e', o, out) ← block demoCfg demoApp (fun _ => false) e demoProc (fun _ _ => 0)
    let (e'', os) ← demoRun e' ss
    .ok (e'', ⟨o, e.evs, callsFor out 0⟩ :: os)

/-- A change of node 0 to 7 at 6/4 seconds is sent before the node is committed, and one of node 1 to 9 that is due at
frame 14, when node 1 is in the graph. -/
def demoSteps : List Step := [.ed (.push 0 1 []), .ed (.connect (.node (nd 0)) 0 0 .graph false false),
  .ev ⟨⟨0, 0, some 7, none, none⟩, some ⟨⟨1, 141120000⟩, true⟩⟩, .com, .blk, .blk,
  .ed (.push 0 1 []), .ed (.connect (.node (nd 1)) 0 0 .graph false false), .blk, .com,
  .ev ⟨⟨1, 0, some 9, none, none⟩, some ⟨⟨3, 141120000⟩, true⟩⟩, .blk, .blk]

-- the changes are heard from frame 6 and from frame 14 on
example : (demoRun (.init 0 0 1 4 4 (fun _ => W.PT.init 0 2)) demoSteps).map (fun x => x.2.map Obs.o) =
    .ok [[[0, 0, 0, 0]], [[0, 0, 7, 7]], [[7, 7, 7, 7]], [[0, 0, 9, 9]], [[9, 9, 9, 9]]] := by decide +kernel

/-- The conditions of `Hist`, checked on the way. -/
def demoChk (e : DemoE) : List Step → Bool
  | [] => true
  | .ed op :: ss => !isCommit op && match Sys.edit id e.y op with
    | .ok (y, _) => demoChk { e with y := y } ss
    | .error _ => false
  | .com :: ss => (match freeOld (fun _ => false) (fun f => e.y.applied (f + 1)) e.y.g with
      | .ok g1 => !g1.recalc || Sys.fineB g1 (fun _ => 0) id
      | .error _ => false) && match Sys.commit 4 e.y (fun _ => false) with
    | .ok y => demoChk { e with y := y } ss
    | .error _ => false
  | .ev ev :: ss => (match ev.time with
      | some t => decide (t.seconds.sub < 282240000 ∧ t.seconds.seconds < 4294967296)
      | none => true) && demoChk (send e ev).1 ss
  | .blk :: ss => match block demoCfg demoApp (fun _ => false) e demoProc (fun _ _ => 0) with
    | .ok (e, _, _) => demoChk e ss
    | .error _ => false

theorem demo_hist (heap : Key → W.PT Nat Nat) :
    ∀ (ss : List Step) (e : DemoE) (gc : Graph) (rs : List (Rec Nat (W.PT Nat Nat) Nat Unit))
      (sent : List (Event Nat Unit)),
    Hist (fun _ _ => True) id demoCfg demoApp heap e gc rs sent → demoChk e ss = true →
    ∃ e' gc' rs' sent' os, Hist (fun _ _ => True) id demoCfg demoApp heap e' gc' rs' sent' ∧ demoRun e ss = .ok (e', os) ∧
      rs'.map Rec.obs = rs.map Rec.obs ++ os := by
  intro ss
  induction ss with
  | nil => intro e gc rs sent h _; exact ⟨e, gc, rs, sent, [], h, rfl, by simp⟩
  | cons s ss ih =>
    intro e gc rs sent h hc
    cases s with
    | ed op =>
      rw [demoChk, Bool.and_eq_true] at hc
      obtain ⟨h1, h2⟩ := hc
      cases he : Sys.edit id e.y op with
      | error x => simp [he] at h2
      | ok x =>
        obtain ⟨y1, r⟩ := x
        rw [he] at h2
        obtain ⟨e', gc', rs', sent', os, q1, q2, q3⟩ := ih _ gc rs _ (.edit h (by simpa using h1) trivial he) h2
        exact ⟨e', gc', rs', sent', os, q1, by rw [demoRun, he]; exact q2, q3⟩
    | com =>
      rw [demoChk, Bool.and_eq_true] at hc
      obtain ⟨h1, h2⟩ := hc
      cases hf : freeOld (fun _ => false) (fun f => e.y.applied (f + 1)) e.y.g with
      | error x => simp [hf] at h1
      | ok g1 =>
        cases he : Sys.commit 4 e.y (fun _ => false) with
        | error x => simp [he] at h2
        | ok y1 =>
          rw [he] at h2
          rw [hf] at h1
          have hfine : g1.recalc = true → Fine g1 := by
            intro hr
            simp only [hr, Bool.not_true, Bool.false_or] at h1
            exact Sys.fine_of_check _ _ h1
          obtain ⟨e', gc', rs', sent', os, q1, q2, q3⟩ := ih _ _ rs _ (.commit h hf hfine he) h2
          exact ⟨e', gc', rs', sent', os, q1, by rw [demoRun, he]; exact q2, q3⟩
    | ev ev =>
      rw [demoChk, Bool.and_eq_true] at hc
      obtain ⟨h1, h2⟩ := hc
      have ht : TimeOk ev := by
        intro t ht
        rw [ht] at h1
        simp only [decide_eq_true_eq] at h1
        exact h1
      obtain ⟨e', gc', rs', sent', os, q1, q2, q3⟩ := ih _ gc rs _ (.send h ht) h2
      exact ⟨e', gc', rs', sent', os, q1, by rw [demoRun]; exact q2, q3⟩
    | blk =>
      rw [demoChk] at hc
      cases he : block demoCfg demoApp (fun _ => false) e demoProc (fun _ _ => 0) with
      | error x => simp [he] at hc
      | ok x =>
        obtain ⟨e1, o, out⟩ := x
        rw [he] at hc
        obtain ⟨e', gc', rs', sent', os, q1, q2, q3⟩ := ih e1 gc _ _ (.block _ _ _ h he) hc
        refine ⟨e', gc', rs', sent', ⟨o, e.evs, callsFor out 0⟩ :: os, q1, ?_, by simpa [Rec.obs] using q3⟩
        rw [demoRun, he]
        simp only [bind_ok]
        rw [q2]
        rfl

/-- The history of the example is one that `C76_partial` speaks of. -/
example : ∃ (e : DemoE) (gc : Graph) (rs : List (Rec Nat (W.PT Nat Nat) Nat Unit)) (sent : _),
    Hist (fun _ _ => True) id demoCfg demoApp (fun _ => W.PT.init 0 2) e gc rs sent ∧
    rs.map Rec.o = [[[0, 0, 0, 0]], [[0, 0, 7, 7]], [[7, 7, 7, 7]], [[0, 0, 9, 9]], [[9, 9, 9, 9]]] := by
  obtain ⟨e, gc, rs, sent, os, h1, h2, h3⟩ := demo_hist (fun _ => W.PT.init 0 2) demoSteps _ _ _ _
    (.init 0 0 1 4) (by decide +kernel)
  refine ⟨e, gc, rs, sent, h1, ?_⟩
  have : (demoRun (.init 0 0 1 4 4 (fun _ => W.PT.init 0 2)) demoSteps).map (fun x => x.2.map Obs.o) =
    .ok [[[0, 0, 0, 0]], [[0, 0, 7, 7]], [[7, 7, 7, 7]], [[0, 0, 9, 9]], [[9, 9, 9, 9]]] := by decide +kernel
  have h2' : demoRun (.init 0 0 1 4 4 (fun _ => W.PT.init 0 2)) demoSteps = .ok (e, os) := h2
  rw [h2'] at this
  simp only [Except.map, Except.ok.injEq] at this
  rw [show rs.map Rec.o = (rs.map Rec.obs).map Obs.o by simp [Rec.obs, Function.comp_def], h3]
  exact this

/-- The demo nodes are wrappers as `C76_sample_exact_partial` speaks of. -/
example (n : Key) : Precise (V := Nat) (Sm := Unit) (S := Nat) W.hold 1 demoApp demoProc n id
    (fun _ _ => [(), (), (), ()]) (fun o _ i => (o 0).getD i 0) where
  delay := by
    intro p p' i d h
    have h' : W.PT.setDelay (σ := Nat) 1 p i d = .ok p' := h
    simp only [demoApp, id]
    rw [h']
    rfl
  value := by
    intro p p' i v h
    simp only [demoApp, id]
    rw [h]
    rfl
  block := by intro p p' ins ps o h; simp [demoProc, h]

/-- The steps for `C76_violated`: a change to 7 at frame 6, and one to 9 that is sent without a time before the block
that starts at frame 8. -/
def lateSteps : List Step := [.ed (.push 0 1 []), .ed (.connect (.node (nd 0)) 0 0 .graph false false), .com,
  .ev ⟨⟨0, 0, some 7, none, none⟩, some ⟨⟨1, 141120000⟩, true⟩⟩, .blk, .blk,
  .ev ⟨⟨0, 0, some 9, none, none⟩, none⟩, .blk, .blk]

/-- **C76** is violated as C31 is: in the playing graph, after a change that was due two frames into a block, a change
that is to happen at once is heard two frames into its block. -/
theorem C76_violated : ∃ (e : DemoE) (gc : Graph) (rs : List (Rec Nat (W.PT Nat Nat) Nat Unit)) (sent : _),
    Hist (fun _ _ => True) id demoCfg demoApp (fun _ => W.PT.init 0 2) e gc rs sent ∧
    (∃ r, rs[2]? = some r ∧ ⟨⟨0, 0, some 9, none, none⟩, none⟩ ∈ r.new ∧ callsFor r.out 0 = [.value 0 9]) ∧
    rs.map Rec.o = [[[0, 0, 0, 0]], [[0, 0, 7, 7]], [[7, 7, 9, 9]], [[9, 9, 9, 9]]] := by
  obtain ⟨e, gc, rs, sent, os, h1, h2, h3⟩ := demo_hist (fun _ => W.PT.init 0 2) lateSteps _ _ _ _
    (.init 0 0 1 4) (by decide +kernel)
  have h4 : (demoRun (.init 0 0 1 4 4 (fun _ => W.PT.init 0 2)) lateSteps).map Prod.snd =
      .ok [⟨[[0, 0, 0, 0]], [⟨⟨0, 0, some 7, none, none⟩, some ⟨⟨1, 141120000⟩, true⟩⟩], []⟩,
        ⟨[[0, 0, 7, 7]], [], [.delay 0 2, .value 0 7]⟩,
        ⟨[[7, 7, 9, 9]], [⟨⟨0, 0, some 9, none, none⟩, none⟩], [.value 0 9]⟩, ⟨[[9, 9, 9, 9]], [], []⟩] := by
    decide +kernel
  have h2' : demoRun (.init 0 0 1 4 4 (fun _ => W.PT.init 0 2)) lateSteps = .ok (e, os) := h2
  rw [h2'] at h4
  simp only [Except.map, Except.ok.injEq] at h4
  rw [h4, List.map_nil, List.nil_append] at h3
  refine ⟨e, gc, rs, sent, h1, ?_, ?_⟩
  · have h5 : (rs.map Rec.obs)[2]? = some ⟨[[7, 7, 9, 9]], [⟨⟨0, 0, some 9, none, none⟩, none⟩], [.value 0 9]⟩ := by
      rw [h3]; rfl
    rw [List.getElem?_map, Option.map_eq_some_iff] at h5
    obtain ⟨r, h6, h7⟩ := h5
    simp only [Rec.obs, Obs.mk.injEq] at h7
    exact ⟨r, h6, by rw [h7.2.1]; simp, h7.2.2⟩
  · rw [show rs.map Rec.o = (rs.map Rec.obs).map Obs.o by simp [Rec.obs, Function.comp_def], h3]
    rfl

end Verif.Eng
