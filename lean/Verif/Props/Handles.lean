import Verif.Lemmas.Handles
import Verif.Props.Arith

/-!
# C63: connecting handles channel by channel
-/

namespace Verif.H

open Verif.G Verif.Ar Relation

/-! ### The channels of a handle -/

/-- The output channels a handle stands for: those of a node in order, a stack one after the other. -/
def SHandle.outs : SHandle → List Chan
  | .node n _ o => (List.range o).map fun i : Nat => (NG.node n, i)
  | .chans l => l
  | .stack a b => a.outs ++ b.outs

/-- The input channels a handle stands for. -/
def SHandle.ins : SHandle → List Chan
  | .node n i _ => (List.range i).map fun j : Nat => (NG.node n, j)
  | .chans _ => []
  | .stack a b => a.ins ++ b.ins

theorem SHandle.outs_length (h : SHandle) : h.outs.length = h.outT := by
  induction h with
  | node n i o => simp [SHandle.outs, SHandle.outT]
  | chans l => rfl
  | stack a b iha ihb => simp [SHandle.outs, SHandle.outT, iha, ihb]

theorem SHandle.ins_length (h : SHandle) : h.ins.length = h.inT := by
  induction h with
  | node n i o => simp [SHandle.ins, SHandle.inT]
  | chans l => rfl
  | stack a b iha ihb => simp [SHandle.ins, SHandle.inT, iha, ihb]

/-- C63, the channels of static handles: iterating over the channels of any handle, however it was stacked, never
panics and gives the channels of its parts in order, as many as its type says. -/
theorem C63_channels (h : SHandle) : h.iterOut = .ok h.outs ∧ h.iterIn = .ok h.ins ∧
    h.outs.length = h.outT ∧ h.ins.length = h.inT := by
  refine ⟨?_, ?_, h.outs_length, h.ins_length⟩
  · induction h with
    | node n i o => exact build_ok (by simp)
    | chans l => rfl
    | stack a b iha ihb =>
      simp only [SHandle.iterOut, iha, ihb, bind_ok]
      exact build_ok (by simp [SHandle.outs_length])
  · induction h with
    | node n i o => exact build_ok (by simp)
    | chans l => rfl
    | stack a b iha ihb =>
      simp only [SHandle.iterIn, iha, ihb, bind_ok]
      exact build_ok (by simp [SHandle.ins_length])

/-- The node handles inside a handle agree with the nodes of the graph. -/
def SHandle.Fits (g : Graph) : SHandle → Prop
  | .node n i o => n.graph = g.id ∧ ∃ r, g.get n.key = some r ∧ r.inputs = i ∧ r.outputs = o
  | .chans _ => True
  | .stack _ _ => True

/-- C63, static and dynamic handles: turning a static handle of an existing node, or any combination of channels, into
a dynamic one keeps the channels and their order. -/
theorem C63_dynamic (g : Graph) (h : SHandle) (hf : h.Fits g) : ∃ d, h.dynamic g = .ok d ∧
    d.iterOut = h.outs ∧ d.iterIn = h.ins := by
  cases h with
  | node n i o =>
    obtain ⟨h1, r, h2, rfl, rfl⟩ := hf
    refine ⟨.node n r.inputs r.outputs, ?_, rfl, rfl⟩
    simp [SHandle.dynamic, nodeData, h1, h2]
  | chans l => exact ⟨_, rfl, rfl, rfl⟩
  | stack a b =>
    obtain ⟨h1, h2, -⟩ := C63_channels a
    obtain ⟨h3, h4, -⟩ := C63_channels b
    refine ⟨.chans (a.ins ++ b.ins) (a.outs ++ b.outs), ?_, rfl, rfl⟩
    simp [SHandle.dynamic, h1, h2, h3, h4]

/-- C63, `|` on dynamic handles: the channels of the left side, then those of the right side, as for static handles,
if there are fewer than 65536 of them. -/
theorem C63_stack_dynamic (a b : DHandle) (hi : a.iterIn.length + b.iterIn.length < 65536)
    (ho : a.iterOut.length + b.iterOut.length < 65536) : ∃ d, a.stack b = .ok d ∧
    d.iterOut = a.iterOut ++ b.iterOut ∧ d.iterIn = a.iterIn ++ b.iterIn := by
  have key : ∀ d : DHandle, (d.iterIn.length < 65536 → d.inputs = d.iterIn.length) ∧
      (d.iterOut.length < 65536 → d.outputs = d.iterOut.length) := by
    intro d
    cases d with
    | node n i o => simp [DHandle.inputs, DHandle.iterIn, DHandle.outputs, DHandle.iterOut]
    | chans i o => exact ⟨fun h => Nat.mod_eq_of_lt h, fun h => Nat.mod_eq_of_lt h⟩
  refine ⟨.chans (a.iterIn ++ b.iterIn) (a.iterOut ++ b.iterOut), ?_, rfl, rfl⟩
  simp only [DHandle.stack, (key a).1 (by omega), (key b).1 (by omega), (key a).2 (by omega), (key b).2 (by omega),
    addC, if_pos hi, if_pos ho, bind_ok, pure_ok]

theorem pick_iff (l : List Chan) : ∀ cs : List Nat,
    ((∀ c ∈ cs, c < l.length) → ∃ r, pick l cs = .ok r ∧ r.length = cs.length ∧
      ∀ (j c : Nat), cs[j]? = some c → r[j]? = l[c]?) ∧
    ((∃ c ∈ cs, l.length ≤ c) → pick l cs = .error .unwrap)
  | [] => ⟨fun _ => ⟨[], rfl, rfl, by simp⟩, by simp⟩
  | c :: cs => by
    obtain ⟨h1, h2⟩ := pick_iff l cs
    constructor
    · intro h
      obtain ⟨r, h3, h4, h5⟩ := h1 (fun x hx => h x (by simp [hx]))
      have hc : c < l.length := h c (by simp)
      refine ⟨l[c] :: r, ?_, by simp [h4], ?_⟩
      · simp [pick, List.getElem?_eq_getElem hc, h3]
      · intro j x hx
        cases j with
        | zero =>
          simp only [List.getElem?_cons_zero, Option.some.injEq] at hx ⊢
          subst hx
          simp [List.getElem?_eq_getElem hc]
        | succ j => simpa using h5 j x (by simpa using hx)
    · intro h
      by_cases hc : c < l.length
      · obtain ⟨x, hx, hlx⟩ := h
        have : ∃ c ∈ cs, l.length ≤ c := by
          rcases List.mem_cons.1 hx with rfl | hx
          · omega
          · exact ⟨x, hx, hlx⟩
        simp [pick, List.getElem?_eq_getElem hc, h2 this]
      · simp [pick, List.getElem?_eq_none (Nat.le_of_not_lt hc)]

/-- C63, `out`: the `j`th channel of the result is the requested one; requesting a channel that does not exist panics. -/
theorem C63_out (h : SHandle) (cs : List Nat) :
    ((∀ c ∈ cs, c < h.outT) → ∃ h', h.out cs = .ok h' ∧ h'.outs.length = cs.length ∧ h'.ins = [] ∧
      ∀ (j c : Nat), cs[j]? = some c → h'.outs[j]? = h.outs[c]?) ∧
    ((∃ c ∈ cs, h.outT ≤ c) → h.out cs = .error .unwrap) := by
  obtain ⟨h1, -, h2, -⟩ := C63_channels h
  obtain ⟨h3, h4⟩ := pick_iff h.outs cs
  rw [h2] at h3 h4
  constructor
  · intro hc
    obtain ⟨r, h5, h6, h7⟩ := h3 hc
    refine ⟨.chans r, ?_, h6, rfl, h7⟩
    simp [SHandle.out, h1, h5]
  · intro hc
    simp [SHandle.out, h1, h4 hc]

/-- A stack of a two channel node and a selection of channels. -/
example : (SHandle.stack (.node ⟨0, 7⟩ 1 2) (.chans [(.graph, 3)])).out [2, 0] =
    .ok (.chans [(.graph, 3), (.node ⟨0, 7⟩, 0)]) := by decide

/-! ### What connecting does -/

/-- The signals the accepted connections of a list bring to a sink channel. -/
def brought {S : Type} (s : Signals S) (ps : List (Chan × Chan)) (rs : Results) (sink : NG) (i : Nat) : List S :=
  ((ps.zip rs).filter fun q => decide (q.2 = .ok ()) && hits sink i q.1.2).map fun q => s.src q.1.1.1.toSrc q.1.1.2

/-- A sink that existed in `g`. -/
def OldSink (g : Graph) (sink : NG) : Prop := ∀ n, sink = .node n → n.key < g.nextKey

/-- C63, connecting adds: for any list of source and sink channels, in any order and with any repetitions, every sink
channel of an existing node and every graph output afterwards receives what it received before plus the sources of
the accepted pairs that name it, each as often as it is named, and nothing else.  Refused pairs have no effect. -/
theorem C63_sum {S : Type} [AddCommMonoid S] {sl} : ∀ (ps : List (Chan × Chan)) {g g' : Graph} {rs}, Reach sl g →
    (∀ p ∈ ps, SinkOk g p.2.1) → logged sl true false g ps = .ok (g', rs) → ∀ s : Signals S, SumsOk g' s →
    ∀ sink i, OldSink g sink →
      s.at (g'.dst sink i) = s.at (g.dst sink i) + (brought s ps rs sink i).sum
  | [], g, g', rs, hr, hu, h, s, hs, sink, i, ho => by
    simp only [logged, Except.ok.injEq, Prod.mk.injEq] at h
    obtain ⟨rfl, rfl⟩ := h
    simp [brought]
  | p :: ps, g, g', rs, hr, hu, h, s, hs, sink, i, ho => by
    obtain ⟨g1, r, rs1, h1, h2, rfl⟩ := logged_cons h
    have hr1 : Reach sl g1 := hr.step (.connect p.1.1 p.1.2 p.2.2 p.2.1 true false) h1
    have hk := keeps_connect2 hr.wf h1
    have hu1 : ∀ q ∈ ps, SinkOk g1 q.2.1 := fun q hq => (hu q (by simp [hq])).keeps hk
    have hs1 := logged_back s ps hr1 hu1 h2 hs
    rw [C63_sum ps hr1 hu1 h2 s hs sink i (fun n hn => Nat.lt_of_lt_of_le (ho n hn) hk.next),
      at_connect hr h1 s hs1 sink i ho]
    by_cases hc : r = .ok () ∧ hits sink i p.2 = true
    · rw [if_pos hc]
      simp only [brought, List.zip_cons_cons, List.filter_cons, hc.1, hc.2, decide_true, Bool.and_self, if_true,
        List.map_cons, List.sum_cons]
      rw [add_assoc]
    · rw [if_neg hc]
      have : (decide (r = .ok ()) && hits sink i p.2) = false := by
        rw [Bool.and_eq_false_iff]
        by_cases hr : r = .ok ()
        · right
          exact Bool.eq_false_iff.2 fun hh => hc ⟨hr, hh⟩
        · left
          exact decide_eq_false hr
      simp only [brought, List.zip_cons_cons, List.filter_cons, this, Bool.false_eq_true, if_false]

/-- C63, connecting with replacement: every sink receives the source of the last accepted pair that names it, or what
it received before if there is none. -/
theorem C63_replace {S : Type} [AddZeroClass S] {sl} : ∀ (ps : List (Chan × Chan)) {g g' : Graph} {rs}, Reach sl g →
    (∀ p ∈ ps, SinkOk g p.2.1) → logged sl false false g ps = .ok (g', rs) → ∀ s : Signals S, SumsOk g' s →
    ∀ sink i, OldSink g sink →
      s.at (g'.dst sink i) = ((brought s ps rs sink i).getLast?).getD (s.at (g.dst sink i))
  | [], g, g', rs, hr, hu, h, s, hs, sink, i, ho => by
    simp only [logged, Except.ok.injEq, Prod.mk.injEq] at h
    obtain ⟨rfl, rfl⟩ := h
    simp [brought]
  | p :: ps, g, g', rs, hr, hu, h, s, hs, sink, i, ho => by
    obtain ⟨g1, r, rs1, h1, h2, rfl⟩ := logged_cons h
    have hr1 : Reach sl g1 := hr.step (.connect p.1.1 p.1.2 p.2.2 p.2.1 false false) h1
    have hk := keeps_connect2 hr.wf h1
    have hu1 : ∀ q ∈ ps, SinkOk g1 q.2.1 := fun q hq => (hu q (by simp [hq])).keeps hk
    have hs1 := logged_back s ps hr1 hu1 h2 hs
    rw [C63_replace ps hr1 hu1 h2 s hs sink i (fun n hn => Nat.lt_of_lt_of_le (ho n hn) hk.next),
      at_connect hr h1 s hs1 sink i ho]
    by_cases hc : r = .ok () ∧ hits sink i p.2 = true
    · rw [if_pos hc]
      simp only [brought, List.zip_cons_cons, List.filter_cons, hc.1, hc.2, decide_true, Bool.and_self, if_true,
        List.map_cons, Bool.false_eq_true, if_false, zero_add]
      rw [List.getLast?_cons]
      simp
    · rw [if_neg hc]
      have : (decide (r = .ok ()) && hits sink i p.2) = false := by
        rw [Bool.and_eq_false_iff]
        by_cases hr : r = .ok ()
        · right
          exact Bool.eq_false_iff.2 fun hh => hc ⟨hr, hh⟩
        · left
          exact decide_eq_false hr
      simp only [brought, List.zip_cons_cons, List.filter_cons, this, Bool.false_eq_true, if_false]

/-- C63, nothing else is disturbed: whatever signals the graph could carry before, it can still carry with the same
output of every node that existed (the equations used by `C63_sum` and `C63_replace` are solvable). -/
theorem C63_extend {S : Type} [AddZeroClass S] {sl add} : ∀ (ps : List (Chan × Chan)) {g g' : Graph} {rs}, Reach sl g →
    (∀ p ∈ ps, SinkOk g p.2.1) → logged sl add false g ps = .ok (g', rs) → ∀ s : Signals S, SumsOk g s →
    ∃ s' : Signals S, SumsOk g' s' ∧ (∀ k, k < g.nextKey → s'.v k = s.v k) ∧ s'.gin = s.gin
  | [], g, g', rs, hr, hu, h, s, hs => by
    simp only [logged, Except.ok.injEq, Prod.mk.injEq] at h
    obtain ⟨rfl, rfl⟩ := h
    exact ⟨s, hs, fun _ _ => rfl, rfl⟩
  | p :: ps, g, g', rs, hr, hu, h, s, hs => by
    obtain ⟨g1, r, rs1, h1, h2, rfl⟩ := logged_cons h
    have hr1 : Reach sl g1 := hr.step (.connect p.1.1 p.1.2 p.2.2 p.2.1 add false) h1
    have hk := keeps_connect2 hr.wf h1
    have hu1 : ∀ q ∈ ps, SinkOk g1 q.2.1 := fun q hq => (hu q (by simp [hq])).keeps hk
    obtain ⟨s1, k1, k2, k3⟩ : ∃ s1 : Signals S, SumsOk g1 s1 ∧ (∀ k, k < g.nextKey → s1.v k = s.v k) ∧
        s1.gin = s.gin := by
      cases r with
      | error e =>
        rw [C09_refused sl g g1 (.connect p.1.1 p.1.2 p.2.2 p.2.1 add false) e h1]
        exact ⟨s, hs, fun _ _ => rfl, rfl⟩
      | ok u =>
        refine (C05_connect hr _ _ _ _ add h1).extend s hs ?_
        intro m n hm hn
        have := hu p (by simp)
        rw [hm] at this
        obtain ⟨r, h3, h4⟩ := this
        rw [hn] at h3
        cases h3
        exact h4
    obtain ⟨s2, l1, l2, l3⟩ := C63_extend ps hr1 hu1 h2 s1 k1
    exact ⟨s2, l1, fun k hk' => (l2 k (Nat.lt_of_lt_of_le hk' hk.next)).trans (k2 k hk'), l3.trans k3⟩

/-! ### Which connections are accepted -/

/-- A sink channel of a node of the user that has not been freed, or an existing graph output. -/
def SinkLive (g : Graph) (c : Chan) : Prop :=
  match c.1 with
  | .node n => foreign n.graph g.id = false ∧ ∃ r, g.get n.key = some r ∧ r.autoMath = false ∧
      g.isPending n.key = false ∧ c.2 < r.inputs
  | .graph => c.2 < g.outs.length

theorem SinkLive.ok {g : Graph} {c : Chan} (h : SinkLive g c) : SinkOk g c.1 := by
  unfold SinkLive at h
  unfold SinkOk
  cases hc : c.1 with
  | graph => trivial
  | node n =>
    rw [hc] at h
    obtain ⟨-, r, h1, h2, -⟩ := h
    exact ⟨r, h1, h2⟩

theorem SinkLive.keeps {g g' : Graph} (hk : Keeps g g') {c : Chan} (h : SinkLive g c) : SinkLive g' c := by
  unfold SinkLive at h ⊢
  cases hc : c.1 with
  | graph => rw [hc] at h; simpa [hk.outs] using h
  | node n =>
    rw [hc] at h
    obtain ⟨h0, r, h1, h2, h3, h4⟩ := h
    obtain ⟨r', h5, h6, h7, -⟩ := hk.node _ _ h1
    exact ⟨by rw [hk.gid]; exact h0, r', h5, h6.trans h2, by rw [isPending_eq, hk.pending, ← isPending_eq]; exact h3,
      by rw [h7]; exact h4⟩

theorem valid_keeps {g g' : Graph} (hk : Keeps g g') {c : Chan} (h : Valid g c) : Valid g' c :=
  h.mono hk.gid hk.numIn fun k r hr => by
    obtain ⟨r', h1, -, -, h2⟩ := hk.node k r hr
    exact ⟨r', h1, h2⟩

/-- No sink of the list already feeds a source of the list (or is one). -/
def NoLoop (g : Graph) (ps : List (Chan × Chan)) : Prop :=
  ∀ p ∈ ps, ∀ q ∈ ps, ∀ k s, p.2.1 = .node k → q.1.1 = .node s → ¬ ReflTransGen (Feeds g) k.key s.key

/-- One connection between existing channels that closes no loop. -/
theorem accepts {sl} {g : Graph} (hw : WF g) (a c : Chan) (ha : Valid g a) (hc : SinkLive g c) (add : Bool)
    (hl : ∀ k s, c.1 = .node k → a.1 = .node s → ¬ ReflTransGen (Feeds g) k.key s.key) :
    ∃ g', connect2 sl g a.1 a.2 c.2 c.1 add false = .ok (g', .ok ()) ∧
      ∀ x y, x < g.nextKey → y < g.nextKey → ReflTransGen (Feeds g') x y →
        ReflTransGen (Feeds g) x y ∨ ∃ k, c.1 = .node k ∧ ReflTransGen (Feeds g) k.key y := by
  have hw0 : WF { g with recalc := true } := hw.congr rfl rfl rfl rfl
  have node : ∀ (source : Src) (n : NodeId) (r : NodeRec), g.get n.key = some r → g.isPending n.key = false →
      c.2 < r.inputs → (∀ k, source = .node k → k < g.nextKey) →
      ∃ g', connectToNode sl g source n.key a.2 c.2 add false = .ok g' ∧
        ∀ x y, x < g.nextKey → y < g.nextKey → ReflTransGen (Feeds g') x y →
          ReflTransGen (Feeds g) x y ∨ ReflTransGen (Feeds g) n.key y := by
    intro source n r hr hp hlt hs
    have hins : ∃ es, g.ins n.key = some es ∧ c.2 < es.length := by
      cases hi : r.ins with
      | none => rw [(hw.live _ _ hr).1 hi] at hp; simp at hp
      | some es => exact ⟨es, by rw [ins_eq, hr]; exact hi, by rw [hw.len _ _ _ hr hi]; exact hlt⟩
    obtain ⟨es, h1, h2⟩ := hins
    obtain ⟨g', h3⟩ := tail_total (sl := sl) (g := { g with recalc := true }) hw0 h1 h2 source a.2 add false
    refine ⟨g', by simp only [connectToNode, Bool.false_eq_true, if_false]; exact h3, ?_⟩
    intro x y hx hy hxy
    exact path_tail hw0 (hw.lt _ _ hr) hs h3 hx hy hxy
  have out : ∀ (source : Src), c.2 < g.outs.length → ∃ g', connectToOut sl g source a.2 c.2 add = .ok g' ∧
      ∀ x y, x < g.nextKey → y < g.nextKey → ReflTransGen (Feeds g') x y → ReflTransGen (Feeds g) x y := by
    intro source hlt
    obtain ⟨g', h3⟩ := toOut_total (sl := sl) hw hlt source a.2 add
    exact ⟨g', h3, fun x y _ hy hxy => path_toOut hw h3 hy hxy⟩
  unfold Valid at ha
  unfold SinkLive at hc
  unfold connect2
  cases ha1 : a.1 with
  | graph =>
    rw [ha1] at ha
    cases hc1 : c.1 with
    | graph =>
      rw [hc1] at hc
      obtain ⟨g', h1, h2⟩ := out .graph hc
      refine ⟨g', ?_, fun x y hx hy hxy => .inl (h2 x y hx hy hxy)⟩
      have e1 : ¬ a.2 ≥ g.numIn := Nat.not_le.2 ha
      have e2 : ¬ c.2 ≥ g.outs.length := Nat.not_le.2 hc
      simp only [connectInputToOutput, if_neg e1, if_neg e2, h1, bind_ok]
    | node n =>
      rw [hc1] at hc
      obtain ⟨h0, r, h1, h2, h3, h4⟩ := hc
      obtain ⟨g', k1, k2⟩ := node .graph n r h1 h3 h4 (by simp)
      refine ⟨g', ?_, fun x y hx hy hxy => (k2 x y hx hy hxy).imp id fun h => ⟨n, rfl, h⟩⟩
      have e1 : ¬ a.2 ≥ g.numIn := Nat.not_le.2 ha
      have e2 : ¬ c.2 ≥ r.inputs := Nat.not_le.2 h4
      simp only [connectInputToNode, h0, Bool.false_eq_true, if_false, if_neg e1, h1, if_neg e2, k1, bind_ok]
  | node m =>
    rw [ha1] at ha
    obtain ⟨f0, ra, f1, f2⟩ := ha
    have e1 : ¬ a.2 ≥ ra.outputs := Nat.not_le.2 f2
    cases hc1 : c.1 with
    | graph =>
      rw [hc1] at hc
      obtain ⟨g', h1, h2⟩ := out (.node m.key) hc
      refine ⟨g', ?_, fun x y hx hy hxy => .inl (h2 x y hx hy hxy)⟩
      have e2 : ¬ c.2 ≥ g.outs.length := Nat.not_le.2 hc
      simp only [connectNodeToOutput, f0, Bool.false_eq_true, if_false, f1, if_neg e1, if_neg e2, h1, bind_ok]
    | node n =>
      rw [hc1] at hc
      obtain ⟨h0, r, h1, h2, h3, h4⟩ := hc
      obtain ⟨g', k1, k2⟩ := node (.node m.key) n r h1 h3 h4 (by
        intro k hk; cases hk; exact hw.lt _ _ f1)
      refine ⟨g', ?_, fun x y hx hy hxy => (k2 x y hx hy hxy).imp id fun h => ⟨n, rfl, h⟩⟩
      have e2 : ¬ c.2 ≥ r.inputs := Nat.not_le.2 h4
      have e3 : hasPath g n.key m.key = false := by
        rw [Bool.eq_false_iff]
        exact fun h => hl n m hc1 ha1 ((hasPath_iff g n.key m.key).1 h)
      simp only [connectNodes, f0, h0, Bool.false_eq_true, if_false, f1, if_neg e1, h1, if_neg e2, e3, Bool.not_false,
        Bool.and_false, k1, bind_ok]

/-- C63, which connections are made: if all channels exist, none of the sinks has been freed and none of the sinks feeds
any of the sources, every pair is connected; nothing panics and nothing is refused, whether the loop logs errors,
expects there to be none, or stops at the first. -/
theorem C63_accepted {sl add} : ∀ (ps : List (Chan × Chan)) {g : Graph}, Reach sl g →
    (∀ p ∈ ps, Valid g p.1) → (∀ p ∈ ps, SinkLive g p.2) → NoLoop g ps →
    ∃ g', logged sl add false g ps = .ok (g', List.replicate ps.length (.ok ())) ∧
      expecting sl add false g ps = .ok g' ∧ (add = true → trying sl g ps = .ok (g', .ok ()))
  | [], g, hr, hv, hs, hl => ⟨g, rfl, rfl, fun _ => rfl⟩
  | p :: ps, g, hr, hv, hs, hl => by
    obtain ⟨g1, h1, h2⟩ := accepts (sl := sl) hr.wf p.1 p.2 (hv p (by simp)) (hs p (by simp)) add
      (hl p (by simp) p (by simp))
    have hr1 : Reach sl g1 := hr.step (.connect p.1.1 p.1.2 p.2.2 p.2.1 add false) h1
    have hk := keeps_connect2 hr.wf h1
    have klt : ∀ q ∈ p :: ps, ∀ k, q.2.1 = .node k → k.key < g.nextKey := by
      intro q hq k hk
      have := (hs q hq)
      unfold SinkLive at this
      rw [hk] at this
      obtain ⟨-, r, h, -⟩ := this
      exact hr.wf.lt _ _ h
    have slt : ∀ q ∈ p :: ps, ∀ s, q.1.1 = .node s → s.key < g.nextKey := by
      intro q hq k hk
      have := (hv q hq)
      unfold Valid at this
      rw [hk] at this
      obtain ⟨-, r, h, -⟩ := this
      exact hr.wf.lt _ _ h
    obtain ⟨g', h3, h4, h5⟩ := C63_accepted (sl := sl) (add := add) ps hr1
      (fun q hq => valid_keeps hk (hv q (by simp [hq]))) (fun q hq => (hs q (by simp [hq])).keeps hk)
      (by
        intro a ha b hb k s hk hs hp
        have ha' : a ∈ p :: ps := by simp [ha]
        have hb' : b ∈ p :: ps := by simp [hb]
        rcases h2 k.key s.key (klt a ha' k hk) (slt b hb' s hs) hp with h | ⟨k', hk', h⟩
        · exact hl a ha' b hb' k s hk hs h
        · exact hl p (by simp) b hb' k' s hk' hs h)
    refine ⟨g', ?_, ?_, ?_⟩
    · simp only [logged, h1, h3, bind_ok, pure_ok, List.length_cons, List.replicate_succ]
    · simp only [expecting, h1, bind_ok, h4]
    · rintro rfl
      simp only [trying, h1, bind_ok, h5 rfl]

/-- C63, the three kinds of loops: the loops that `expect` end exactly like the loops that log if every connection
is accepted, and panic if one is refused. -/
theorem C63_expect {sl add fb} : ∀ (ps : List (Chan × Chan)) {g g' : Graph} {rs},
    logged sl add fb g ps = .ok (g', rs) →
    ((∀ r ∈ rs, r = .ok ()) → expecting sl add fb g ps = .ok g') ∧
    ((∃ r ∈ rs, r ≠ .ok ()) → expecting sl add fb g ps = .error .unwrap)
  | [], g, g', rs, h => by
    simp only [logged, Except.ok.injEq, Prod.mk.injEq] at h
    obtain ⟨rfl, rfl⟩ := h
    exact ⟨fun _ => rfl, by simp⟩
  | p :: ps, g, g', rs, h => by
    obtain ⟨g1, r, rs1, h1, h2, rfl⟩ := logged_cons h
    obtain ⟨h3, h4⟩ := C63_expect ps h2
    cases r with
    | error e =>
      refine ⟨fun hh => by simpa using hh (.error e) (by simp), fun _ => ?_⟩
      simp [expecting, h1]
    | ok u =>
      constructor
      · intro hh
        simp only [expecting, h1, bind_ok]
        exact h3 fun r hr => hh r (by simp [hr])
      · rintro ⟨r, hr, hne⟩
        simp only [expecting, h1, bind_ok]
        rcases List.mem_cons.1 hr with rfl | hr
        · exact absurd rfl hne
        · exact h4 ⟨r, hr, hne⟩

/-- C63, `try_to`: the channels before the first refused one are connected, and no others. -/
theorem C63_try {sl} : ∀ (ps : List (Chan × Chan)) {g g' : Graph} {r},
    trying sl g ps = .ok (g', r) → ∃ m, m ≤ ps.length ∧
      logged sl true false g (ps.take m) = .ok (g', List.replicate m (.ok ())) ∧
      ((r = .ok () ∧ m = ps.length) ∨ ∃ e p, r = .error e ∧ ps[m]? = some p ∧
        connect2 sl g' p.1.1 p.1.2 p.2.2 p.2.1 true false = .ok (g', .error e))
  | [], g, g', r, h => by
    simp only [trying, Except.ok.injEq, Prod.mk.injEq] at h
    obtain ⟨rfl, rfl⟩ := h
    exact ⟨0, by simp, rfl, .inl ⟨rfl, rfl⟩⟩
  | p :: ps, g, g', r, h => by
    simp only [trying] at h
    cases h1 : connect2 sl g p.1.1 p.1.2 p.2.2 p.2.1 true false with
    | error e => simp [h1] at h
    | ok x =>
      obtain ⟨g1, r1⟩ := x
      simp only [h1, bind_ok] at h
      cases r1 with
      | error e =>
        simp only [pure_ok, Except.ok.injEq, Prod.mk.injEq] at h
        obtain ⟨rfl, rfl⟩ := h
        have := C09_refused sl g g1 (.connect p.1.1 p.1.2 p.2.2 p.2.1 true false) e h1
        subst this
        exact ⟨0, by simp, rfl, .inr ⟨e, p, rfl, by simp, h1⟩⟩
      | ok u =>
        obtain ⟨m, h2, h3, h4⟩ := C63_try ps h
        refine ⟨m + 1, by simpa using h2, ?_, ?_⟩
        · simp only [List.take_succ_cons, logged, h1, bind_ok, h3, pure_ok, List.replicate_succ]
        · rcases h4 with ⟨rfl, rfl⟩ | ⟨e, q, h5, h6, h7⟩
          · exact .inl ⟨rfl, by simp⟩
          · exact .inr ⟨e, q, h5, by simpa using h6, h7⟩

theorem brought_all {S : Type} (s : Signals S) (sink : NG) (i : Nat) : ∀ ps : List (Chan × Chan),
    brought s ps (List.replicate ps.length (.ok ())) sink i =
      (ps.filter fun p => hits sink i p.2).map fun p => s.src p.1.1.toSrc p.1.2
  | [] => rfl
  | p :: ps => by
    have ih := brought_all s sink i ps
    unfold brought at ih ⊢
    simp only [List.length_cons, List.replicate_succ, List.zip_cons_cons, List.filter_cons, decide_true, Bool.true_and]
    by_cases hh : hits sink i p.2 = true
    · simp only [hh, if_true, List.map_cons, ih]
    · simp only [hh, Bool.false_eq_true, if_false, ih]

theorem filter_nodup {S : Type} [AddCommMonoid S] (f : Chan × Chan → S) : ∀ (ps : List (Chan × Chan)) (sink : NG) (i j : Nat) (p : Chan × Chan),
    (ps.map fun p => (p.2.1.toSrc, p.2.2)).Nodup → ps[j]? = some p → p.2 = (sink, i) →
    ((ps.filter fun p => hits sink i p.2).map f).sum = f p
  | [], sink, i, j, p, hn, hj, hp => by simp at hj
  | q :: ps, sink, i, j, p, hn, hj, hp => by
    rw [List.map_cons, List.nodup_cons] at hn
    cases j with
    | zero =>
      simp only [List.getElem?_cons_zero, Option.some.injEq] at hj
      subst hj
      have h0 : ps.filter (fun p => hits sink i p.2) = [] := by
        rw [List.filter_eq_nil_iff]
        intro x hx hh
        apply hn.1
        simp only [hits, decide_eq_true_eq] at hh
        refine List.mem_map.2 ⟨x, hx, ?_⟩
        rw [hp, hh.1, hh.2]
      have h1 : hits sink i q.2 = true := by simp [hits, hp]
      simp [h1, h0]
    | succ j =>
      have hj' : ps[j]? = some p := by simpa using hj
      have h1 : hits sink i q.2 = false := by
        rw [Bool.eq_false_iff]
        intro hh
        simp only [hits, decide_eq_true_eq] at hh
        apply hn.1
        refine List.mem_map.2 ⟨p, List.mem_of_getElem? hj', ?_⟩
        rw [hp, hh.1, hh.2]
      simp only [List.filter_cons, h1, Bool.false_eq_true, if_false]
      exact filter_nodup f ps sink i j p hn.2 hj' hp

theorem map_snd_zip_take : ∀ x y : List Chan, (x.zip y).map Prod.snd = y.take x.length
  | [], y => by simp
  | x :: xs, [] => by simp
  | x :: xs, y :: ys => by simp [map_snd_zip_take xs ys]

/-- No channel twice in a list of channels. -/
def Distinct (l : List Chan) : Prop := (l.map fun c => (c.1.toSrc, c.2)).Nodup

theorem distinct_zip {x y : List Chan} (h : Distinct y) :
    ((x.zip y).map fun p => (p.2.1.toSrc, p.2.2)).Nodup := by
  have : (x.zip y).map (fun p => (p.2.1.toSrc, p.2.2)) = ((x.zip y).map Prod.snd).map fun c => (c.1.toSrc, c.2) := by
    simp
  rw [this, map_snd_zip_take]
  refine List.Nodup.sublist (List.Sublist.map _ (List.take_sublist _ _)) h

theorem channels_distinct (n : NodeId) (i : Nat) : Distinct ((List.range i).map fun j : Nat => (NG.node n, j)) := by
  unfold Distinct
  rw [List.map_map]
  refine (List.nodup_map_iff ?_).2 List.nodup_range
  intro a b h
  simpa using h

/-- What both loops do with existing channels. -/
theorem routed {S : Type} [AddCommMonoid S] {sl} {g : Graph} (hr : Reach sl g) (x y : List Chan)
    (hx : ∀ c ∈ x, Valid g c) (hy : ∀ c ∈ y, SinkLive g c) (hl : NoLoop g (x.zip y)) (hd : Distinct y) :
    ∃ g', logged sl true false g (x.zip y) = .ok (g', List.replicate (x.zip y).length (.ok ())) ∧
      expecting sl true false g (x.zip y) = .ok g' ∧ trying sl g (x.zip y) = .ok (g', .ok ()) ∧
      ∀ s : Signals S, SumsOk g' s →
        (∀ (j : Nat) a c, x[j]? = some a → y[j]? = some c →
          s.at (g'.dst c.1 c.2) = s.at (g.dst c.1 c.2) + s.src a.1.toSrc a.2) ∧
        (∀ sink i, OldSink g sink → (∀ c ∈ y.take x.length, hits sink i c = false) →
          s.at (g'.dst sink i) = s.at (g.dst sink i)) := by
  have hv : ∀ p ∈ x.zip y, Valid g p.1 := fun p hp => hx _ (List.of_mem_zip hp).1
  have hs : ∀ p ∈ x.zip y, SinkLive g p.2 := fun p hp => hy _ (List.of_mem_zip hp).2
  obtain ⟨g', h1, h2, h3⟩ := C63_accepted (sl := sl) (add := true) (x.zip y) hr hv hs hl
  refine ⟨g', h1, h2, h3 rfl, ?_⟩
  intro s hsum
  have key : ∀ sink i, OldSink g sink → _ := C63_sum (x.zip y) hr (fun p hp => (hs p hp).ok) h1 s hsum
  constructor
  · intro j a c ha hc
    have hj : (x.zip y)[j]? = some (a, c) := by
      rw [List.getElem?_zip_eq_some]
      exact ⟨ha, hc⟩
    have ho : OldSink g c.1 := by
      intro n hn
      have := hy c (List.mem_of_getElem? hc)
      unfold SinkLive at this
      rw [hn] at this
      obtain ⟨-, r, h, -⟩ := this
      exact hr.wf.lt _ _ h
    rw [key c.1 c.2 ho, brought_all, filter_nodup _ _ c.1 c.2 j (a, c) (distinct_zip hd) hj rfl]
  · intro sink i ho hn
    rw [key sink i ho, brought_all]
    have : (x.zip y).filter (fun p => hits sink i p.2) = [] := by
      rw [List.filter_eq_nil_iff]
      intro p hp
      have hm : p.2 ∈ y.take x.length := by
        rw [← map_snd_zip_take]
        exact List.mem_map.2 ⟨p, hp, rfl⟩
      rw [hn _ hm]
      simp
    rw [this]
    simp

/-- C63, `a >> b` (and `to`): if all outputs of `a` and inputs of `b` exist and `b` does not feed `a`, the call does
not panic, refuses nothing, and afterwards the `j`th input of `b` receives what it received before plus the `j`th
output of `a`; no other input of any node and no output of the graph changes.  `b` may be any stack of handles. -/
theorem C63_to {S : Type} [AddCommMonoid S] {sl} {g : Graph} (hr : Reach sl g) (a b : SHandle)
    (hx : ∀ c ∈ a.outs, Valid g c) (hy : ∀ c ∈ b.ins, SinkLive g c) (hl : NoLoop g (a.outs.zip b.ins))
    (hd : Distinct b.ins) :
    ∃ g' rs, a.to sl g b false = .ok (g', rs) ∧ (∀ r ∈ rs, r = .ok ()) ∧
      ∀ s : Signals S, SumsOk g' s →
        (∀ (j : Nat) o c, a.outs[j]? = some o → b.ins[j]? = some c →
          s.at (g'.dst c.1 c.2) = s.at (g.dst c.1 c.2) + s.src o.1.toSrc o.2) ∧
        (∀ sink i, OldSink g sink → (∀ c ∈ b.ins.take a.outT, hits sink i c = false) →
          s.at (g'.dst sink i) = s.at (g.dst sink i)) := by
  obtain ⟨g', h1, -, -, h4⟩ := routed (S := S) hr a.outs b.ins hx hy hl hd
  refine ⟨g', List.replicate (a.outs.zip b.ins).length (.ok ()), ?_, ?_, ?_⟩
  · simp only [SHandle.to, (C63_channels a).1, (C63_channels b).2.1, bind_ok]
    exact h1
  · intro r hr
    exact (List.mem_replicate.1 hr).2
  · rw [SHandle.outs_length] at h4
    exact h4

/-- C63, `to_graph_out`: if the graph has at least as many outputs as the handle has channels, the `i`th output of the
graph receives what it received before plus the `i`th channel of the handle, and nothing else changes. -/
theorem C63_graph_out {S : Type} [AddCommMonoid S] {sl} {g : Graph} (hr : Reach sl g) (a : SHandle)
    (hx : ∀ c ∈ a.outs, Valid g c) (hn : a.outT ≤ g.outs.length) (h16 : a.outT ≤ 65536) :
    ∃ g', a.toGraphOut sl g true = .ok g' ∧
      ∀ s : Signals S, SumsOk g' s →
        (∀ (j : Nat) o, a.outs[j]? = some o →
          s.at (g'.dst .graph j) = s.at (g.dst .graph j) + s.src o.1.toSrc o.2) ∧
        (∀ sink i, OldSink g sink → (sink = .graph → a.outT ≤ i) →
          s.at (g'.dst sink i) = s.at (g.dst sink i)) := by
  have hmod : graphOuts a.outs.length = (List.range a.outs.length).map fun i : Nat => (NG.graph, i) := by
    unfold graphOuts
    refine List.map_congr_left fun i hi => ?_
    rw [List.mem_range, SHandle.outs_length] at hi
    rw [Nat.mod_eq_of_lt (Nat.lt_of_lt_of_le hi h16)]
  have hd : Distinct (graphOuts a.outs.length) := by
    rw [hmod]
    unfold Distinct
    rw [List.map_map]
    refine (List.nodup_map_iff ?_).2 List.nodup_range
    intro a b h
    simpa using h
  obtain ⟨g', -, h2, -, h4⟩ := routed (S := S) hr a.outs (graphOuts a.outs.length) hx
    (by
      rw [hmod]
      intro c hc
      obtain ⟨i, hi, rfl⟩ := List.mem_map.1 hc
      rw [List.mem_range, SHandle.outs_length] at hi
      exact Nat.lt_of_lt_of_le hi hn)
    (by
      intro p hp q hq k s hk
      have := (List.of_mem_zip hp).2
      rw [hmod] at this
      obtain ⟨i, -, h⟩ := List.mem_map.1 this
      rw [← h] at hk
      simp at hk) hd
  refine ⟨g', ?_, ?_⟩
  · simp only [SHandle.toGraphOut, (C63_channels a).1, bind_ok]
    exact h2
  · intro s hs
    obtain ⟨h5, h6⟩ := h4 s hs
    constructor
    · intro j o ho
      have hj : j < a.outs.length := (List.getElem?_eq_some_iff.1 ho).1
      refine h5 j o (.graph, j) ho ?_
      rw [hmod, List.getElem?_map, List.getElem?_range hj]
      rfl
    · intro sink i hold hi
      refine h6 sink i hold ?_
      intro c hc
      rw [hmod] at hc
      obtain ⟨j, hj, rfl⟩ := List.mem_map.1 (List.mem_of_mem_take hc)
      rw [List.mem_range, SHandle.outs_length] at hj
      simp only [hits, decide_eq_false_iff_not]
      rintro ⟨h, rfl⟩
      cases sink with
      | graph => exact absurd (hi rfl) (Nat.not_le.2 hj)
      | node n => simp [NG.toSrc] at h

/-! ### Expressions -/

/-- What an expression means: the handle it stands for and the connections it makes, in order; nothing if it selects a
channel that does not exist.  `a >> b` connects `a` to `b` and stands for `b`. -/
def Patch.meaning : Patch → Option (SHandle × List (Chan × Chan))
  | .handle h => some (h, [])
  | .to a b =>
    match a.meaning, b.meaning with
    | some x, some y => some (y.1, x.2 ++ y.2 ++ x.1.outs.zip y.1.ins)
    | _, _ => none
  | .stack a b =>
    match a.meaning, b.meaning with
    | some x, some y => some (.stack x.1 y.1, x.2 ++ y.2)
    | _, _ => none
  | .out a cs =>
    match a.meaning with
    | some x => if ∀ c ∈ cs, c < x.1.outT then some (.chans (cs.filterMap fun c : Nat => x.1.outs[c]?), x.2) else none
    | none => none

theorem pick_filterMap (l : List Chan) : ∀ cs : List Nat, (∀ c ∈ cs, c < l.length) →
    pick l cs = .ok (cs.filterMap fun c : Nat => l[c]?)
  | [], _ => rfl
  | c :: cs, h => by
    have hc : c < l.length := h c (by simp)
    simp only [pick, List.getElem?_eq_getElem hc, pick_filterMap l cs fun x hx => h x (by simp [hx]), bind_ok, pure_ok,
      List.filterMap_cons]

theorem out_meaning (h : SHandle) (cs : List Nat) :
    h.out cs = if ∀ c ∈ cs, c < h.outT then .ok (.chans (cs.filterMap fun c : Nat => h.outs[c]?)) else .error .unwrap := by
  split
  · next hc =>
    rw [← h.outs_length] at hc
    simp only [SHandle.out, (C63_channels h).1, bind_ok, pick_filterMap _ _ hc, pure_ok]
  · next hc =>
    refine (C63_out h cs).2 ?_
    by_contra hne
    exact hc fun c hm => by
      by_contra h'
      exact hne ⟨c, hm, Nat.le_of_not_lt h'⟩

/-- C63, expressions: evaluating an expression built from handles with `>>`, `|` and `out` makes exactly the
connections it means, in order, and gives the handle it means; an expression without meaning panics. -/
theorem C63_expr (sl : Key → Nat) : ∀ (p : Patch) (g : Graph),
    match p.meaning with
    | some x => p.eval sl g = (logged sl true false g x.2 >>= fun r => .ok (r.1, x.1, r.2))
    | none => ∃ e, p.eval sl g = .error e
  | .handle h, g => by simp [Patch.meaning, Patch.eval, logged]
  | .to a b, g => by
    have ha := C63_expr sl a g
    have hb := C63_expr sl b
    simp only [Patch.meaning]
    cases hx : a.meaning with
    | none =>
      rw [hx] at ha
      obtain ⟨e, he⟩ := ha
      exact ⟨e, by simp [Patch.eval, he]⟩
    | some x =>
      rw [hx] at ha
      dsimp only at ha
      cases hy : b.meaning with
      | none =>
        rw [hy] at hb
        simp only [Patch.eval, ha]
        cases h1 : logged sl true false g x.2 with
        | error e => exact ⟨e, rfl⟩
        | ok r =>
          obtain ⟨e, he⟩ := hb r.1
          exact ⟨e, by simp [he]⟩
      | some y =>
        rw [hy] at hb
        dsimp only at hb ⊢
        simp only [Patch.eval, ha, logged_append]
        cases h1 : logged sl true false g x.2 with
        | error e => rfl
        | ok r =>
          simp only [bind_ok, hb r.1]
          cases h2 : logged sl true false r.1 y.2 with
          | error e => rfl
          | ok q =>
            simp only [bind_ok, SHandle.to, (C63_channels x.1).1, (C63_channels y.1).2.1]
            cases h3 : logged sl true false q.1 (x.1.outs.zip y.1.ins) with
            | error e => rfl
            | ok t => rfl
  | .stack a b, g => by
    have ha := C63_expr sl a g
    have hb := C63_expr sl b
    simp only [Patch.meaning]
    cases hx : a.meaning with
    | none =>
      rw [hx] at ha
      obtain ⟨e, he⟩ := ha
      exact ⟨e, by simp [Patch.eval, he]⟩
    | some x =>
      rw [hx] at ha
      dsimp only at ha
      cases hy : b.meaning with
      | none =>
        rw [hy] at hb
        simp only [Patch.eval, ha]
        cases h1 : logged sl true false g x.2 with
        | error e => exact ⟨e, rfl⟩
        | ok r =>
          obtain ⟨e, he⟩ := hb r.1
          exact ⟨e, by simp [he]⟩
      | some y =>
        rw [hy] at hb
        dsimp only at hb ⊢
        simp only [Patch.eval, ha, logged_append]
        cases h1 : logged sl true false g x.2 with
        | error e => rfl
        | ok r =>
          simp only [bind_ok, hb r.1]
          cases h2 : logged sl true false r.1 y.2 with
          | error e => rfl
          | ok q => rfl
  | .out a cs, g => by
    have ha := C63_expr sl a g
    simp only [Patch.meaning]
    cases hx : a.meaning with
    | none =>
      rw [hx] at ha
      obtain ⟨e, he⟩ := ha
      exact ⟨e, by simp [Patch.eval, he]⟩
    | some x =>
      rw [hx] at ha
      dsimp only at ha ⊢
      by_cases hc : ∀ c ∈ cs, c < x.1.outT
      · rw [if_pos hc]
        simp only [Patch.eval, ha, out_meaning]
        cases h1 : logged sl true false g x.2 with
        | error e => rfl
        | ok r => simp only [bind_ok, if_pos hc, pure_ok]
      · rw [if_neg hc]
        simp only [Patch.eval, ha, out_meaning]
        cases h1 : logged sl true false g x.2 with
        | error e => exact ⟨e, rfl⟩
        | ok r => exact ⟨.unwrap, by simp only [bind_ok, if_neg hc, bind_error]⟩

/-! ### Where the handles differ from each other or panic -/

/-- A mono generator and a stereo effect in a graph with two inputs and one output. -/
def small : Graph := pushNode id (pushNode id (Graph.init 7 2 1) (userNode 0 1 [])) (userNode 2 2 [])

/-- The generator. -/
def gen : SHandle := .node ⟨0, 7⟩ 0 1

/-- The effect. -/
def fx : SHandle := .node ⟨1, 7⟩ 2 2

theorem small_reach : Reach id small := .step (.push 2 2 []) (.step (.push 0 1 []) (.init 7 2 1) rfl) rfl

/-- The hypotheses of `C63_to` and `C63_graph_out` hold for a stack of two generators and the effect. -/
example : (∀ c ∈ (SHandle.stack gen gen).outs, Valid small c) ∧ (∀ c ∈ fx.ins, SinkLive small c) ∧
    NoLoop small ((SHandle.stack gen gen).outs.zip fx.ins) ∧ Distinct fx.ins ∧ gen.outT ≤ small.outs.length := by
  refine ⟨?_, ?_, ?_, channels_distinct _ _, by decide⟩
  · intro c hc
    have : c = (.node ⟨0, 7⟩, 0) := by simpa [gen, SHandle.outs, List.range, List.range.loop] using hc
    subst this
    exact ⟨by decide, _, rfl, by decide⟩
  · intro c hc
    have : c = (.node ⟨1, 7⟩, 0) ∨ c = (.node ⟨1, 7⟩, 1) := by
      simpa [fx, SHandle.ins, List.range, List.range.loop] using hc
    rcases this with rfl | rfl <;> exact ⟨by decide, _, rfl, by decide, by decide, by decide⟩
  · intro p hp q hq k s hk hs
    have e : ∀ p ∈ (SHandle.stack gen gen).outs.zip fx.ins, p.2.1 = .node ⟨1, 7⟩ ∧ p.1.1 = .node ⟨0, 7⟩ := by decide
    rw [(e p hp).1] at hk
    rw [(e q hq).2] at hs
    cases hk
    cases hs
    rw [← hasPath_iff]
    decide

/-- `(gen | gen) >> fx` makes two connections. -/
example : (Patch.to (.stack (.handle gen) (.handle gen)) (.handle fx)).meaning =
    some (fx, [((.node ⟨0, 7⟩, 0), (.node ⟨1, 7⟩, 0)), ((.node ⟨0, 7⟩, 0), (.node ⟨1, 7⟩, 1))]) := by decide

/-- C63 violated, `to_graph_out` of a static handle panics if the graph has fewer outputs than the handle has
channels, although the same call on the dynamic handle only logs an error. -/
theorem C63_graph_out_panics : fx.toGraphOut id small true = .error .unwrap ∧
    ∃ g', (DHandle.node ⟨1, 7⟩ 2 2).toGraphOut id small true = .ok (g', [.ok (), .error .graphOutputOOB]) := by
  refine ⟨by decide +kernel, ?_⟩
  exact ⟨_, rfl⟩

/-- C63 violated, `to_replace` on static handles panics on a circular connection ("type safe interface should
eliminate graph connection errors"), while `to` and the dynamic `to_replace` only log it. -/
theorem C63_replace_panics : fx.toReplace id small fx false = .error .unwrap ∧
    fx.to id small fx false = .ok (small, [.error .circular, .error .circular]) := by
  refine ⟨by decide +kernel, ?_⟩
  rfl

/-- C63 violated, stacking dynamic handles panics if the channels together do not fit 16 bits, although stacking the
same static handles does not. -/
theorem C63_stack_overflows (n m : NodeId) (i o i' o' : Nat) (h : 65536 ≤ i + i' ∨ 65536 ≤ o + o') :
    (DHandle.node n i o).stack (.node m i' o') = .error .overflow ∧
    ∃ l, (SHandle.stack (.node n i o) (.node m i' o')).iterOut = .ok l ∧ l.length = o + o' := by
  constructor
  · change (addC 65536 i i' >>= fun _ => addC 65536 o o' >>= fun _ => _) = _
    simp only [addC]
    by_cases h1 : i + i' < 65536
    · have h2 : ¬ o + o' < 65536 := by omega
      simp only [if_pos h1, if_neg h2, bind_ok, bind_error]
    · simp only [if_neg h1, bind_error]
  · refine ⟨_, (C63_channels _).1, ?_⟩
    exact (C63_channels _).2.2.1

end Verif.H
