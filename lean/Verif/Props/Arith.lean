import Verif.Model.Arith
import Verif.Lemmas.GraphPath
import Mathlib.Logic.Relation

/-!
# C51: arithmetic on handles
-/

namespace Verif.Ar

open Verif.G Relation

variable {S : Type}

/-- The signals of all node outputs and graph inputs. -/
structure Sig (S : Type) where
  v : Key → Nat → S
  gin : Nat → S

/-- The signal of a channel. -/
def Sig.chan (s : Sig S) (c : Chan) : S :=
  match c.1 with
  | .node n => s.v n.key c.2
  | .graph => s.gin c.2

/-- The signal arriving over a connection; without a connection it is silence. -/
def Sig.edge (s : Sig S) (zero : S) : Option Edge → S
  | some e => match e.source with
    | .node k => s.v k e.chan
    | .graph => s.gin e.chan
  | none => zero

/-- The signals a graph with these units produces: every unit pushed by an operator computes its operation on
what arrives at its two inputs.  Nothing is said about the other nodes. -/
def Solves (sem : AOp → S → S → S) (zero : S) (st : St S) (s : Sig S) : Prop :=
  ∀ k u, (k, u) ∈ st.units → match u with
    | .math op => s.v k 0 = sem op (s.edge zero (st.g.edge k 0)) (s.edge zero (st.g.edge k 1))
    | .const c => s.v k 0 = c

/-- A channel that exists. -/
def Valid (g : Graph) (c : Chan) : Prop :=
  match c.1 with
  | .node n => foreign n.graph g.id = false ∧ ∃ r, g.get n.key = some r ∧ c.2 < r.outputs
  | .graph => c.2 < g.numIn

/-- Units have been pushed to nodes that exist or existed. -/
def UnitsLt (st : St S) : Prop := ∀ k u, (k, u) ∈ st.units → k < st.g.nextKey

/-- `st'` is `st` with further nodes: everything that was there is as before. -/
structure Ext (st st' : St S) : Prop where
  next : st.g.nextKey ≤ st'.g.nextKey
  edges : ∀ k i, k < st.g.nextKey → st'.g.edge k i = st.g.edge k i
  outs : st'.g.outs = st.g.outs
  pending : st'.g.pending = st.g.pending
  gid : st'.g.id = st.g.id
  numIn : st'.g.numIn = st.g.numIn
  units : ∀ k u, (k, u) ∈ st.units → (k, u) ∈ st'.units
  nodes : ∀ k r, st.g.get k = some r → ∃ r', st'.g.get k = some r' ∧ r'.outputs = r.outputs

theorem Ext.refl (st : St S) : Ext st st :=
  ⟨Nat.le_refl _, fun _ _ _ => rfl, rfl, rfl, rfl, rfl, fun _ _ h => h, fun _ r h => ⟨r, h, rfl⟩⟩

theorem Ext.trans {a b c : St S} (h : Ext a b) (h' : Ext b c) : Ext a c := by
  refine ⟨Nat.le_trans h.next h'.next, ?_, h'.outs.trans h.outs, h'.pending.trans h.pending, h'.gid.trans h.gid,
    h'.numIn.trans h.numIn, fun k u hu => h'.units k u (h.units k u hu), ?_⟩
  · intro k i hk
    rw [h'.edges k i (Nat.lt_of_lt_of_le hk h.next), h.edges k i hk]
  · intro k r hr
    obtain ⟨r', h1, h2⟩ := h.nodes k r hr
    obtain ⟨r'', h3, h4⟩ := h'.nodes k r' h1
    exact ⟨r'', h3, h4.trans h2⟩

theorem Valid.mono {g g' : Graph} (hid : g'.id = g.id) (hin : g'.numIn = g.numIn)
    (hn : ∀ k r, g.get k = some r → ∃ r', g'.get k = some r' ∧ r'.outputs = r.outputs) {c : Chan} (hc : Valid g c) :
    Valid g' c := by
  unfold Valid at *
  cases h1 : c.1 with
  | node n =>
    simp only [h1] at hc ⊢
    obtain ⟨hf, r, hr, hlt⟩ := hc
    obtain ⟨r', hr', ho⟩ := hn _ _ hr
    exact ⟨by rw [hid]; exact hf, r', hr', by omega⟩
  | graph =>
    simp only [h1] at hc ⊢
    rw [hin]
    exact hc

theorem Ext.valid {st st' : St S} (h : Ext st st') {c : Chan} (hc : Valid st.g c) : Valid st'.g c :=
  hc.mono h.gid h.numIn h.nodes

/-- What the larger graph computes, it also computes for the part that was there before. -/
theorem Ext.solves {sem : AOp → S → S → S} {zero : S} {st st' : St S} (h : Ext st st') (hu : UnitsLt st)
    {s : Sig S} (hs : Solves sem zero st' s) : Solves sem zero st s := by
  intro k u hk
  have := hs k u (h.units k u hk)
  cases u with
  | math op =>
    simp only at this ⊢
    rw [this, h.edges k 0 (hu k _ hk), h.edges k 1 (hu k _ hk)]
  | const c => exact this

theorem foreign_self (id : Nat) : foreign id id = false := by
  unfold foreign
  rw [beq_eq_false_iff_ne]
  intro h
  omega

/-- Connecting a channel to a free input of a node that feeds nothing. -/
theorem connect_fresh {sl} {g : Graph} {m : Key} {r : NodeRec} {es : List (Option Edge)} {i : Nat}
    (hm : g.get m = some r) (hes : r.ins = some es) (hi : i < r.inputs) (hi' : i < es.length)
    (hfree : g.edge m i = none) (hno : ∀ k j e, g.edge k j = some e → e.source ≠ .node m) (a : Chan)
    (ha : Valid g a) (hne : ∀ n, a.1 = .node n → n.key ≠ m) :
    ∃ g', connect2 sl g a.1 a.2 i (.node ⟨m, g.id⟩) true false = .ok (g', .ok ()) ∧
      setEdge { g with recalc := true } m i (some ⟨a.1.toSrc, a.2, false⟩) = .ok g' := by
  have hins : ({ g with recalc := true } : Graph).ins m = some es := by
    show (g.get m).bind (·.ins) = some es
    rw [hm]
    exact hes
  have hge : getEdge { g with recalc := true } m i = .ok none := by
    have he : (es[i]?).join = none := by
      rw [← edge_of_ins (show g.ins m = some es from hins) i]
      exact hfree
    simp only [getEdge, hins]
    rw [List.getElem?_eq_getElem hi'] at he ⊢
    simpa using he
  have hset : setEdge { g with recalc := true } m i (some ⟨a.1.toSrc, a.2, false⟩) =
      .ok (({ g with recalc := true } : Graph).modify m fun n =>
        { n with ins := some (es.set i (some ⟨a.1.toSrc, a.2, false⟩)) }) := by
    simp only [setEdge, hins, hi', if_true]
  refine ⟨_, ?_, hset⟩
  have hfm := foreign_self g.id
  cases h1 : a.1 with
  | node n =>
    simp only [Valid, h1] at ha
    obtain ⟨hf, rs, hrs, hlt⟩ := ha
    have hnp : hasPath g m n.key = false := by
      rw [← Bool.not_eq_true, hasPath_iff]
      intro hp
      rcases ReflTransGen.cases_head hp with heq | ⟨c, hc, -⟩
      · exact hne n h1 heq.symm
      · obtain ⟨j, e, he, hs⟩ := hc
        exact hno _ _ _ he hs
    rw [h1] at hset
    simp only [NG.toSrc] at hset
    simp only [connect2, connectNodes, hf, hfm, hrs, hm, Bool.false_eq_true, if_false, ge_iff_le, Nat.not_le.2 hlt,
      Nat.not_le.2 hi, hnp, Bool.not_false, Bool.and_false, connectToNode, connectTail, Bool.not_true, hge, bind_ok,
      hset, NG.toSrc]
  | graph =>
    have hlt : a.2 < g.numIn := by simpa only [Valid, h1] using ha
    rw [h1] at hset
    simp only [NG.toSrc] at hset
    simp only [connect2, connectInputToNode, hfm, hm, Bool.false_eq_true, if_false, ge_iff_le, Nat.not_le.2 hlt,
      Nat.not_le.2 hi, connectToNode, connectTail, Bool.not_true, hge, bind_ok, hset, NG.toSrc]

theorem toSrc_edge (s : Sig S) (zero : S) (a : Chan) : s.edge zero (some ⟨a.1.toSrc, a.2, false⟩) = s.chan a := by
  unfold Sig.edge Sig.chan
  cases a.1 <;> rfl

/-- The two facts about a state that the operators keep. -/
structure Ok (st : St S) : Prop where
  wf : WF st.g
  lt : UnitsLt st

theorem wf_recalc {g : Graph} (h : WF g) (b : Bool) : WF { g with recalc := b } := h.congr rfl rfl rfl rfl

theorem ok_pushGen (sl) {st : St S} (h : Ok st) (u : Gen S) : Ok (pushGen sl st u) ∧ Ext st (pushGen sl st u) ∧
    (pushGen sl st u).g.nextKey = st.g.nextKey + 1 := by
  have key : ∀ n : NodeRec, n.autoMath = false → WF (pushNode sl st.g n) ∧
      ∀ k r, st.g.get k = some r → ∃ r', (pushNode sl st.g n).get k = some r' ∧ r'.outputs = r.outputs := by
    intro n hn
    refine ⟨wf_push h.wf (by simp [hn]), ?_⟩
    intro k r hr
    refine ⟨r, ?_, rfl⟩
    rw [get_pushNode _ _ _ _ h.wf.fresh, if_neg, hr]
    exact Nat.ne_of_lt (h.wf.lt k r hr)
  cases u with
  | math op =>
    refine ⟨⟨(key _ rfl).1, ?_⟩, ⟨Nat.le_succ _, fun k i hk => edge_pushNode sl st.g _ k i h.wf.fresh, rfl, rfl, rfl, rfl,
      fun k u hu => List.mem_append_left _ hu, (key _ rfl).2⟩, rfl⟩
    intro k u hu
    simp only [pushGen, List.mem_append, List.mem_singleton, Prod.mk.injEq] at hu
    show k < st.g.nextKey + 1
    rcases hu with hu | ⟨rfl, -⟩
    · exact Nat.lt_succ_of_lt (h.lt k u hu)
    · exact Nat.lt_succ_self _
  | const c =>
    refine ⟨⟨(key _ rfl).1, ?_⟩, ⟨Nat.le_succ _, fun k i hk => edge_pushNode sl st.g _ k i h.wf.fresh, rfl, rfl, rfl, rfl,
      fun k u hu => List.mem_append_left _ hu, (key _ rfl).2⟩, rfl⟩
    intro k u hu
    simp only [pushGen, List.mem_append, List.mem_singleton, Prod.mk.injEq] at hu
    show k < st.g.nextKey + 1
    rcases hu with hu | ⟨rfl, -⟩
    · exact Nat.lt_succ_of_lt (h.lt k u hu)
    · exact Nat.lt_succ_self _

theorem Valid.lt {g : Graph} (hw : WF g) {a : Chan} (ha : Valid g a) {n : NodeId} (hn : a.1 = .node n) :
    n.key < g.nextKey := by
  simp only [Valid, hn] at ha
  obtain ⟨-, r, hr, -⟩ := ha
  exact hw.lt _ _ hr

theorem Valid.src_lt {g : Graph} (hw : WF g) {a : Chan} (ha : Valid g a) {k : Key} (hk : a.1.toSrc = .node k) :
    k < g.nextKey := by
  cases h1 : a.1 with
  | node n =>
    rw [h1] at hk
    simp only [NG.toSrc, Src.node.injEq] at hk
    subst hk
    exact ha.lt hw h1
  | graph =>
    rw [h1] at hk
    simp [NG.toSrc] at hk

/-- One connection made by an operator, to a node that feeds nothing. -/
theorem connectLogged_spec {sl} {st : St S} (h : Ok st) {m : Key} {r : NodeRec} {es : List (Option Edge)} {i : Nat}
    (hm : st.g.get m = some r) (hes : r.ins = some es) (hi : i < r.inputs)
    (hfree : st.g.edge m i = none) (hno : ∀ k j e, st.g.edge k j = some e → e.source ≠ .node m) (a : Chan)
    (ha : Valid st.g a) (hne : ∀ n, a.1 = .node n → n.key ≠ m) :
    ∃ st', connectLogged sl st a i ⟨m, st.g.id⟩ = .ok st' ∧ Ok st' ∧ st'.units = st.units ∧
      st'.g.nextKey = st.g.nextKey ∧ st'.g.outs = st.g.outs ∧ st'.g.pending = st.g.pending ∧ st'.g.id = st.g.id ∧
      st'.g.numIn = st.g.numIn ∧
      (∀ k j, st'.g.edge k j = if k = m ∧ j = i then some ⟨a.1.toSrc, a.2, false⟩ else st.g.edge k j) ∧
      (∀ k r, st.g.get k = some r → ∃ r', st'.g.get k = some r' ∧ r'.outputs = r.outputs ∧ r'.inputs = r.inputs ∧
        (r'.ins.isSome = r.ins.isSome)) := by
  have hi' : i < es.length := by
    rw [h.wf.len m r es hm hes]
    exact hi
  obtain ⟨g', h1, h2⟩ := connect_fresh (sl := sl) hm hes hi hi' hfree hno a ha hne
  have hw' : WF g' := by
    refine wf_setEdge (wf_recalc h.wf true) h2 ?_
    intro ed k hed hk
    simp only [Option.some.injEq] at hed
    subst hed
    exact ha.src_lt h.wf hk
  obtain ⟨es', -, -, hg'⟩ := setEdge_ok h2
  refine ⟨{ st with g := g' }, by simp [connectLogged, h1], ⟨hw', ?_⟩, rfl, ?_, ?_, ?_, ?_, ?_, ?_, ?_⟩
  · intro k u hu
    show k < g'.nextKey
    rw [nextKey_setEdge h2]
    exact h.lt k u hu
  · rw [hg']
    rfl
  · rw [hg']
    rfl
  · rw [hg']
    rfl
  · rw [hg']
    rfl
  · rw [hg']
    rfl
  · intro k j
    exact edge_setEdge h2 k j
  · intro k r' hr'
    obtain ⟨es'', hes'', -, hget⟩ := get_setEdge h2 k
    have hg0 : ({ st.g with recalc := true } : Graph).get k = some r' := hr'
    show ∃ r'', g'.get k = some r'' ∧ _
    rw [hget]
    by_cases hkm : k = m
    · subst hkm
      rw [if_pos rfl, hg0]
      refine ⟨_, rfl, rfl, rfl, ?_⟩
      rw [hm] at hr'
      obtain rfl := Option.some.inj hr'
      rw [hes]
      rfl
    · rw [if_neg hkm, hg0]
      exact ⟨r', rfl, rfl, rfl, rfl⟩

/-- One math node. -/
theorem binNode_spec {sl} {st : St S} (h : Ok st) (op : AOp) (a b : Chan) (ha : Valid st.g a) (hb : Valid st.g b) :
    ∃ st', binNode sl op st a b = .ok (st', (.node ⟨st.g.nextKey, st.g.id⟩, 0)) ∧ Ok st' ∧ Ext st st' ∧
      Valid st'.g (.node ⟨st.g.nextKey, st.g.id⟩, 0) ∧ (st.g.nextKey, .math op) ∈ st'.units ∧
      st'.g.edge st.g.nextKey 0 = some ⟨a.1.toSrc, a.2, false⟩ ∧
      st'.g.edge st.g.nextKey 1 = some ⟨b.1.toSrc, b.2, false⟩ := by
  obtain ⟨ok1, ext1, next1⟩ := ok_pushGen sl h (.math op)
  have hmem : (st.g.nextKey, Gen.math op) ∈ (pushGen sl st (.math op)).units := by simp [pushGen]
  have hgid : (pushGen sl st (.math op)).g.id = st.g.id := rfl
  have hget : (pushGen sl st (.math op)).g.get st.g.nextKey =
      some { userNode 2 1 [] with ins := some (List.replicate 2 none), pars := some [], mortal := true } := by
    show (pushNode sl st.g _).get _ = _
    rw [get_pushNode _ _ _ _ h.wf.fresh, if_pos rfl]
    rfl
  have hedge : ∀ k i, (pushGen sl st (.math op)).g.edge k i = st.g.edge k i := fun k i =>
    edge_pushNode sl st.g _ k i h.wf.fresh
  have hnil : ∀ i, st.g.edge st.g.nextKey i = none := by
    intro i
    apply edge_of_none
    rw [ins_eq, h.wf.fresh]
    rfl
  have hno : ∀ k j e, st.g.edge k j = some e → e.source ≠ .node st.g.nextKey := by
    intro k j e he hs
    exact Nat.lt_irrefl _ (h.wf.srcLt k j e _ he hs)
  generalize hst1 : pushGen sl st (.math op) = st1 at *
  have hne : ∀ c : Chan, Valid st.g c → ∀ n, c.1 = .node n → n.key ≠ st.g.nextKey := fun c hc n hn =>
    Nat.ne_of_lt (hc.lt h.wf hn)
  obtain ⟨st2, e2, ok2, u2, n2, o2, p2, i2, ni2, ed2, nd2⟩ := connectLogged_spec (sl := sl) ok1 (i := 0) hget rfl
    (by decide) (by rw [hedge, hnil]) (by intro k j e he; rw [hedge] at he; exact hno k j e he) a (ext1.valid ha)
    (hne a ha)
  obtain ⟨r2, hr2, hout2, hin2, hsome2⟩ := nd2 _ _ hget
  obtain ⟨es2, hes2⟩ := Option.isSome_iff_exists.1 (show r2.ins.isSome = true by rw [hsome2]; rfl)
  have hb2 : Valid st2.g b := (ext1.valid hb).mono i2 ni2 fun k r hr => by
    obtain ⟨r', h1, h2, -⟩ := nd2 k r hr
    exact ⟨r', h1, h2⟩
  have hno2 : ∀ k j e, st2.g.edge k j = some e → e.source ≠ .node st.g.nextKey := by
    intro k j e he
    rw [ed2, hedge] at he
    split at he
    · simp only [Option.some.injEq] at he
      subst he
      intro hs
      exact Nat.lt_irrefl _ (ha.src_lt h.wf hs)
    · exact hno k j e he
  obtain ⟨st3, e3, ok3, u3, n3, o3, p3, i3, ni3, ed3, nd3⟩ := connectLogged_spec (sl := sl) ok2 (i := 1) hr2 hes2
    (by rw [hin2]; decide) (by rw [ed2, if_neg (by simp), hedge, hnil]) hno2 b hb2 (hne b hb)
  obtain ⟨r3, hr3, hout3, -⟩ := nd3 _ _ hr2
  refine ⟨st3, ?_, ok3, ?_, ?_, ?_, ?_, ?_⟩
  · rw [hgid] at e2
    rw [i2, hgid] at e3
    simp only [binNode, hst1, e2, bind_ok, e3, pure_ok]
  · refine ⟨?_, ?_, ?_, ?_, ?_, ?_, ?_, ?_⟩
    · rw [n3, n2, next1]
      exact Nat.le_succ _
    · intro k i hk
      have hkne : k ≠ st.g.nextKey := Nat.ne_of_lt hk
      rw [ed3, if_neg (by simp [hkne]), ed2, if_neg (by simp [hkne]), hedge]
    · rw [o3, o2, ext1.outs]
    · rw [p3, p2, ext1.pending]
    · rw [i3, i2, ext1.gid]
    · rw [ni3, ni2, ext1.numIn]
    · intro k u hu
      rw [u3, u2]
      exact ext1.units k u hu
    · intro k r hr
      obtain ⟨r1, hr1, ho1⟩ := ext1.nodes k r hr
      obtain ⟨r', hr', ho', -⟩ := nd2 k r1 hr1
      obtain ⟨r'', hr'', ho'', -⟩ := nd3 k r' hr'
      exact ⟨r'', hr'', by rw [ho'', ho', ho1]⟩
  · show foreign st.g.id st3.g.id = false ∧ _
    refine ⟨by rw [i3, i2, hgid]; exact foreign_self _, r3, hr3, ?_⟩
    rw [hout3, hout2]
    exact Nat.zero_lt_one
  · rw [u3, u2]
    exact hmem
  · rw [ed3, if_neg (by simp), ed2, if_pos ⟨rfl, rfl⟩]
  · rw [ed3, if_pos ⟨rfl, rfl⟩]

/-- The loop over the channels. -/
theorem binLoop_spec {sl} (op : AOp) : ∀ (ps : List (Chan × Chan)) {st : St S}, Ok st →
    (∀ p ∈ ps, Valid st.g p.1 ∧ Valid st.g p.2) →
    ∃ st' out, binLoop sl op st ps = .ok (st', out) ∧ Ok st' ∧ Ext st st' ∧ (∀ c ∈ out, Valid st'.g c) ∧
      out.length = ps.length ∧ ∀ (sem : AOp → S → S → S) (zero : S) (s : Sig S), Solves sem zero st' s →
        out.map s.chan = ps.map fun p => sem op (s.chan p.1) (s.chan p.2)
  | [], st, h, _ => ⟨st, [], rfl, h, Ext.refl _, by simp, rfl, by simp⟩
  | p :: ps, st, h, hv => by
    obtain ⟨st1, e1, ok1, ext1, val1, mem1, ea, eb⟩ := binNode_spec (sl := sl) h op p.1 p.2 (hv p (by simp)).1
      (hv p (by simp)).2
    obtain ⟨st2, out, e2, ok2, ext2, val2, len2, sol2⟩ := binLoop_spec (sl := sl) op ps ok1 fun q hq =>
      ⟨ext1.valid (hv q (by simp [hq])).1, ext1.valid (hv q (by simp [hq])).2⟩
    refine ⟨st2, (.node ⟨st.g.nextKey, st.g.id⟩, 0) :: out, by simp [binLoop, e1, e2], ok2, ext1.trans ext2, ?_,
      by simp [len2], ?_⟩
    · intro c hc
      rcases List.mem_cons.1 hc with rfl | hc
      · exact ext2.valid val1
      · exact val2 c hc
    · intro sem zero s hs
      have h1 := ext2.solves ok1.lt hs _ _ mem1
      simp only [ea, eb, toSrc_edge] at h1
      rw [List.map_cons, List.map_cons, sol2 sem zero s hs]
      congr 1

/-! ### The claim -/

/-- What an expression over handles should mean: the arithmetic result channel by channel, operands in the
written order. -/
def Expr.denote (sem : AOp → S → S → S) (s : Sig S) : Expr S → List S
  | .handle l => l.map s.chan
  | .bin op a b => List.zipWith (sem op) (a.denote sem s) (b.denote sem s)
  | .opc op a c => (a.denote sem s).map fun x => sem op x c
  | .cop op c a => (a.denote sem s).map fun x => sem op c x

/-- The number of channels of an expression. -/
def Expr.size : Expr S → Nat
  | .handle l => l.length
  | .bin _ a _ => a.size
  | .opc _ a _ => a.size
  | .cop _ _ a => a.size

/-- The expression only uses channels that exist, and both operands of an operator have the same number. -/
def Expr.Fine (g : Graph) : Expr S → Prop
  | .handle l => ∀ c ∈ l, Valid g c
  | .bin _ a b => a.Fine g ∧ b.Fine g ∧ a.size = b.size
  | .opc _ a _ => a.Fine g
  | .cop _ _ a => a.Fine g

theorem Expr.Fine.mono {g g' : Graph} (h : ∀ c, Valid g c → Valid g' c) {e : Expr S} (he : e.Fine g) :
    e.Fine g' := by
  induction e with
  | handle l => exact fun c hc => h c (he c hc)
  | bin _ _ _ iha ihb => exact ⟨iha he.1, ihb he.2.1, he.2.2⟩
  | opc _ _ _ ih => exact ih he
  | cop _ _ _ ih => exact ih he

/-- The operators written with the constant on the left that are right: those whose operation commutes. -/
def Expr.Commutes (sem : AOp → S → S → S) : Expr S → Prop
  | .handle _ => True
  | .bin _ a b => a.Commutes sem ∧ b.Commutes sem
  | .opc _ a _ => a.Commutes sem
  | .cop op _ a => (∀ x y, sem op x y = sem op y x) ∧ a.Commutes sem

theorem withConst_spec {sl} {st : St S} (h : Ok st) (op : AOp) (a : List Chan) (c : S)
    (ha : ∀ x ∈ a, Valid st.g x) :
    ∃ st' out, withConst sl op st a c = .ok (st', out) ∧ Ok st' ∧ Ext st st' ∧ (∀ x ∈ out, Valid st'.g x) ∧
      out.length = a.length ∧ ∀ (sem : AOp → S → S → S) (zero : S) (s : Sig S), Solves sem zero st' s →
        out.map s.chan = a.map fun x => sem op (s.chan x) c := by
  obtain ⟨ok1, ext1, next1⟩ := ok_pushGen sl h (.const c)
  have hmem : (st.g.nextKey, Gen.const c) ∈ (pushGen sl st (.const c)).units := by simp [pushGen]
  have hval : Valid (pushGen sl st (.const c)).g (.node ⟨st.g.nextKey, st.g.id⟩, 0) := by
    refine ⟨foreign_self _, { userNode 0 1 [0] with ins := some (List.replicate 0 none), pars := some [], mortal := true },
      ?_, ?_⟩
    · show (pushNode sl st.g _).get _ = _
      rw [get_pushNode _ _ _ _ h.wf.fresh, if_pos rfl]
      rfl
    · exact Nat.zero_lt_one
  obtain ⟨st', out, e, ok, ext, val, len, sol⟩ := binLoop_spec (sl := sl) op
    (a.map fun x => (x, (NG.node ⟨st.g.nextKey, st.g.id⟩, 0))) ok1 (by
      intro p hp
      obtain ⟨x, hx, rfl⟩ := List.mem_map.1 hp
      exact ⟨ext1.valid (ha x hx), hval⟩)
  refine ⟨st', out, e, ok, ext1.trans ext, val, by simpa using len, ?_⟩
  intro sem zero s hs
  have hc := ext.solves ok1.lt hs _ _ hmem
  simp only at hc
  rw [sol sem zero s hs, List.map_map]
  refine List.map_congr_left fun x _ => ?_
  show sem op (s.chan x) (s.v st.g.nextKey 0) = _
  rw [hc]

theorem map_zip_zipWith {α β γ : Type} (f : α → β → γ) (a : List α) (b : List β) :
    (a.zip b).map (fun p => f p.1 p.2) = List.zipWith f a b := by
  induction a generalizing b with
  | nil => simp
  | cons x a ih => cases b <;> simp [ih]

theorem expr_spec {sl} (e : Expr S) : ∀ {st : St S}, Ok st → e.Fine st.g →
    ∃ st' out, e.eval sl st = .ok (st', out) ∧ Ok st' ∧ Ext st st' ∧ (∀ x ∈ out, Valid st'.g x) ∧
      out.length = e.size ∧
      ∀ (sem : AOp → S → S → S) (zero : S) (s : Sig S), Solves sem zero st' s → e.Commutes sem →
        out.map s.chan = e.denote sem s := by
  induction e with
  | handle l =>
    intro st h hf
    exact ⟨st, l, rfl, h, Ext.refl _, hf, rfl, fun _ _ _ _ _ => rfl⟩
  | bin op a b iha ihb =>
    intro st h hf
    obtain ⟨st1, x, e1, ok1, ext1, val1, len1, sol1⟩ := iha h hf.1
    obtain ⟨st2, y, e2, ok2, ext2, val2, len2, sol2⟩ := ihb ok1 (hf.2.1.mono fun c => ext1.valid)
    obtain ⟨st3, out, e3, ok3, ext3, val3, len3, sol3⟩ := binLoop_spec (sl := sl) op (x.zip y) ok2 (by
      intro p hp
      exact ⟨ext2.valid (val1 _ (List.of_mem_zip hp).1), val2 _ (List.of_mem_zip hp).2⟩)
    have hlen : x.length = y.length := by rw [len1, len2, hf.2.2]
    have key : ∀ (sem : AOp → S → S → S) (zero : S) (s : Sig S), Solves sem zero st3 s →
        out.map s.chan = List.zipWith (sem op) (x.map s.chan) (y.map s.chan) := by
      intro sem zero s hs
      rw [sol3 sem zero s hs, map_zip_zipWith (fun p q => sem op (s.chan p) (s.chan q)), List.zipWith_map]
    have lout : out.length = x.length := by
      rw [len3, List.length_zip, hlen, Nat.min_self]
    refine ⟨st3, out, by simp [Expr.eval, e1, e2, binary, hlen, e3], ok3, (ext1.trans ext2).trans ext3, val3, ?_, ?_⟩
    · rw [lout, len1]
      rfl
    · intro sem zero s hs hc
      have s2 := ext3.solves ok2.lt hs
      have s1 := ext2.solves ok1.lt s2
      rw [key sem zero s hs, sol1 sem zero s s1 hc.1, sol2 sem zero s s2 hc.2]
      rfl
  | opc op a c ih =>
    intro st h hf
    obtain ⟨st1, x, e1, ok1, ext1, val1, len1, sol1⟩ := ih h hf
    obtain ⟨st2, out, e2, ok2, ext2, val2, len2, sol2⟩ := withConst_spec (sl := sl) ok1 op x c val1
    refine ⟨st2, out, by simp [Expr.eval, e1, handleConst, e2], ok2, ext1.trans ext2, val2, by rw [len2, len1]; rfl, ?_⟩
    intro sem zero s hs hc
    rw [sol2 sem zero s hs, Expr.denote, ← sol1 sem zero s (ext2.solves ok1.lt hs) hc, List.map_map]
    rfl
  | cop op c a ih =>
    intro st h hf
    obtain ⟨st1, x, e1, ok1, ext1, val1, len1, sol1⟩ := ih h hf
    obtain ⟨st2, out, e2, ok2, ext2, val2, len2, sol2⟩ := withConst_spec (sl := sl) ok1 op x c val1
    refine ⟨st2, out, by simp [Expr.eval, e1, constHandle, e2], ok2, ext1.trans ext2, val2, by rw [len2, len1]; rfl, ?_⟩
    intro sem zero s hs hc
    rw [sol2 sem zero s hs, Expr.denote, ← sol1 sem zero s (ext2.solves ok1.lt hs) hc.2, List.map_map]
    exact List.map_congr_left fun y _ => hc.1 _ _

/-- **C51** (restricted): every expression over handles and constants can be evaluated, changes no connection that
was there, and gives a handle whose channels carry the arithmetic result channel by channel, for every meaning of
the operations and every behaviour of the other nodes.  Operands are in written order for `a op b` and `a op c`;
for `c op a` the operation has to commute (+ and *).

Missing: `c - a` and `c / a`, see `C51_const_left_violated`. -/
theorem C51_expr_partial {sl} (e : Expr S) {st : St S} (hr : Reach sl st.g) (hu : UnitsLt st) (hf : e.Fine st.g) :
    ∃ st' out, e.eval sl st = .ok (st', out) ∧ out.length = e.size ∧
      (∀ k i, k < st.g.nextKey → st'.g.edge k i = st.g.edge k i) ∧ st'.g.outs = st.g.outs ∧
      (∀ x ∈ out, Valid st'.g x) ∧
      ∀ (sem : AOp → S → S → S) (zero : S) (s : Sig S), Solves sem zero st' s → e.Commutes sem →
        out.map s.chan = e.denote sem s := by
  obtain ⟨st', out, h1, -, h3, h4, h5, h6⟩ := expr_spec (sl := sl) e ⟨hr.wf, hu⟩ hf
  exact ⟨st', out, h1, h5, h3.edges, h3.outs, h4, h6⟩

/-- **C51** (no constants on the left): without them no condition is needed. -/
theorem C51_node_node {sl} (op : AOp) {st : St S} (hr : Reach sl st.g) (hu : UnitsLt st) (a b : List Chan)
    (ha : ∀ x ∈ a, Valid st.g x) (hb : ∀ x ∈ b, Valid st.g x) (hl : a.length = b.length) :
    ∃ st' out, binary sl op st a b = .ok (st', out) ∧ out.length = a.length ∧
      ∀ (sem : AOp → S → S → S) (zero : S) (s : Sig S), Solves sem zero st' s →
        ∀ i (h1 : i < out.length) (h2 : i < a.length) (h3 : i < b.length),
          s.chan out[i] = sem op (s.chan a[i]) (s.chan b[i]) := by
  obtain ⟨st', out, h1, h2, -, -, -, h3⟩ := C51_expr_partial (sl := sl) (.bin op (.handle a) (.handle b)) hr hu
    ⟨ha, hb, hl⟩
  refine ⟨st', out, h1, h2, ?_⟩
  intro sem zero s hs i hi1 hi2 hi3
  have h4 := h3 sem zero s hs ⟨trivial, trivial⟩
  simp only [Expr.denote] at h4
  have h5 := congrArg (fun l => l[i]?) h4
  simp only [List.getElem?_map, List.getElem?_eq_getElem hi1, List.getElem?_zipWith, List.getElem?_eq_getElem hi2,
    List.getElem?_eq_getElem hi3, Option.map_some] at h5
  simpa using h5

/-- **C51** (constant on the right). -/
theorem C51_node_const {sl} (op : AOp) {st : St S} (hr : Reach sl st.g) (hu : UnitsLt st) (a : List Chan) (c : S)
    (ha : ∀ x ∈ a, Valid st.g x) :
    ∃ st' out, handleConst sl op st a c = .ok (st', out) ∧ out.length = a.length ∧
      ∀ (sem : AOp → S → S → S) (zero : S) (s : Sig S), Solves sem zero st' s →
        out.map s.chan = a.map fun x => sem op (s.chan x) c := by
  obtain ⟨st', out, h1, -, -, -, h2, h3⟩ := withConst_spec (sl := sl) ⟨hr.wf, hu⟩ op a c ha
  exact ⟨st', out, h1, h2, h3⟩

/-- **C51 violated** (constant on the left): `c op a` computes `a op c`, whatever the operation is. -/
theorem C51_const_left_swapped {sl} (op : AOp) {st : St S} (hr : Reach sl st.g) (hu : UnitsLt st) (a : List Chan)
    (c : S) (ha : ∀ x ∈ a, Valid st.g x) :
    ∃ st' out, constHandle sl op st c a = .ok (st', out) ∧ out.length = a.length ∧
      ∀ (sem : AOp → S → S → S) (zero : S) (s : Sig S), Solves sem zero st' s →
        out.map s.chan = a.map fun x => sem op (s.chan x) c := by
  obtain ⟨st', out, h1, -, -, -, h2, h3⟩ := withConst_spec (sl := sl) ⟨hr.wf, hu⟩ op a c ha
  exact ⟨st', out, h1, h2, h3⟩

/-- Integer arithmetic as a meaning for the operations. -/
def intSem : AOp → Int → Int → Int
  | .add, x, y => x + y
  | .sub, x, y => x - y
  | .mul, x, y => x * y
  | .div, x, y => x / y
  | .pow, x, y => x ^ y.toNat

/-- A graph with one source of one channel. -/
def oneNode : Graph := pushNode id (Graph.init 7 1 1) (userNode 0 1 [])

theorem oneNode_reach : Reach id oneNode := .step (.push 0 1 []) (.init 7 1 1) rfl

/-- The graph after `1 - a`. -/
def afterSub : Graph :=
  { id := 7
    nodes := [(0, { userNode 0 1 [] with ins := some [], pars := some [] }),
      (1, { userNode 0 1 [0] with ins := some [], pars := some [] }),
      (2, { userNode 2 1 [] with ins := some [some ⟨.node 0, 0, false⟩, some ⟨.node 1, 0, false⟩], pars := some [] })]
    nextKey := 3
    outs := [none]
    numIn := 1
    recalc := true }

/-- The signals when the source puts out 5. -/
def fiveSig (k1 k2 : Int) : Sig Int :=
  { v := fun k _ => if k = 0 then 5 else if k = 1 then k1 else k2, gin := fun _ => 0 }

/-- **C51 violated**: `1 - a` where `a` is 5 puts out 4 instead of -4. -/
theorem C51_const_left_violated :
    ∃ st', (Expr.cop .sub (1 : Int) (.handle [(.node ⟨0, 7⟩, 0)])).eval id { g := oneNode } =
        .ok (st', [(.node ⟨2, 7⟩, 0)]) ∧
      Solves intSem 0 st' (fiveSig 1 4) ∧ (∀ s : Sig Int, Solves intSem 0 st' s → s.v 0 0 = 5 → s.v 2 0 = 4) ∧
      (Expr.cop .sub (1 : Int) (.handle [(.node ⟨0, 7⟩, 0)])).denote intSem (fiveSig 1 4) = [-4] := by
  refine ⟨{ g := afterSub, units := [(1, .const 1), (2, .math .sub)] }, by decide, ?_, ?_, by decide⟩
  · intro k u hu
    simp only [List.mem_cons, Prod.mk.injEq, List.not_mem_nil, or_false] at hu
    rcases hu with ⟨rfl, rfl⟩ | ⟨rfl, rfl⟩ <;> decide
  · intro s hs h0
    have h1 : s.v 1 0 = 1 := hs 1 (.const 1) (by simp)
    have h2 : s.v 2 0 = s.v 0 0 - s.v 1 0 := hs 2 (.math .sub) (by simp)
    rw [h2, h1, h0]
    rfl

/-- Two sources with two channels each and one graph input: `(a + b) * 3 - b`, `2 * a`. -/
def twoSources : Graph :=
  pushNode id (pushNode id (Graph.init 7 1 1) (userNode 0 2 [])) (userNode 0 2 [])

def exampleExpr : Expr Int :=
  .bin .sub (.opc .mul (.bin .add (.handle (outputsOf ⟨0, 7⟩ 2)) (.handle (outputsOf ⟨1, 7⟩ 2))) 3)
    (.cop .mul 2 (.handle [(.graph, 0), (.node ⟨1, 7⟩, 1)]))

example : Reach id twoSources ∧ UnitsLt ({ g := twoSources } : St Int) ∧ exampleExpr.Fine twoSources ∧
    exampleExpr.Commutes intSem ∧
    exampleExpr.denote intSem { v := fun k c => k + 10 * c, gin := fun _ => 100 } = [-197, 41] := by
  refine ⟨.step (.push 0 2 []) (.step (.push 0 2 []) (.init 7 1 1) rfl) rfl, by simp [UnitsLt], ?_, ?_, by decide⟩
  · refine ⟨⟨?_, ?_, rfl⟩, ?_, rfl⟩
    all_goals
      intro c hc
      simp only [outputsOf, List.range, List.range.loop, List.map, List.mem_cons, List.not_mem_nil, or_false] at hc
      rcases hc with rfl | rfl
    · exact ⟨by decide, _, rfl, by decide⟩
    · exact ⟨by decide, _, rfl, by decide⟩
    · exact ⟨by decide, _, rfl, by decide⟩
    · exact ⟨by decide, _, rfl, by decide⟩
    · exact (by decide : 0 < 1)
    · exact ⟨by decide, _, rfl, by decide⟩
  · exact ⟨⟨trivial, trivial⟩, fun x y => Int.mul_comm x y, trivial⟩

/-- **C51** (different numbers of channels): the expression is refused with a panic before anything is changed. -/
theorem C51_size_mismatch {sl} (op : AOp) (st : St S) (a b : List Chan) (h : a.length ≠ b.length) :
    binary sl op st a b = .error .assert := by
  simp [binary, h]

/-- **C51 violated** (handles of different graphs): the operator takes the handle of another graph (id 8), finds the
node with the same key in its own and connects that one. -/
theorem C51_other_graph_violated :
    (binary id .add ({ g := twoSources } : St Int) [(.node ⟨0, 7⟩, 0)] [(.node ⟨1, 8⟩, 0)]).map
      (fun r => (r.1.g.edge 2 0, r.1.g.edge 2 1, r.2)) =
    .ok (some ⟨.node 0, 0, false⟩, some ⟨.node 1, 0, false⟩, [(.node ⟨2, 7⟩, 0)]) := by
  decide

/-! ### Constants -/

/-- **C51** (integer constants, restricted): `usize` and `i32` constants below 2^24 in absolute value are exact,
for both sample types.

Missing: larger `i32` constants in `f64` graphs, see `C51_i32_violated`. -/
theorem C51_constants_partial (p : Nat) (hp : 24 ≤ p) (i : Int) (hi : i.natAbs < 2 ^ 24) :
    (Num.i32 i).intoF p = i ∧ (Num.usize i.natAbs).intoF p = i.natAbs := by
  have h24 : ∀ q, 24 ≤ q → i.natAbs < 2 ^ q := fun q hq =>
    Nat.lt_of_lt_of_le hi (Nat.pow_le_pow_right (by decide) hq)
  have hr : ∀ q, 24 ≤ q → roundInt q i = i := by
    intro q hq
    unfold roundInt roundBits
    rw [if_pos (h24 q hq)]
    split <;> omega
  refine ⟨by simp only [Num.intoF]; rw [hr 24 (Nat.le_refl _), hr p hp], ?_⟩
  simp only [Num.intoF, roundInt, roundBits]
  rw [if_neg (by omega), Int.natAbs_natCast, if_pos (h24 p hp)]

/-- **C51 violated** (`i32` constants go through `f32`): in a graph of `f64` samples, which has 53 significant bits,
the constant 16777217 becomes 16777216 although it is representable; as `usize` it is exact. -/
theorem C51_i32_violated :
    (Num.i32 16777217).intoF 53 = 16777216 ∧ roundInt 53 16777217 = 16777217 ∧
    (Num.usize 16777217).intoF 53 = 16777217 ∧ (Num.i32 (-2147483647)).intoF 53 = -2147483648 := by
  decide

/-! ### The unit generator -/

theorem mapM_range_ok {β : Type} (n : Nat) (f : Nat → R β) (g : Nat → β) (h : ∀ i < n, f i = .ok (g i)) :
    (List.range n).mapM f = .ok ((List.range n).map g) := by
  have : ∀ l : List Nat, (∀ i ∈ l, i < n) → l.mapM f = .ok (l.map g) := by
    intro l
    induction l with
    | nil => intro _; rfl
    | cons a l ih =>
      intro hl
      rw [List.mapM_cons, h a (hl a (by simp)), ih fun i hi => hl i (by simp [hi])]
      rfl
  exact this _ fun i hi => List.mem_range.1 hi

/-- **C51** (`MathUGen`, frames): output channel `c` is the operation applied to input `c` and input `c + n`, in this
order. -/
theorem C51_process (f : S → S → S) (n : Nat) (input : List S) (hl : input.length = 2 * n) :
    ∃ out, mathProcess f n input = .ok out ∧ out.length = n ∧
      ∀ c (h : c < out.length) (h1 : c < input.length) (h2 : c + n < input.length),
        out[c] = f input[c] input[c + n] := by
  by_cases hn : n = 0
  · subst hn
    exact ⟨[], rfl, rfl, fun c h => absurd h (by simp)⟩
  · have h0 : 0 < input.length := by omega
    have hm : mathProcess f n input = .ok ((List.range n).map fun c : Nat =>
        f (input.getD c input[0]) (input.getD (c + n) input[0])) := by
      apply mapM_range_ok
      intro i hi
      have h1 : i < input.length := by omega
      have h2 : i + n < input.length := by omega
      simp [List.getElem?_eq_getElem h1, List.getElem?_eq_getElem h2, applyOp]
    refine ⟨_, hm, by simp, ?_⟩
    intro c h h1 h2
    simp [List.getElem?_eq_getElem h1, List.getElem?_eq_getElem h2]

/-- **C51**, **C34** (`MathUGen`, blocks): every output channel of a block is the operation applied sample by sample,
which is what processing frame by frame gives; for any number of channels and block length. -/
theorem C51_block (f : S → S → S) (n len : Nat) (z : S) (input output : List (List S)) (hl : input.length = 2 * n)
    (ho : output.length = n) (hin : ∀ x ∈ input, x.length = len) (hout : ∀ x ∈ output, x.length = len) :
    ∃ out, mathBlock f n input output = .ok out ∧ out.length = n ∧ (∀ x ∈ out, x.length = len) ∧
      ∀ t < len, mathProcess f n (input.map fun ch => ch.getD t z) = .ok (out.map fun ch => ch.getD t z) := by
  have hlen : ∀ i, i < input.length → (input.getD i []).length = len := by
    intro i hi
    rw [List.getD_eq_getElem?_getD, List.getElem?_eq_getElem hi]
    exact hin _ (List.getElem_mem hi)
  have hm : mathBlock f n input output = .ok ((List.range n).map fun c : Nat =>
      List.zipWith f (input.getD c []) (input.getD (c + n) [])) := by
    apply mapM_range_ok
    intro i hi
    have h1 : i < input.length := by omega
    have h2 : i + n < input.length := by omega
    have h3 : i < output.length := by omega
    have e1 := hin _ (List.getElem_mem h1)
    have e2 := hin _ (List.getElem_mem h2)
    have e3 := hout _ (List.getElem_mem h3)
    simp [List.getElem?_eq_getElem h1, List.getElem?_eq_getElem h2, List.getElem?_eq_getElem h3, applyOp, e1, e2, e3]
  refine ⟨_, hm, by simp, ?_, ?_⟩
  · intro x hx
    obtain ⟨c, hc, rfl⟩ := List.mem_map.1 hx
    have hc' := List.mem_range.1 hc
    rw [List.length_zipWith, hlen c (by omega), hlen (c + n) (by omega), Nat.min_self]
  · intro t ht
    have hp : mathProcess f n (input.map fun ch => ch.getD t z) = .ok ((List.range n).map fun c : Nat =>
        f ((input.getD c []).getD t z) ((input.getD (c + n) []).getD t z)) := by
      apply mapM_range_ok
      intro i hi
      have h1 : i < input.length := by omega
      have h2 : i + n < input.length := by omega
      simp [List.getElem?_eq_getElem h1, List.getElem?_eq_getElem h2, applyOp]
    rw [hp, List.map_map]
    congr 1
    apply List.map_congr_left
    intro c hc
    have hc' := List.mem_range.1 hc
    have l1 : t < (input.getD c []).length := by rw [hlen c (by omega)]; exact ht
    have l2 : t < (input.getD (c + n) []).length := by rw [hlen (c + n) (by omega)]; exact ht
    show f ((input.getD c []).getD t z) ((input.getD (c + n) []).getD t z) =
      (List.zipWith f (input.getD c []) (input.getD (c + n) [])).getD t z
    generalize input.getD c [] = x at *
    generalize input.getD (c + n) [] = y at *
    simp only [List.getD_eq_getElem?_getD, List.getElem?_zipWith, List.getElem?_eq_getElem l1,
      List.getElem?_eq_getElem l2, Option.getD_some]

example : mathBlock (· - ·) 2 [[5, 6], [7, 8], [1, 2], [3, 4]] [[0, 0], [0, 0]] = .ok [[4, 4], [4, (4 : Int)]] ∧
    mathProcess (· - ·) 2 [6, 8, 2, 4] = .ok [4, (4 : Int)] := by
  decide

end Verif.Ar
