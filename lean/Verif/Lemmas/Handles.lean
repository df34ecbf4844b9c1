import Verif.Model.Handles
import Verif.Props.GraphSignals

/-!
# Lemmas about loops of connections
-/

namespace Verif.H

open Verif.G Verif.Ar Relation

/-! ### The builder -/

theorem foldl_push (cap : Nat) (l : List Chan) : ∀ acc : List Chan, acc.length + l.length ≤ cap →
    l.foldl Builder.push ⟨cap, acc⟩ = ⟨cap, acc ++ l⟩ := by
  induction l with
  | nil => intro acc _; simp
  | cons c l ih =>
    intro acc h
    simp only [List.length_cons] at h
    have h1 : Builder.push ⟨cap, acc⟩ c = ⟨cap, acc ++ [c]⟩ := by
      simp only [Builder.push]
      rw [if_pos (by omega)]
    rw [List.foldl_cons, h1, ih _ (by simp; omega)]
    simp

theorem build_ok {cap : Nat} {l : List Chan} (h : l.length = cap) : build cap l = .ok l := by
  unfold build
  rw [foldl_push cap l [] (by simp; omega)]
  simp [Builder.finish, h]

/-! ### What a connection keeps -/

/-- Everything except connections is as before, apart from new nodes. -/
structure Keeps (g g' : Graph) : Prop where
  next : g.nextKey ≤ g'.nextKey
  node : ∀ k n, g.get k = some n → ∃ n', g'.get k = some n' ∧ n'.autoMath = n.autoMath ∧ n'.inputs = n.inputs ∧
    n'.outputs = n.outputs
  pending : g'.pending = g.pending
  gid : g'.id = g.id
  numIn : g'.numIn = g.numIn
  outs : g'.outs.length = g.outs.length

theorem Keeps.refl (g : Graph) : Keeps g g :=
  ⟨Nat.le_refl _, fun _ n h => ⟨n, h, rfl, rfl, rfl⟩, rfl, rfl, rfl, rfl⟩

theorem Keeps.trans {a b c : Graph} (h : Keeps a b) (h' : Keeps b c) : Keeps a c := by
  refine ⟨Nat.le_trans h.next h'.next, ?_, h'.pending.trans h.pending, h'.gid.trans h.gid, h'.numIn.trans h.numIn,
    h'.outs.trans h.outs⟩
  intro k n hn
  obtain ⟨n1, h1, h2, h3, h4⟩ := h.node k n hn
  obtain ⟨n2, k1, k2, k3, k4⟩ := h'.node k n1 h1
  exact ⟨n2, k1, k2.trans h2, k3.trans h3, k4.trans h4⟩

theorem keeps_setEdge {g g' : Graph} {k i e} (h : setEdge g k i e = .ok g') : Keeps g g' := by
  obtain ⟨es, -, -, rfl⟩ := setEdge_ok h
  refine ⟨Nat.le_refl _, ?_, rfl, rfl, rfl, rfl⟩
  intro j n hn
  rw [get_modify]
  split
  · next e => subst e; rw [hn]; exact ⟨_, rfl, rfl, rfl, rfl⟩
  · exact ⟨n, hn, rfl, rfl, rfl⟩

theorem keeps_setOut {g g' : Graph} {i e} (h : setOut g i e = .ok g') : Keeps g g' := by
  obtain ⟨-, rfl⟩ := setOut_ok h
  exact ⟨Nat.le_refl _, fun _ n h => ⟨n, h, rfl, rfl, rfl⟩, rfl, rfl, rfl, by simp⟩

theorem keeps_push (sl) {g : Graph} (hw : WF g) (n : NodeRec) : Keeps g (pushNode sl g n) := by
  refine ⟨Nat.le_succ _, ?_, rfl, rfl, rfl, rfl⟩
  intro k r hr
  rw [get_pushNode sl g n k hw.fresh, if_neg (Nat.ne_of_lt (hw.lt k r hr))]
  exact ⟨r, hr, rfl, rfl, rfl⟩

theorem keeps_add {sl} {g g2 g3 : Graph} (hw : WF g) {e0 e1 : Option Edge}
    (h2 : setEdge (newAdd sl g) g.nextKey 0 e0 = .ok g2) (h3 : setEdge g2 g.nextKey 1 e1 = .ok g3) : Keeps g g3 :=
  ((keeps_push sl hw _).trans (keeps_setEdge h2)).trans (keeps_setEdge h3)

theorem keeps_tail {sl} {g g' : Graph} (hw : WF g) {source sink so si add fb}
    (h : connectTail sl g source sink so si add fb = .ok g') : Keeps g g' := by
  unfold connectTail at h
  split at h
  · exact keeps_setEdge h
  cases h1 : getEdge g sink si with
  | error e => simp [h1] at h
  | ok o =>
    simp only [h1, bind_ok] at h
    cases o with
    | none => exact keeps_setEdge h
    | some ex =>
      simp only at h
      cases h2 : setEdge (newAdd sl g) g.nextKey 0 (some ex) with
      | error e => simp [h2] at h
      | ok g2 =>
        simp only [h2, bind_ok] at h
        cases h3 : setEdge g2 g.nextKey 1 (some ⟨source, so, false⟩) with
        | error e => simp [h3] at h
        | ok g3 =>
          simp only [h3, bind_ok] at h
          exact (keeps_add hw h2 h3).trans (keeps_setEdge h)

theorem keeps_recalc (g : Graph) (b : Bool) : Keeps g { g with recalc := b } :=
  ⟨Nat.le_refl _, fun _ n h => ⟨n, h, rfl, rfl, rfl⟩, rfl, rfl, rfl, rfl⟩

theorem keeps_toNode {sl} {g g' : Graph} (hw : WF g) {source sink so si add}
    (h : connectToNode sl g source sink so si add false = .ok g') : Keeps g g' := by
  unfold connectToNode at h
  simp only [Bool.false_eq_true, if_false] at h
  exact (keeps_recalc g true).trans (keeps_tail (hw.congr rfl rfl rfl rfl) h)

theorem keeps_toOut {sl} {g g' : Graph} (hw : WF g) {source so si add}
    (h : connectToOut sl g source so si add = .ok g') : Keeps g g' := by
  have hw0 : WF { g with recalc := true } := hw.congr rfl rfl rfl rfl
  refine (keeps_recalc g true).trans ?_
  unfold connectToOut at h
  dsimp only at h
  split at h
  · exact keeps_setOut h
  cases h1 : getOut { g with recalc := true } si with
  | error e => simp [h1] at h
  | ok o =>
    simp only [h1, bind_ok] at h
    cases o with
    | none => exact keeps_setOut h
    | some ex =>
      simp only at h
      cases h2 : setEdge (newAdd sl { g with recalc := true }) g.nextKey 0 (some ex) with
      | error e => simp [h2] at h
      | ok g2 =>
        simp only [h2, bind_ok] at h
        cases h3 : setEdge g2 g.nextKey 1 (some ⟨source, so, false⟩) with
        | error e => simp [h3] at h
        | ok g3 =>
          simp only [h3, bind_ok] at h
          exact (keeps_add hw0 h2 h3).trans (keeps_setOut h)

/-- A connection without feedback keeps all nodes. -/
theorem keeps_connect2 {sl} {g g' : Graph} (hw : WF g) {source so si sink add r}
    (h : connect2 sl g source so si sink add false = .ok (g', r)) : Keeps g g' := by
  unfold connect2 at h
  split at h
  · rcases connectInputToNode_ok h with ⟨rfl, -⟩ | ⟨-, nk, -, -, -, h1⟩
    · exact .refl _
    · exact keeps_toNode hw h1
  · rcases connectNodes_ok h with ⟨rfl, -⟩ | ⟨-, ns, nk, -, -, -, -, -, h1⟩
    · exact .refl _
    · exact keeps_toNode hw h1
  · rcases connectNodeToOutput_ok h with ⟨rfl, -⟩ | ⟨-, ns, -, -, -, h1⟩
    · exact .refl _
    · exact keeps_toOut hw h1
  · rcases connectInputToOutput_ok h with ⟨rfl, -⟩ | ⟨-, -, -, h1⟩
    · exact .refl _
    · exact keeps_toOut hw h1

/-! ### Loops -/

/-- A sink channel that exists and belongs to the user. -/
def SinkOk (g : Graph) (sink : NG) : Prop :=
  match sink with
  | .node n => ∃ r, g.get n.key = some r ∧ r.autoMath = false
  | .graph => True

theorem SinkOk.keeps {g g' : Graph} (h : Keeps g g') {sink : NG} (hu : SinkOk g sink) : SinkOk g' sink := by
  cases sink with
  | graph => trivial
  | node n =>
    obtain ⟨r, h0, h1⟩ := hu
    obtain ⟨n', h2, h3, -⟩ := h.node _ _ h0
    exact ⟨n', h2, h3.trans h1⟩

/-- The equations of the graph before a connection follow from those after it. -/
theorem sums_back {S : Type} [AddZeroClass S] {sl} {g g' : Graph} (hr : Reach sl g) {source so si sink add r}
    (hu : SinkOk g sink) (h : connect2 sl g source so si sink add false = .ok (g', r)) (s : Signals S)
    (hs : SumsOk g' s) : SumsOk g s := by
  cases r with
  | error e =>
    rw [← C09_refused sl g g' (.connect source so si sink add false) e h]
    exact hs
  | ok u =>
    have hc := C05_connect hr source so si sink add h
    have hk := keeps_connect2 hr.wf h
    intro k n hn hm hp
    obtain ⟨n', h1, h2, -⟩ := hk.node k n hn
    have hlt := hr.wf.lt k n hn
    have hne : ∀ m : NodeId, sink = .node m → k ≠ m.key := by
      rintro m rfl rfl
      obtain ⟨r, h3, h4⟩ := hu
      rw [hn] at h3
      cases h3
      rw [hm] at h4
      exact absurd h4 (by simp)
    have he : ∀ i, g'.edge k i = g.edge k i := by
      intro i
      exact hc.other ⟨k, 0⟩ i hlt (fun m hm' hkm => absurd hkm (hne m hm'))
    have := hs k n' h1 (h2.trans hm) (by rw [isPending_eq, hk.pending, ← isPending_eq]; exact hp)
    rwa [he, he] at this

/-- Two names of the same sink channel. -/
def hits (sink : NG) (i : Nat) (c : Chan) : Bool := decide (c.1.toSrc = sink.toSrc ∧ c.2 = i)

/-- The signal at an existing sink after one connection. -/
theorem at_connect {S : Type} [AddZeroClass S] {sl} {g g' : Graph} (hr : Reach sl g) {source so add r}
    {c : Chan} (h : connect2 sl g source so c.2 c.1 add false = .ok (g', r)) (s : Signals S)
    (hs : SumsOk g' s) (sink : NG) (i : Nat) (hold : ∀ n, sink = .node n → n.key < g.nextKey) :
    s.at (g'.dst sink i) = if r = .ok () ∧ hits sink i c = true then
        (if add then s.at (g.dst sink i) else 0) + s.src source.toSrc so else s.at (g.dst sink i) := by
  cases r with
  | error e =>
    rw [C09_refused sl g g' (.connect source so c.2 c.1 add false) e h]
    simp
  | ok u =>
    have hc := C05_connect hr source so c.2 c.1 add h
    by_cases hh : hits sink i c = true
    · rw [if_pos ⟨rfl, hh⟩]
      have hh' := of_decide_eq_true hh
      have hd : ∀ x : Graph, x.dst sink i = x.dst c.1 c.2 := by
        intro x
        rw [hh'.2]
        cases hs1 : sink with
        | graph =>
          cases hc1 : c.1 with
          | graph => rfl
          | node m => rw [hs1, hc1] at hh'; simp [NG.toSrc] at hh'
        | node n =>
          cases hc1 : c.1 with
          | graph => rw [hs1, hc1] at hh'; simp [NG.toSrc] at hh'
          | node m =>
            rw [hs1, hc1] at hh'
            simp only [NG.toSrc, Src.node.injEq] at hh'
            simp only [Graph.dst, hh'.1]
      rw [hd, hd]
      exact hc.here s hs
    · rw [if_neg (fun hx => hh hx.2)]
      congr 1
      cases sink with
      | graph =>
        refine hc.otherOut i ?_
        intro hg hi
        exact hh (decide_eq_true (by rw [hg]; exact ⟨rfl, hi.symm⟩))
      | node n =>
        refine hc.other n i (hold n rfl) ?_
        intro m hm hk hi
        exact hh (decide_eq_true (by rw [hm]; exact ⟨by simp [NG.toSrc, hk], hi.symm⟩))

theorem logged_cons {sl add fb} {g g' : Graph} {p ps rs} (h : logged sl add fb g (p :: ps) = .ok (g', rs)) :
    ∃ g1 r rs1, connect2 sl g p.1.1 p.1.2 p.2.2 p.2.1 add fb = .ok (g1, r) ∧ logged sl add fb g1 ps = .ok (g', rs1) ∧
      rs = r :: rs1 := by
  unfold logged at h
  cases h1 : connect2 sl g p.1.1 p.1.2 p.2.2 p.2.1 add fb with
  | error e => simp [h1] at h
  | ok x =>
    obtain ⟨g1, r⟩ := x
    simp only [h1, bind_ok] at h
    cases h2 : logged sl add fb g1 ps with
    | error e => simp [h2] at h
    | ok y =>
      obtain ⟨g2, rs1⟩ := y
      simp only [h2, bind_ok, pure_ok, Except.ok.injEq, Prod.mk.injEq] at h
      exact ⟨g1, r, rs1, rfl, by rw [h2, h.1], h.2.symm⟩

theorem logged_append {sl add fb} : ∀ (ps qs : List (Chan × Chan)) (g : Graph),
    logged sl add fb g (ps ++ qs) = (logged sl add fb g ps >>= fun x =>
      logged sl add fb x.1 qs >>= fun y => .ok (y.1, x.2 ++ y.2))
  | [], qs, g => by
    simp only [List.nil_append, logged, bind_ok]
    cases logged sl add fb g qs <;> rfl
  | p :: ps, qs, g => by
    simp only [List.cons_append, logged]
    cases h1 : connect2 sl g p.1.1 p.1.2 p.2.2 p.2.1 add fb with
    | error e => rfl
    | ok x =>
      simp only [bind_ok]
      rw [logged_append ps qs x.1]
      cases h2 : logged sl add fb x.1 ps with
      | error e => rfl
      | ok y =>
        simp only [bind_ok, pure_ok]
        cases h3 : logged sl add fb y.1 qs <;> rfl

/-- Everything that can be said along a loop: reachable graphs, kept nodes, one result per pair. -/
theorem logged_basic {sl add} : ∀ (ps : List (Chan × Chan)) {g g' : Graph} {rs}, Reach sl g →
    logged sl add false g ps = .ok (g', rs) → Reach sl g' ∧ Keeps g g' ∧ rs.length = ps.length
  | [], g, g', rs, hr, h => by
    simp only [logged, Except.ok.injEq, Prod.mk.injEq] at h
    obtain ⟨rfl, rfl⟩ := h
    exact ⟨hr, .refl _, rfl⟩
  | p :: ps, g, g', rs, hr, h => by
    obtain ⟨g1, r, rs1, h1, h2, rfl⟩ := logged_cons h
    have hr1 : Reach sl g1 := hr.step (.connect p.1.1 p.1.2 p.2.2 p.2.1 add false) h1
    obtain ⟨a, b, c⟩ := logged_basic ps hr1 h2
    exact ⟨a, (keeps_connect2 hr.wf h1).trans b, by simp [c]⟩

theorem logged_back {S : Type} [AddZeroClass S] {sl add} (s : Signals S) : ∀ (ps : List (Chan × Chan)) {g g' : Graph} {rs},
    Reach sl g → (∀ p ∈ ps, SinkOk g p.2.1) → logged sl add false g ps = .ok (g', rs) → SumsOk g' s → SumsOk g s
  | [], g, g', rs, hr, hu, h, hs => by
    simp only [logged, Except.ok.injEq, Prod.mk.injEq] at h
    obtain ⟨rfl, rfl⟩ := h
    exact hs
  | p :: ps, g, g', rs, hr, hu, h, hs => by
    obtain ⟨g1, r, rs1, h1, h2, rfl⟩ := logged_cons h
    have hr1 : Reach sl g1 := hr.step (.connect p.1.1 p.1.2 p.2.2 p.2.1 add false) h1
    have hk := keeps_connect2 hr.wf h1
    exact sums_back hr (hu p (by simp)) h1 s
      (logged_back s ps hr1 (fun q hq => (hu q (by simp [hq])).keeps hk) h2 hs)

/-! ### Connections that succeed -/

theorem setEdge_total {g : Graph} {k i : Nat} {es} (h : g.ins k = some es) (hi : i < es.length) (e : Option Edge) :
    ∃ g', setEdge g k i e = .ok g' := by
  unfold setEdge
  rw [h]
  simp only [if_pos hi]
  exact ⟨_, rfl⟩

theorem ins_after {g g' : Graph} {k i e} (h : setEdge g k i e = .ok g') {j : Key} {es} (hj : g.ins j = some es) :
    ∃ es', g'.ins j = some es' ∧ es'.length = es.length := by
  obtain ⟨es0, h0, -, h1⟩ := ins_setEdge h j
  rw [h1]
  split
  · next e =>
    rw [e, h0] at hj
    cases hj
    exact ⟨_, rfl, by simp⟩
  · exact ⟨es, hj, rfl⟩

theorem add_total {sl} {g : Graph} (hw : WF g) (e0 e1 : Option Edge) : ∃ g2 g3,
    setEdge (newAdd sl g) g.nextKey 0 e0 = .ok g2 ∧ setEdge g2 g.nextKey 1 e1 = .ok g3 ∧
    ∀ j es, g.ins j = some es → ∃ es', g3.ins j = some es' ∧ es'.length = es.length := by
  have h0 : (newAdd sl g).ins g.nextKey = some [none, none] := by
    unfold newAdd
    rw [ins_pushNode sl g _ _ hw.fresh, if_pos rfl]
    rfl
  obtain ⟨g2, h2⟩ := setEdge_total h0 (i := 0) (by simp) e0
  obtain ⟨es2, h3, h4⟩ := ins_after h2 h0
  obtain ⟨g3, h5⟩ := setEdge_total h3 (i := 1) (by simp [h4]) e1
  refine ⟨g2, g3, h2, h5, ?_⟩
  intro j es hj
  have hlt : j ≠ g.nextKey := by
    rintro rfl
    rw [ins_eq, hw.fresh] at hj
    simp at hj
  have h6 : (newAdd sl g).ins j = some es := by
    unfold newAdd
    rw [ins_pushNode sl g _ _ hw.fresh, if_neg hlt]
    exact hj
  obtain ⟨es3, h7, h8⟩ := ins_after h2 h6
  obtain ⟨es4, h9, h10⟩ := ins_after h5 h7
  exact ⟨es4, h9, h10.trans h8⟩

theorem tail_total {sl} {g : Graph} (hw : WF g) {sink : Key} {si : Nat} {es} (hi : g.ins sink = some es)
    (hsi : si < es.length) (source : Src) (so : Nat) (add fb : Bool) :
    ∃ g', connectTail sl g source sink so si add fb = .ok g' := by
  unfold connectTail
  split
  · exact setEdge_total hi hsi _
  · have h1 : getEdge g sink si = .ok es[si] := by
      unfold getEdge
      rw [hi]
      simp [List.getElem?_eq_getElem hsi]
    rw [h1, bind_ok]
    cases es[si] with
    | none => exact setEdge_total hi hsi _
    | some ex =>
      obtain ⟨g2, g3, h2, h3, h4⟩ := add_total (sl := sl) hw (some ex) (some ⟨source, so, false⟩)
      obtain ⟨es', h5, h6⟩ := h4 sink es hi
      simp only [h2, h3, bind_ok]
      exact setEdge_total h5 (by rw [h6]; exact hsi) _

theorem toOut_total {sl} {g : Graph} (hw : WF g) {si : Nat} (hsi : si < g.outs.length) (source : Src) (so : Nat)
    (add : Bool) : ∃ g', connectToOut sl g source so si add = .ok g' := by
  have hw0 : WF { g with recalc := true } := hw.congr rfl rfl rfl rfl
  unfold connectToOut
  dsimp only
  have hset : ∀ (x : Graph) (e : Option Edge), x.outs.length = g.outs.length → ∃ g', setOut x si e = .ok g' := by
    intro x e hx
    unfold setOut
    rw [if_pos (by rw [hx]; exact hsi)]
    exact ⟨_, rfl⟩
  split
  · exact hset _ _ rfl
  · have h1 : getOut { g with recalc := true } si = .ok g.outs[si] := by
      unfold getOut
      simp [List.getElem?_eq_getElem hsi]
    rw [h1, bind_ok]
    cases g.outs[si] with
    | none => exact hset _ _ rfl
    | some ex =>
      obtain ⟨g2, g3, h2, h3, -⟩ := add_total (sl := sl) hw0 (some ex) (some ⟨source, so, false⟩)
      have hk := keeps_add hw0 h2 h3
      change ∃ g', (setEdge (newAdd sl { g with recalc := true }) g.nextKey 0 (some ex) >>= fun g2 =>
        setEdge g2 g.nextKey 1 (some ⟨source, so, false⟩) >>= fun g3 =>
        setOut g3 si (some ⟨.node g.nextKey, 0, false⟩)) = .ok g'
      change setEdge (newAdd sl { g with recalc := true }) g.nextKey 0 (some ex) = .ok g2 at h2
      change setEdge g2 g.nextKey 1 (some ⟨source, so, false⟩) = .ok g3 at h3
      simp only [h2, h3, bind_ok]
      exact hset _ _ hk.outs

/-! ### Paths after a connection -/

/-- Paths when a node `n` was inserted before `t`, or an edge `s → t` added. -/
theorem path_insert {r r' : Key → Key → Prop} {s t n : Key} (N : Nat) (hn : N ≤ n) (ht : t < N)
    (hs : ∀ a b, r' a b → (b < N ∧ a ≠ n ∧ (r a b ∨ (a = s ∧ b = t))) ∨ (b = n ∧ a ≠ n ∧ (r a t ∨ a = s)) ∨ (a = n ∧ b = t))
    {a b : Key} (ha : a < N) (h : ReflTransGen r' a b) (hb : b < N) :
    ReflTransGen r a b ∨ ReflTransGen r t b := by
  have key : ∀ b, ReflTransGen r' a b →
      (b < N → ReflTransGen r a b ∨ ReflTransGen r t b) := by
    have aux : ∀ b, ReflTransGen r' a b → (b < N ∧ (ReflTransGen r a b ∨ ReflTransGen r t b)) ∨ b = n := by
      intro b hb
      induction hb with
      | refl => exact .inl ⟨ha, .inl .refl⟩
      | @tail c d _ hcd ih =>
        rcases hs _ _ hcd with ⟨h1, h2, h3 | ⟨h3, h4⟩⟩ | ⟨h1, -⟩ | ⟨h1, h2⟩
        · rcases ih with ⟨-, ih⟩ | ih
          · exact .inl ⟨h1, ih.imp (·.tail h3) (·.tail h3)⟩
          · exact absurd ih h2
        · exact .inl ⟨h1, .inr (h4 ▸ .refl)⟩
        · exact .inr h1
        · exact .inl ⟨h2 ▸ ht, .inr (h2 ▸ .refl)⟩
    intro b hb hlt
    rcases aux b hb with h | h
    · exact h.2
    · exact absurd hlt (h ▸ Nat.not_lt.2 hn)
  exact key b h hb

/-- `source` can be reached by no sink, so far. -/
theorem path_tail {sl} {g g' : Graph} (hw : WF g) {source : Src} {sink : Key} {so si add}
    (hsk : sink < g.nextKey) (hsrc : ∀ a, source = .node a → a < g.nextKey)
    (he : connectTail sl g source sink so si add false = .ok g') {a b : Key} (ha : a < g.nextKey)
    (hb : b < g.nextKey) (h : ReflTransGen (Feeds g') a b) :
    ReflTransGen (Feeds g) a b ∨ ReflTransGen (Feeds g) sink b := by
  have hsrcLt : ∀ x y, Feeds g x y → x < g.nextKey ∧ y < g.nextKey := by
    rintro x y ⟨i, e, h1, h2⟩
    refine ⟨hw.srcLt y i e x h1 h2, ?_⟩
    cases hy : g.get y with
    | none => rw [edge_eq, ins_eq, hy] at h1; simp at h1
    | some n => exact hw.lt y n hy
  obtain ⟨-, -, ⟨-, -, f, hed⟩ | ⟨ex, -, hex, -, hne, hed⟩⟩ := tail_edges hw he
  · refine path_insert (s := match source with | .node a => a | .graph => g.nextKey) (n := g.nextKey) g.nextKey
      (Nat.le_refl _) hsk ?_ ha h hb
    rintro x y ⟨i, e, h1, h2⟩
    rw [hed] at h1
    split at h1
    · next hc =>
      simp only [Option.some.injEq] at h1
      subst h1
      simp only at h2
      subst h2
      exact .inl ⟨hc.1 ▸ hsk, Nat.ne_of_lt (hsrc x rfl), .inr ⟨rfl, hc.1⟩⟩
    · have := hsrcLt x y ⟨i, e, h1, h2⟩
      exact .inl ⟨this.2, Nat.ne_of_lt this.1, .inl ⟨i, e, h1, h2⟩⟩
  · refine path_insert (s := match source with | .node a => a | .graph => g.nextKey) (n := g.nextKey) g.nextKey
      (Nat.le_refl _) hsk ?_ ha h hb
    rintro x y ⟨i, e, h1, h2⟩
    rw [hed] at h1
    split at h1
    · next hc =>
      simp only [Option.some.injEq] at h1
      subst h1
      simp only [Src.node.injEq] at h2
      exact .inr (.inr ⟨h2.symm, hc.1⟩)
    split at h1
    · next hc =>
      simp only [Option.some.injEq] at h1
      subst h1
      simp only at h2
      subst h2
      exact .inr (.inl ⟨hc.1, Nat.ne_of_lt (hsrc x rfl), .inr rfl⟩)
    split at h1
    · next hc =>
      simp only [Option.some.injEq] at h1
      subst h1
      have hf : Feeds g x sink := ⟨si, ex, hex, h2⟩
      exact .inr (.inl ⟨hc.1, Nat.ne_of_lt (hsrcLt _ _ hf).1, .inl hf⟩)
    · have := hsrcLt x y ⟨i, e, h1, h2⟩
      exact .inl ⟨this.2, Nat.ne_of_lt this.1, .inl ⟨i, e, h1, h2⟩⟩

/-- Connecting to a graph output adds no path between existing nodes. -/
theorem path_toOut {sl} {g g' : Graph} (hw : WF g) {source : Src} {so si add}
    (he : connectToOut sl g source so si add = .ok g') {a b : Key} (hb : b < g.nextKey)
    (h : ReflTransGen (Feeds g') a b) : ReflTransGen (Feeds g) a b := by
  have hw0 : WF { g with recalc := true } := hw.congr rfl rfl rfl rfl
  have hedge : ∀ k i, k < g.nextKey → g'.edge k i = g.edge k i := by
    intro k i hk
    unfold connectToOut at he
    dsimp only at he
    split at he
    · obtain ⟨-, rfl⟩ := setOut_ok he; rfl
    cases h1 : getOut { g with recalc := true } si with
    | error e => simp [h1] at he
    | ok o =>
      simp only [h1, bind_ok] at he
      cases o with
      | none => obtain ⟨-, rfl⟩ := setOut_ok he; rfl
      | some ex =>
        simp only at he
        cases h2 : setEdge (newAdd sl { g with recalc := true }) g.nextKey 0 (some ex) with
        | error e => simp [h2] at he
        | ok g2 =>
          simp only [h2, bind_ok] at he
          cases h3 : setEdge g2 g.nextKey 1 (some ⟨source, so, false⟩) with
          | error e => simp [h3] at he
          | ok g3 =>
            simp only [h3, bind_ok] at he
            obtain ⟨-, rfl⟩ := setOut_ok he
            have hne : ¬ (k = g.nextKey ∧ i = 1) := fun hx => Nat.ne_of_lt hk hx.1
            have hne' : ¬ (k = g.nextKey ∧ i = 0) := fun hx => Nat.ne_of_lt hk hx.1
            change g3.edge k i = _
            rw [edge_setEdge h3, if_neg hne, edge_setEdge h2, if_neg hne', edge_newAdd hw0]
            rfl
  have hsrcLt : ∀ x y, Feeds g x y → x < g.nextKey := by
    rintro x y ⟨i, e, h1, h2⟩
    exact hw.srcLt y i e x h1 h2
  have aux : ∀ a, ReflTransGen (Feeds g') a b → ReflTransGen (Feeds g) a b ∧ a < g.nextKey := by
    intro a hab
    induction hab using ReflTransGen.head_induction_on with
    | refl => exact ⟨.refl, hb⟩
    | @head x y hxy _ ih =>
      obtain ⟨i, e, h1, h2⟩ := hxy
      rw [hedge y i ih.2] at h1
      exact ⟨.head ⟨i, e, h1, h2⟩ ih.1, hsrcLt x y ⟨i, e, h1, h2⟩⟩
  exact (aux a h).1

end Verif.H
