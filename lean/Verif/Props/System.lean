import Verif.Lemmas.System
import Verif.Lemmas.OrderExact

/-!
# C67: the whole graph plays its dataflow meaning across edits

The meaning of a run (`Means`) knows nothing of schedules, tasks, buffers, ring buffers or moved boxes: it
is a sequence of graphs, one for every block, each run as a dataflow graph (`BlockSpec`), with the states
of the unit generators carried from block to block.
-/

namespace Verif.Sys

open Verif.G
open Verif.T (NU TD UG)

section
variable {S St : Type}

/-! ### The meaning -/

/-- One block of a run: the graph, what the unit generators do, the graph inputs and the outputs. -/
structure Rec (S St : Type) where
  g : Graph
  proc : Proc S St
  inp : Nat → Nat → S
  o : List (List S)

/-- The unit generators go from `st` to the last state through the blocks, and the outputs are those of
the connected nodes. -/
inductive Means [Zero S] (bs : Nat) (st : Key → St) : List (Rec S St) → (Key → St) → Prop
  | nil : Means bs st [] st
  | snoc {rs : List (Rec S St)} {r : Rec S St} {st1 st2 : Key → St} {out : Key → Nat → Nat → S} :
      Means bs st rs st1 → BlockSpec r.g bs r.proc r.inp st1 st2 out →
      r.o = r.g.outs.map (edgeVal bs r.inp out) → Means bs st (rs ++ [r]) st2

/-! ### The graphs it is proved for -/

/-- No dangling connections, nodes with outputs, no feedback connections, no cycles, no node that is
connected to a graph output and to another node, and no source that is not heard and sits in a higher
slot than a node it feeds.  The negations of C11, C12 and C13 show what happens without. -/
structure Fine (g : Graph) : Prop where
  nodangle : NoDangle g
  params : ∀ b es pe, g.pars b = some es → pe ∈ es → Live g pe.source ∧ pe.chan < outputsOf g pe.source
  outputs : ∀ k, Live g k → 0 < outputsOf g k
  forward : ∀ k i e, g.edge k i = some e → e.fb = false
  acyclic : Acyclic (Needs g)
  ends : ∀ a b, OutNode g a → ¬ Needs g a b
  heard : ∀ a b, Needs g a b → Heard g a ∨ Before (g.nodes.map Prod.fst) a b

theorem Fine.needs_dep {g : Graph} (h : Fine g) {a b : Key} (hn : Needs g a b) : Dep g a b := by
  rcases hn with ⟨i, e, h1, h2⟩ | h'
  · exact .inl ⟨i, e, h1, h2, h.forward _ _ _ h1⟩
  · exact .inr h'

theorem dep_needs {g : Graph} {a b : Key} (h : Dep g a b) : Needs g a b := by
  rcases h with ⟨i, e, h1, h2, -⟩ | h
  · exact .inl ⟨i, e, h1, h2⟩
  · exact .inr h

theorem Fine.sound {g : Graph} (hw : WF g) (h : Fine g) : ∃ order, Sound g order := by
  obtain ⟨order, rem, hord⟩ := calcOrder_total hw (h.acyclic.mono fun a b hf => .inl hf) h.nodangle
    (fun b es pe h1 h2 => (h.params b es pe h1 h2).1)
  obtain ⟨rs, -, -, hrs, -⟩ := calcOrder_ok hord
  refine ⟨order, hw, h.nodangle, h.params, h.outputs, ⟨rem, hord⟩, ?_⟩
  have ht := (order_exact hw hord hrs).2 ⟨h.acyclic.mono fun a b hd => dep_needs hd, ?_, ?_⟩
  · intro pre b post e a ha
    exact ht pre b post e a (h.needs_dep ha)
  · refine (roots_inv hrs).2.imp_of_mem fun {a b} _ hb _ hba => ?_
    obtain ⟨c, hc, -⟩ := Relation.TransGen.head'_iff.1 hba
    exact h.ends b c ((roots_inv hrs).1 b hb) (dep_needs hc)
  · intro a b hab
    rcases h.heard a b (dep_needs hab) with h1 | h1
    · exact .inl (reached_of_heard hw hrs h.ends h1)
    · refine .inr ⟨?_, h1⟩
      rcases hab with ⟨i, e, h2, h3, -⟩ | ⟨es, pe, h2, h3, rfl⟩
      · obtain ⟨n, h4, h5, -⟩ := (h.nodangle.1 _ _ _ h2).1 a h3
        exact ⟨by simp [h4], h5⟩
      · exact (h.params _ _ _ h2 h3).1

/-! ### All histories -/

/-- All interleavings of edits (those allowed by `E`), commits and blocks without a panic, with the graph
of the last commit that made a new schedule and the blocks so far. -/
inductive Hist [Zero S] (E : Graph → Op → Prop) (sl : Key → Nat) (bs : Nat) (heap : Key → St) : Y S St → Graph → List (Rec S St) → Prop
  | init (id numIn numOut cap : Nat) :
      Hist E sl bs heap (.init id numIn numOut bs cap heap) (.init id numIn numOut) []
  | edit {y y' gc rs} {op : Op} {r} : Hist E sl bs heap y gc rs → isCommit op = false →
      E y.g op → edit sl y op = .ok (y', r) → Hist E sl bs heap y' gc rs
  | commit {y y' gc rs} {rm : Key → Bool} {g1} : Hist E sl bs heap y gc rs →
      freeOld rm (fun f => y.applied (f + 1)) y.g = .ok g1 → (g1.recalc = true → Fine g1) →
      commit bs y rm = .ok y' → Hist E sl bs heap y' (if g1.recalc then g1 else gc) rs
  | block {y y' gc rs o} (proc : Proc S St) (inp : Nat → Nat → S) : Hist E sl bs heap y gc rs →
      block bs y proc inp = .ok (y', o) → Hist E sl bs heap y' gc (rs ++ [⟨gc, proc, inp, o⟩])

/-! ### The proof -/

/-- The silent region at the start of every allocation. -/
def Silent [Zero S] (bs : Nat) (m : Mem S) : Prop := ∀ b, ∀ i < bs, m b i = 0

theorem silent_run [Zero S] {bs : Nat} (proc : Proc S St) (inp : Nat → Nat → S) (ar : List ArChange) :
    ∀ (ts : List Task) (m : Mem S) (st : Key → St), (∀ t ∈ ts, bs ≤ t.out.2) → Silent bs m →
      Silent bs (runTasks proc bs inp ar m st ts).1 := by
  intro ts
  induction ts with
  | nil => intro m st _ h; exact h
  | cons t ts ih =>
    intro m st ht h
    rw [runTasks]
    refine ih _ _ (fun t' h' => ht t' (List.mem_cons_of_mem _ h')) ?_
    intro b i hi
    rw [writeOut, if_neg]
    · exact h b i hi
    · rintro ⟨-, h1, -⟩
      have := ht t (List.mem_cons_self ..)
      omega

/-- The schedule plays the graph. -/
def Plays (St : Type) [Zero S] (gc : Graph) (bs : Nat) (sch : Schedule) : Prop :=
  ∀ (proc : Proc S St) (inp : Nat → Nat → S) (m : Mem S) (st : Key → St), Silent bs m →
    let r := runTasks proc bs inp sch.ar m st sch.tasks
    Silent bs r.1 ∧ ∃ out, BlockSpec gc bs proc inp st r.2 out ∧
      readOuts bs inp r.1 sch.outs = gc.outs.map (edgeVal bs inp out)

theorem plays_of_fine [Zero S] {g : Graph} {bs : Nat} {a a' : AState} {sch : Schedule} (hbs : 0 < bs)
    (hw : WF g) (hf : Fine g) (h : makeSchedule g bs a = .ok (a', sch)) : Plays (S := S) St g bs sch := by
  obtain ⟨order, hs⟩ := hf.sound hw
  intro proc inp m st hz
  obtain ⟨out, h1, h2⟩ := C13_outputs_partial hs hbs h (fun e a he ha => .inl fun b => hf.ends a b (by
    obtain ⟨i, hi⟩ := List.mem_iff_getElem?.1 he
    exact ⟨i, e, by rw [Graph.out, hi]; rfl, ha⟩)) proc inp m st (hz _)
  refine ⟨silent_run proc inp sch.ar _ m st ?_ hz, out, h1, h2⟩
  obtain ⟨off, hl, ht, -, -, -⟩ := schedule_layout hs hbs h
  intro t htm
  rw [ht] at htm
  obtain ⟨k, hk, rfl⟩ := List.mem_map.1 htm
  exact hl.ge k hk

theorem plays_init [Zero S] (id numIn numOut bs : Nat) :
    Plays (S := S) St (.init id numIn numOut) bs ⟨[], [], List.replicate numOut none⟩ := by
  intro proc inp m st hz
  refine ⟨hz, fun _ _ _ => 0, ⟨?_, fun _ _ => rfl⟩, ?_⟩
  · intro k es ps hk
    simp [Live, Graph.init, Graph.get] at hk
  · simp [readOuts, Graph.init, edgeVal]

/-- What holds in every history. -/
structure Good [Zero S] (bs : Nat) (heap : Key → St) (y : Y S St) (gc : Graph) (rs : List (Rec S St)) : Prop where
  sim : ∃ t, Sim y t
  wf : WF y.g
  sch : SchOk y
  silent : Silent bs y.mem
  plays : Plays (S := S) St gc bs y.newest.1
  means : Means bs heap rs y.heap

theorem Hist.good [Zero S] {E sl} {bs : Nat} (hbs : 0 < bs) {heap : Key → St} {y : Y S St} {gc : Graph}
    {rs : List (Rec S St)} (h : Hist E sl bs heap y gc rs) : Good bs heap y gc rs := by
  induction h with
  | init id numIn numOut cap =>
    exact ⟨sim_init .., wf_init .., schOk_init id numIn numOut bs cap heap, fun _ _ _ => rfl,
      plays_init id numIn numOut bs, .nil⟩
  | edit _ hop _ he ih =>
    obtain ⟨t, hs⟩ := ih.sim
    obtain ⟨h1, h2, -, h3, h4, h5, h6, -, -, -⟩ := sim_edit hs ih.wf hop he
    refine ⟨h1, h2, ?_, by rw [h5]; exact ih.silent, ?_, by rw [h6]; exact ih.means⟩
    · rw [SchOk, h3, h4]; exact ih.sch
    · rw [Y.newest, h3, h4]; exact ih.plays
  | @commit y y' gc rs rm g1 _ hfo hfine hc ih =>
    obtain ⟨t, hs⟩ := ih.sim
    obtain ⟨h1, h2, h3, h4, h5, -, -, g1', hfo', hw1, hcase⟩ := sim_commit hs ih.wf hc
    rw [hfo] at hfo'
    simp only [Except.ok.injEq] at hfo'
    subst hfo'
    refine ⟨h1, h2, schOk_commit ih.sch hc, by rw [h4]; exact ih.silent, ?_, by rw [h5]; exact ih.means⟩
    rcases hcase with ⟨hr, -, hring, -⟩ | ⟨hr, -, sch, td, hms, hring⟩
    · rw [hr, Y.newest, hring, h3]; exact ih.plays
    · rw [hr, Y.newest, hring]
      simp only [if_true, List.getLast?_concat, Option.getD_some]
      exact plays_of_fine hbs hw1 (hfine hr) hms
  | @block y y' gc rs o proc inp _ hb ih =>
    obtain ⟨t, hs⟩ := ih.sim
    obtain ⟨y2, o2, hb2, h1, h2, h3, -, -, h4, -, h5, h6, h7, h8⟩ := sim_block (bs := bs) hs ih.sch proc inp
    rw [hb] at hb2
    simp only [Except.ok.injEq, Prod.mk.injEq] at hb2
    obtain ⟨rfl, rfl⟩ := hb2
    obtain ⟨hz, out, hb1, hb2⟩ := ih.plays proc inp y.mem y.heap ih.silent
    refine ⟨h1, by rw [h3]; exact ih.wf, h2, by rw [h6]; exact hz, ?_, ?_⟩
    · rw [Y.newest, h4]
      simp only [List.getLast?_nil, Option.getD_none]
      rw [h5]
      exact ih.plays
    · rw [h7]
      exact .snoc ih.means hb1 (h8.trans hb2)

/-- **C67.**  In every interleaving of edits, commits and blocks, every block puts out what the graph of
the last commit that made a schedule means, with the unit generators in the states the earlier blocks left
them in, and no block panics.

Missing for the full claim: graphs that are not `Fine` (C11, C12 and C13 are violated for those), edits
that do not ask for a new schedule (C68), and what happens after a panic. -/
theorem C67_partial [Zero S] {E sl} {bs : Nat} (hbs : 0 < bs) {heap : Key → St} {y : Y S St} {gc : Graph}
    {rs : List (Rec S St)} (h : Hist E sl bs heap y gc rs) :
    Means bs heap rs y.heap ∧ ∀ proc inp, ∃ y' o, block bs y proc inp = .ok (y', o) := by
  have hg := h.good hbs
  obtain ⟨t, hs⟩ := hg.sim
  refine ⟨hg.means, fun proc inp => ?_⟩
  obtain ⟨y', o, hb, -⟩ := sim_block (bs := bs) hs hg.sch proc inp
  exact ⟨y', o, hb⟩

/-- **C67.**  A commit works whenever the clean-up works, the graph is fine and there is room. -/
theorem C67_commit_partial [Zero S] {E sl} {bs : Nat} (hbs : 0 < bs) {heap : Key → St} {y : Y S St} {gc : Graph}
    {rs : List (Rec S St)} (h : Hist E sl bs heap y gc rs) {rm : Key → Bool} {g1}
    (hfo : freeOld rm (fun f => y.applied (f + 1)) y.g = .ok g1) (hf : g1.recalc = true → Fine g1)
    (hroom : y.ring.length < y.cap) : ∃ y', commit bs y rm = .ok y' := by
  have hg := h.good hbs
  obtain ⟨t, hs⟩ := hg.sim
  have hw1 := wf_freeOld hg.wf hfo
  rw [commit, commitFull, hfo]
  simp only [bind_ok]
  cases hr : g1.recalc with
  | false => exact ⟨_, rfl⟩
  | true =>
    obtain ⟨order, ho⟩ := (hf hr).sound hw1
    obtain ⟨s', sch, off, hm, ht, -⟩ := makeSchedule_spec ho hbs y.a
    obtain ⟨rem, hco⟩ := makeSchedule_keys hm
    obtain ⟨hnd, hmem⟩ := order_nodup_mem hw1 hco
    rw [if_pos rfl, hm]
    simp only [bind_ok, hroom, decide_true, if_true]
    obtain ⟨gE, hev, hgd⟩ := freeOld_ok hfo
    have hsome : ∀ k ∈ sch.tasks.map Task.key, ((fun k : Key => if (({ g1 with flag := g1.flag + 1, recalc := false } : Graph).get k).isSome = true
        then y.ug k else none) k).isSome := by
      intro k hk
      have h1 := ((hmem k).1 hk).1
      have h2 : (({ g1 with flag := g1.flag + 1, recalc := false } : Graph).get k).isSome = true := h1
      simp only [h2, if_true]
      rw [hs.mt.has]
      have h3 : (gE.get k).isSome = true := by
        rw [hgd, get_dropFlagged] at h1
        split at h1
        · simp at h1
        · exact h1
      obtain ⟨-, -, tE, -, hmE, -⟩ := keeps_evalMany (keeps_freeMany (hs.keeps hg.wf) _) hev
      rw [← hmE.has, nextKey_evalMany hev, nextKey_freeMany, newUnits_self, hs.mt.has] at h3
      exact h3
    obtain ⟨ts, ug', h1, -⟩ := T.makeTasks_spec _ 0 _ hnd hsome
    rw [h1]
    exact ⟨_, rfl⟩

/-! ### The outputs depend on the wirings only -/

/-- Two graphs with the same live nodes and the same connections. -/
def SameWiring (g g' : Graph) : Prop :=
  (∀ k, Live g k ↔ Live g' k) ∧ (∀ k, g.ins k = g'.ins k) ∧ (∀ k, g.pars k = g'.pars k) ∧ g.outs = g'.outs

theorem BlockSpec.congr [Zero S] {g g' : Graph} (h : SameWiring g g') {bs : Nat} {proc : Proc S St}
    {inp : Nat → Nat → S} {st st' : Key → St} {out} (hb : BlockSpec g bs proc inp st st' out) :
    BlockSpec g' bs proc inp st st' out := by
  obtain ⟨h1, h2, h3, -⟩ := h
  exact ⟨fun k es ps hk he hp => hb.step k es ps ((h1 k).2 hk) (by rw [h2]; exact he) (by rw [h3]; exact hp),
    fun k hk => hb.idle k (fun hl => hk ((h1 k).1 hl))⟩

/-- The meaning of the graph leaves no choice. -/
def Determined (S St : Type) [Zero S] (bs : Nat) (g : Graph) : Prop :=
  ∀ (proc : Proc S St) (inp : Nat → Nat → S) (st st1 st2 : Key → St) (out1 out2 : Key → Nat → Nat → S),
    BlockSpec g bs proc inp st st1 out1 → BlockSpec g bs proc inp st st2 out2 →
    st1 = st2 ∧ g.outs.map (edgeVal bs inp out1) = g.outs.map (edgeVal bs inp out2)

theorem determined_of_fine [Zero S] {g : Graph} (bs : Nat) (hw : WF g) (hf : Fine g) : Determined S St bs g := by
  obtain ⟨order, hs⟩ := hf.sound hw
  intro proc inp st st1 st2 out1 out2 h1 h2
  obtain ⟨h3, h4⟩ := BlockSpec.unique hs h1 h2
  refine ⟨h3, List.map_congr_left ?_⟩
  intro e he
  match e, he with
  | none, _ => rfl
  | some ⟨.graph, c, f⟩, _ => rfl
  | some ⟨.node a, c, f⟩, he =>
    obtain ⟨i, hi⟩ := List.mem_iff_getElem?.1 he
    obtain ⟨n, h5, h6, -⟩ := (hf.nodangle.2 i ⟨.node a, c, f⟩ (by rw [Graph.out, hi]; rfl)).1 a rfl
    simp only [edgeVal]
    rw [h4 a ⟨by simp [h5], h6⟩]

theorem determined_init [Zero S] (id numIn numOut bs : Nat) : Determined S St bs (.init id numIn numOut) := by
  intro proc inp st st1 st2 out1 out2 h1 h2
  have hl : ∀ k, ¬ Live (Graph.init id numIn numOut) k := by
    intro k hk
    simp [Live, Graph.init, Graph.get] at hk
  refine ⟨?_, ?_⟩
  · funext k
    rw [h1.idle k (hl k), h2.idle k (hl k)]
  · simp [Graph.init, edgeVal]

theorem Hist.determined [Zero S] {E sl} {bs : Nat} (hbs : 0 < bs) {heap : Key → St} {y : Y S St} {gc : Graph}
    {rs : List (Rec S St)} (h : Hist E sl bs heap y gc rs) :
    Determined S St bs gc ∧ ∀ r ∈ rs, Determined S St bs r.g := by
  induction h with
  | init id numIn numOut cap => exact ⟨determined_init id numIn numOut bs, by simp⟩
  | edit _ _ _ _ ih => exact ih
  | @commit y y' gc rs rm g1 hy hfo hfine hc ih =>
    refine ⟨?_, ih.2⟩
    split
    · next hr => exact determined_of_fine bs (wf_freeOld (hy.good hbs).wf hfo) (hfine hr)
    · exact ih.1
  | @block y y' gc rs o proc inp _ hb ih =>
    refine ⟨ih.1, ?_⟩
    intro r hr
    simp only [List.mem_append, List.mem_singleton] at hr
    rcases hr with hr | rfl
    · exact ih.2 r hr
    · exact ih.1

theorem means_nil [Zero S] {bs : Nat} {st st' : Key → St} (h : Means (S := S) bs st [] st') : st' = st := by
  generalize hl : ([] : List (Rec S St)) = l at h
  cases h with
  | nil => rfl
  | snoc => simp at hl

theorem means_snoc [Zero S] {bs : Nat} {st st' : Key → St} {rs : List (Rec S St)} {r : Rec S St}
    (h : Means bs st (rs ++ [r]) st') : ∃ st1 out, Means bs st rs st1 ∧
      BlockSpec r.g bs r.proc r.inp st1 st' out ∧ r.o = r.g.outs.map (edgeVal bs r.inp out) := by
  generalize hl : rs ++ [r] = l at h
  cases h with
  | nil => simp at hl
  | snoc h1 h2 h3 =>
    obtain ⟨rfl, h4⟩ := List.append_inj' hl rfl
    simp only [List.cons.injEq, and_true] at h4
    subst h4
    exact ⟨_, _, h1, h2, h3⟩

theorem forall₂_snoc {α β : Type} {P : α → β → Prop} {x : α} {y : β} : ∀ {l : List α} {l' : List β},
    List.Forall₂ P (l ++ [x]) (l' ++ [y]) → List.Forall₂ P l l' ∧ P x y := by
  intro l
  induction l with
  | nil =>
    intro l' h
    cases l' with
    | nil =>
      cases h with
      | cons h _ => exact ⟨.nil, h⟩
    | cons z l' =>
      have := h.length_eq
      simp at this
  | cons z l ih =>
    intro l' h
    cases l' with
    | nil =>
      have := h.length_eq
      simp at this
    | cons z' l' =>
      cases h with
      | cons h1 h2 => exact ⟨.cons h1 (ih h2).1, (ih h2).2⟩

/-- **C67.**  The outputs depend only on the wirings the blocks were run with, the unit generators and the
graph inputs: not on the edits that led to the wirings, on how the edits were grouped into commits, on how
many commits were waiting when a block started, or on anything in the buffers. -/
theorem C67_determined_partial [Zero S] {E1 E2 sl1 sl2} {bs : Nat} (hbs : 0 < bs) {heap : Key → St} {y1 y2 : Y S St}
    {gc1 gc2 : Graph} {rs1 rs2 : List (Rec S St)} (h1 : Hist E1 sl1 bs heap y1 gc1 rs1)
    (h2 : Hist E2 sl2 bs heap y2 gc2 rs2)
    (he : List.Forall₂ (fun r1 r2 => SameWiring r1.g r2.g ∧ r1.proc = r2.proc ∧ r1.inp = r2.inp) rs1 rs2) :
    rs1.map Rec.o = rs2.map Rec.o ∧ y1.heap = y2.heap := by
  have key : ∀ {rs1 : List (Rec S St)} {st1}, Means bs heap rs1 st1 → ∀ {rs2 st2}, Means bs heap rs2 st2 →
      (∀ r ∈ rs2, Determined S St bs r.g) →
      List.Forall₂ (fun r1 r2 => SameWiring r1.g r2.g ∧ r1.proc = r2.proc ∧ r1.inp = r2.inp) rs1 rs2 →
      rs1.map Rec.o = rs2.map Rec.o ∧ st1 = st2 := by
    intro rs1 st1 m1
    induction m1 with
    | nil =>
      intro rs2 st2 m2 _ hf
      cases hf
      exact ⟨rfl, (means_nil m2).symm⟩
    | @snoc rs r s1 s2 out hm hb ho ih =>
      intro rs2 st2 m2 hd hf
      rcases List.eq_nil_or_concat rs2 with rfl | ⟨rs2', r2, rfl⟩
      · have := hf.length_eq
        simp at this
      · rw [List.concat_eq_append] at *
        obtain ⟨hf1, hsw, hpr, hin⟩ := forall₂_snoc hf
        obtain ⟨s1', out', hm', hb', ho'⟩ := means_snoc m2
        obtain ⟨ho1, rfl⟩ := ih hm' (fun x hx => hd x (by simp [hx])) hf1
        have hb1 := BlockSpec.congr hsw hb
        rw [hpr, hin] at hb1
        obtain ⟨h3, h4⟩ := hd r2 (by simp) _ _ _ _ _ _ _ hb1 hb'
        refine ⟨?_, h3⟩
        rw [List.map_append, List.map_append, ho1]
        simp only [List.map_cons, List.map_nil]
        rw [ho, ho', hsw.2.2.2, hin, h4]
  exact key (h1.good hbs).means (h2.good hbs).means (h2.determined hbs).2 he

end

/-! ### Checking concrete graphs -/

/-- The nodes and the nodes they need, the connections and the parameter connections. -/
def allEdges (g : Graph) : List (Key × Edge) :=
  g.nodes.flatMap fun p => ((p.2.ins.getD []).filterMap id).map fun e => (p.1, e)

def allPars (g : Graph) : List (Key × PEdge) :=
  g.nodes.flatMap fun p => (p.2.pars.getD []).map fun e => (p.1, e)

def chanB (g : Graph) (a : Key) (c : Nat) : Bool := match g.get a with
  | some n => !g.isPending a && decide (c < n.outputs)
  | none => false

def srcB (g : Graph) (e : Edge) : Bool := match e.source with
  | .node a => chanB g a e.chan
  | .graph => decide (e.chan < g.numIn)

def needB (g : Graph) (rank : Key → Nat) (up : Key → Key) (a b : Key) : Bool :=
  decide (rank a < rank b) && decide (rank b ≤ 100) && !isOutNode g a &&
    (isOutNode g b || ((g.ins (up b)).getD []).any fun o => match o with
      | some e => decide (e.source = .node b) && !e.fb
      | none => false)

/-- A check for `Fine`: `rank` numbers the nodes along the connections, `up` shows the way to an output. -/
def fineB (g : Graph) (rank : Key → Nat) (up : Key → Key) : Bool :=
  (allEdges g).all (fun p => srcB g p.2 && !p.2.fb && match p.2.source with
    | .node a => needB g rank up a p.1
    | .graph => true) &&
  (allPars g).all (fun p => chanB g p.2.source p.2.chan && needB g rank up p.2.source p.1) &&
  g.outs.all (fun o => match o with
    | some e => srcB g e
    | none => true) &&
  g.nodes.all fun p => decide (0 < p.2.outputs)

theorem mem_allEdges {g : Graph} {k : Key} {i : Nat} {e : Edge} (h : g.edge k i = some e) : (k, e) ∈ allEdges g := by
  cases hi : g.ins k with
  | none => rw [edge_of_none hi] at h; simp at h
  | some es =>
    rw [edge_of_ins hi] at h
    rw [ins_eq] at hi
    obtain ⟨n, hn, hni⟩ := Option.bind_eq_some_iff.1 hi
    have hm : some e ∈ es := by
      rw [Option.join_eq_some_iff] at h
      exact List.mem_of_getElem? h
    simp only [allEdges, List.mem_flatMap, List.mem_map, List.mem_filterMap, id]
    exact ⟨(k, n), mem_of_get hn, e, ⟨some e, by simpa [hni] using hm, rfl⟩, rfl⟩

theorem mem_allPars {g : Graph} {k : Key} {es : List PEdge} {pe : PEdge} (h : g.pars k = some es) (hm : pe ∈ es) :
    (k, pe) ∈ allPars g := by
  rw [pars_eq] at h
  obtain ⟨n, hn, hni⟩ := Option.bind_eq_some_iff.1 h
  simp only [allPars, List.mem_flatMap, List.mem_map]
  exact ⟨(k, n), mem_of_get hn, pe, by simpa [hni] using hm, rfl⟩

theorem chanB_spec {g : Graph} {a : Key} {c : Nat} (h : chanB g a c = true) :
    ∃ n, g.get a = some n ∧ g.isPending a = false ∧ c < n.outputs := by
  rw [chanB] at h
  split at h
  · next n hn => exact ⟨n, hn, by simpa using h⟩
  · simp at h

theorem srcB_spec {g : Graph} {e : Edge} (h : srcB g e = true) : SrcOk g e := by
  obtain ⟨s, c, f⟩ := e
  cases s with
  | node a =>
    refine ⟨fun a' ha => ?_, by simp⟩
    simp only [Src.node.injEq] at ha
    subst ha
    exact chanB_spec h
  | graph => exact ⟨by simp, fun _ => by simpa [srcB] using h⟩

theorem fine_of_check {g : Graph} (rank : Key → Nat) (up : Key → Key) (h : fineB g rank up = true) : Fine g := by
  simp only [fineB, Bool.and_eq_true, List.all_eq_true, decide_eq_true_eq, Bool.not_eq_eq_eq_not,
    Bool.not_true] at h
  obtain ⟨⟨⟨h1, h2⟩, h3⟩, h4⟩ := h
  have hneed : ∀ a b, Needs g a b → needB g rank up a b = true := by
    rintro a b (⟨i, e, he, hs⟩ | ⟨es, pe, hp, hm, rfl⟩)
    · have := (h1 _ (mem_allEdges he)).2
      simp only [hs] at this
      exact this
    · exact (h2 _ (mem_allPars hp hm)).2
  have hneed' : ∀ a b, Needs g a b → rank a < rank b ∧ rank b ≤ 100 ∧ isOutNode g a = false ∧
      (OutNode g b ∨ Dep g b (up b)) := by
    intro a b hab
    have := hneed a b hab
    simp only [needB, Bool.and_eq_true, decide_eq_true_eq, Bool.not_eq_eq_eq_not, Bool.not_true,
      Bool.or_eq_true, List.any_eq_true] at this
    obtain ⟨⟨⟨q1, q2⟩, q3⟩, q4⟩ := this
    refine ⟨q1, q2, q3, ?_⟩
    rcases q4 with q4 | ⟨o, ho, q4⟩
    · exact .inl (isOutNode_iff.1 q4)
    · refine .inr (.inl ?_)
      cases hi : g.ins (up b) with
      | none => simp [hi] at ho
      | some es =>
        rw [hi] at ho
        obtain ⟨i, hix⟩ := List.mem_iff_getElem?.1 ho
        cases o with
        | none => simp at q4
        | some e =>
          simp only [Bool.and_eq_true, decide_eq_true_eq, Bool.not_eq_eq_eq_not, Bool.not_true] at q4
          refine ⟨i, e, ?_, q4⟩
          rw [edge_of_ins hi]
          simp only [Option.getD_some] at hix
          rw [hix]
          rfl
  refine ⟨⟨fun k i e he => ?_, fun i e he => ?_⟩, ?_, ?_, fun k i e he => ?_, ?_, ?_, ?_⟩
  · exact srcB_spec (h1 _ (mem_allEdges he)).1.1
  · have : some e ∈ g.outs := by
      rw [Graph.out, Option.join_eq_some_iff] at he
      exact List.mem_of_getElem? he
    exact srcB_spec (h3 _ this)
  · intro b es pe hb hm
    obtain ⟨n, q1, q2, q3⟩ := chanB_spec (h2 _ (mem_allPars hb hm)).1
    exact ⟨⟨by simp [q1], q2⟩, by simpa [outputsOf, q1] using q3⟩
  · intro k hk
    obtain ⟨n, hn⟩ := Option.isSome_iff_exists.1 hk.1
    simpa [outputsOf, hn] using h4 _ (mem_of_get hn)
  · exact (h1 _ (mem_allEdges he)).1.2
  · intro k hk
    have : ∀ a b, Relation.TransGen (Needs g) a b → rank a < rank b := by
      intro a b hab
      induction hab with
      | single h => exact (hneed' _ _ h).1
      | tail _ h ih => exact Nat.lt_trans ih (hneed' _ _ h).1
    exact absurd (this k k hk) (Nat.lt_irrefl _)
  · intro a b ha hn
    have := (hneed' a b hn).2.2.1
    rw [isOutNode_iff.2 ha] at this
    simp at this
  · have : ∀ n a b, Needs g a b → 100 - rank b ≤ n → Heard g b := by
      intro n
      induction n with
      | zero =>
        intro a b hab hn
        obtain ⟨q1, q2, q3, q4⟩ := hneed' a b hab
        rcases q4 with q4 | q4
        · exact ⟨b, q4, .refl⟩
        · have := hneed' _ _ (dep_needs q4)
          omega
      | succ n ih =>
        intro a b hab hn
        obtain ⟨q1, q2, q3, q4⟩ := hneed' a b hab
        rcases q4 with q4 | q4
        · exact ⟨b, q4, .refl⟩
        · have q5 := hneed' _ _ (dep_needs q4)
          obtain ⟨r, hr, hp⟩ := ih b (up b) (dep_needs q4) (by omega)
          exact ⟨r, hr, .head q4 hp⟩
    intro a b hab
    obtain ⟨r, hr, hp⟩ := this _ a b hab (Nat.le_refl _)
    refine .inl ⟨r, hr, .head ?_ hp⟩
    rcases hab with ⟨i, e, he, hs⟩ | h
    · exact .inl ⟨i, e, he, hs, (h1 _ (mem_allEdges he)).1.2⟩
    · exact .inr h

/-! ### A history -/

/-- The edits of a run and its outputs, for the examples. -/
inductive Step
  | ed (op : Op)
  | com
  | blk

/-- Run the steps. -/
def demoRun (y : Y Int Unit) : List Step → R (Y Int Unit × List (List (List Int)))
  | [] => .ok (y, [])
  | .ed op :: ss => do
    let (y, _) ← edit id y op
    demoRun y ss
  | .com :: ss => do
    let y ← commit 2 y (fun _ => false)
    demoRun y ss
  | .blk :: ss => do
    let (y, o) ← block 2 y demoProc (fun _ _ => 0)
    let (y, os) ← demoRun y ss
    .ok (y, o :: os)

/-- Node 0 feeds node 1, which is connected to the output; later node 2 is put in the place of node 0,
with an edit in between that is not committed when a block runs. -/
def demoSteps : List Step := [.ed (.push 0 1 []), .blk, .ed (.push 1 1 []),
  .ed (.connect (.node (nd 0)) 0 0 (.node (nd 1)) false false), .ed (.connect (.node (nd 1)) 0 0 .graph false false),
  .com, .ed (.push 0 1 []), .blk, .ed (.connect (.node (nd 2)) 0 0 (.node (nd 1)) false false), .blk,
  .com, .com, .blk, .blk]

-- node 0 puts out 1, node 1 adds 2, node 2 puts out 3
example : (demoRun (.init 0 0 1 2 4 (fun _ => ())) demoSteps).map Prod.snd =
    .ok [[[0, 0]], [[3, 3]], [[3, 3]], [[5, 5]], [[5, 5]]] := by decide +kernel

/-- The conditions of `Hist`, checked on the way. -/
def demoChk (rank : Key → Nat) (up : Key → Key) (y : Y Int Unit) : List Step → Bool
  | [] => true
  | .ed op :: ss => !isCommit op && match edit id y op with
    | .ok (y, _) => demoChk rank up y ss
    | .error _ => false
  | .com :: ss => (match freeOld (fun _ => false) (fun f => y.applied (f + 1)) y.g with
      | .ok g1 => !g1.recalc || fineB g1 rank up
      | .error _ => false) && match commit 2 y (fun _ => false) with
    | .ok y => demoChk rank up y ss
    | .error _ => false
  | .blk :: ss => match block 2 y demoProc (fun _ _ => 0) with
    | .ok (y, _) => demoChk rank up y ss
    | .error _ => false

theorem demo_hist (E : Graph → Op → Prop) (rank : Key → Nat) (up : Key → Key) (heap : Key → Unit) :
    ∀ (ss : List Step) (y : Y Int Unit) (gc : Graph) (rs : List (Rec Int Unit)), Hist E id 2 heap y gc rs →
    demoChk rank up y ss = true → (∀ op, .ed op ∈ ss → ∀ g, E g op) →
    ∃ y' gc' rs' os, Hist E id 2 heap y' gc' rs' ∧ demoRun y ss = .ok (y', os) ∧
      rs'.map Rec.o = rs.map Rec.o ++ os := by
  intro ss
  induction ss with
  | nil => intro y gc rs h _ _; exact ⟨y, gc, rs, [], h, rfl, by simp⟩
  | cons s ss ih =>
    intro y gc rs h hc hE
    have hE' := fun op hop => hE op (List.mem_cons_of_mem _ hop)
    cases s with
    | ed op =>
      rw [demoChk, Bool.and_eq_true] at hc
      obtain ⟨h1, h2⟩ := hc
      cases he : edit id y op with
      | error e => simp [he] at h2
      | ok x =>
        obtain ⟨y1, r⟩ := x
        rw [he] at h2
        obtain ⟨y', gc', rs', os, q1, q2, q3⟩ := ih y1 gc rs (.edit h (by simpa using h1) (hE op (List.mem_cons_self ..) _) he) h2 hE'
        exact ⟨y', gc', rs', os, q1, by rw [demoRun, he]; exact q2, q3⟩
    | com =>
      rw [demoChk, Bool.and_eq_true] at hc
      obtain ⟨h1, h2⟩ := hc
      cases hf : freeOld (fun _ => false) (fun f => y.applied (f + 1)) y.g with
      | error e => simp [hf] at h1
      | ok g1 =>
        cases he : commit 2 y (fun _ => false) with
        | error e => simp [he] at h2
        | ok y1 =>
          rw [he] at h2
          rw [hf] at h1
          have hfine : g1.recalc = true → Fine g1 := by
            intro hr
            simp only [hr, Bool.not_true, Bool.false_or] at h1
            exact fine_of_check rank up h1
          obtain ⟨y', gc', rs', os, q1, q2, q3⟩ := ih y1 _ rs (.commit h hf hfine he) h2 hE'
          exact ⟨y', gc', rs', os, q1, by rw [demoRun, he]; exact q2, q3⟩
    | blk =>
      rw [demoChk] at hc
      cases he : block 2 y demoProc (fun _ _ => 0) with
      | error e => simp [he] at hc
      | ok x =>
        obtain ⟨y1, o⟩ := x
        rw [he] at hc
        obtain ⟨y', gc', rs', os, q1, q2, q3⟩ := ih y1 gc _ (.block _ _ h he) hc hE'
        refine ⟨y', gc', rs', o :: os, q1, ?_, by simpa using q3⟩
        rw [demoRun, he]
        simp only [bind_ok]
        rw [q2]
        rfl

/-- The history of the example is one that `C67_partial` speaks of. -/
example : ∃ (y : Y Int Unit) (gc : Graph) (rs : List (Rec Int Unit)), Hist (fun _ _ => True) id 2 (fun _ => ()) y gc rs ∧
    rs.map Rec.o = [[[0, 0]], [[3, 3]], [[3, 3]], [[5, 5]], [[5, 5]]] := by
  obtain ⟨y, gc, rs, os, h1, h2, h3⟩ := demo_hist (fun _ _ => True) (fun k => if k = 1 then 1 else 0) id (fun _ => ()) demoSteps _ _ _
    (.init 0 0 1 4) (by decide +kernel) (fun _ _ _ => trivial)
  refine ⟨y, gc, rs, h1, ?_⟩
  have : (demoRun (.init 0 0 1 2 4 (fun _ => ())) demoSteps).map Prod.snd =
    .ok [[[0, 0]], [[3, 3]], [[3, 3]], [[5, 5]], [[5, 5]]] := by decide +kernel
  rw [h2] at this
  simp only [Except.map, Except.ok.injEq] at this
  rw [h3, this]
  rfl

end Verif.Sys
