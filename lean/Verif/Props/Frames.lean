import Verif.Props.System
import Verif.Lemmas.Engine
import Verif.Props.Feedback
import Mathlib.Data.List.Induction

/-!
# C101: the block size of a graph does not matter

The meaning (`FMeans`) knows nothing of blocks: in every frame every unit generator of the graph takes one sample from each
of its connections and puts out one sample per channel.
-/

namespace Verif.Sys

open Verif.G

section
variable {S St : Type}

/-! ### The meaning of a frame -/

/-- What the unit generators do in one frame: state, inputs, values of the audio rate parameters; new state and outputs. -/
abbrev Tick (S St : Type) := Key → St → List S → List (Nat × S) → St × (Nat → S)

/-- The sample on a connection. -/
def frameVal [Zero S] (x : Nat → S) (out : Key → Nat → S) : Option Edge → S
  | some ⟨.node a, c, _⟩ => out a c
  | some ⟨.graph, c, _⟩ => x c
  | none => 0

/-- One frame of the dataflow graph `g`. -/
structure FrameSpec [Zero S] (g : Graph) (tick : Tick S St) (x : Nat → S) (st st' : Key → St) (out : Key → Nat → S) : Prop where
  step : ∀ (k : Key) (es : List (Option Edge)) (ps : List PEdge), Live g k → g.ins k = some es → g.pars k = some ps →
    tick k (st k) (es.map (frameVal x out)) (ps.map fun pe => (pe.param, out pe.source pe.chan)) = (st' k, out k)
  idle : ∀ k : Key, ¬ Live g k → st' k = st k

/-- One frame of a run: the graph, what the unit generators do, the graph inputs and the outputs. -/
structure FRec (S St : Type) where
  g : Graph
  tick : Tick S St
  x : Nat → S
  o : List S

/-- The meaning of a run of frames. -/
inductive FMeans [Zero S] (st : Key → St) : List (FRec S St) → (Key → St) → Prop
  | nil : FMeans st [] st
  | snoc {rs : List (FRec S St)} {r : FRec S St} {st1 st2 : Key → St} {out : Key → Nat → S} :
      FMeans st rs st1 → FrameSpec r.g r.tick r.x st1 st2 out →
      r.o = r.g.outs.map (frameVal r.x out) → FMeans st (rs ++ [r]) st2

/-! ### Unit generators that work frame by frame -/

/-- The state before frame `i` if `f i` is done in frame `i`. -/
def stateAt (f : Nat → St → St × (Nat → S)) (s : St) : Nat → St
  | 0 => s
  | i + 1 => (f i (stateAt f s i)).1

/-- Frame `i` of the inputs of a block given to a unit. -/
def frameOf [Zero S] (tick : Tick S St) (k : Key) (ins : List (List S)) (ar : List (Nat × List S)) (i : Nat) (s : St) : St × (Nat → S) :=
  tick k s (ins.map fun l => l.getD i 0) (ar.map fun p => (p.1, p.2.getD i 0))

/-- A block of `bs` frames of every unit generator is `bs` frames of it (C34); `ticks i` is what it does in frame `i` of the
block, which may depend on parameter changes. -/
def FrameWise [Zero S] (bs : Nat) (proc : Proc S St) (ticks : Nat → Tick S St) : Prop :=
  ∀ k s ins ar,
    (proc k s ins ar).1 = stateAt (fun i => frameOf (ticks i) k ins ar i) s bs ∧
    ∀ c, ∀ i < bs, (proc k s ins ar).2 c i =
      (frameOf (ticks i) k ins ar i (stateAt (fun i => frameOf (ticks i) k ins ar i) s i)).2 c

/-- The frames of a block. -/
def framesOf [Zero S] (bs : Nat) (p : Rec S St × (Nat → Tick S St)) : List (FRec S St) :=
  (List.range bs).map fun i => ⟨p.1.g, p.2 i, fun c => p.1.inp c i, p.1.o.map fun l => l.getD i 0⟩

/-! ### A block is its frames -/

theorem getD_range (f : Nat → S) (z : S) {bs i : Nat} (hi : i < bs) : ((List.range bs).map f).getD i z = f i := by
  rw [List.getD_eq_getElem?_getD, List.getElem?_map, List.getElem?_range hi]
  rfl

theorem edgeVal_frame [Zero S] {bs i : Nat} (hi : i < bs) (inp : Nat → Nat → S) (out : Key → Nat → Nat → S) (e : Option Edge) :
    (edgeVal bs inp out e).getD i 0 = frameVal (fun c => inp c i) (fun k c => out k c i) e := by
  match e with
  | none => simp [edgeVal, frameVal, hi]
  | some ⟨.graph, c, f⟩ => exact getD_range _ _ hi
  | some ⟨.node a, c, f⟩ => exact getD_range _ _ hi

theorem block_frames [Zero S] {g : Graph} {bs : Nat} {proc : Proc S St} {ticks : Nat → Tick S St} {inp : Nat → Nat → S}
    {st st' : Key → St} {out : Key → Nat → Nat → S} (hw : WF g) (hf : FrameWise bs proc ticks)
    (hb : BlockSpec g bs proc inp st st' out) :
    ∃ sts : Nat → Key → St, sts 0 = st ∧ sts bs = st' ∧
      ∀ i < bs, FrameSpec g (ticks i) (fun c => inp c i) (sts i) (sts (i + 1)) (fun k c => out k c i) := by
  classical
  let f : Key → Nat → St → St × (Nat → S) := fun k i => frameOf (ticks i) k (((g.ins k).getD []).map (edgeVal bs inp out))
    (((g.pars k).getD []).map fun pe => (pe.param, (List.range bs).map (out pe.source pe.chan))) i
  have hfr : ∀ k, Live g k → stateAt (f k) (st k) bs = st' k ∧
      ∀ c, ∀ i < bs, out k c i = (f k i (stateAt (f k) (st k) i)).2 c := by
    intro k hk
    obtain ⟨es, hes⟩ := Option.isSome_iff_exists.1 ((live_iff_ins hw k).1 hk)
    obtain ⟨ps, hps⟩ := Option.isSome_iff_exists.1 ((live_iff_pars hw k).1 hk)
    have h1 := hb.step k es ps hk hes hps
    have h2 := hf k (st k) (es.map (edgeVal bs inp out))
      (ps.map fun pe => (pe.param, (List.range bs).map (out pe.source pe.chan)))
    rw [h1] at h2
    simp only [f, hes, hps, Option.getD_some]
    exact ⟨h2.1.symm, h2.2⟩
  refine ⟨fun i k => if Live g k then stateAt (f k) (st k) i else st k, ?_, ?_, ?_⟩
  · funext k
    simp [stateAt]
  · funext k
    by_cases hk : Live g k
    · simp only [hk, if_true]
      exact (hfr k hk).1
    · simp only [hk, if_false]
      exact (hb.idle k hk).symm
  · intro i hi
    refine ⟨?_, fun k hk => by simp only [hk, if_false]⟩
    intro k es ps hk hes hps
    simp only [hk, if_true]
    have e1 : (es.map (edgeVal bs inp out)).map (fun l => l.getD i 0) =
        es.map (frameVal (fun c => inp c i) (fun k c => out k c i)) := by
      rw [List.map_map]
      exact List.map_congr_left fun e _ => edgeVal_frame hi inp out e
    have e2 : (ps.map fun pe => (pe.param, (List.range bs).map (out pe.source pe.chan))).map (fun p => (p.1, p.2.getD i 0)) =
        ps.map fun pe => (pe.param, out pe.source pe.chan i) := by
      rw [List.map_map]
      exact List.map_congr_left fun pe _ => by
        simp only [Function.comp_apply]
        rw [getD_range _ _ hi]
    have e3 : f k i (stateAt (f k) (st k) i) = ticks i k (stateAt (f k) (st k) i)
        (es.map (frameVal (fun c => inp c i) (fun k c => out k c i))) (ps.map fun pe => (pe.param, out pe.source pe.chan i)) := by
      simp only [f, frameOf, hes, hps, Option.getD_some]
      rw [e1, e2]
    rw [← e3]
    refine Prod.ext rfl ?_
    funext c
    exact ((hfr k hk).2 c i hi).symm

theorem FMeans.append [Zero S] {st st1 st2 : Key → St} {r1 r2 : List (FRec S St)} (h1 : FMeans st r1 st1)
    (h2 : FMeans st1 r2 st2) : FMeans st (r1 ++ r2) st2 := by
  induction h2 with
  | nil => simpa using h1
  | snoc _ hs ho ih =>
    rw [← List.append_assoc]
    exact .snoc ih hs ho

theorem range_frames [Zero S] {α : Nat → FRec S St} {sts : Nat → Key → St} : ∀ {n : Nat},
    (∀ i < n, ∃ out, FrameSpec (α i).g (α i).tick (α i).x (sts i) (sts (i + 1)) out ∧ (α i).o = (α i).g.outs.map (frameVal (α i).x out)) →
    FMeans (sts 0) ((List.range n).map α) (sts n) := by
  intro n
  induction n with
  | zero => intro _; exact .nil
  | succ n ih =>
    intro h
    rw [List.range_succ, List.map_append]
    obtain ⟨out, h1, h2⟩ := h n (Nat.lt_succ_self n)
    exact .snoc (ih fun i hi => h i (by omega)) h1 h2

theorem means_frames [Zero S] {bs : Nat} {heap st : Key → St} : ∀ {ts : List (Rec S St × (Nat → Tick S St))},
    Means bs heap (ts.map Prod.fst) st → (∀ p ∈ ts, WF p.1.g ∧ FrameWise bs p.1.proc p.2) →
    FMeans heap (ts.flatMap (framesOf bs)) st := by
  intro ts
  induction ts using List.reverseRecOn generalizing st with
  | nil =>
    intro h _
    rw [means_nil h]
    exact .nil
  | append_singleton ts p ih =>
    intro h hf
    rw [List.map_append] at h
    obtain ⟨st1, out, h1, h2, h3⟩ := means_snoc h
    rw [List.flatMap_append]
    refine (ih h1 fun q hq => hf q (by simp [hq])).append ?_
    simp only [List.flatMap_cons, List.flatMap_nil, List.append_nil]
    obtain ⟨hw, hfw⟩ := hf p (by simp)
    obtain ⟨sts, hs0, hs1, hs⟩ := block_frames hw hfw h2
    subst hs0 hs1
    refine range_frames (sts := sts) fun i hi => ⟨_, hs i hi, ?_⟩
    simp only [h3, List.map_map]
    exact List.map_congr_left fun e _ => edgeVal_frame hi _ _ e

/-! ### Frames leave no choice -/

/-- A unit with a block size of one. -/
def oneFrame [Zero S] (tick : Tick S St) : Proc S St := fun k s ins ar =>
  let r := frameOf tick k ins ar 0 s
  (r.1, fun c _ => r.2 c)

theorem FrameSpec.block [Zero S] {g : Graph} {tick : Tick S St} {x : Nat → S} {st st' : Key → St} {out : Key → Nat → S}
    (h : FrameSpec g tick x st st' out) : BlockSpec g 1 (oneFrame tick) (fun c _ => x c) st st' (fun k c _ => out k c) := by
  refine ⟨?_, h.idle⟩
  intro k es ps hk hes hps
  have h1 := h.step k es ps hk hes hps
  have e1 : (es.map (edgeVal 1 (fun c _ => x c) (fun k c _ => out k c))).map (fun l => l.getD 0 0) = es.map (frameVal x out) := by
    rw [List.map_map]
    exact List.map_congr_left fun e _ => edgeVal_frame (by omega) _ _ e
  simp only [oneFrame, frameOf]
  rw [e1]
  simp only [List.map_map, Function.comp_def]
  simp only [List.range_one, List.map_cons, List.map_nil, List.getD_cons_zero]
  rw [h1]

theorem frame_unique [Zero S] {g : Graph} (hd : Determined S St 1 g) {tick : Tick S St} {x : Nat → S} {st st1 st2 : Key → St}
    {out1 out2 : Key → Nat → S} (h1 : FrameSpec g tick x st st1 out1) (h2 : FrameSpec g tick x st st2 out2) :
    st1 = st2 ∧ g.outs.map (frameVal x out1) = g.outs.map (frameVal x out2) := by
  obtain ⟨h3, h4⟩ := hd _ _ _ _ _ _ _ h1.block h2.block
  refine ⟨h3, ?_⟩
  have h5 := congrArg (List.map fun l => l.getD 0 0) h4
  simp only [List.map_map] at h5
  have e : ∀ out : Key → Nat → S, g.outs.map ((fun l : List S => l.getD 0 0) ∘ edgeVal 1 (fun c _ => x c) (fun k c _ => out k c)) =
      g.outs.map (frameVal x out) := fun out => List.map_congr_left fun e _ => edgeVal_frame (by omega) _ _ e
  rw [e, e] at h5
  exact h5

theorem fmeans_nil [Zero S] {st st' : Key → St} (h : FMeans (S := S) st [] st') : st' = st := by
  generalize hl : ([] : List (FRec S St)) = l at h
  cases h with
  | nil => rfl
  | snoc => simp at hl

theorem fmeans_snoc [Zero S] {st st' : Key → St} {rs : List (FRec S St)} {r : FRec S St}
    (h : FMeans st (rs ++ [r]) st') : ∃ st1 out, FMeans st rs st1 ∧
      FrameSpec r.g r.tick r.x st1 st' out ∧ r.o = r.g.outs.map (frameVal r.x out) := by
  generalize hl : rs ++ [r] = l at h
  cases h with
  | nil => simp at hl
  | snoc h1 h2 h3 =>
    obtain ⟨rfl, h4⟩ := List.append_inj' hl rfl
    simp only [List.cons.injEq, and_true] at h4
    subst h4
    exact ⟨_, _, h1, h2, h3⟩

theorem FrameSpec.congr [Zero S] {g g' : Graph} (h : SameWiring g g') {tick : Tick S St} {x : Nat → S} {st st' : Key → St} {out}
    (hb : FrameSpec g tick x st st' out) : FrameSpec g' tick x st st' out := by
  obtain ⟨h1, h2, h3, -⟩ := h
  exact ⟨fun k es ps hk he hp => hb.step k es ps ((h1 k).2 hk) (by rw [h2]; exact he) (by rw [h3]; exact hp),
    fun k hk => hb.idle k (fun hl => hk ((h1 k).1 hl))⟩

/-- The same wiring, the same work of the units and the same graph inputs. -/
def SameFrame (r1 r2 : FRec S St) : Prop := SameWiring r1.g r2.g ∧ r1.tick = r2.tick ∧ r1.x = r2.x

theorem fmeans_unique [Zero S] {heap : Key → St} {rs1 : List (FRec S St)} {st1} (m1 : FMeans heap rs1 st1) :
    ∀ {rs2 st2}, FMeans heap rs2 st2 → (∀ r ∈ rs2, Determined S St 1 r.g) → List.Forall₂ SameFrame rs1 rs2 →
      rs1.map FRec.o = rs2.map FRec.o ∧ st1 = st2 := by
  induction m1 with
  | nil =>
    intro rs2 st2 m2 _ hf
    cases hf
    exact ⟨rfl, (fmeans_nil m2).symm⟩
  | @snoc rs r s1 s2 out hm hb ho ih =>
    intro rs2 st2 m2 hd hf
    rcases List.eq_nil_or_concat rs2 with rfl | ⟨rs2', r2, rfl⟩
    · have := hf.length_eq
      simp at this
    · rw [List.concat_eq_append] at *
      obtain ⟨hf1, hsw, hpr, hin⟩ := forall₂_snoc hf
      obtain ⟨s1', out', hm', hb', ho'⟩ := fmeans_snoc m2
      obtain ⟨ho1, rfl⟩ := ih hm' (fun x hx => hd x (by simp [hx])) hf1
      have hb1 := FrameSpec.congr hsw hb
      rw [hpr, hin] at hb1
      obtain ⟨h3, h4⟩ := frame_unique (hd r2 (by simp)) hb1 hb'
      refine ⟨?_, h3⟩
      rw [List.map_append, List.map_append, ho1]
      simp only [List.map_cons, List.map_nil]
      rw [ho, ho', hsw.2.2.2, hin, h4]

/-! ### The graphs of a history -/

theorem Hist.graphs [Zero S] {E sl} {bs : Nat} (hbs : 0 < bs) {heap : Key → St} {y : Y S St} {gc : Graph}
    {rs : List (Rec S St)} (h : Hist E sl bs heap y gc rs) :
    (WF gc ∧ Determined S St 1 gc) ∧ ∀ r ∈ rs, WF r.g ∧ Determined S St 1 r.g := by
  induction h with
  | init id numIn numOut cap => exact ⟨⟨wf_init .., determined_init id numIn numOut 1⟩, by simp⟩
  | edit _ _ _ _ ih => exact ih
  | @commit y y' gc rs rm g1 hy hfo hfine hc ih =>
    refine ⟨?_, ih.2⟩
    have hw := wf_freeOld (hy.good hbs).wf hfo
    split
    · next hr => exact ⟨hw, determined_of_fine 1 hw (hfine hr)⟩
    · exact ih.1
  | @block y y' gc rs o proc inp _ hb ih =>
    refine ⟨ih.1, ?_⟩
    intro r hr
    simp only [List.mem_append, List.mem_singleton] at hr
    rcases hr with hr | rfl
    · exact ih.2 r hr
    · exact ih.1

/-- **C101.**  What a graph plays in blocks, whatever edits and commits happen, is what it would play frame by frame. -/
theorem C101_frames_partial [Zero S] {E sl} {bs : Nat} (hbs : 0 < bs) {heap : Key → St} {y : Y S St} {gc : Graph}
    {ts : List (Rec S St × (Nat → Tick S St))} (h : Hist E sl bs heap y gc (ts.map Prod.fst))
    (hf : ∀ p ∈ ts, FrameWise bs p.1.proc p.2) : FMeans heap (ts.flatMap (framesOf bs)) y.heap :=
  means_frames (h.good hbs).means fun p hp => ⟨((h.graphs hbs).2 p.1 (List.mem_map_of_mem hp)).1, hf p hp⟩

/-- **C101.**  Two histories with different block sizes that have the same wiring, the same work of the unit generators and
the same inputs in every frame put out the same samples and leave the unit generators in the same state.

Missing for the full claim: graphs that are not `Fine` (C67) — above all those with feedback connections, which are by
design a block late, see `C101_feedback_violated`. -/
theorem C101_partial [Zero S] {E1 E2 sl1 sl2} {b1 b2 : Nat} (hb1 : 0 < b1) (hb2 : 0 < b2) {heap : Key → St} {y1 y2 : Y S St}
    {gc1 gc2 : Graph} {ts1 ts2 : List (Rec S St × (Nat → Tick S St))} (h1 : Hist E1 sl1 b1 heap y1 gc1 (ts1.map Prod.fst))
    (h2 : Hist E2 sl2 b2 heap y2 gc2 (ts2.map Prod.fst)) (hf1 : ∀ p ∈ ts1, FrameWise b1 p.1.proc p.2)
    (hf2 : ∀ p ∈ ts2, FrameWise b2 p.1.proc p.2)
    (he : List.Forall₂ SameFrame (ts1.flatMap (framesOf b1)) (ts2.flatMap (framesOf b2))) :
    (ts1.flatMap (framesOf b1)).map FRec.o = (ts2.flatMap (framesOf b2)).map FRec.o ∧ y1.heap = y2.heap := by
  refine fmeans_unique (C101_frames_partial hb1 h1 hf1) (C101_frames_partial hb2 h2 hf2) ?_ he
  intro r hr
  obtain ⟨p, hp, hr⟩ := List.mem_flatMap.1 hr
  obtain ⟨i, -, rfl⟩ := List.mem_map.1 hr
  exact ((h2.graphs hb2).2 p.1 (List.mem_map_of_mem hp)).2

/-- A unit generator without a block processing of its own: the frames one after the other (knaster_core/src/ugen.rs, the
default `process_block`). -/
def blockOf [Zero S] (bs : Nat) (ticks : Nat → Tick S St) : Proc S St := fun k s ins ar =>
  let f := fun i => frameOf (ticks i) k ins ar i
  (stateAt f s bs, fun c i => (f i (stateAt f s i)).2 c)

theorem frameWise_blockOf [Zero S] (bs : Nat) (ticks : Nat → Tick S St) : FrameWise bs (blockOf bs ticks) ticks :=
  fun _ _ _ _ => ⟨rfl, fun _ _ _ => rfl⟩

/-- Parameter changes before the first frame of a block (C76) are part of the work of that frame. -/
theorem frameWise_withCalls [Zero S] {V Sm : Type} {bs : Nat} (hbs : 0 < bs) {proc : Proc S St} {ticks : Nat → Tick S St}
    (h : FrameWise bs proc ticks) (app : Key → Eng.UCall V Sm → St → St) (cs : Key → List (Eng.UCall V Sm)) :
    FrameWise bs (Eng.withCalls app cs proc)
      (fun i => if i = 0 then fun k s => ticks 0 k (Eng.callAll app k (cs k) s) else ticks i) := by
  intro k s ins ar
  obtain ⟨h1, h2⟩ := h k (Eng.callAll app k (cs k) s) ins ar
  have key : ∀ n, stateAt (fun i => frameOf ((fun i => if i = 0 then fun k s => ticks 0 k (Eng.callAll app k (cs k) s) else ticks i) i) k ins ar i) s (n + 1) =
      stateAt (fun i => frameOf (ticks i) k ins ar i) (Eng.callAll app k (cs k) s) (n + 1) := by
    intro n
    induction n with
    | zero => rfl
    | succ n ih => rw [stateAt, ih, stateAt]; rfl
  refine ⟨?_, ?_⟩
  · obtain ⟨n, rfl⟩ : ∃ n, bs = n + 1 := ⟨bs - 1, by omega⟩
    rw [key]
    exact h1
  · intro c i hi
    cases i with
    | zero => exact h2 c 0 hi
    | succ i =>
      rw [key]
      exact h2 c (i + 1) hi

end

/-! ### A history for every block size -/

/-- A phasor-like node 0 that counts frames and node 1 that sums up its input. -/
def countTick : Tick Int Int := fun k s ins _ => if k = 0 then (s + 1, fun _ => s) else (s + ins.sum, fun _ => s + ins.sum)

/-- Node 0 feeds node 1, which is connected to the output. -/
def countOps : List Op := [.push 0 1 [], .push 1 1 [], .connect (.node (nd 0)) 0 0 (.node (nd 1)) false false,
  .connect (.node (nd 1)) 0 0 .graph false false]

theorem edits_hist {bs : Nat} {heap : Key → Int} : ∀ (ops : List Op) {y : Y Int Int} {gc : Graph} {rs} {g' : Graph} {r},
    Hist (fun _ _ => True) id bs heap y gc rs → (∀ op ∈ ops, isCommit op = false) → runOps id y.g ops = .ok (g', r) →
    ∃ y', Hist (fun _ _ => True) id bs heap y' gc rs ∧ y'.g = g' ∧ y'.applied = y.applied ∧ y'.ring = y.ring ∧ y'.cap = y.cap := by
  intro ops
  induction ops with
  | nil =>
    intro y gc rs g' r h _ hr
    simp only [runOps, Except.ok.injEq, Prod.mk.injEq] at hr
    exact ⟨y, h, hr.1, rfl, rfl, rfl⟩
  | cons op ops ih =>
    intro y gc rs g' r h hc hr
    simp only [runOps] at hr
    split at hr
    · simp at hr
    rename_i g1 r1 hop
    split at hr
    · simp at hr
    rename_i g2 r2 hr2
    simp only [Except.ok.injEq, Prod.mk.injEq] at hr
    obtain ⟨rfl, -⟩ := hr
    have he : edit id y op = .ok ({ y with g := g1, ug := fun k => if y.g.nextKey ≤ k ∧ k < g1.nextKey then some (.loc (.own k 0)) else y.ug k }, r1) := by
      rw [edit, hop]
      rfl
    have h1 := Hist.edit h (hc op (by simp)) trivial he
    obtain ⟨y', k1, k2, k3, k4, k5⟩ := ih h1 (fun o ho => hc o (by simp [ho])) hr2
    exact ⟨y', k1, k2, k3, k4, k5⟩

theorem blocks_hist {E sl} {bs : Nat} (hbs : 0 < bs) {heap : Key → Int} {gc : Graph} (proc : Proc Int Int) (inp : Nat → Nat → Int) : ∀ (n : Nat) {y : Y Int Int} {rs},
    Hist E sl bs heap y gc rs → ∃ (y' : Y Int Int) (os : List (List (List Int))), os.length = n ∧ Hist E sl bs heap y' gc (rs ++ os.map fun o => ⟨gc, proc, inp, o⟩) := by
  intro n
  induction n with
  | zero => intro y rs h; exact ⟨y, [], rfl, by simpa using h⟩
  | succ n ih =>
    intro y rs h
    obtain ⟨y1, o, ho⟩ := (C67_partial hbs h).2 proc inp
    obtain ⟨y2, os, h1, h2⟩ := ih (.block proc inp h ho)
    exact ⟨y2, o :: os, by simp [h1], by simpa using h2⟩

/-- The graph of `countOps`. -/
def countG : Graph := match runOps id (.init 0 0 1) countOps with
  | .ok (g, _) => g
  | .error _ => .init 0 0 1

/-- The blocks of a run of it. -/
def countRun (bs : Nat) (os : List (List (List Int))) : List (Rec Int Int × (Nat → Tick Int Int)) :=
  os.map fun o => (⟨countG, blockOf bs fun _ => countTick, fun _ _ => 0, o⟩, fun _ => countTick)

/-- For every block size the graph of `countOps` plays any number of blocks. -/
theorem count_hist {bs : Nat} (hbs : 0 < bs) (n : Nat) : ∃ (y : Y Int Int) (os : List (List (List Int))),
    os.length = n ∧ Hist (fun _ _ => True) id bs (fun _ => 0) y countG ((countRun bs os).map Prod.fst) := by
  have hops : ∃ r, runOps id (.init 0 0 1) countOps = .ok (countG, r) := ⟨[.ok (), .ok (), .ok (), .ok ()], by decide +kernel⟩
  obtain ⟨r, hops⟩ := hops
  obtain ⟨y, h1, h2, h3, h4, h5⟩ := edits_hist countOps (Hist.init (E := fun _ _ => True) (sl := id) (bs := bs) (heap := fun _ => (0 : Int)) (S := Int) 0 0 1 4)
    (by decide) hops
  have hfo : freeOld (fun _ => false) (fun f => y.applied (f + 1)) y.g = .ok countG := by
    rw [h2, h3]
    show freeOld (fun _ => false) (fun _ => false) countG = .ok countG
    decide +kernel
  have hfine : Fine countG := fine_of_check (fun k => if k = 1 then 1 else 0) id (by decide +kernel)
  obtain ⟨y1, hc⟩ := C67_commit_partial hbs h1 hfo (fun _ => hfine) (by rw [h4, h5]; exact Nat.succ_pos 3)
  have h6 := Hist.commit h1 hfo (fun _ => hfine) hc
  have hr : countG.recalc = true := by decide +kernel
  simp only [hr, if_true] at h6
  obtain ⟨y2, os, h7, h8⟩ := blocks_hist hbs (blockOf bs fun _ => countTick) (fun _ _ => 0) n h6
  refine ⟨y2, os, h7, ?_⟩
  simpa [countRun, Function.comp_def] using h8

theorem countRun_frames (bs : Nat) (os : List (List (List Int))) : ((countRun bs os).flatMap (framesOf bs)).length = os.length * bs ∧
    ∀ r ∈ (countRun bs os).flatMap (framesOf bs), r.g = countG ∧ r.tick = countTick ∧ r.x = fun _ => 0 := by
  induction os with
  | nil => simp [countRun]
  | cons o os ih =>
    simp only [countRun, List.map_cons, List.flatMap_cons, List.length_append, List.length_cons] at ih ⊢
    refine ⟨?_, ?_⟩
    · rw [ih.1]
      simp [framesOf, Nat.add_mul, Nat.add_comm]
    · intro r hr
      rcases List.mem_append.1 hr with hr | hr
      · obtain ⟨i, -, rfl⟩ := List.mem_map.1 hr
        exact ⟨rfl, rfl, rfl⟩
      · exact ih.2 r hr

theorem forall₂_of {α : Type} {P : α → Prop} {R : α → α → Prop} (hR : ∀ a b, P a → P b → R a b) : ∀ {l l' : List α},
    l.length = l'.length → (∀ a ∈ l, P a) → (∀ a ∈ l', P a) → List.Forall₂ R l l' := by
  intro l
  induction l with
  | nil =>
    intro l' h _ _
    cases l' with
    | nil => exact .nil
    | cons => simp at h
  | cons a l ih =>
    intro l' h h1 h2
    cases l' with
    | nil => simp at h
    | cons b l' =>
      exact .cons (hR a b (h1 a (by simp)) (h2 b (by simp)))
        (ih (by simpa using h) (fun x hx => h1 x (by simp [hx])) fun x hx => h2 x (by simp [hx]))

/-- All hypotheses of `C101_partial` are met by runs of this graph with any two block sizes: `n1` blocks of `b1` frames and
`n2` blocks of `b2` frames sound the same if they are as long. -/
example {b1 b2 n1 n2 : Nat} (hb1 : 0 < b1) (hb2 : 0 < b2) (hn : n1 * b1 = n2 * b2) :
    ∃ (y1 y2 : Y Int Int) (o1 o2 : List (List (List Int))), o1.length = n1 ∧ o2.length = n2 ∧
      Hist (fun _ _ => True) id b1 (fun _ => 0) y1 countG ((countRun b1 o1).map Prod.fst) ∧
      Hist (fun _ _ => True) id b2 (fun _ => 0) y2 countG ((countRun b2 o2).map Prod.fst) ∧
      ((countRun b1 o1).flatMap (framesOf b1)).map FRec.o = ((countRun b2 o2).flatMap (framesOf b2)).map FRec.o := by
  obtain ⟨y1, o1, l1, h1⟩ := count_hist hb1 n1
  obtain ⟨y2, o2, l2, h2⟩ := count_hist hb2 n2
  refine ⟨y1, y2, o1, o2, l1, l2, h1, h2, (C101_partial hb1 hb2 h1 h2 ?_ ?_ ?_).1⟩
  · intro p hp
    obtain ⟨o, -, rfl⟩ := List.mem_map.1 hp
    exact frameWise_blockOf _ _
  · intro p hp
    obtain ⟨o, -, rfl⟩ := List.mem_map.1 hp
    exact frameWise_blockOf _ _
  · refine forall₂_of (P := fun r => r.g = countG ∧ r.tick = countTick ∧ r.x = fun _ => 0) ?_ ?_ (countRun_frames b1 o1).2 (countRun_frames b2 o2).2
    · rintro a b ⟨h1, h2, h3⟩ ⟨h4, h5, h6⟩
      exact ⟨by rw [h1, h4]; exact ⟨fun _ => Iff.rfl, fun _ => rfl, fun _ => rfl, rfl⟩, by rw [h2, h5], by rw [h3, h6]⟩
    · rw [(countRun_frames b1 o1).1, (countRun_frames b2 o2).1, l1, l2, hn]

end Verif.Sys

namespace Verif.Fb

/-- Block `n` of a signal. -/
def cut {S : Type} (b : Nat) (x : Nat → S) (n : Nat) : Nat → S := fun i => x (n * b + i)

/-- What comes out of a feedback connection in frame `n`, in blocks of `b` frames (the sink first, as in
`C10_sink_first_partial`). -/
def heard {S : Type} [Zero S] (b : Nat) (x : Nat → S) (n : Nat) : S := out sinkFirst (.init fun _ => 0) (cut b x) (n / b) (n % b)

/-- A feedback connection delays by the block size. -/
theorem heard_eq {S : Type} [Zero S] {b : Nat} (hb : 0 < b) (x : Nat → S) (n : Nat) : heard b x n = if n < b then 0 else x (n - b) := by
  rw [heard, C10_sink_first_partial]
  by_cases h : n < b
  · simp [delayed, Nat.div_eq_of_lt h, h]
  · have h1 : 1 ≤ n / b := (Nat.one_le_div_iff hb).2 (by omega)
    have h2 := Nat.div_add_mod n b
    rw [delayed, if_neg (by omega), if_neg h, cut, Nat.sub_mul]
    congr 1
    rw [Nat.mul_comm] at h2
    have h3 : 1 * b ≤ n / b * b := Nat.mul_le_mul_right _ h1
    omega

/-- **C101** is violated by feedback connections: any two block sizes can be told apart. -/
theorem C101_feedback_violated {b1 b2 : Nat} (h1 : 0 < b1) (h2 : b1 < b2) : ∃ (x : Nat → Nat) (n : Nat), heard b1 x n ≠ heard b2 x n :=
  ⟨fun _ => 1, b1, by rw [heard_eq h1, heard_eq (by omega)]; simp [h2]⟩

end Verif.Fb
