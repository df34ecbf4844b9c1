import Verif.Lemmas.Nested
import Mathlib.Order.Nat

/-!
# C72: a graph inside a graph plays like its nodes would in the graph around it
-/

namespace Verif.Ne

open Verif.G
open Verif.Sys (Y Fine fineB fine_of_check)

section
variable {S : Type} [Zero S] {L : Type}

/-! ### The nested meaning, at any depth -/

/-- **C72.**  In every interleaving of edits and commits of a graph and of the graphs inside it, at any depth,
with blocks: no block panics, at no depth, and every block is one of the wirings inside one another, each
being that of the last commit of its graph that made a schedule; the outputs and the new states are the only
ones this meaning allows.

Missing for the full claim: graphs that are not `Fine` (C11, C12 and C13), graphs that free themselves from
the inside (C35), what happens after a panic. -/
theorem C72_nested_partial {sl : Key → Nat} {bs : Nat} (hbs : 0 < bs) {n : Nat} {g : Sg S (Lev S L n)}
    (h : NReach Fine sl bs g) (leaf : List Key → Proc S L) (inp : Nat → Nat → S) :
    ∃ y' o out, Sys.block bs g.y (lproc bs leaf n []) inp = .ok (y', o) ∧
      (net g.gc).Run (LMean bs leaf n []) bs inp (fun k => mean n (g.y.heap k)) (fun k => mean n (y'.heap k)) out ∧
      o = (net g.gc).outs.map (Wire.val bs inp out) ∧
      ∀ st2 out2, (net g.gc).Run (LMean bs leaf n []) bs inp (fun k => mean n (g.y.heap k)) st2 out2 →
        st2 = (fun k => mean n (y'.heap k)) ∧ (net g.gc).outs.map (Wire.val bs inp out2) = o := by
  obtain ⟨hc, hg⟩ := nreach_good hbs h
  obtain ⟨y', o, out, hb, -, hrun, ho⟩ := core_block hc (lproc bs leaf n []) inp
  have hm := (run_mean (lproc_mean leaf n []) hrun hg).1
  refine ⟨y', o, out, hb, hm, ho, fun st2 out2 h2 => ?_⟩
  obtain ⟨r, hr⟩ := hc.rank
  obtain ⟨h3, -, h4⟩ := Net.Run.unique hr
    (fun k _ => lmean_det leaf n [] k _ (rk_of_good n _ (hg k))) h2 hm
  exact ⟨h3, by rw [ho, h4]⟩

/-! ### Flattening -/

/-- The other nodes are `some`, the node `k` is `none`. -/
def sp (k n : Key) : Option { n : Key // n ≠ k } := if h : n = k then none else some ⟨n, h⟩

/-- The node behind it. -/
def un (k : Key) : Option { n : Key // n ≠ k } → Key
  | some n => n.1
  | none => k

/-- Rename the nodes of a wire. -/
def Wire.ren {K K' : Type} (f : K → K') : Wire K → Wire K'
  | .node n c => .node (f n) c
  | .input c => .input c
  | .silent => .silent

/-- The wiring with the node `k` singled out. -/
def split (k : Key) (P : Net Key) : Net (Option { n : Key // n ≠ k }) where
  live o := P.live (un k o)
  ins o := (P.ins (un k o)).map (Wire.ren (sp k))
  pars o := (P.pars (un k o)).map fun p => (p.1, p.2.ren (sp k))
  outs := P.outs.map (Wire.ren (sp k))

theorem un_sp (k n : Key) : un k (sp k n) = n := by
  rw [sp]
  split
  · next h => exact h.symm
  · rfl

theorem ren_val {k : Key} {bs : Nat} {inp : Nat → Nat → S} {out : Option { n : Key // n ≠ k } → Nat → Nat → S} (w : Wire Key) :
    (w.ren (sp k)).val bs inp out = w.val bs inp (fun n => out (sp k n)) := by
  cases w <;> rfl

theorem ren_from {k : Key} {w : Wire Key} {A : Key → Prop} (h : w.From A) :
    (w.ren (sp k)).From fun o => A (un k o) := by
  intro m c e
  cases w with
  | node n d =>
    simp only [Wire.ren, Wire.node.injEq] at e
    rw [← e.1, un_sp]
    exact h n d rfl
  | input d => simp [Wire.ren] at e
  | silent => simp [Wire.ren] at e

theorem split_ranked {k : Key} {P : Net Key} {α : Type} [LT α] {r : Key → α} (h : P.Ranked r) :
    (split k P).Ranked (fun o => r (un k o)) := by
  refine ⟨?_, ?_, ?_⟩
  · intro n hn w hw
    obtain ⟨w0, h0, rfl⟩ := List.mem_map.1 hw
    exact ren_from (h.ins _ hn _ h0)
  · intro n hn w hw
    obtain ⟨w0, h0, rfl⟩ := List.mem_map.1 hw
    exact ren_from (h.pars _ hn _ h0)
  · intro w hw
    obtain ⟨w0, h0, rfl⟩ := List.mem_map.1 hw
    exact ren_from (h.outs _ h0)

/-- The states of the outer units, and those of the units inside node `k`. -/
def parts {A B : Type} (k : Key) (st : Key → A) (inner : Key → B) :
    ∀ o, OSt (fun _ : { n : Key // n ≠ k } => A) (fun _ : Key => B) o
  | some n => st n.1
  | none => inner

/-- The units of the flat wiring: those around node `k` and those inside it. -/
def flatUnits (bs : Nat) (leaf : List Key → Proc S L) (n : Nat) (k : Key) :
    ∀ m : { j : Key // j ≠ k } ⊕ Key, Beh S (FSt (fun _ : { j : Key // j ≠ k } => Mn L (n + 1)) (fun _ : Key => Mn L n) m) :=
  flatU (fun j => LMean bs leaf (n + 1) [] j.1) (fun m => LMean bs leaf n [k] m)

/-- The nodes of the graph inside node `k` of `g` put in the place of node `k`. -/
def flatNet (g : Graph) (k : Key) (gi : Graph) : Net ({ j : Key // j ≠ k } ⊕ Key) := inline (split k (net g)) (net gi)

/-- The states of all units of the flat wiring. -/
def flatState {n : Nat} (k : Key) (st : Key → Mn L (n + 1)) (inner : Key → Mn L n) :
    ∀ m : { j : Key // j ≠ k } ⊕ Key, FSt (fun _ : { j : Key // j ≠ k } => Mn L (n + 1)) (fun _ : Key => Mn L n) m :=
  flatSt (parts k st inner)

/-- A run of the outer wiring is one of the flat wiring. -/
theorem flat_of_run {bs : Nat} {leaf : List Key → Proc S L} {n : Nat} {P : Net Key} {α : Type} [Preorder α] {r : Key → α}
    (hr : P.Ranked r) {inp : Nat → Nat → S} {st st' : Key → Mn L (n + 1)} {out : Key → Nat → Nat → S} {k : Key}
    (hk : P.live k) (h : P.Run (LMean bs leaf (n + 1) []) bs inp st st' out) {gi : Graph} {si : Key → Mn L n}
    (hs : st k = .inr (gi, si)) :
    ∃ si' outF, st' k = .inr (gi, si') ∧
      (inline (split k P) (net gi)).Run (flatUnits bs leaf n k) bs inp (flatState k st si) (flatState k st' si') outF ∧
      (inline (split k P) (net gi)).outs.map (Wire.val bs inp outF) = P.outs.map (Wire.val bs inp out) := by
  have h0 := h.step k hk
  rw [hs] at h0
  obtain ⟨si', hst', hsub⟩ : ∃ si', st' k = .inr (gi, si') ∧ Sub (net gi) (LMean bs leaf n [k]) bs si
      ((P.ins k).map (Wire.val bs inp out)) ((P.pars k).map fun p => (p.1, p.2.val bs inp out)) si' (out k) := by
    revert h0
    generalize st' k = x
    intro h0
    match x, h0 with
    | .inr (g', si'), h0 =>
      obtain ⟨rfl, h0⟩ := h0
      exact ⟨si', rfl, h0⟩
  have hval : ∀ w : Wire Key, (w.ren (sp k)).val bs inp (fun o => out (un k o)) = w.val bs inp out := by
    intro w
    rw [ren_val]
    simp only [un_sp]
  have hins : ∀ o, ((split k P).ins o).map (Wire.val bs inp fun o => out (un k o)) =
      (P.ins (un k o)).map (Wire.val bs inp out) := by
    intro o
    simp only [split, List.map_map]
    exact List.map_congr_left fun w _ => hval w
  have hpars : ∀ o, (((split k P).pars o).map fun p => (p.1, p.2.val bs inp fun o => out (un k o))) =
      (P.pars (un k o)).map fun p => (p.1, p.2.val bs inp out) := by
    intro o
    simp only [split, List.map_map]
    exact List.map_congr_left fun p _ => by simp [hval p.2]
  have hrun : (split k P).Run (outerU (net gi) (fun j : { n : Key // n ≠ k } => LMean bs leaf (n + 1) [] j.1)
      (LMean bs leaf n [k]) bs) bs inp (parts k st si) (parts k st' si') (fun o => out (un k o)) := by
    refine ⟨?_, ?_⟩
    · intro o ho
      rw [hins, hpars]
      cases o with
      | some j => exact h.step j.1 ho
      | none => exact hsub
    · intro o ho
      cases o with
      | some j => exact h.idle j.1 ho
      | none => exact absurd hk ho
  have hself : ∀ c, Wire.node none c ∉ (split k P).ins none := by
    intro c hc
    exact lt_irrefl _ ((split_ranked hr).ins none hk _ hc none c rfl).2
  obtain ⟨outF, h1, -, h2⟩ := inline_of_run hself hk hrun
  refine ⟨si', outF, hst', h1, h2.trans ?_⟩
  simp only [split, List.map_map]
  exact List.map_congr_left fun w _ => hval w

/-- **C72.**  Take any node `k` of the graph that is a subgraph, whatever edits, commits and blocks led there.
The next block puts out what the wiring puts out in which the nodes of the subgraph take the place of node
`k`: connections into the subgraph go to the nodes that read the graph inputs, connections out of it come
from the nodes that feed the graph outputs, in the same block and without a delay; all unit generators end
in the states they would have there.  The flat wiring leaves no other choice.

Missing for the full claim: as for `C72_nested_partial`. -/
theorem C72_flat_partial {sl : Key → Nat} {bs : Nat} (hbs : 0 < bs) {n : Nat} {g : Sg S (Lev S L (n + 1))}
    (h : NReach Fine sl bs g) {k : Key} (hk : Live g.gc k) {u : Sg S (Lev S L n)} (hu : g.y.heap k = .inr u)
    (leaf : List Key → Proc S L) (inp : Nat → Nat → S) :
    ∃ y' o u' outF, Sys.block bs g.y (lproc bs leaf (n + 1) []) inp = .ok (y', o) ∧ y'.heap k = .inr u' ∧
      u'.gc = u.gc ∧
      (flatNet g.gc k u.gc).Run (flatUnits bs leaf n k) bs inp
        (flatState k (fun j => mean (n + 1) (g.y.heap j)) fun m => mean n (u.y.heap m))
        (flatState k (fun j => mean (n + 1) (y'.heap j)) fun m => mean n (u'.y.heap m)) outF ∧
      o = (flatNet g.gc k u.gc).outs.map (Wire.val bs inp outF) ∧
      ∀ st2 out2, (flatNet g.gc k u.gc).Run (flatUnits bs leaf n k) bs inp
          (flatState k (fun j => mean (n + 1) (g.y.heap j)) fun m => mean n (u.y.heap m)) st2 out2 →
        st2 = flatState k (fun j => mean (n + 1) (y'.heap j)) (fun m => mean n (u'.y.heap m)) ∧
          (flatNet g.gc k u.gc).outs.map (Wire.val bs inp out2) = o := by
  obtain ⟨hc, hg⟩ := nreach_good hbs h
  have hgk := hg k
  rw [hu] at hgk
  obtain ⟨r, hr⟩ := hc.rank
  obtain ⟨q, hq⟩ := hgk.1.rank
  obtain ⟨y', o, out, hb, hm, ho, -⟩ := C72_nested_partial hbs h leaf inp
  obtain ⟨si', outF, h1, h2, h3⟩ := flat_of_run hr hk hm (gi := u.gc) (si := fun m => mean n (u.y.heap m))
    (by simp only [hu, mean])
  obtain ⟨u', hu', hgc, hsi⟩ : ∃ u', y'.heap k = .inr u' ∧ u'.gc = u.gc ∧ si' = fun m => mean n (u'.y.heap m) := by
    revert h1
    generalize y'.heap k = x
    intro h1
    match x, h1 with
    | .inr u', h1 =>
      simp only [mean, Sum.inr.injEq, Prod.mk.injEq] at h1
      exact ⟨u', rfl, h1.1, h1.2.symm⟩
  subst hsi
  refine ⟨y', o, u', outF, hb, hu', hgc, h2, ho.trans h3.symm, fun st2 out2 hrun2 => ?_⟩
  have hrank : (flatNet g.gc k u.gc).Ranked (flatRank (fun o => r (un k o)) q) :=
    inline_ranked (split_ranked hr) hq hk
  obtain ⟨h4, -, h5⟩ := Net.Run.unique hrank (U := flatUnits bs leaf n k) (fun m _ => by
    cases m with
    | inl j => exact lmean_det leaf (n + 1) [] j.1 _ (rk_of_good (n + 1) _ (hg j.1))
    | inr m => exact lmean_det leaf n [k] m _ (rk_of_good n _ (hgk.2 m))) hrun2 h2
  exact ⟨h4, h5.trans (h3.trans ho.symm)⟩

/-- **C72.**  A subgraph that is not in the graph stands still: the blocks leave all of it alone, the schedules
waiting for it too. -/
theorem C72_idle_partial {sl : Key → Nat} {bs : Nat} (hbs : 0 < bs) {n : Nat} {g : Sg S (Lev S L n)}
    (h : NReach Fine sl bs g) {k : Key} (hk : ¬ Live g.gc k) {leaf : List Key → Proc S L} {inp : Nat → Nat → S} {y' o}
    (hb : Sys.block bs g.y (lproc bs leaf n []) inp = .ok (y', o)) : y'.heap k = g.y.heap k := by
  obtain ⟨hc, -⟩ := nreach_good hbs h
  obtain ⟨y2, o2, out, hb2, -, hrun, -⟩ := core_block hc (lproc bs leaf n []) inp
  rw [hb] at hb2
  simp only [Except.ok.injEq, Prod.mk.injEq] at hb2
  obtain ⟨rfl, rfl⟩ := hb2
  exact hrun.idle k hk

end

/-! ### A history -/

/-- The steps of the example: edits, commits and blocks of the outer graph, edits and commits of the graph
inside node `k`. -/
inductive NOp
  | ed (op : Op)
  | com
  | edIn (k : Key) (op : Op)
  | comIn (k : Key)
  | blk

/-- The units: everyone adds 1 and their key, inner ones 10 more. -/
def demoLeaf (p : List Key) : Proc Int Unit := fun k _ ins _ => ((), fun _ i =>
  (ins.map fun c => c.getD i 0).sum + k + 1 + 10 * p.length)

/-- Edit a graph. -/
def edOf {U : Type} (g : Sg Int U) (op : Op) : R (Sg Int U) := do
  let (y, _) ← Sys.edit id g.y op
  .ok ⟨y, g.gc⟩

/-- Commit a graph. -/
def comOf {U : Type} (g : Sg Int U) : R (Sg Int U) := do
  let g1 ← freeOld (fun _ => false) (fun f => g.y.applied (f + 1)) g.y.g
  let y ← Sys.commit 2 g.y (fun _ => false)
  .ok ⟨y, if g1.recalc then g1 else g.gc⟩

/-- A step inside. -/
def inOf (g : Sg Int (Lev Int Unit 1)) (k : Key) (f : Sg Int Unit → R (Sg Int Unit)) : R (Sg Int (Lev Int Unit 1)) :=
  match g.y.heap k with
  | .inl _ => .error .unreachable
  | .inr u => do
    let u ← f u
    .ok ⟨setUnit g.y k (.inr u), g.gc⟩

/-- Run the steps. -/
def demoRun (g : Sg Int (Lev Int Unit 1)) : List NOp → R (Sg Int (Lev Int Unit 1) × List (List (List Int)))
  | [] => .ok (g, [])
  | .ed op :: ss => do demoRun (← edOf g op) ss
  | .com :: ss => do demoRun (← comOf g) ss
  | .edIn k op :: ss => do demoRun (← inOf g k fun u => edOf u op) ss
  | .comIn k :: ss => do demoRun (← inOf g k comOf) ss
  | .blk :: ss => do
    let (y, o) ← Sys.block 2 g.y (lproc 2 demoLeaf 1 []) (fun _ _ => 0)
    let (g, os) ← demoRun ⟨y, g.gc⟩ ss
    .ok (g, o :: os)

/-- The commit is one of a fine graph. -/
def comChk {U : Type} (rank : Key → Nat) (up : Key → Key) (g : Sg Int U) : Bool :=
  match freeOld (fun _ => false) (fun f => g.y.applied (f + 1)) g.y.g with
  | .ok g1 => !g1.recalc || fineB g1 rank up
  | .error _ => false

/-- Not a commit in the guise of an edit. -/
def edChk : Op → Bool
  | .commit _ _ => false
  | _ => true

/-- The conditions of `NReach`, checked on the way. -/
def demoChk (rank : Key → Nat) (up : Key → Key) (g : Sg Int (Lev Int Unit 1)) : List NOp → Bool
  | [] => true
  | .ed op :: ss => edChk op && match edOf g op with
    | .ok g => demoChk rank up g ss
    | .error _ => false
  | .com :: ss => comChk rank up g && match comOf g with
    | .ok g => demoChk rank up g ss
    | .error _ => false
  | .edIn k op :: ss => edChk op && match inOf g k fun u => edOf u op with
    | .ok g => demoChk rank up g ss
    | .error _ => false
  | .comIn k :: ss => (match g.y.heap k with
      | .inr u => comChk rank up u
      | .inl _ => false) && match inOf g k comOf with
    | .ok g => demoChk rank up g ss
    | .error _ => false
  | .blk :: ss => match Sys.block 2 g.y (lproc 2 demoLeaf 1 []) (fun _ _ => 0) with
    | .ok (y, _) => demoChk rank up ⟨y, g.gc⟩ ss
    | .error _ => false

theorem edOf_step {U : Type} {R : U → U → Prop} {g g' : Sg Int U} {op : Op} (hc : edChk op = true)
    (h : edOf g op = .ok g') : GStep Fine id 2 R g g' := by
  rw [edOf] at h
  obtain ⟨⟨y, r⟩, h1, h2⟩ := Sys.bind_inv h
  simp only [Except.ok.injEq] at h2
  subst h2
  refine .edit (fun rm fs e => ?_) h1
  subst e
  simp [edChk] at hc

theorem comOf_step {U : Type} {R : U → U → Prop} {g g' : Sg Int U} {rank up} (hc : comChk rank up g = true)
    (h : comOf g = .ok g') : GStep Fine id 2 R g g' := by
  rw [comOf] at h
  obtain ⟨g1, h1, h⟩ := Sys.bind_inv h
  obtain ⟨y, h2, h⟩ := Sys.bind_inv h
  simp only [Except.ok.injEq] at h
  subst h
  refine .commit h1 (fun hr => ?_) h2
  rw [comChk, h1] at hc
  simp only [hr, Bool.not_true, Bool.false_or] at hc
  exact fine_of_check rank up hc

theorem inOf_step {g g' : Sg Int (Lev Int Unit 1)} {k : Key} {f : Sg Int Unit → R (Sg Int Unit)}
    (hf : ∀ u u', g.y.heap k = .inr u → f u = .ok u' → GStep Fine id 2 (LStep (L := Unit) (S := Int) Fine id 2 0) u u')
    (h : inOf g k f = .ok g') : GStep Fine id 2 (LStep (L := Unit) (S := Int) Fine id 2 1) g g' := by
  rw [inOf] at h
  cases hk : g.y.heap k with
  | inl s => rw [hk] at h; simp at h
  | inr u =>
    rw [hk] at h
    obtain ⟨u', h1, h2⟩ := Sys.bind_inv h
    simp only [Except.ok.injEq] at h2
    subst h2
    refine .unit ?_
    rw [hk]
    exact hf u u' hk h1

theorem demo_reach (rank : Key → Nat) (up : Key → Key) : ∀ (ss : List NOp) (g : Sg Int (Lev Int Unit 1)),
    NReach Fine id 2 g → demoChk rank up g ss = true → ∃ g' os, demoRun g ss = .ok (g', os) ∧ NReach Fine id 2 g' := by
  intro ss
  induction ss with
  | nil => intro g h _; exact ⟨g, [], rfl, h⟩
  | cons s ss ih =>
    intro g h hc
    cases s with
    | ed op =>
      rw [demoChk, Bool.and_eq_true] at hc
      cases he : edOf g op with
      | error e => simp [he] at hc
      | ok g1 =>
        rw [he] at hc
        obtain ⟨g', os, q1, q2⟩ := ih g1 (.step h (edOf_step hc.1 he)) hc.2
        exact ⟨g', os, by rw [demoRun, he]; exact q1, q2⟩
    | com =>
      rw [demoChk, Bool.and_eq_true] at hc
      cases he : comOf g with
      | error e => simp [he] at hc
      | ok g1 =>
        rw [he] at hc
        obtain ⟨g', os, q1, q2⟩ := ih g1 (.step h (comOf_step hc.1 he)) hc.2
        exact ⟨g', os, by rw [demoRun, he]; exact q1, q2⟩
    | edIn k op =>
      rw [demoChk, Bool.and_eq_true] at hc
      cases he : inOf g k fun u => edOf u op with
      | error e => simp [he] at hc
      | ok g1 =>
        rw [he] at hc
        obtain ⟨g', os, q1, q2⟩ := ih g1 (.step h (inOf_step (fun u u' _ hu => edOf_step hc.1 hu) he)) hc.2
        exact ⟨g', os, by rw [demoRun, he]; exact q1, q2⟩
    | comIn k =>
      rw [demoChk, Bool.and_eq_true] at hc
      cases he : inOf g k comOf with
      | error e => simp [he] at hc
      | ok g1 =>
        rw [he] at hc
        obtain ⟨g', os, q1, q2⟩ := ih g1 (.step h (inOf_step (fun u u' hk hu => by
          rw [hk] at hc
          exact comOf_step hc.1 hu) he)) hc.2
        exact ⟨g', os, by rw [demoRun, he]; exact q1, q2⟩
    | blk =>
      rw [demoChk] at hc
      cases he : Sys.block 2 g.y (lproc 2 demoLeaf 1 []) (fun _ _ => 0) with
      | error e => simp [he] at hc
      | ok x =>
        obtain ⟨y, o⟩ := x
        rw [he] at hc
        obtain ⟨g', os, q1, q2⟩ := ih ⟨y, g.gc⟩ (.block demoLeaf _ h he) hc
        exact ⟨g', o :: os, by rw [demoRun, he]; simp only [bind_ok]; rw [q1]; rfl, q2⟩

/-- The start: node 0 will be a subgraph with room for `cap` schedules. -/
def demo0 (cap : Nat) : Sg Int (Lev Int Unit 1) :=
  ⟨.init 0 0 1 2 4 fun k => if k = 0 then .inr ⟨.init 1 1 1 2 cap fun _ => (), .init 1 1 1⟩ else .inl (), .init 0 0 1⟩

theorem demo0_reach (cap : Nat) : NReach Fine id 2 (demo0 cap) := by
  refine .init 0 0 1 4 _ ?_
  intro k
  dsimp only
  split
  · exact ⟨1, 1, 1, cap, fun _ => (), rfl, fun _ => trivial⟩
  · trivial

/-- Nodes of the inner graph. -/
abbrev ndi (k : Key) : NodeId := ⟨k, 1⟩

/-- A subgraph (node 0) fed by node 1 and connected to the output; inside, the graph input goes through node 0
to the graph output.  Later another node is put in between inside, and the commit inside is made after a
block. -/
def demoSteps : List NOp := [.ed (.push 1 1 []), .ed (.push 0 1 []),
  .ed (.connect (.node (nd 1)) 0 0 (.node (nd 0)) false false), .ed (.connect (.node (nd 0)) 0 0 .graph false false),
  .com, .blk, .edIn 0 (.push 1 1 []), .edIn 0 (.connect .graph 0 0 (.node (ndi 0)) false false),
  .edIn 0 (.connect (.node (ndi 0)) 0 0 .graph false false), .blk, .comIn 0, .blk,
  .edIn 0 (.push 1 1 []), .edIn 0 (.connect (.node (ndi 0)) 0 0 (.node (ndi 1)) false false),
  .edIn 0 (.connect (.node (ndi 1)) 0 0 .graph false false), .comIn 0, .blk]

-- node 1 puts out 2, the inner nodes add 11 and 12
example : (demoRun (demo0 4) demoSteps).map Prod.snd = .ok [[[0, 0]], [[0, 0]], [[13, 13]], [[25, 25]]] := by
  decide +kernel

-- the hypotheses of the theorems are met on the way
example : demoChk (fun k => if k = 1 then 1 else 2) id (demo0 4) (demoSteps.take 12) = true := by decide +kernel

example : ∃ g' os, demoRun (demo0 4) (demoSteps.take 12) = .ok (g', os) ∧ NReach Fine id 2 g' ∧ Live g'.gc 0 := by
  obtain ⟨g', os, h1, h2⟩ := demo_reach (fun k => if k = 1 then 1 else 2) id (demoSteps.take 12) (demo0 4)
    (demo0_reach 4) (by decide +kernel)
  refine ⟨g', os, h1, h2, ?_⟩
  have : (demoRun (demo0 4) (demoSteps.take 12)).map (fun x => ((x.1.gc.get 0).isSome, x.1.gc.isPending 0)) =
    .ok (true, false) := by decide +kernel
  rw [h1] at this
  simp only [Except.map, Except.ok.injEq, Prod.mk.injEq] at this
  exact this

/-! ### A subgraph whose node is gone -/

/-- The subgraph is played once, then its node is freed; its `Graph` is still there and is edited and committed,
with blocks in between. -/
def goneSteps : List NOp := [.ed (.push 1 1 []), .ed (.connect (.node (nd 0)) 0 0 .graph false false), .com, .blk,
  .ed (.free (nd 0)), .com, .blk, .edIn 0 (.push 1 1 []), .comIn 0, .blk, .blk]

/-- **C72 is violated**: a subgraph can no longer be edited when its node is gone.  Nobody takes the new
schedules any more, so a commit of the inner graph panics as soon as the ring buffer is full, however many blocks
are run in between. -/
theorem C72_violated : ∃ g os, demoRun (demo0 1) goneSteps = .ok (g, os) ∧ NReach Fine id 2 g ∧ ¬ Live g.gc 0 ∧
    ∃ u u', g.y.heap 0 = .inr u ∧ edOf u (.push 1 1 []) = .ok u' ∧ comOf u' = .error .unwrap := by
  obtain ⟨g', os, h1, h2⟩ := demo_reach (fun k => k) id goneSteps (demo0 1) (demo0_reach 1) (by decide +kernel)
  have h3 : (demoRun (demo0 1) goneSteps).map (fun x => (x.1.gc.get 0).isSome && !x.1.gc.isPending 0) = .ok false := by
    decide +kernel
  have h4 : ((demoRun (demo0 1) goneSteps).toOption.bind fun x => match x.1.y.heap 0 with
      | .inr u => some ((edOf u (.push 1 1 [])).toOption.map fun u' => match comOf u' with
        | .error e => decide (e = .unwrap)
        | .ok _ => false)
      | .inl _ => none) = some (some true) := by decide +kernel
  refine ⟨g', os, h1, h2, ?_, ?_⟩
  · rw [h1] at h3
    simp only [Except.map, Except.ok.injEq] at h3
    rintro ⟨h5, h6⟩
    rw [h5, h6] at h3
    simp at h3
  · rw [h1] at h4
    simp only [Except.toOption, Option.bind_some] at h4
    cases hu : g'.y.heap 0 with
    | inl s => simp [hu] at h4
    | inr u =>
      simp only [hu, Option.some.injEq] at h4
      cases he : edOf u (.push 1 1 []) with
      | error e => simp [he] at h4
      | ok u' =>
        refine ⟨u, u', rfl, he, ?_⟩
        simp only [he, Option.map_some, Option.some.injEq] at h4
        cases hc : comOf u' with
        | ok _ => simp [hc] at h4
        | error e =>
          simp only [hc, decide_eq_true_eq] at h4
          rw [h4]

end Verif.Ne
