import Verif.Model.System

/-!
# Graphs inside graphs

A subgraph is a node of its parent whose unit generator is a `GraphGen`
(`knaster_graph/src/graph.rs` 1415–1460, `graph_edit.rs` 207–230).  Its `Graph` is edited and committed
independently of the parent; its blocks run when the parent runs the task of the node, with the same block
size and the inputs of the node.  Subgraphs may contain subgraphs, to any depth.

Conventions and simplifications

* The unit generator of a node is either an ordinary one or a whole `Verif.Sys.Y`: the audio thread side of
  the inner graph together with the control thread side it talks to.  `Lev n` are the unit generators that
  contain graphs nested at most `n` deep.
* `Sg.gc` is a ghost: the graph at the last commit that made a schedule.
* A `GraphGen` has no parameters (`type Parameters = U0`, graph_gen.rs 253), so linked parameter buffers are
  ignored.
* Freeing a graph from the inside (`remove_graph`, graph_gen.rs 226–239) is modelled in `Model/Done.lean`.
* A channel that was not put out or not handed over reads as zero.
-/

namespace Verif.Ne

open Verif.G (Key Proc Graph Op)
open Verif.Sys (Y)

/-- A graph with its audio thread side, and the graph of the last commit that made a schedule. -/
structure Sg (S U : Type) where
  y : Y S U
  gc : Graph

/-- The unit generators with graphs nested at most `n` deep over ordinary ones with state `L`. -/
abbrev Lev (S L : Type) : Nat → Type
  | 0 => L
  | n + 1 => L ⊕ Sg S (Lev S L n)

section
variable {S L U : Type}

/-- Channel `c`, frame `i` of a list of channels. -/
def chan [Zero S] (l : List (List S)) (c i : Nat) : S := (l.getD c []).getD i 0

/-- What the unit generators of a graph do: ordinary ones `leaf`, and the `GraphGen` of an inner graph runs
one block of it (graph_gen.rs 78–247) with the units `inner`.  A panic of the inner block leaves the node
without output; `nreach_good` shows that there is none. -/
def nproc [Zero S] (bs : Nat) (leaf : Proc S L) (inner : Key → Proc S U) : Proc S (L ⊕ Sg S U) :=
  fun k s ins ps => match s with
    | .inl s => let r := leaf k s ins ps; (.inl r.1, r.2)
    | .inr g => match Sys.block bs g.y (inner k) (chan ins) with
      | .ok (y', o) => (.inr { g with y := y' }, chan o)
      | .error _ => (.inr g, fun _ _ => 0)

/-- What the unit generators at the end of the path `p` do, when the ordinary ones do `leaf p`. -/
def lproc [Zero S] (bs : Nat) (leaf : List Key → Proc S L) : (n : Nat) → List Key → Proc S (Lev S L n)
  | 0, p => leaf p
  | n + 1, p => nproc bs (leaf p) (fun k => lproc bs leaf n (p ++ [k]))

/-- Replace the unit generator of node `k`. -/
def setUnit (y : Y S U) (k : Key) (u : U) : Y S U :=
  { y with heap := fun j => if j = k then u else y.heap j }

/-- The states in which unit generators are pushed: a subgraph starts without nodes (graph.rs 203–333), its
callback counts as its first edit. -/
def Fresh [Zero S] (bs : Nat) : (n : Nat) → Lev S L n → Prop
  | 0, _ => True
  | _ + 1, .inl _ => True
  | n + 1, .inr g => ∃ id nI nO cap h, g = ⟨Y.init id nI nO bs cap h, .init id nI nO⟩ ∧ ∀ k, Fresh bs n (h k)

/-- One step of the control thread on a graph: an edit, a commit of a graph in `F`, or a step `R` of a unit
generator. -/
inductive GStep [Zero S] (F : Graph → Prop) (sl : Key → Nat) (bs : Nat) (R : U → U → Prop) : Sg S U → Sg S U → Prop
  | edit {g y' op r} : (∀ rm fs, op ≠ .commit rm fs) → Sys.edit sl g.y op = .ok (y', r) →
      GStep F sl bs R g ⟨y', g.gc⟩
  | commit {g y' rm g1} : G.freeOld rm (fun f => g.y.applied (f + 1)) g.y.g = .ok g1 → (g1.recalc = true → F g1) →
      Sys.commit bs g.y rm = .ok y' → GStep F sl bs R g ⟨y', if g1.recalc then g1 else g.gc⟩
  | unit {g k u} : R (g.y.heap k) u → GStep F sl bs R g ⟨setUnit g.y k u, g.gc⟩

/-- One step on a unit generator: an ordinary one may be changed by a parameter change, a subgraph makes a
step of its own. -/
def LStep [Zero S] (F : Graph → Prop) (sl : Key → Nat) (bs : Nat) : (n : Nat) → Lev S L n → Lev S L n → Prop
  | 0, _, _ => True
  | _ + 1, .inl _, .inl _ => True
  | n + 1, .inr g, .inr g' => GStep F sl bs (LStep F sl bs n) g g'
  | _ + 1, _, _ => False

/-- All interleavings of steps of the control thread at any depth with blocks of the audio thread. -/
inductive NReach [Zero S] (F : Graph → Prop) (sl : Key → Nat) (bs : Nat) {n : Nat} : Sg S (Lev S L n) → Prop
  | init (id numIn numOut cap : Nat) (heap : Key → Lev S L n) : (∀ k, Fresh bs n (heap k)) →
      NReach F sl bs ⟨.init id numIn numOut bs cap heap, .init id numIn numOut⟩
  | step {g g'} : NReach F sl bs g → GStep F sl bs (LStep F sl bs n) g g' → NReach F sl bs g'
  | block {g y' o} (leaf : List Key → Proc S L) (inp : Nat → Nat → S) : NReach F sl bs g →
      Sys.block bs g.y (lproc bs leaf n []) inp = .ok (y', o) → NReach F sl bs ⟨y', g.gc⟩

end

end Verif.Ne
