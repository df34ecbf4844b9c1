import Verif.Model.Errors
import Verif.Lemmas.GraphPath
import Verif.Props.GraphEdits

/-!
# C91: a refused edit says what was wrong
-/

namespace Verif.Er

open Verif.G
open Relation (ReflTransGen)

/-! ### Specification -/

/-- The call takes sound out of this node. -/
def SourceOf : Op → NodeId → Prop
  | .connect (.node s) _ _ _ _ _, n => n = s
  | .param s _ _ _ _, n => n = s
  | .disconnectSource (.node s) _, n => n = s
  | _, _ => False

/-- The call is about what goes into this node, or about the node itself. -/
def SinkOf : Op → NodeId → Prop
  | .connect _ _ _ (.node k) _ _, n => n = k
  | .param _ _ _ k _, n => n = k
  | .disconnectSink _ (.node k), n => n = k
  | .free k, n => n = k
  | .mortality k _ _, n => n = k
  | _, _ => False

/-- The call is about this output channel of this node. -/
def OutChan : Op → NodeId → Nat → Prop
  | .connect (.node s) so _ _ _ _, n, c => n = s ∧ c = so
  | .param s so _ _ _, n, c => n = s ∧ c = so
  | .disconnectSource (.node s) so, n, c => n = s ∧ c = so
  | _, _, _ => False

/-- The call is about this input channel of this node. -/
def InChan : Op → NodeId → Nat → Prop
  | .connect _ _ si (.node k) _ _, n, c => n = k ∧ c = si
  | .disconnectSink si (.node k), n, c => n = k ∧ c = si
  | _, _, _ => False

/-- The call is about this input of the graph. -/
def GraphIn : Op → Nat → Prop
  | .connect .graph so _ _ _ _, c => c = so
  | .disconnectSource .graph so, c => c = so
  | _, _ => False

/-- The call is about this output of the graph. -/
def GraphOut : Op → Nat → Prop
  | .connect _ _ si .graph _ _, c => c = si
  | .disconnectSink si .graph, c => c = si
  | _, _ => False

/-- What the text of an error says. -/
def Says (g : Graph) (op : Op) : Err → Prop
  | .circular => ∃ s so si k a, op = .connect (.node s) so si (.node k) a false ∧ ReflTransGen (Feeds g) k.key s.key
  | .nodeNotFound => ∃ n, (SourceOf op n ∨ SinkOf op n) ∧ g.get n.key = none
  | .wrongSource e f => ∃ n, SourceOf op n ∧ n.graph = f ∧ e = g.id ∧ f ≠ e
  | .wrongSink e f => ∃ n, SinkOf op n ∧ n.graph = f ∧ e = g.id ∧ f ≠ e
  | .inputOOB c => ∃ n r, InChan op n c ∧ g.get n.key = some r ∧ r.inputs ≤ c
  | .outputOOB c => ∃ n r, OutChan op n c ∧ g.get n.key = some r ∧ r.outputs ≤ c
  | .graphInputOOB c => GraphIn op c ∧ g.numIn ≤ c
  | .graphOutputOOB c => GraphOut op c ∧ g.outs.length ≤ c
  | .paramDesc d => ∃ s so k a r, op = .param s so (.desc d) k a ∧ g.get k.key = some r ∧ d ∉ r.descs
  | .freeNotFound => ∃ n, op = .free n ∧ g.get n.key = none
  | .immortal => ∃ n r, op = .free n ∧ g.get n.key = some r ∧ r.mortal = false

/-- The three calls whose errors are wrong. -/
def Misreports (g : Graph) : Op → Prop
  | .connect .graph so si (.node k) _ _ => foreign k.graph g.id = false ∧ so < g.numIn ∧ ∃ r, g.get k.key = some r ∧ r.inputs ≤ si
  | .disconnectSource (.node n) _ => n.graph ≠ g.id
  | .disconnectSink _ (.node n) => n.graph ≠ g.id
  | _ => False

/-! ### The checks are those of the calls -/

theorem foreign_ne {x id : Nat} (h : foreign x id = true) : x ≠ id := by
  intro e
  subst e
  simp only [foreign, beq_iff_eq] at h
  omega

theorem position_none {d : Nat} {l : List Nat} : position (· == d) l = none ↔ d ∉ l := by
  induction l with
  | nil => simp [position]
  | cons a l ih =>
    by_cases h : a = d
    · simp [position, h]
    · have h' : ¬ d = a := fun e => h e.symm
      simp [position, h, h', ih]

/-- A result with the checks in front. -/
def guarded (g : Graph) (x : Option Err) (rest : Res) : Res :=
  match x with
  | some x => .ok (g, .error x.kind)
  | none => rest

theorem nodes_eq (sl : Key → Nat) (g : Graph) (s k : NodeId) (so si : Nat) (a f : Bool) :
    connectNodes sl g s k so si a f = guarded g (nodesFault g s k so si f)
      (do let g' ← connectToNode sl g (.node s.key) k.key so si a f; .ok (g', .ok ())) := by
  unfold connectNodes nodesFault
  by_cases h1 : foreign s.graph g.id = true
  · simp only [if_pos h1, guarded, Err.kind]
  by_cases h2 : foreign k.graph g.id = true
  · simp only [if_neg h1, if_pos h2, guarded, Err.kind]
  simp only [if_neg h1, if_neg h2]
  cases g.get s.key with
  | none => rfl
  | some ns =>
    by_cases h3 : so ≥ ns.outputs
    · simp only [if_pos h3, guarded, Err.kind]
    simp only [if_neg h3]
    cases g.get k.key with
    | none => rfl
    | some nk =>
      by_cases h4 : si ≥ nk.inputs
      · simp only [if_pos h4, guarded, Err.kind]
      simp only [if_neg h4]
      by_cases h5 : (!f && hasPath g k.key s.key) = true
      · simp only [if_pos h5, guarded, Err.kind]
      · simp only [if_neg h5, guarded]

theorem through_eq (sl : Key → Nat) (g : Graph) (so si : Nat) (a : Bool) :
    connectInputToOutput sl g so si a = guarded g (throughFault g so si)
      (do let g' ← connectToOut sl g .graph so si a; .ok (g', .ok ())) := by
  unfold connectInputToOutput throughFault
  by_cases h1 : so ≥ g.numIn
  · simp only [if_pos h1, guarded, Err.kind]
  by_cases h2 : si ≥ g.outs.length
  · simp only [if_neg h1, if_pos h2, guarded, Err.kind]
  · simp only [if_neg h1, if_neg h2, guarded]

theorem out_eq (sl : Key → Nat) (g : Graph) (s : NodeId) (so si : Nat) (a : Bool) :
    connectNodeToOutput sl g s so si a = guarded g (outFault g s so si)
      (do let g' ← connectToOut sl g (.node s.key) so si a; .ok (g', .ok ())) := by
  unfold connectNodeToOutput outFault
  by_cases h1 : foreign s.graph g.id = true
  · simp only [if_pos h1, guarded, Err.kind]
  by_cases h2 : si ≥ g.outs.length
  · simp only [if_neg h1, if_pos h2, guarded, Err.kind]
  simp only [if_neg h1, if_neg h2]
  cases g.get s.key with
  | none => rfl
  | some ns =>
    by_cases h3 : so ≥ ns.outputs
    · simp only [if_pos h3, guarded, Err.kind]
    · simp only [if_neg h3, guarded]

theorem in_eq (sl : Key → Nat) (g : Graph) (k : NodeId) (so si : Nat) (a : Bool) :
    connectInputToNode sl g k so si a = guarded g (inFault g k so si)
      (do let g' ← connectToNode sl g .graph k.key so si a false; .ok (g', .ok ())) := by
  unfold connectInputToNode inFault
  by_cases h1 : foreign k.graph g.id = true
  · simp only [if_pos h1, guarded, Err.kind]
  by_cases h2 : so ≥ g.numIn
  · simp only [if_neg h1, if_pos h2, guarded, Err.kind]
  simp only [if_neg h1, if_neg h2]
  cases g.get k.key with
  | none => rfl
  | some ns =>
    by_cases h3 : si ≥ ns.inputs
    · simp only [if_pos h3, guarded, Err.kind]
    · simp only [if_neg h3, guarded]

theorem bind_not_error {α : Type} {r : R α} {f : α → Graph} {g' : Graph} {e : GErr} :
    (do let a ← r; (.ok (f a, .ok ()) : Res)) ≠ .ok (g', .error e) := by
  cases r <;> simp

theorem guarded_error {g g' : Graph} {x : Option Err} {rest : Res} {e : GErr} (hr : rest ≠ .ok (g', .error e)) :
    guarded g x rest = .ok (g', .error e) ↔ g' = g ∧ ∃ y, x = some y ∧ y.kind = e := by
  cases x with
  | none => simp only [guarded, hr, false_iff]; rintro ⟨-, y, h, -⟩; cases h
  | some y =>
    simp only [guarded, Except.ok.injEq, Prod.mk.injEq, Except.error.injEq, Option.some.injEq, exists_eq_left']
    exact and_congr_left fun _ => eq_comm

/-- The rest of `connect_node_to_parameter` returns no error. -/
theorem rest_not_error {sl : Key → Nat} {g g' : Graph} {s k : NodeId} {so idx : Nat} {a : Bool} {e : GErr} :
    (match g.pars k.key with
      | none => .error .unwrap
      | some es =>
        if a = true then
          match position (fun pe => pe.param == idx) es with
          | some pos => match es[pos]? with
            | none => .error .index
            | some existing => do
              let g1 ← setEdge (newAdd sl (g.modify k.key fun n => { n with pars := some (swapRemove es pos) }))
                (g.modify k.key fun n => { n with pars := some (swapRemove es pos) }).nextKey 0
                (some ⟨.node existing.source, existing.chan, false⟩)
              let g2 ← setEdge g1 (g.modify k.key fun n => { n with pars := some (swapRemove es pos) }).nextKey 1
                (some ⟨.node s.key, so, false⟩)
              .ok (g2.modify k.key fun n => { n with pars := n.pars.map (· ++ [⟨(g.modify k.key fun n => { n with pars := some (swapRemove es pos) }).nextKey, 0, idx⟩]) }, .ok ())
          | none => .ok (g.modify k.key fun n => { n with pars := some (es ++ [⟨s.key, so, idx⟩]) }, .ok ())
        else .ok (g.modify k.key fun n => { n with pars := some (es.filter (fun pe => pe.param != idx) ++ [⟨s.key, so, idx⟩]) }, .ok ()) : Res)
      ≠ .ok (g', .error e) := by
  split
  · simp
  · split
    · split
      · split
        · simp
        · cases setEdge (newAdd sl (g.modify k.key _)) _ 0 _ with
          | error _ => simp
          | ok g1 => exact bind_not_error (f := fun g2 : Graph => g2.modify k.key _)
      · simp
    · simp

theorem param_error {sl : Key → Nat} {g g' : Graph} {s k : NodeId} {so : Nat} {p : Param} {a : Bool} {e : GErr} :
    connectParam sl g s so p k a = .ok (g', .error e) ↔ g' = g ∧ ∃ y, paramFault g s so p k = some y ∧ y.kind = e := by
  simp only [connectParam, paramFault]
  by_cases h1 : foreign s.graph g.id = true
  · rw [if_pos h1, if_pos h1]
    exact guarded_error (x := some (.wrongSource g.id s.graph)) (rest := .error .index) (by simp)
  rw [if_neg h1, if_neg h1]
  by_cases h2 : foreign k.graph g.id = true
  · rw [if_pos h2, if_pos h2]
    exact guarded_error (x := some (.wrongSink g.id k.graph)) (rest := .error .index) (by simp)
  rw [if_neg h2, if_neg h2]
  cases g.get k.key with
  | none => exact guarded_error (x := none) (by simp)
  | some nk =>
    simp only
    cases p with
    | index i =>
      simp only
      cases g.get s.key with
      | none => exact guarded_error (x := some .nodeNotFound) (rest := .error .index) (by simp)
      | some ns =>
        simp only
        by_cases h3 : so ≥ ns.outputs
        · rw [if_pos h3, if_pos h3]
          exact guarded_error (x := some (.outputOOB so)) (rest := .error .index) (by simp)
        · rw [if_neg h3, if_neg h3]
          exact guarded_error (x := none) rest_not_error
    | desc d =>
      simp only
      by_cases h3 : d ∈ nk.descs
      · obtain ⟨i, hi⟩ : ∃ i, position (· == d) nk.descs = some i := by
          cases hp : position (· == d) nk.descs with
          | none => exact absurd h3 (position_none.1 hp)
          | some i => exact ⟨i, rfl⟩
        rw [hi, if_neg (not_not.2 h3)]
        simp only [Option.map_some]
        cases g.get s.key with
        | none => exact guarded_error (x := some .nodeNotFound) (rest := .error .index) (by simp)
        | some ns =>
          simp only
          by_cases h4 : so ≥ ns.outputs
          · rw [if_pos h4, if_pos h4]
            exact guarded_error (x := some (.outputOOB so)) (rest := .error .index) (by simp)
          · rw [if_neg h4, if_neg h4]
            exact guarded_error (x := none) rest_not_error
      · rw [position_none.2 h3, if_pos h3]
        exact guarded_error (x := some (.paramDesc d)) (rest := .error .index) (by simp)

theorem source_error {g g' : Graph} {s : NG} {c : Nat} {e : GErr} :
    disconnectSource g s c = .ok (g', .error e) ↔ g' = g ∧ ∃ y, sourceFault g s c = some y ∧ y.kind = e := by
  cases s with
  | graph =>
    simp only [disconnectSource, sourceFault]
    by_cases h1 : c ≥ g.numIn
    · rw [if_pos h1, if_pos h1]
      exact guarded_error (x := some (.graphInputOOB c)) (rest := .error .index) (by simp)
    · rw [if_neg h1, if_neg h1]
      refine guarded_error (x := none) ?_
      cases getOut g c with
      | error _ => simp
      | ok o => simp only [bind_ok]; exact bind_not_error (f := fun g => dropAll g _ c)
  | node n =>
    simp only [disconnectSource, sourceFault]
    by_cases h1 : n.graph ≠ g.id
    · rw [if_pos h1, if_pos h1]
      exact guarded_error (x := some (.wrongSink n.graph g.id)) (rest := .error .index) (by simp)
    rw [if_neg h1, if_neg h1]
    cases g.get n.key with
    | none => exact guarded_error (x := some .nodeNotFound) (rest := .error .index) (by simp)
    | some r =>
      simp only
      by_cases h2 : c ≥ r.outputs
      · rw [if_pos h2, if_pos h2]
        exact guarded_error (x := some (.outputOOB c)) (rest := .error .index) (by simp)
      · rw [if_neg h2, if_neg h2]
        exact guarded_error (x := none) (by simp)

theorem sink_error {g g' : Graph} {k : NG} {c : Nat} {e : GErr} :
    disconnectSink g c k = .ok (g', .error e) ↔ g' = g ∧ ∃ y, sinkFault g c k = some y ∧ y.kind = e := by
  cases k with
  | graph =>
    simp only [disconnectSink, sinkFault]
    by_cases h1 : c ≥ g.outs.length
    · rw [if_pos h1, if_pos h1]
      exact guarded_error (x := some (.graphOutputOOB c)) (rest := .error .index) (by simp)
    · rw [if_neg h1, if_neg h1]
      refine guarded_error (x := none) ?_
      cases getOut g c with
      | error _ => simp
      | ok o => simp only [bind_ok]; exact bind_not_error (f := id)
  | node n =>
    simp only [disconnectSink, sinkFault]
    by_cases h1 : n.graph ≠ g.id
    · rw [if_pos h1, if_pos h1]
      exact guarded_error (x := some (.wrongSink n.graph g.id)) (rest := .error .index) (by simp)
    rw [if_neg h1, if_neg h1]
    cases g.get n.key with
    | none => exact guarded_error (x := some .nodeNotFound) (rest := .error .index) (by simp)
    | some r =>
      simp only
      cases r.ins with
      | none => exact guarded_error (x := none) (by simp)
      | some es =>
        simp only
        by_cases h2 : c ≥ es.length
        · rw [if_pos h2, List.getElem?_eq_none h2]
          exact guarded_error (x := some (.inputOOB c)) (rest := .error .index) (by simp)
        · rw [if_neg h2, List.getElem?_eq_getElem (by omega)]
          exact guarded_error (x := none) (bind_not_error (f := fun g : Graph => { g with recalc := true }))

theorem free_error {g g' : Graph} {n : NodeId} {e : GErr} :
    editFree g n = .ok (g', .error e) ↔ g' = g ∧ ∃ y, freeFault g n = some y ∧ y.kind = e := by
  simp only [editFree, freeFault]
  by_cases h1 : foreign n.graph g.id = true
  · rw [if_pos h1, if_pos h1]
    exact guarded_error (x := some (.wrongSink g.id n.graph)) (rest := .error .index) (by simp)
  rw [if_neg h1, if_neg h1]
  simp only [freeNode, freeLoop]
  cases g.get n.key with
  | none => exact guarded_error (x := some .freeNotFound) (rest := .error .index) (by simp)
  | some r =>
    simp only
    by_cases h2 : (!r.mortal) = true
    · rw [if_pos h2, if_pos h2]
      exact guarded_error (x := some .immortal) (rest := .error .index) (by simp)
    · rw [if_neg h2, if_neg h2]
      refine guarded_error (x := none) ?_
      split
      · simp
      · split <;> simp

/-- A call returns an error exactly if the checks find one, it is of that kind, and nothing has changed. -/
theorem run_error {sl : Key → Nat} {g g' : Graph} {op : Op} {e : GErr} :
    op.run sl g = .ok (g', .error e) ↔ g' = g ∧ ∃ x, fault g op = some x ∧ x.kind = e := by
  cases op with
  | push i o d => simp [Op.run, fault]
  | connect s so si k a f =>
    cases s with
    | graph =>
      cases k with
      | graph => simp only [Op.run, connect2, fault, through_eq]; exact guarded_error (bind_not_error (f := id))
      | node k => simp only [Op.run, connect2, fault, in_eq]; exact guarded_error (bind_not_error (f := id))
    | node s =>
      cases k with
      | graph => simp only [Op.run, connect2, fault, out_eq]; exact guarded_error (bind_not_error (f := id))
      | node k => simp only [Op.run, connect2, fault, nodes_eq]; exact guarded_error (bind_not_error (f := id))
  | param s so p k a => exact param_error
  | disconnectSource s c => exact source_error
  | disconnectSink c k => exact sink_error
  | free n => exact free_error
  | mortality n m st =>
    simp only [Op.run, setMortality, fault]
    cases g.get n.key with
    | none =>
      cases st with
      | true => exact guarded_error (x := none) (by simp)
      | false => exact guarded_error (x := some .nodeNotFound) (rest := .error .index) (by simp)
    | some r => exact guarded_error (x := none) (by simp)
  | commit r f =>
    simp only [Op.run, fault]
    exact guarded_error (x := none) (bind_not_error (f := id))

/-! ### C91 -/

/-- **C91, refused**: a call returns an error exactly if its checks find one; the error is of that kind and nothing has changed. -/
theorem C91_refused {sl : Key → Nat} {g g' : Graph} {op : Op} {e : GErr} :
    op.run sl g = .ok (g', .error e) ↔ g' = g ∧ ∃ x, fault g op = some x ∧ x.kind = e := run_error

/-- **C91, partial**: except for the three calls of `Misreports`, what an error says is true: the node is not there, the node it names is
of the graph it names, the channel it carries is the one of the call and does not exist on the side it names, there is a loop. -/
theorem C91_true_partial {sl : Key → Nat} {g : Graph} (hr : Reach sl g) {op : Op} {x : Err} (h : fault g op = some x)
    (hm : ¬ Misreports g op) : Says g op x := by
  cases op with
  | push i o d => simp [fault] at h
  | connect s so si k a f =>
    cases s with
    | graph =>
      cases k with
      | graph =>
        simp only [fault, throughFault] at h
        split at h
        · cases h; exact ⟨rfl, by assumption⟩
        · split at h
          · cases h; exact ⟨rfl, by assumption⟩
          · cases h
      | node k =>
        simp only [fault, inFault] at h
        split at h
        · rename_i h1
          cases h; exact ⟨k, rfl, rfl, rfl, foreign_ne h1⟩
        · split at h
          · cases h; exact ⟨rfl, by assumption⟩
          · split at h
            · rename_i h1
              cases h; exact ⟨k, .inr rfl, h1⟩
            · rename_i r h1
              split at h
              · rename_i h3
                exact absurd ⟨by simp_all, by omega, r, h1, h3⟩ hm
              · cases h
    | node s =>
      cases k with
      | graph =>
        simp only [fault, outFault] at h
        split at h
        · rename_i h1
          cases h; exact ⟨s, rfl, rfl, rfl, foreign_ne h1⟩
        · split at h
          · cases h; exact ⟨rfl, by assumption⟩
          · split at h
            · rename_i h1
              cases h; exact ⟨s, .inl rfl, h1⟩
            · rename_i r h1
              split at h
              · rename_i h3
                cases h; exact ⟨s, r, ⟨rfl, rfl⟩, h1, h3⟩
              · cases h
      | node k =>
        simp only [fault, nodesFault] at h
        split at h
        · rename_i h1
          cases h; exact ⟨s, rfl, rfl, rfl, foreign_ne h1⟩
        · split at h
          · rename_i h1
            cases h; exact ⟨k, rfl, rfl, rfl, foreign_ne h1⟩
          · split at h
            · rename_i h1
              cases h; exact ⟨s, .inl rfl, h1⟩
            · rename_i ns h1
              split at h
              · rename_i h3
                cases h; exact ⟨s, ns, ⟨rfl, rfl⟩, h1, h3⟩
              · split at h
                · rename_i h4
                  cases h; exact ⟨k, .inr rfl, h4⟩
                · rename_i nk h4
                  split at h
                  · rename_i h5
                    cases h; exact ⟨k, nk, ⟨rfl, rfl⟩, h4, h5⟩
                  · split at h
                    · rename_i h6
                      cases h
                      simp only [Bool.and_eq_true, Bool.not_eq_true'] at h6
                      obtain ⟨rfl, h6⟩ := h6
                      exact ⟨s, so, si, k, a, rfl, (hasPath_iff g _ _).1 h6⟩
                    · cases h
  | param s so p k a =>
    simp only [fault, paramFault] at h
    split at h
    · rename_i h1
      cases h; exact ⟨s, rfl, rfl, rfl, foreign_ne h1⟩
    · split at h
      · rename_i h1
        cases h; exact ⟨k, rfl, rfl, rfl, foreign_ne h1⟩
      · split at h
        · cases h
        · rename_i nk hk
          have last : ∀ y, (match g.get s.key with
              | none => some Err.nodeNotFound
              | some ns => if so ≥ ns.outputs then some (Err.outputOOB so) else none) = some y → Says g (.param s so p k a) y := by
            intro y hy
            split at hy
            · rename_i h1
              cases hy; exact ⟨s, .inl rfl, h1⟩
            · rename_i ns h1
              split at hy
              · rename_i h2
                cases hy; exact ⟨s, ns, ⟨rfl, rfl⟩, h1, h2⟩
              · cases hy
          cases p with
          | desc d =>
            simp only at h
            split at h
            · rename_i hd
              cases h; exact ⟨s, so, k, a, nk, rfl, hk, hd⟩
            · exact last _ h
          | index i =>
            apply last
            cases hs : g.get s.key <;> simp only [hs] at h <;> exact h
  | disconnectSource s c =>
    cases s with
    | graph =>
      simp only [fault, sourceFault] at h
      split at h
      · cases h; exact ⟨rfl, by assumption⟩
      · cases h
    | node n =>
      simp only [fault, sourceFault] at h
      split at h
      · exact absurd (by assumption) hm
      · split at h
        · rename_i h1
          cases h; exact ⟨n, .inl rfl, h1⟩
        · rename_i r h1
          split at h
          · rename_i h3
            cases h; exact ⟨n, r, ⟨rfl, rfl⟩, h1, h3⟩
          · cases h
  | disconnectSink c k =>
    cases k with
    | graph =>
      simp only [fault, sinkFault] at h
      split at h
      · cases h; exact ⟨rfl, by assumption⟩
      · cases h
    | node n =>
      simp only [fault, sinkFault] at h
      split at h
      · exact absurd (by assumption) hm
      · split at h
        · rename_i h1
          cases h; exact ⟨n, .inr rfl, h1⟩
        · rename_i r h1
          split at h
          · cases h
          · rename_i es he
            split at h
            · rename_i h3
              cases h
              exact ⟨n, r, ⟨rfl, rfl⟩, h1, by rw [← hr.wf.len _ _ _ h1 he]; exact h3⟩
            · cases h
  | free n =>
    simp only [fault, freeFault] at h
    split at h
    · rename_i h1
      cases h; exact ⟨n, rfl, rfl, rfl, foreign_ne h1⟩
    · split at h
      · rename_i h1
        cases h; exact ⟨n, rfl, h1⟩
      · rename_i r h1
        split at h
        · rename_i h2
          cases h; exact ⟨n, r, rfl, h1, by simpa using h2⟩
        · cases h
  | mortality n m st =>
    simp only [fault] at h
    split at h
    · rename_i h1
      cases h
      simp only [Bool.and_eq_true, Option.isNone_iff_eq_none] at h1
      exact ⟨n, .inr rfl, h1.1⟩
    · cases h
  | commit r f => simp [fault] at h

/-- **C91, negation**: each of the three calls of `Misreports` returns an error that is not true: an input that does not exist is reported
as an output, and the graph of a node is taken for the graph that was expected (and a source for a sink). -/
theorem C91_misreports_violated {g : Graph} {op : Op} (hm : Misreports g op) : ∃ x, fault g op = some x ∧ ¬ Says g op x := by
  cases op with
  | connect s so si k a f =>
    cases s with
    | node s => exact absurd hm (by simp [Misreports])
    | graph =>
      cases k with
      | graph => exact absurd hm (by simp [Misreports])
      | node k =>
        obtain ⟨h1, h2, r, h3, h4⟩ := hm
        refine ⟨.outputOOB si, ?_, ?_⟩
        · simp only [fault, inFault, h1, h3]
          rw [if_neg (by simp), if_neg (by omega), if_pos h4]
        · rintro ⟨n, r', h, -⟩
          exact h
  | disconnectSource s c =>
    cases s with
    | graph => exact absurd hm (by simp [Misreports])
    | node n =>
      have hm : n.graph ≠ g.id := hm
      refine ⟨.wrongSink n.graph g.id, by simp only [fault, sourceFault]; rw [if_pos hm], ?_⟩
      rintro ⟨m, h, -⟩
      exact h
  | disconnectSink c k =>
    cases k with
    | graph => exact absurd hm (by simp [Misreports])
    | node n =>
      have hm : n.graph ≠ g.id := hm
      refine ⟨.wrongSink n.graph g.id, by simp only [fault, sinkFault]; rw [if_pos hm], ?_⟩
      rintro ⟨m, -, -, h, -⟩
      exact hm h
  | _ => exact absurd hm (by simp [Misreports])

/-- A graph with one input, one output and one node with an input and an output. -/
def oneNode : Graph := pushNode id (Graph.init 0 1 1) (userNode 1 1 [])

theorem oneNode_reach : Reach id oneNode := Reach.step (.push 1 1 []) (Reach.init 0 1 1) rfl

example : Misreports oneNode (.connect .graph 0 3 (.node ⟨0, 0⟩) true false) := ⟨by decide, by decide, _, rfl, by decide⟩
example : Misreports oneNode (.disconnectSource (.node ⟨0, 7⟩) 0) := by simp only [Misreports]; decide
example : Misreports oneNode (.disconnectSink 0 (.node ⟨0, 7⟩)) := by simp only [Misreports]; decide
example : fault oneNode (.connect (.node ⟨0, 0⟩) 2 0 .graph true false) = some (.outputOOB 2) := by decide
example : fault oneNode (.connect (.node ⟨0, 0⟩) 0 0 (.node ⟨0, 0⟩) true false) = some .circular := by decide

/-- **C91, found, negation**: a node of another graph is not noticed: the call works on whatever node has the same key. -/
theorem C91_foreign_violated : ∃ (g g' : Graph) (op : Op) (e f : Nat), Reach id g ∧ Says g op (.wrongSource e f) ∧
    op.run id g = .ok (g', .ok ()) ∧ g'.out 0 = some ⟨.node 0, 0, false⟩ :=
  ⟨oneNode, _, .connect (.node ⟨0, 7⟩) 0 0 .graph true false, 0, 7, oneNode_reach, ⟨⟨0, 7⟩, rfl, rfl, rfl, by decide⟩, rfl, by decide⟩

/-- **C91, inputs of the graph**: `from_inputs` gives the channels asked for if all exist, and otherwise names the first that does not. -/
theorem C91_from_inputs (numIn : Nat) (cs : List Nat) :
    ((∀ c ∈ cs, c < numIn) → fromInputs numIn cs = .ok (cs.map fun c => (.graph, c))) ∧
    ∀ pre c post, cs = pre ++ c :: post → (∀ b ∈ pre, b < numIn) → numIn ≤ c → fromInputs numIn cs = .error (.graphInputOOB c) := by
  induction cs with
  | nil => exact ⟨fun _ => rfl, fun pre c post h => by simp at h⟩
  | cons a cs ih =>
    constructor
    · intro h
      have h1 := h a List.mem_cons_self
      rw [fromInputs, if_neg (by omega), ih.1 fun c hc => h c (List.mem_cons_of_mem _ hc)]
      rfl
    · intro pre c post h h1 h2
      cases pre with
      | nil =>
        simp only [List.nil_append, List.cons.injEq] at h
        rw [fromInputs, h.1, if_pos h2]
      | cons b pre =>
        simp only [List.cons_append, List.cons.injEq] at h
        have h3 := h1 b List.mem_cons_self
        rw [fromInputs, h.1, if_neg (by omega), ih.2 pre c post h.2 (fun x hx => h1 x (List.mem_cons_of_mem _ hx)) h2]

example : fromInputs 2 [0, 1, 0] = .ok [(.graph, 0), (.graph, 1), (.graph, 0)] ∧ fromInputs 2 [0, 5, 7] = .error (.graphInputOOB 5) := by
  decide

/-- **C91, found, partial**: a call that an error of any kind but those about other graphs would be true of does not succeed (it is
refused, or panics); `set_mortality` on a node that is gone aside. -/
theorem C91_found_partial {sl : Key → Nat} {g g' : Graph} (hr : Reach sl g) {op : Op} {x : Err} (hs : Says g op x)
    (hx : ∀ e f, x ≠ .wrongSource e f ∧ x ≠ .wrongSink e f) (hop : ∀ n m st, op ≠ .mortality n m st) : op.run sl g ≠ .ok (g', .ok ()) := by
  intro hrun
  have hn : fault g op = none := by
    cases hf : fault g op with
    | none => rfl
    | some y =>
      have := (run_error (sl := sl) (g' := g) (e := y.kind)).2 ⟨rfl, y, hf, rfl⟩
      rw [hrun] at this
      simp at this
  have hx1 : ∀ e f, x ≠ .wrongSource e f := fun e f => (hx e f).1
  have hx2 : ∀ e f, x ≠ .wrongSink e f := fun e f => (hx e f).2
  cases op with
  | push i o d => cases x <;> simp [Says, SourceOf, SinkOf, InChan, OutChan, GraphIn, GraphOut] at hs
  | connect s so si k a f =>
    cases s with
    | graph =>
      cases k with
      | graph =>
        simp only [fault, throughFault] at hn
        split at hn
        · cases hn
        · split at hn
          · cases hn
          · cases x <;> simp [Says, SourceOf, SinkOf, InChan, OutChan, GraphIn, GraphOut] at hs <;> omega
      | node k =>
        simp only [fault, inFault] at hn
        split at hn
        · cases hn
        · split at hn
          · cases hn
          · split at hn
            · cases hn
            · rename_i r h1
              split at hn
              · cases hn
              · cases x <;> simp [Says, SourceOf, SinkOf, InChan, OutChan, GraphIn, GraphOut, h1] at hs hx1 hx2 <;> omega
    | node s =>
      cases k with
      | graph =>
        simp only [fault, outFault] at hn
        split at hn
        · cases hn
        · split at hn
          · cases hn
          · split at hn
            · cases hn
            · rename_i r h1
              split at hn
              · cases hn
              · cases x <;> simp [Says, SourceOf, SinkOf, InChan, OutChan, GraphIn, GraphOut, h1] at hs hx1 hx2 <;> omega
      | node k =>
        simp only [fault, nodesFault] at hn
        split at hn
        · cases hn
        · split at hn
          · cases hn
          · split at hn
            · cases hn
            · rename_i r h1
              split at hn
              · cases hn
              · split at hn
                · cases hn
                · rename_i r' h2
                  split at hn
                  · cases hn
                  · split at hn
                    · cases hn
                    · rename_i h3
                      cases x with
                      | circular =>
                        obtain ⟨s', so', si', k', a', h4, h5⟩ := hs
                        cases h4
                        rw [(hasPath_iff g _ _).2 h5] at h3
                        simp at h3
                      | _ => simp [Says, SourceOf, SinkOf, InChan, OutChan, GraphIn, GraphOut, h1, h2] at hs hx1 hx2 <;> omega
  | param s so p k a =>
    simp only [fault, paramFault] at hn
    split at hn
    · cases hn
    · rename_i e1
      split at hn
      · cases hn
      · rename_i e2
        split at hn
        · rename_i h1
          simp only [Op.run, connectParam, if_neg e1, if_neg e2, h1] at hrun
          cases hrun
        · rename_i nk h1
          have key : ∃ ns, g.get s.key = some ns ∧ so < ns.outputs ∧ ∀ d, p = .desc d → d ∈ nk.descs := by
            cases p with
            | desc d =>
              simp only at hn
              split at hn
              · cases hn
              · rename_i hd
                split at hn
                · cases hn
                · rename_i ns h2
                  split at hn
                  · cases hn
                  · exact ⟨ns, h2, by omega, fun d' h => by cases h; simpa using hd⟩
            | index i =>
              cases hs : g.get s.key with
              | none => simp [hs] at hn
              | some ns =>
                simp only [hs] at hn
                split at hn
                · cases hn
                · exact ⟨ns, rfl, by omega, fun d h => by cases h⟩
          obtain ⟨ns, h2, h3, h4⟩ := key
          cases x with
          | paramDesc d =>
            obtain ⟨s', so', k', a', r, h5, h6, h7⟩ := hs
            cases h5
            rw [h1] at h6
            cases h6
            exact h7 (h4 d rfl)
          | _ => simp [Says, SourceOf, SinkOf, InChan, OutChan, GraphIn, GraphOut, h1, h2] at hs hx1 hx2 <;> omega
  | disconnectSource s c =>
    cases s with
    | graph =>
      simp only [fault, sourceFault] at hn
      split at hn
      · cases hn
      · cases x <;> simp [Says, SourceOf, SinkOf, InChan, OutChan, GraphIn, GraphOut] at hs hx1 hx2; omega
    | node n =>
      simp only [fault, sourceFault] at hn
      split at hn
      · cases hn
      · split at hn
        · cases hn
        · rename_i r h1
          split at hn
          · cases hn
          · cases x <;> simp [Says, SourceOf, SinkOf, InChan, OutChan, GraphIn, GraphOut, h1] at hs hx1 hx2; omega
  | disconnectSink c k =>
    cases k with
    | graph =>
      simp only [fault, sinkFault] at hn
      split at hn
      · cases hn
      · cases x <;> simp [Says, SourceOf, SinkOf, InChan, OutChan, GraphIn, GraphOut] at hs hx1 hx2; omega
    | node n =>
      simp only [fault, sinkFault] at hn
      split at hn
      · cases hn
      · rename_i e1
        split at hn
        · cases hn
        · rename_i r h1
          split at hn
          · rename_i h2
            simp only [Op.run, disconnectSink, if_neg e1, h1, h2] at hrun
            cases hrun
          · rename_i es he
            have := hr.wf.len _ _ _ h1 he
            split at hn
            · cases hn
            · cases x <;> simp [Says, SourceOf, SinkOf, InChan, OutChan, GraphIn, GraphOut, h1] at hs hx1 hx2; omega
  | free n =>
    simp only [fault, freeFault] at hn
    split at hn
    · cases hn
    · split at hn
      · cases hn
      · rename_i r h1
        split at hn
        · cases hn
        · cases x <;> simp_all [Says, SourceOf, SinkOf, InChan, OutChan, GraphIn, GraphOut]
  | mortality n m st => exact hop n m st rfl
  | commit r f => cases x <;> simp [Says, SourceOf, SinkOf, InChan, OutChan, GraphIn, GraphOut] at hs

end Verif.Er
