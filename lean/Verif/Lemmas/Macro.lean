import Verif.Model.Macro

/-! # Lemmas about the macro -/

namespace Verif.Ma

/-- Arguments other than `self`. -/
def typedArgs : List Arg → List Ty
  | [] => []
  | .recv _ :: as => typedArgs as
  | .typed t :: as => t :: typedArgs as

/-! ### Finding the functions -/

theorem foldl_byAttr_params (m : Method) (as : List Attr) (f : Found) :
    (as.foldl (fun f a => f.byAttr m a) f).params = f.params ++ (as.filter (·.name = "param")).map fun _ => m := by
  induction as generalizing f with
  | nil => simp
  | cons a as ih =>
    simp only [List.foldl_cons, ih]
    unfold Found.byAttr
    by_cases h1 : a.name = "init"
    · simp [h1]
    by_cases h2 : a.name = "process"
    · simp [h2]
    by_cases h3 : a.name = "process_block"
    · simp [h3]
    by_cases h4 : a.name = "param" <;> simp [h1, h2, h3, h4]

theorem byName_params (m : Method) (f : Found) : (f.byName m).params = f.params := by
  unfold Found.byName; split_ifs <;> rfl

/-- The methods marked as parameters, once for every mark. -/
def marks : List Item → List Method
  | [] => []
  | .fn m :: items => ((m.attrs.filter (·.name = "param")).map fun _ => m) ++ marks items
  | _ :: items => marks items

theorem foldl_params (items : List Item) (f : Found) :
    (items.foldl Found.item f).params = f.params ++ marks items := by
  induction items generalizing f with
  | nil => simp [marks]
  | cons x items ih =>
    rw [List.foldl_cons, ih]
    cases x with
    | fn m => simp [Found.item, foldl_byAttr_params, byName_params, marks]
    | type n t =>
      simp only [Found.item, marks]
      split_ifs <;> rfl
    | other i => rfl

theorem find_params (items : List Item) : (find items).params = marks items := by
  simp [find, foldl_params]

/-- What `process` is after the attributes. -/
theorem foldl_byAttr_process (m : Method) (as : List Attr) (f : Found) :
    (as.foldl (fun f a => f.byAttr m a) f).process = if as.any (·.name = "process") then some m else f.process := by
  induction as generalizing f with
  | nil => simp
  | cons a as ih =>
    simp only [List.foldl_cons, ih]
    unfold Found.byAttr
    by_cases h2 : a.name = "process"
    · simp [h2]
    · by_cases h1 : a.name = "init"
      · simp [h1]
      by_cases h3 : a.name = "process_block"
      · simp [h3]
      by_cases h4 : a.name = "param" <;> simp [h1, h2, h3, h4]

theorem foldl_byAttr_block (m : Method) (as : List Attr) (f : Found) :
    (as.foldl (fun f a => f.byAttr m a) f).block = if as.any (·.name = "process_block") then some m else f.block := by
  induction as generalizing f with
  | nil => simp
  | cons a as ih =>
    simp only [List.foldl_cons, ih]
    unfold Found.byAttr
    by_cases h2 : a.name = "process_block"
    · simp [h2]
    · by_cases h1 : a.name = "init"
      · simp [h1]
      by_cases h3 : a.name = "process"
      · simp [h3]
      by_cases h4 : a.name = "param" <;> simp [h1, h2, h3, h4]

theorem foldl_byAttr_init (m : Method) (as : List Attr) (f : Found) :
    (as.foldl (fun f a => f.byAttr m a) f).init = if as.any (·.name = "init") then some m else f.init := by
  induction as generalizing f with
  | nil => simp
  | cons a as ih =>
    simp only [List.foldl_cons, ih]
    unfold Found.byAttr
    by_cases h2 : a.name = "init"
    · simp [h2]
    · by_cases h1 : a.name = "process_block"
      · simp [h1]
      by_cases h3 : a.name = "process"
      · simp [h3]
      by_cases h4 : a.name = "param" <;> simp [h1, h2, h3, h4]

theorem foldl_byAttr_types (m : Method) (as : List Attr) (f : Found) :
    (as.foldl (fun f a => f.byAttr m a) f).inputs = f.inputs ∧
    (as.foldl (fun f a => f.byAttr m a) f).outputs = f.outputs := by
  induction as generalizing f with
  | nil => simp
  | cons a as ih =>
    simp only [List.foldl_cons, ih]
    unfold Found.byAttr
    split_ifs <;> simp

/-- Candidates for `init`. -/
def Method.isInit (m : Method) : Bool := m.name = "init" || m.attrs.any (·.name = "init")

theorem item_process (f : Found) (m : Method) :
    (f.item (.fn m)).process = if m.isProcess then some m else f.process := by
  simp only [Found.item, foldl_byAttr_process, Method.isProcess]
  by_cases h : m.attrs.any (·.name = "process") = true
  · simp only [h, if_true, Bool.or_true]
  · simp only [h, Bool.false_eq_true, if_false, Bool.or_false, Found.byName, decide_eq_true_eq]
    by_cases h1 : m.name = "init"
    · simp [h1]
    by_cases h2 : m.name = "process"
    · simp [h2]
    by_cases h3 : m.name = "process_block" <;> simp [h1, h2, h3]

theorem item_block (f : Found) (m : Method) :
    (f.item (.fn m)).block = if m.isBlock then some m else f.block := by
  simp only [Found.item, foldl_byAttr_block, Method.isBlock]
  by_cases h : m.attrs.any (·.name = "process_block") = true
  · simp only [h, if_true, Bool.or_true]
  · simp only [h, Bool.false_eq_true, if_false, Bool.or_false, Found.byName, decide_eq_true_eq]
    by_cases h1 : m.name = "init"
    · simp [h1]
    by_cases h2 : m.name = "process"
    · simp [h2]
    by_cases h3 : m.name = "process_block" <;> simp [h1, h2, h3]

theorem item_init (f : Found) (m : Method) :
    (f.item (.fn m)).init = if m.isInit then some m else f.init := by
  simp only [Found.item, foldl_byAttr_init, Method.isInit]
  by_cases h : m.attrs.any (·.name = "init") = true
  · simp only [h, if_true, Bool.or_true]
  · simp only [h, Bool.false_eq_true, if_false, Bool.or_false, Found.byName, decide_eq_true_eq]
    by_cases h1 : m.name = "init"
    · simp [h1]
    by_cases h2 : m.name = "process"
    · simp [h2]
    by_cases h3 : m.name = "process_block" <;> simp [h1, h2, h3]

theorem item_other (f : Found) (x : Item) (h : ∀ m, x ≠ .fn m) :
    (f.item x).init = f.init ∧ (f.item x).process = f.process ∧ (f.item x).block = f.block := by
  cases x with
  | fn m => exact absurd rfl (h m)
  | type n t => simp only [Found.item]; split_ifs <;> simp
  | other i => simp [Found.item]

/-- The last function that satisfies the test. -/
def lastFn (c : Method → Bool) (o : Option Method) : List Item → Option Method
  | [] => o
  | .fn m :: items => lastFn c (if c m then some m else o) items
  | _ :: items => lastFn c o items

theorem foldl_last (items : List Item) (f : Found) :
    (items.foldl Found.item f).init = lastFn Method.isInit f.init items ∧
    (items.foldl Found.item f).process = lastFn Method.isProcess f.process items ∧
    (items.foldl Found.item f).block = lastFn Method.isBlock f.block items := by
  induction items generalizing f with
  | nil => simp [lastFn]
  | cons x items ih =>
    rw [List.foldl_cons]
    obtain ⟨a, b, c⟩ := ih (f.item x)
    rw [a, b, c]
    cases x with
    | fn m => simp only [item_init, item_process, item_block, lastFn, and_self]
    | type n t =>
      obtain ⟨a, b, c⟩ := item_other f (.type n t) (by simp)
      simp only [a, b, c, lastFn, and_self]
    | other i =>
      obtain ⟨a, b, c⟩ := item_other f (.other i) (by simp)
      simp only [a, b, c, lastFn, and_self]

theorem find_last (items : List Item) :
    (find items).init = lastFn Method.isInit none items ∧
    (find items).process = lastFn Method.isProcess none items ∧
    (find items).block = lastFn Method.isBlock none items := foldl_last items {}

theorem lastFn_mem {c : Method → Bool} {items : List Item} {o : Option Method} {m : Method}
    (h : lastFn c o items = some m) : o = some m ∨ (.fn m ∈ items ∧ c m = true) := by
  induction items generalizing o with
  | nil => exact .inl h
  | cons x items ih =>
    cases x with
    | fn k =>
      rcases ih h with g | ⟨g, g'⟩
      · by_cases hk : c k = true
        · simp only [hk, if_true, Option.some.injEq] at g
          subst g
          exact .inr ⟨by simp, hk⟩
        · simp only [hk, Bool.false_eq_true, if_false] at g
          exact .inl g
      · exact .inr ⟨by simp [g], g'⟩
    | type n t =>
      rcases ih h with g | ⟨g, g'⟩
      · exact .inl g
      · exact .inr ⟨by simp [g], g'⟩
    | other i =>
      rcases ih h with g | ⟨g, g'⟩
      · exact .inl g
      · exact .inr ⟨by simp [g], g'⟩

theorem lastFn_some {c : Method → Bool} {items : List Item} {o : Option Method} {m : Method}
    (h : .fn m ∈ items) (hc : c m = true) : ∃ k, lastFn c o items = some k := by
  induction items generalizing o with
  | nil => simp at h
  | cons x items ih =>
    by_cases hm : .fn m ∈ items
    · cases x <;> exact ih hm
    · have hx : x = .fn m := by
        rcases List.mem_cons.1 h with g | g
        · exact g.symm
        · exact absurd g hm
      subst hx
      simp only [lastFn, hc, if_true]
      clear hm h hc ih
      have key : ∀ (items : List Item) (k : Method), ∃ k', lastFn c (some k) items = some k' := by
        intro items
        induction items with
        | nil => intro k; exact ⟨k, rfl⟩
        | cons x items ih =>
          intro k
          cases x with
          | fn j => simp only [lastFn]; split_ifs <;> exact ih _
          | type n t => exact ih k
          | other i => exact ih k
      exact key items m

/-! ### Taking `parse` apart -/

structure Parts (items : List Item) (g : Gen) where
  numIn : Option Nat
  numOut : Option Nat
  proc : procImpl (find items).process = .ok (g.proc, numIn, numOut)
  blk : blkImpl numIn numOut (find items).block = .ok g.blk
  params : paramsOf (marks items) = .ok g.params
  rest : restOf g.proc.moved g.blk.moved items = .ok g.rest
  init : g.init = (find items).init.map Method.name
  inputs : g.inputs = (find items).inputs.getD (numIn.getD 0)
  outputs : g.outputs = (find items).outputs.getD (numOut.getD 0)

theorem parts {items : List Item} {g : Gen} (h : parse items = .ok g) : Nonempty (Parts items g) := by
  unfold parse at h
  simp only [find_params] at h
  cases h1 : procImpl (find items).process with
  | error e => rw [h1] at h; cases h
  | ok r1 =>
    obtain ⟨proc, numIn, numOut⟩ := r1
    rw [h1] at h
    cases h2 : blkImpl numIn numOut (find items).block with
    | error e => simp only [bind, Except.bind, h2] at h; cases h
    | ok blk =>
      cases h3 : paramsOf (marks items) with
      | error e => simp only [bind, Except.bind, h2, h3] at h; cases h
      | ok ps =>
        simp only [bind, Except.bind, h2, h3] at h
        split at h
        · cases h
        · next rest h4 =>
          injection h with h
          subst h
          exact ⟨⟨numIn, numOut, h1, h2, h3, h4, rfl, rfl, rfl⟩⟩

/-! ### Parameters -/

theorem paramsOf_get {ms : List Method} {ps : List Param} (h : paramsOf ms = .ok ps) :
    ps.length = ms.length ∧ ∀ (i : Nat) (p : Param), ps[i]? = some p → ∃ m, ms[i]? = some m ∧ paramOf m = .ok p := by
  induction ms generalizing ps with
  | nil => injection h with h; subst h; simp
  | cons m ms ih =>
    simp only [paramsOf, bind, Except.bind] at h
    cases h1 : paramOf m with
    | error e => rw [h1] at h; cases h
    | ok p =>
      rw [h1] at h
      cases h2 : paramsOf ms with
      | error e => rw [h2] at h; cases h
      | ok ps' =>
        rw [h2] at h
        injection h with h
        subst h
        obtain ⟨a, b⟩ := ih h2
        refine ⟨by simp [a], fun i q hq => ?_⟩
        cases i with
        | zero =>
          simp only [List.getElem?_cons_zero, Option.some.injEq] at hq
          subst hq
          exact ⟨m, rfl, h1⟩
        | succ i => simpa using b i q (by simpa using hq)

theorem hintKind_eq {a : PAttr} {p q : Param} (h : hintKind a p = .ok q) :
    q = { p with kind := q.kind } ∧ (a.kind = none → q.kind = p.kind) ∧
    (∀ k, a.kind = some k → p.ty.isFloat = true ∧ ∃ s, k = [s] ∧ q.kind = some s) := by
  unfold hintKind at h
  cases hk : a.kind with
  | none => rw [hk] at h; injection h with h; subst h; simp
  | some k =>
    rw [hk] at h
    simp only at h
    by_cases hf : p.ty.isFloat = true
    · simp only [hf, Bool.not_true, Bool.false_eq_true, if_false] at h
      match k, h with
      | [s], h =>
        simp only at h
        split at h
        · injection h with h; subst h; simp [hf]
        · cases h
      | [], h => cases h
      | _ :: _ :: _, h => cases h
    · simp only [hf, Bool.not_false, if_true] at h
      cases h

theorem hintFrom_eq {a : PAttr} {p q : Param} (h : hintFrom a p = .ok q) :
    q = { p with fromTy := q.fromTy } ∧ (a.fromTy = none → q.fromTy = p.fromTy) ∧
    (∀ k, a.fromTy = some k → p.ty = .integer ∧ q.fromTy = some k) := by
  unfold hintFrom at h
  cases hk : a.fromTy with
  | none => rw [hk] at h; injection h with h; subst h; simp
  | some k =>
    rw [hk] at h
    simp only at h
    split at h
    · next hi => injection h with h; subst h; simp [hi]
    · cases h

theorem hintRange_eq {a : PAttr} {p q : Param} (h : hintRange a p = .ok q) :
    q = { p with range := q.range } ∧ (a.range = none → q.range = p.range) ∧
    (∀ s e c, a.range = some (.range s e c) → ∃ x y, s = some x ∧ e = some y ∧ c = true ∧ q.range = some (x, y)) := by
  unfold hintRange at h
  match hr : a.range, h with
  | none, h => injection h with h; subst h; simp
  | some .other, h => injection h with h; subst h; simp
  | some (.range (some s) (some e) true), h =>
    injection h with h; subst h
    refine ⟨rfl, by simp, ?_⟩
    intro s' e' c hh
    simp only [Option.some.injEq, RangeE.range.injEq] at hh
    obtain ⟨rfl, rfl, rfl⟩ := hh
    exact ⟨s, e, rfl, rfl, rfl, rfl⟩
  | some (.range none _ _), h => cases h
  | some (.range (some _) none _), h => cases h
  | some (.range (some _) (some _) false), h => cases h

/-- What the hints leave alone. -/
theorem paramHints_keep {a : PAttr} {p q : Param} (h : paramHints a p = .ok q) :
    q.name = p.name ∧ q.fnName = p.fnName ∧ q.args = p.args ∧ q.ty = p.ty := by
  unfold paramHints at h
  simp only [bind, Except.bind] at h
  cases h1 : hintKind a p with
  | error e => rw [h1] at h; cases h
  | ok p1 =>
    rw [h1] at h
    simp only at h
    cases h2 : hintFrom a p1 with
    | error e => rw [h2] at h; cases h
    | ok p2 =>
      rw [h2] at h
      simp only at h
      cases h3 : hintRange a p2 with
      | error e => rw [h3] at h; cases h
      | ok p3 =>
        rw [h3] at h
        injection h with h
        subst h
        have e1 := (hintKind_eq h1).1
        have e2 := (hintFrom_eq h2).1
        have e3 := (hintRange_eq h3).1
        rw [e3, e2, e1]
        simp

theorem paramHints_set {a : PAttr} {p q : Param} (h : paramHints a p = .ok q)
    (hk : p.kind = none) (hf : p.fromTy = none) (hl : p.logarithmic = false) :
    q.default = a.default ∧ q.logarithmic = a.logarithmic.getD false ∧
    q.kind = (a.kind.bind List.head?) ∧ q.fromTy = a.fromTy ∧
    (∀ s e c, a.range = some (.range s e c) → ∃ x y, s = some x ∧ e = some y ∧ c = true ∧ q.range = some (x, y)) ∧
    (a.range = none → q.range = p.range) := by
  unfold paramHints at h
  simp only [bind, Except.bind] at h
  cases h1 : hintKind a p with
  | error e => rw [h1] at h; cases h
  | ok p1 =>
    rw [h1] at h
    simp only at h
    cases h2 : hintFrom a p1 with
    | error e => rw [h2] at h; cases h
    | ok p2 =>
      rw [h2] at h
      simp only at h
      cases h3 : hintRange a p2 with
      | error e => rw [h3] at h; cases h
      | ok p3 =>
        rw [h3] at h
        injection h with h
        subst h
        obtain ⟨e1, n1, s1⟩ := hintKind_eq h1
        obtain ⟨e2, n2, s2⟩ := hintFrom_eq h2
        obtain ⟨e3, n3, s3⟩ := hintRange_eq h3
        refine ⟨rfl, ?_, ?_, ?_, s3, ?_⟩
        · rw [e3, e2, e1]; simp [hl]
        · have : p3.kind = p1.kind := by rw [e3, e2]
          simp only [this]
          cases ha : a.kind with
          | none => rw [n1 ha, hk]; rfl
          | some k => obtain ⟨-, s, rfl, hs⟩ := s1 k ha; rw [hs]; rfl
        · have : p3.fromTy = p2.fromTy := by rw [e3]
          simp only [this]
          cases ha : a.fromTy with
          | none => rw [n2 ha, e1]; exact hf
          | some k => rw [(s2 k ha).2]
        · intro ha
          show p3.range = _
          rw [n3 ha, e2, e1]

/-- How an argument of a parameter function is classified. -/
inductive Class : Ty → PArg → Prop where
  | ctx {mt segs} : "AudioCtx" ∈ segs → Class (.ref mt segs) .ctx
  | flags {mt segs} : "AudioCtx" ∉ segs → "UGenFlags" ∈ segs → Class (.ref mt segs) .flags
  | value {segs q t} : valueTy segs = some t → Class (.path segs q) (.value t)

/-- The type follows from the arguments. -/
def tyOf (args : List PArg) : PTy :=
  match args.find? PArg.isValue with
  | some (.value t) => t
  | _ => .trigger

theorem paramArgs_class {as : List Arg} {p q : Param} (h : paramArgs as p = .ok q) (hp : p.ty = tyOf p.args) :
    q = { p with ty := q.ty, args := q.args } ∧ q.ty = tyOf q.args ∧
    (p.args.countP PArg.isValue ≤ 1 → q.args.countP PArg.isValue ≤ 1) ∧ ∃ cs, q.args = p.args ++ cs ∧ List.Forall₂ Class (typedArgs as) cs := by
  induction as generalizing p with
  | nil =>
    injection h with h; subst h
    exact ⟨rfl, hp, id, [], by simp, .nil⟩
  | cons a as ih =>
    match a, h with
    | .recv _, h => exact ih h hp
    | .typed (.ref mt segs), h =>
      simp only [paramArgs] at h
      split_ifs at h with c1 c2
      · obtain ⟨e, t, c, cs, e1, f⟩ := ih h (by
          simp only [tyOf, List.find?_append] at hp ⊢
          rw [hp]
          cases p.args.find? PArg.isValue <;> simp [PArg.isValue])
        refine ⟨by rw [e], t, fun hl => c (by simpa [PArg.isValue] using hl), .ctx :: cs, by rw [e1]; simp, .cons (.ctx (by simpa using c1)) f⟩
      · obtain ⟨e, t, c, cs, e1, f⟩ := ih h (by
          simp only [tyOf, List.find?_append] at hp ⊢
          rw [hp]
          cases p.args.find? PArg.isValue <;> simp [PArg.isValue])
        refine ⟨by rw [e], t, fun hl => c (by simpa [PArg.isValue] using hl), .flags :: cs, by rw [e1]; simp, .cons (.flags (by simpa using c1) (by simpa using c2)) f⟩
    | .typed (.path segs qs), h =>
      simp only [paramArgs] at h
      by_cases c : p.args.any PArg.isValue = true
      · rw [if_pos c] at h; cases h
      · rw [if_neg c] at h
        cases hv : valueTy segs with
        | none => rw [hv] at h; cases h
        | some t =>
          rw [hv] at h
          obtain ⟨e, t', c', cs, e1, f⟩ := ih h (by
            have hn : p.args.find? PArg.isValue = none := by
              rw [List.find?_eq_none]
              intro x hx hv
              exact c (List.any_eq_true.2 ⟨x, hx, hv⟩)
            simp [tyOf, List.find?_append, hn, PArg.isValue])
          have hz : p.args.countP PArg.isValue = 0 := by
            rw [List.countP_eq_zero]
            intro x hx hv
            exact c (List.any_eq_true.2 ⟨x, hx, hv⟩)
          refine ⟨by rw [e], t', fun _ => c' (by simp [hz, PArg.isValue]), .value t :: cs, by rw [e1]; simp, .cons (.value hv) f⟩
    | .typed .refOther, h => cases h
    | .typed (.array _ _), h => cases h
    | .typed .other, h => cases h

/-- A parameter in terms of its function. -/
theorem paramOf_eq {m : Method} {p : Param} (h : paramOf m = .ok p) :
    p.name = m.name ∧ p.fnName = m.name ∧ p.ty = tyOf p.args ∧ List.Forall₂ Class (typedArgs m.args) p.args ∧
    p.args.countP PArg.isValue ≤ 1 ∧ ∃ a, paramAttrs m.attrs = .ok a ∧
      (∀ a', a = some a' → ∃ p0 : Param, p0.kind = none ∧ p0.fromTy = none ∧ p0.logarithmic = false ∧ p0.range = none ∧
        paramHints a' p0 = .ok p) ∧
      (a = none → p.kind = none ∧ p.fromTy = none ∧ p.logarithmic = false ∧ p.range = none ∧ p.default = none) := by
  unfold paramOf at h
  simp only [bind, Except.bind] at h
  cases h1 : paramAttrs m.attrs with
  | error e => rw [h1] at h; cases h
  | ok a =>
    rw [h1] at h
    simp only at h
    cases h2 : paramArgs m.args { name := m.name, fnName := m.name } with
    | error e => rw [h2] at h; cases h
    | ok p0 =>
      rw [h2] at h
      simp only at h
      obtain ⟨e, t, c, cs, e1, f⟩ := paramArgs_class h2 (by simp [tyOf])
      simp only [List.nil_append] at e1
      subst e1
      have c := c (by simp)
      have n1 : p0.name = m.name := by rw [e]
      have n2 : p0.fnName = m.name := by rw [e]
      have n3 : p0.kind = none := by rw [e]
      have n4 : p0.fromTy = none := by rw [e]
      have n5 : p0.logarithmic = false := by rw [e]
      have n6 : p0.range = none := by rw [e]
      have n7 : p0.default = none := by rw [e]
      cases a with
      | none =>
        injection h with h; subst h
        exact ⟨n1, n2, t, f, c, none, rfl, by simp, fun _ => ⟨n3, n4, n5, n6, n7⟩⟩
      | some a =>
        obtain ⟨k1, k2, k3, k4⟩ := paramHints_keep h
        refine ⟨by rw [k1, n1], by rw [k2, n2], by rw [k3, k4, t], by rw [k3]; exact f, by rw [k3]; exact c, some a, rfl, ?_, by simp⟩
        intro a' ha
        simp only [Option.some.injEq] at ha
        subst ha
        exact ⟨p0, n3, n4, n5, n6, h⟩

/-- One list among the attributes. -/
theorem paramAttrs_list {as : List Attr} {a : PAttr} {r : Option PAttr} (h : paramAttrs as = .ok r)
    (hm : ⟨"param", .list a⟩ ∈ as) (hu : ∀ x ∈ as, x.name = "param" → x = ⟨"param", .list a⟩) : r = some a := by
  induction as generalizing r with
  | nil => simp at hm
  | cons x as ih =>
    unfold paramAttrs at h
    by_cases hx : x.name = "param"
    · have hx' := hu x (by simp) hx
      subst hx'
      simp only [if_true, bind, Except.bind] at h
      cases h1 : paramAttrs as with
      | error e => rw [h1] at h; cases h
      | ok r' =>
        rw [h1] at h
        injection h with h
        subst h
        by_cases hm' : ⟨"param", .list a⟩ ∈ as
        · rw [ih h1 hm' (fun x hx => hu x (by simp [hx]))]; rfl
        · have key : ∀ (as : List Attr) (r : Option PAttr), paramAttrs as = .ok r →
              (∀ x ∈ as, x.name ≠ "param") → r = none := by
            intro as
            induction as with
            | nil => intro r h _; injection h with h; exact h.symm
            | cons y ys ih =>
              intro r h hn
              unfold paramAttrs at h
              rw [if_neg (hn y (by simp))] at h
              exact ih r h fun x hx => hn x (by simp [hx])
          rw [key as r' h1 fun y hy hn => hm' (by rw [← hu y (by simp [hy]) hn]; exact hy)]
          rfl
    · rw [if_neg hx] at h
      refine ih h ?_ fun y hy => hu y (by simp [hy])
      rcases List.mem_cons.1 hm with g | g
      · rw [← g] at hx; simp at hx
      · exact g

/-! ### `process` -/

/-- How an argument of `process` is classified, with `n` inputs. -/
inductive PClass : Ty → MArg → Prop where
  | ctx {mt segs} : "AudioCtx" ∈ segs → PClass (.ref mt segs) .ctx
  | flags {mt segs} : "AudioCtx" ∉ segs → "UGenFlags" ∈ segs → PClass (.ref mt segs) .flags
  | input {n e} : PClass (.array (some n) e) .input

theorem procArgs_class {as : List Arg} {args : List MArg} {n : Option Nat} (h : procArgs as = .ok (args, n)) :
    List.Forall₂ PClass (typedArgs as) args ∧ n = (as.filterMap Arg.len).getLast? := by
  induction as generalizing args n with
  | nil =>
    simp only [procArgs, Except.ok.injEq, Prod.mk.injEq] at h
    obtain ⟨rfl, rfl⟩ := h
    exact ⟨.nil, rfl⟩
  | cons a as ih =>
    match a, h with
    | .recv _, h => simpa [typedArgs, List.filterMap_cons, Arg.len] using ih h
    | .typed (.ref mt segs), h =>
      simp only [procArgs, bind, Except.bind] at h
      split_ifs at h with c1 c2
      · cases h1 : procArgs as with
        | error e => rw [h1] at h; cases h
        | ok r =>
          obtain ⟨r, n'⟩ := r
          rw [h1] at h
          simp only [Except.ok.injEq, Prod.mk.injEq] at h
          obtain ⟨rfl, rfl⟩ := h
          obtain ⟨f, g⟩ := ih h1
          exact ⟨.cons (.ctx (by simpa using c1)) f, by simpa [List.filterMap_cons, Arg.len] using g⟩
      · cases h1 : procArgs as with
        | error e => rw [h1] at h; cases h
        | ok r =>
          obtain ⟨r, n'⟩ := r
          rw [h1] at h
          simp only [Except.ok.injEq, Prod.mk.injEq] at h
          obtain ⟨rfl, rfl⟩ := h
          obtain ⟨f, g⟩ := ih h1
          exact ⟨.cons (.flags (by simpa using c1) (by simpa using c2)) f, by simpa [List.filterMap_cons, Arg.len] using g⟩
    | .typed (.array (some k) e), h =>
      simp only [procArgs, bind, Except.bind] at h
      cases h1 : procArgs as with
      | error e => rw [h1] at h; cases h
      | ok r =>
        obtain ⟨r, n'⟩ := r
        rw [h1] at h
        simp only [Except.ok.injEq, Prod.mk.injEq] at h
        obtain ⟨rfl, rfl⟩ := h
        obtain ⟨f, g⟩ := ih h1
        refine ⟨.cons .input f, ?_⟩
        rw [g, List.filterMap_cons]
        simp only [Arg.len]
        generalize as.filterMap Arg.len = l
        cases l with
        | nil => rfl
        | cons y l => rw [List.getLast?_cons_cons]; simp [List.getLast?_eq_some_getLast (l := y :: l) (by simp)]
    | .typed (.array none _), h => cases h
    | .typed .refOther, h => cases h
    | .typed (.path _ _), h => cases h
    | .typed .other, h => cases h

/-- Arguments of `process_block`. -/
inductive BClass : Ty → MArg → Prop where
  | ctx {mt segs} : "AudioCtx" ∈ segs → BClass (.ref mt segs) .ctx
  | flags {mt segs} : "AudioCtx" ∉ segs → "UGenFlags" ∈ segs → BClass (.ref mt segs) .flags
  | input {n} : BClass (.array (some n) (.ref false)) .input
  | output {n} : BClass (.array (some n) (.ref true)) .output

theorem blkArgs_class {i o : Option Nat} {as : List Arg} {args : List MArg} (h : blkArgs i o as = .ok args) :
    List.Forall₂ BClass (typedArgs as) args := by
  induction as generalizing args with
  | nil => injection h with h; subst h; exact .nil
  | cons a as ih =>
    match a, h with
    | .recv _, h => exact ih h
    | .typed (.ref mt segs), h =>
      simp only [blkArgs, bind, Except.bind] at h
      split_ifs at h with c1 c2
      · cases h1 : blkArgs i o as with
        | error e => rw [h1] at h; cases h
        | ok r =>
          rw [h1] at h
          injection h with h; subst h
          exact .cons (.ctx (by simpa using c1)) (ih h1)
      · cases h1 : blkArgs i o as with
        | error e => rw [h1] at h; cases h
        | ok r =>
          rw [h1] at h
          injection h with h; subst h
          exact .cons (.flags (by simpa using c1) (by simpa using c2)) (ih h1)
    | .typed (.array (some k) (.ref mt)), h =>
      have hr : ∃ r, blkArgs i o as = .ok r ∧ args = (if mt then .output else .input) :: r := by
        simp only [blkArgs, bind, Except.bind] at h
        cases mt
        all_goals
          simp only [Bool.false_eq_true, if_false, if_true] at h
          split_ifs at h
          cases h1 : blkArgs i o as with
          | error e => rw [h1] at h; cases h
          | ok r =>
            rw [h1] at h
            injection h with h
            exact ⟨r, rfl, h.symm⟩
      obtain ⟨r, h1, rfl⟩ := hr
      cases mt
      · exact .cons .input (ih h1)
      · exact .cons .output (ih h1)
    | .typed (.array none _), h => cases h
    | .typed (.array (some _) .other), h => cases h
    | .typed .refOther, h => cases h
    | .typed (.path _ _), h => cases h
    | .typed .other, h => cases h

/-- What `process` becomes. -/
theorem procImpl_some {m : Method} {pr : Proc} {i o : Option Nat} (h : procImpl (some m) = .ok (pr, i, o)) :
    (pr = .paste m ∧ i = none ∧ o = none) ∨
    ∃ args, procArgs m.args = .ok (args, i) ∧ pr = .wrap m.name args (i.getD 0) ∧
      ∀ k, o = some k → k = 0 ∨ ∃ e, m.ret = some (.array (some k) e) := by
  simp only [procImpl, bind, Except.bind] at h
  cases h1 : procRet m.ret with
  | error e => rw [h1] at h; cases h
  | ok r =>
    obtain ⟨b, out⟩ := r
    rw [h1] at h
    cases h2 : allArgs procArg 0 m.args with
    | error e => rw [h2] at h; cases h
    | ok c =>
      rw [h2] at h
      simp only at h
      split at h
      · next hbc =>
        simp only [Except.ok.injEq, Prod.mk.injEq] at h
        obtain ⟨rfl, rfl, rfl⟩ := h
        refine .inl ⟨rfl, rfl, ?_⟩
        have hb : b = true := by simpa using (Bool.and_eq_true _ _ ▸ hbc : b = true ∧ c = true).1
        subst hb
        unfold procRet at h1
        split at h1
        all_goals first
          | (simp at h1; done)
          | (split at h1
             · simp only [Except.ok.injEq, Prod.mk.injEq, true_and] at h1; exact h1.symm
             · cases h1)
      · cases h3 : procArgs m.args with
        | error e => rw [h3] at h; cases h
        | ok r =>
          obtain ⟨args, n⟩ := r
          rw [h3] at h
          simp only [Except.ok.injEq, Prod.mk.injEq] at h
          obtain ⟨rfl, rfl, rfl⟩ := h
          refine .inr ⟨args, rfl, rfl, ?_⟩
          intro k hk
          subst hk
          unfold procRet at h1
          split at h1
          · simp only [Except.ok.injEq, Prod.mk.injEq, Option.some.injEq] at h1; exact .inl h1.2.symm
          · next n e hr =>
            simp only [Except.ok.injEq, Prod.mk.injEq, Option.some.injEq] at h1
            exact .inr ⟨e, by rw [hr, h1.2]⟩
          · cases h1
          · split at h1 <;> cases h1
          · cases h1

theorem blkImpl_some {m : Method} {b : Blk} {i o : Option Nat} (h : blkImpl i o (some m) = .ok b) :
    b = .paste m ∨ ∃ args, blkArgs i o m.args = .ok args ∧ b = .wrap m.name args (i.getD 0) (o.getD 0) := by
  simp only [blkImpl, bind, Except.bind] at h
  cases h2 : allArgs blkArg 0 m.args with
  | error e => rw [h2] at h; cases h
  | ok c =>
    rw [h2] at h
    simp only at h
    split at h
    · injection h with h; exact .inl h.symm
    · cases h3 : blkArgs i o m.args with
      | error e => rw [h3] at h; cases h
      | ok args =>
        rw [h3] at h
        injection h with h
        exact .inr ⟨args, rfl, h.symm⟩

/-! ### What is left of the block -/

theorem removeAll_append (l : List Item) (xs ys : List Nat) :
    removeAll l (xs ++ ys) = (removeAll l xs).bind fun l' => removeAll l' ys := by
  induction xs generalizing l with
  | nil => rfl
  | cons x xs ih =>
    simp only [List.cons_append, removeAll]
    split_ifs
    · exact ih _
    · rfl

/-- Functions that are removed. -/
def gone (rp rb : Bool) : Item → Bool
  | .fn m => (rp && m.isProcess) || (rb && m.isBlock)
  | _ => false

theorem removeAll_toRemove (rp rb : Bool) (items : List Item)
    (h : ∀ m, .fn m ∈ items → ¬ ((rp && m.isProcess) = true ∧ (rb && m.isBlock) = true)) (a : List Item) :
    removeAll (a ++ items.map Item.strip) (toRemove rp rb a.length items).reverse =
      .ok (a ++ (items.filter fun x => !gone rp rb x).map Item.strip) := by
  induction items generalizing a with
  | nil => simp [toRemove, removeAll]
  | cons x items ih =>
    have ih' := ih (fun m hm => h m (by simp [hm])) (a ++ [x.strip])
    simp only [List.append_assoc, List.length_append, List.length_cons, List.length_nil, List.singleton_append] at ih'
    cases x with
    | fn m =>
      have hm := h m (by simp)
      simp only [toRemove, List.map_cons, List.reverse_append, removeAll_append]
      rw [ih']
      simp only [Except.bind, List.filter_cons, gone]
      by_cases h1 : (rp && m.isProcess) = true <;> by_cases h2 : (rb && m.isBlock) = true
      · exact absurd ⟨h1, h2⟩ hm
      · simp [h1, h2, removeAll, List.eraseIdx_append_of_length_le]
      · simp [h1, h2, removeAll, List.eraseIdx_append_of_length_le]
      · simp [h1, h2, removeAll]
    | type n t => simpa [toRemove, gone] using ih'
    | other i => simpa [toRemove, gone] using ih'

theorem foldl_types (items : List Item) (f : Found) :
    (∀ n, (items.foldl Found.item f).inputs = some n → f.inputs = some n ∨ .type "Inputs" n ∈ items) ∧
    (∀ n, (items.foldl Found.item f).outputs = some n → f.outputs = some n ∨ .type "Outputs" n ∈ items) := by
  induction items generalizing f with
  | nil => simp
  | cons x items ih =>
    rw [List.foldl_cons]
    obtain ⟨a, b⟩ := ih (f.item x)
    cases x with
    | fn m =>
      have e1 : (f.item (.fn m)).inputs = f.inputs := by
        simp only [Found.item, (foldl_byAttr_types m _ _).1]; unfold Found.byName; split_ifs <;> rfl
      have e2 : (f.item (.fn m)).outputs = f.outputs := by
        simp only [Found.item, (foldl_byAttr_types m _ _).2]; unfold Found.byName; split_ifs <;> rfl
      refine ⟨fun n hn => ?_, fun n hn => ?_⟩
      · rcases a n hn with g | g
        · exact .inl (e1 ▸ g)
        · exact .inr (by simp [g])
      · rcases b n hn with g | g
        · exact .inl (e2 ▸ g)
        · exact .inr (by simp [g])
    | type k t =>
      refine ⟨fun n hn => ?_, fun n hn => ?_⟩
      · rcases a n hn with g | g
        · simp only [Found.item] at g
          split_ifs at g with c1 c2 c3
          · exact .inl g
          · simp only [Option.some.injEq] at g
            subst g
            exact .inr (by simp [c2])
          · exact .inl g
          · exact .inl g
        · exact .inr (by simp [g])
      · rcases b n hn with g | g
        · simp only [Found.item] at g
          split_ifs at g with c1 c2 c3
          · exact .inl g
          · exact .inl g
          · simp only [Option.some.injEq] at g
            subst g
            exact .inr (by simp [c3])
          · exact .inl g
        · exact .inr (by simp [g])
    | other i =>
      refine ⟨fun n hn => ?_, fun n hn => ?_⟩
      · rcases a n hn with g | g
        · exact .inl g
        · exact .inr (by simp [g])
      · rcases b n hn with g | g
        · exact .inl g
        · exact .inr (by simp [g])

theorem find_inputs {items : List Item} {n : Nat} (h : (find items).inputs = some n) : .type "Inputs" n ∈ items := by
  rcases (foldl_types items {}).1 n h with g | g
  · cases g
  · exact g

theorem find_outputs {items : List Item} {n : Nat} (h : (find items).outputs = some n) : .type "Outputs" n ∈ items := by
  rcases (foldl_types items {}).2 n h with g | g
  · cases g
  · exact g

/-- The only candidate is the one that is found. -/
theorem lastFn_only {c : Method → Bool} {items : List Item} {m : Method} (hm : .fn m ∈ items) (hc : c m = true)
    (hu : ∀ k, .fn k ∈ items → c k = true → k = m) : lastFn c none items = some m := by
  obtain ⟨k, hk⟩ := lastFn_some (o := none) hm hc
  rcases lastFn_mem hk with g | ⟨g, g'⟩
  · cases g
  · rw [hk, hu k g g']

/-! ### Calls of parameter functions -/

/-- One argument. -/
def passArg {α : Type} (v : Pa.Val) : PArg → R (V α)
  | .value ty => match v.arg ty.kind with
    | some w => .ok (V.val w)
    | none => .error .unwrap
  | .ctx => .ok .ctx
  | .flags => .ok .flags

theorem call_eq {α : Type} (p : Param) (v : Pa.Val) :
    p.call (α := α) v = (p.args.mapM (passArg v)).bind fun args => .ok ⟨p.fnName, args⟩ := by
  unfold Param.call
  congr 1

theorem mapM_pass {α : Type} (v : Pa.Val) (args : List PArg) :
    (∃ vs, args.mapM (passArg (α := α) v) = .ok vs ∧ List.Forall₂ (fun a w => passArg v a = .ok w) args vs) ∨
    (args.mapM (passArg (α := α) v) = .error .unwrap ∧ ∃ ty, .value ty ∈ args ∧ v.arg ty.kind = none) := by
  induction args with
  | nil => exact .inl ⟨[], rfl, .nil⟩
  | cons a as ih =>
    rw [List.mapM_cons]
    cases ha : passArg (α := α) v a with
    | error e =>
      refine .inr ?_
      cases a with
      | ctx => cases ha
      | flags => cases ha
      | value ty =>
        simp only [passArg] at ha
        cases hv : v.arg ty.kind with
        | none =>
          rw [hv] at ha
          injection ha with ha
          subst ha
          exact ⟨rfl, ty, by simp, hv⟩
        | some w => rw [hv] at ha; cases ha
    | ok w =>
      rcases ih with ⟨vs, e, f⟩ | ⟨e, ty, ht, hv⟩
      · rw [e]
        exact .inl ⟨w :: vs, rfl, .cons ha f⟩
      · rw [e]
        exact .inr ⟨rfl, ty, by simp [ht], hv⟩

end Verif.Ma
