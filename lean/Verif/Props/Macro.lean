import Verif.Lemmas.Macro
import Mathlib.Data.List.Forall2

/-!
# C78: what `#[impl_ugen]` generates calls the functions that were written, with the right arguments

Specification: relations between the arguments of a function as written and those it is called with.
-/

namespace Verif.Ma

/-! ### Specification -/

/-- The function has this name or this attribute. -/
def Cand (s : String) (m : Method) : Prop := m.name = s ∨ ∃ a ∈ m.attrs, a.name = s

/-- It is the only one in the block. -/
def Only (s : String) (m : Method) (items : List Item) : Prop :=
  .fn m ∈ items ∧ Cand s m ∧ ∀ k, .fn k ∈ items → Cand s k → k = m

/-- What an argument of `process` is given. -/
inductive ArgIn {α : Type} (input : List α) : Ty → V α → Prop where
  | ctx {mt segs} : "AudioCtx" ∈ segs → ArgIn input (.ref mt segs) .ctx
  | flags {mt segs} : "UGenFlags" ∈ segs → ArgIn input (.ref mt segs) .flags
  /-- an array of all inputs, in order -/
  | array {e} : ArgIn input (.array (some input.length) e) (.frame input)
  | frame {segs q} : "Frame" ∈ segs ∨ "NumericArray" ∈ segs → ArgIn input (.path segs q) (.frame input)

/-- What an argument of `process_block` is given. -/
inductive ArgBlock {α : Type} (input : List (List α)) (nOut : Nat) : Ty → V α → Prop where
  | ctx {mt segs} : "AudioCtx" ∈ segs → ArgBlock input nOut (.ref mt segs) .ctx
  | flags {mt segs} : "UGenFlags" ∈ segs → ArgBlock input nOut (.ref mt segs) .flags
  /-- all channels of the input, in order -/
  | input : ArgBlock input nOut (.array (some input.length) (.ref false)) (.slices input)
  /-- all channels of the output, in order -/
  | output : ArgBlock input nOut (.array (some nOut) (.ref true)) (.outs (List.range nOut))
  | inBlock {segs} : "InBlock" ∈ segs → ArgBlock input nOut (.ref false segs) (.inBlock input)
  | outBlock {segs} : "OutBlock" ∈ segs → ArgBlock input nOut (.ref true segs) (.outBlock nOut)

/-- An argument that takes samples. -/
def Ty.takesSamples : Ty → Bool
  | .array _ _ => true
  | .path _ _ => true
  | _ => false

/-- The samples among the arguments. -/
def V.samples {α : Type} : V α → List α
  | .frame xs => xs
  | _ => []

/-- The values that a type of argument can take. -/
inductive Takes : List String → Pa.Val → Prop where
  | float {segs x} : "PFloat" ∈ segs ∨ "f32" ∈ segs ∨ "f64" ∈ segs → Takes segs (.float x)
  | integer {segs x} : "PInteger" ∈ segs → Takes segs (.integer x)
  | bool {segs x} : "bool" ∈ segs → Takes segs (.bool x)

/-- Not two names of types in one path. -/
def Plain (m : Method) : Prop :=
  ∀ segs q, .path segs q ∈ typedArgs m.args → ∀ a ∈ segs, ∀ b ∈ segs,
    a ∈ ["PFloat", "f32", "f64", "PInteger", "bool"] → b ∈ ["PFloat", "f32", "f64", "PInteger", "bool"] → a = b

/-- What an argument of a parameter function is given. -/
inductive ArgParam {α : Type} (v : Pa.Val) : Ty → V α → Prop where
  | ctx {mt segs} : "AudioCtx" ∈ segs → ArgParam v (.ref mt segs) .ctx
  | value {segs q} : Takes segs v → ArgParam v (.path segs q) (.val v)

/-- The parameter functions, in the order in which they are written. -/
def paramFns (items : List Item) : List Method :=
  items.filterMap fun
    | .fn m => if m.attrs.any (·.name = "param") then some m else none
    | _ => none

/-- No function is marked twice. -/
def OnceMarked (items : List Item) : Prop :=
  ∀ m, .fn m ∈ items → m.attrs.countP (·.name = "param") ≤ 1

/-- An item without the marks for the macro. -/
def unmarked : Item → Item
  | .fn m => .fn { m with attrs := m.attrs.filter (·.name ∉ ["init", "process", "process_block", "param"]) }
  | x => x

/-- An argument of `process` of the trait, at position `i`: nothing else that is a reference or a path may stand there. -/
def FitsTrait (i : Nat) : Arg → Prop
  | .recv mt => i = 0 ∧ mt = true
  | .typed (.ref _ segs) => (i = 1 → "AudioCtx" ∈ segs) ∧ (i = 2 → "UGenFlags" ∈ segs)
  | .typed (.path segs _) => i = 3 → "Frame" ∈ segs ∨ "NumericArray" ∈ segs
  | .typed _ => False

/-! ### From the specification to the model -/

theorem strip_eq : Item.strip = unmarked := by
  funext x
  cases x with
  | fn m =>
    simp only [Item.strip, Method.strip, unmarked]
    congr 2
    apply List.filter_congr
    intro a _
    by_cases h1 : a.name = "param" <;> by_cases h2 : a.name = "init" <;> by_cases h3 : a.name = "process" <;>
      by_cases h4 : a.name = "process_block" <;> simp [h1, h2, h3, h4]
  | type n t => rfl
  | other i => rfl

theorem cand_process (m : Method) : m.isProcess = true ↔ Cand "process" m := by
  simp [Method.isProcess, Cand]

theorem cand_block (m : Method) : m.isBlock = true ↔ Cand "process_block" m := by
  simp [Method.isBlock, Cand]

theorem cand_init (m : Method) : m.isInit = true ↔ Cand "init" m := by
  simp [Method.isInit, Cand]

theorem Only.process {m : Method} {items : List Item} (h : Only "process" m items) :
    (find items).process = some m := by
  rw [(find_last items).2.1]
  exact lastFn_only h.1 ((cand_process m).2 h.2.1) fun k hk hc => h.2.2 k hk ((cand_process k).1 hc)

theorem Only.block {m : Method} {items : List Item} (h : Only "process_block" m items) :
    (find items).block = some m := by
  rw [(find_last items).2.2]
  exact lastFn_only h.1 ((cand_block m).2 h.2.1) fun k hk hc => h.2.2 k hk ((cand_block k).1 hc)

theorem Only.init {m : Method} {items : List Item} (h : Only "init" m items) :
    (find items).init = some m := by
  rw [(find_last items).1]
  exact lastFn_only h.1 ((cand_init m).2 h.2.1) fun k hk hc => h.2.2 k hk ((cand_init k).1 hc)

theorem marks_eq {items : List Item} (h : OnceMarked items) : marks items = paramFns items := by
  induction items with
  | nil => rfl
  | cons x items ih =>
    have ih := ih fun m hm => h m (by simp [hm])
    cases x with
    | fn m =>
      have hm := h m (by simp)
      rw [List.countP_eq_length_filter] at hm
      unfold marks paramFns
      rw [ih, List.filterMap_cons]
      cases hf : m.attrs.filter (·.name = "param") with
      | nil =>
        have : m.attrs.any (·.name = "param") = false := by
          rw [List.any_eq_false]
          intro a ha hn
          have : a ∈ m.attrs.filter (·.name = "param") := List.mem_filter.2 ⟨ha, hn⟩
          rw [hf] at this
          simp at this
        simp [this, paramFns]
      | cons a l =>
        rw [hf] at hm
        have hl : l = [] := by
          cases l with
          | nil => rfl
          | cons _ _ => simp at hm
        subst hl
        have : m.attrs.any (·.name = "param") = true := by
          have ha : a ∈ m.attrs.filter (·.name = "param") := by rw [hf]; simp
          obtain ⟨ha, hn⟩ := List.mem_filter.1 ha
          exact List.any_eq_true.2 ⟨a, ha, hn⟩
        simp [this, paramFns]
    | type n t => simpa [marks, paramFns] using ih
    | other i => simpa [marks, paramFns] using ih

/-- The array lengths from the types. -/
theorem len_mem {n : Nat} {e : Elem} {as : List Arg} (h : .array (some n) e ∈ typedArgs as) :
    n ∈ as.filterMap Arg.len := by
  induction as with
  | nil => simp [typedArgs] at h
  | cons a as ih =>
    cases a with
    | recv b => simpa [Arg.len] using ih h
    | typed t =>
      simp only [typedArgs, List.mem_cons] at h
      rcases h with h | h
      · subst h; simp [Arg.len]
      · rw [List.filterMap_cons]
        have := ih h
        cases t <;> simp only [Arg.len] <;> first | exact this | (split <;> simp [this])

theorem slices_mem {n : Nat} {b : Bool} {as : List Arg} (h : .array (some n) (.ref b) ∈ typedArgs as) :
    n ∈ as.filterMap (Arg.slices b) := by
  induction as with
  | nil => simp [typedArgs] at h
  | cons a as ih =>
    cases a with
    | recv b => simpa [Arg.slices] using ih h
    | typed t =>
      simp only [typedArgs, List.mem_cons] at h
      rcases h with h | h
      · subst h; simp [Arg.slices]
      · rw [List.filterMap_cons]
        have := ih h
        split <;> simp [this]

theorem samples_of_forall {α : Type} {input : List α} {ts : List Ty} {vs : List (V α)}
    (h : List.Forall₂ (ArgIn input) ts vs) :
    (ts.countP Ty.takesSamples = 0 → vs.flatMap V.samples = []) ∧
    (ts.countP Ty.takesSamples = 1 → vs.flatMap V.samples = input) := by
  induction h with
  | nil => simp
  | @cons t v ts vs h _ ih =>
    have key : (t.takesSamples = false ∧ v.samples = []) ∨ (t.takesSamples = true ∧ v.samples = input) := by
      cases h <;> simp [Ty.takesSamples, V.samples]
    rcases key with ⟨k1, k2⟩ | ⟨k1, k2⟩
    · simpa [List.countP_cons, k1, k2] using ih
    · rw [List.countP_cons, k1, List.flatMap_cons, k2]
      refine ⟨fun h0 => by simp at h0, fun h1 => ?_⟩
      rw [ih.1 (by simpa using h1), List.append_nil]

theorem typed_mem {t : Ty} {as : List Arg} (h : .typed t ∈ as) : t ∈ typedArgs as := by
  induction as with
  | nil => simp at h
  | cons b as ih =>
    rcases List.mem_cons.1 h with g | g
    · subst g; simp [typedArgs]
    · cases b <;> simp [typedArgs, ih g]

theorem forall₂_trans {β γ δ : Type} {R : β → γ → Prop} {S : γ → δ → Prop} {T : β → δ → Prop} {ts : List β} {as : List γ}
    {vs : List δ} (h1 : List.Forall₂ R ts as) (h2 : List.Forall₂ S as vs)
    (h : ∀ t ∈ ts, ∀ a ∈ as, ∀ v, R t a → S a v → T t v) : List.Forall₂ T ts vs := by
  induction h1 generalizing vs with
  | nil => cases h2; exact .nil
  | cons r _ ih =>
    cases h2 with
    | cons s f =>
      exact .cons (h _ (by simp) _ (by simp) _ r s)
        (ih f fun t ht a ha v => h t (by simp [ht]) a (by simp [ha]) v)

theorem forall₂_split {β γ : Type} {R : β → γ → Prop} {l r : List β} {vs : List γ} (h : List.Forall₂ R (l ++ r) vs) :
    ∃ vl vr, List.Forall₂ R l vl ∧ List.Forall₂ R r vr ∧ vs = vl ++ vr := by
  induction l generalizing vs with
  | nil => exact ⟨[], vs, .nil, h, rfl⟩
  | cons a l ih =>
    cases h with
    | cons h1 h2 =>
      obtain ⟨vl, vr, f1, f2, rfl⟩ := ih h2
      exact ⟨_ :: vl, vr, .cons h1 f1, f2, rfl⟩

/-! ### `process` -/

/-- C78 (`process`): the generated `process` calls the one function written for it, with every argument in its
place; an array argument is given all inputs in order.  If exactly one argument takes samples, every input is
passed exactly once.

Partial: there must be only one function named or marked `process` (`C78_candidates_violated`), a given number of
inputs must be that of the arrays (`C78_override_violated`), and two arrays get the same inputs
(`C78_alias_violated`).  Without any function for it the macro still accepts the block (`C78_missing_violated`). -/
theorem C78_process_partial {α : Type} {items : List Item} {g : Gen} {m : Method}
    (h : parse items = .ok g) (hc : g.compiles items = true) (hm : Only "process" m items)
    (ht : ∀ n, .type "Inputs" n ∈ items → ∀ k e, .array (some k) e ∈ typedArgs m.args → k = n)
    (input : List α) (hi : input.length = g.inputs) :
    ∃ c, g.proc.call input = .ok c ∧ c.fn = m.name ∧ List.Forall₂ (ArgIn input) (typedArgs m.args) c.args ∧
      ((typedArgs m.args).countP Ty.takesSamples = 1 → c.args.flatMap V.samples = input) := by
  obtain ⟨P⟩ := parts h
  have hp := P.proc
  rw [hm.process] at hp
  unfold Gen.compiles at hc
  simp only [hm.process, Bool.and_eq_true] at hc
  obtain ⟨⟨⟨-, hc⟩, -⟩, -⟩ := hc
  suffices H : ∃ c, g.proc.call input = .ok c ∧ c.fn = m.name ∧ List.Forall₂ (ArgIn input) (typedArgs m.args) c.args by
    obtain ⟨c, h1, h2, h3⟩ := H
    exact ⟨c, h1, h2, h3, (samples_of_forall h3).2⟩
  rcases procImpl_some hp with ⟨e, -, -⟩ | ⟨args, ha, e, -⟩
  · rw [e] at hc ⊢
    simp only [Method.traitProcess, Bool.and_eq_true] at hc
    obtain ⟨-, hc⟩ := hc
    refine ⟨_, rfl, rfl, ?_⟩
    split at hc
    · next c f x q y q' h1 h2 =>
      simp only [Bool.and_eq_true, isFrame, Bool.or_eq_true, List.contains_iff_mem] at hc
      rw [h1]
      exact .cons (.ctx hc.1.1.1) (.cons (.flags hc.1.1.2) (.cons (.frame hc.1.2) .nil))
    · cases hc
  · obtain ⟨f, hn⟩ := procArgs_class ha
    rw [e] at hc ⊢
    simp only [Bool.and_eq_true, List.all_eq_true, decide_eq_true_eq] at hc
    obtain ⟨hl, -⟩ := hc
    -- what the inputs are if there is an array
    have hlen : ∀ k e, .array (some k) e ∈ typedArgs m.args → k = P.numIn.getD 0 ∧ k = input.length := by
      intro k e' hk
      have h1 := hl k (len_mem hk)
      refine ⟨h1, ?_⟩
      rw [hi, P.inputs]
      cases ho : (find items).inputs with
      | none => simpa using h1
      | some n => simpa using ht n (find_inputs ho) k e' hk
    have hle : P.numIn.getD 0 ≤ input.length := by
      cases hnn : P.numIn with
      | none => simp
      | some n =>
        rw [hn] at hnn
        have hmem : n ∈ m.args.filterMap Arg.len := List.mem_of_getLast? hnn
        obtain ⟨a, ha', hla⟩ := List.mem_filterMap.1 hmem
        match a, hla with
        | .typed (.array _ e'), hla =>
          simp only [Arg.len] at hla
          subst hla
          have : .array (some n) e' ∈ typedArgs m.args := typed_mem ha'
          exact le_of_eq (hlen n e' this).2
    simp only [Proc.call, firstN, if_pos hle, bind, Except.bind]
    refine ⟨_, rfl, rfl, ?_⟩
    simp only
    rw [List.forall₂_map_right_iff]
    refine forall₂_trans f (List.forall₂_same.2 fun x _ => (rfl : x = x)) ?_
    rintro t hmem a - _ hcl rfl
    cases hcl with
    | ctx h => exact .ctx h
    | flags _ h => exact .flags h
    | input =>
      obtain ⟨h1, h2⟩ := hlen _ _ hmem
      rw [h2, ← h1, h2, List.take_length]
      exact .array

theorem allArgs_get {f : Nat → Arg → Except Err Bool} {as : List Arg} : ∀ {i : Nat}, allArgs f i as = .ok true →
    ∀ j a, as[j]? = some a → f (i + j) a = .ok true := by
  induction as with
  | nil => intro i _ j a h; simp at h
  | cons b as ih =>
    intro i h j a ha
    unfold allArgs at h
    cases hb : f i b with
    | error e => rw [hb] at h; cases h
    | ok x =>
      cases hc : allArgs f (i + 1) as with
      | error e => rw [hb, hc] at h; cases h
      | ok y =>
        rw [hb, hc] at h
        simp only [bind, Except.bind, Except.ok.injEq, Bool.and_eq_true] at h
        cases j with
        | zero => simp only [List.getElem?_cons_zero, Option.some.injEq] at ha; rw [← ha, Nat.add_zero, hb, h.1]
        | succ j =>
          rw [List.getElem?_cons_succ] at ha
          have := ih (i := i + 1) (by rw [hc, h.2]) j a ha
          rwa [show i + (j + 1) = i + 1 + j by omega]

/-- C78 (what is moved): only a function whose arguments fit `process` of the trait is moved there instead of being called. -/
theorem C78_moved {items : List Item} {g : Gen} {m : Method} (h : parse items = .ok g) (hm : g.proc = .paste m) :
    ∀ i a, m.args[i]? = some a → FitsTrait i a := by
  obtain ⟨P⟩ := parts h
  have hp := P.proc
  rw [hm] at hp
  cases hf : (find items).process with
  | none => rw [hf] at hp; cases hp
  | some k =>
    rw [hf] at hp
    simp only [procImpl] at hp
    cases h1 : procRet k.ret with
    | error e => rw [h1] at hp; cases hp
    | ok x =>
      cases h2 : allArgs procArg 0 k.args with
      | error e => rw [h1, h2] at hp; cases hp
      | ok c =>
        rw [h1, h2] at hp
        simp only [bind, Except.bind] at hp
        by_cases hbc : (x.1 && c) = true
        · rw [if_pos hbc] at hp
          simp only [Bool.and_eq_true] at hbc
          rw [hbc.2] at h2
          injection hp with hp
          injection hp with hp
          injection hp with hp
          subst hp
          intro i a ha
          have := allArgs_get h2 i a ha
          rw [Nat.zero_add] at this
          match a, this with
          | .recv mt, this =>
            simp only [procArg] at this
            split at this
            · next h0 =>
              split at this
              · next hmt => exact ⟨h0, hmt⟩
              · cases this
            · cases this
          | .typed (.ref _ segs), this =>
            simp only [procArg, Except.ok.injEq, Bool.and_eq_true, Bool.not_eq_true'] at this
            refine ⟨fun e => ?_, fun e => ?_⟩
            · subst e; simpa using this.1
            · subst e; simpa using this.2
          | .typed (.path segs _), this =>
            intro e
            subst e
            simpa [procArg, isFrame] using this
          | .typed (.array _ _), this => simp [procArg] at this
          | .typed .refOther, this => simp [procArg] at this
          | .typed .other, this => simp [procArg] at this
        · rw [if_neg hbc] at hp
          cases h3 : procArgs k.args with
          | error e => rw [h3] at hp; cases hp
          | ok y => rw [h3] at hp; simp at hp

example : (parse [.fn { name := "process", args := [.recv true, .typed (.ref true ["AudioCtx"]), .typed (.ref true ["UGenFlags"]),
    .typed (.path ["Frame"] false)], ret := some (.path ["Frame"] false) }]).toOption.map (·.proc.moved) = some true := by
  decide +kernel

/-! ### `process_block` -/

/-- C78 (`process_block`): the generated `process_block` calls the one function written for it; arrays of slices
are given all channels in order.

Partial: as for `process`; the numbers of channels are those of `process` or those given. -/
theorem C78_block_partial {α : Type} {items : List Item} {g : Gen} {p m : Method}
    (h : parse items = .ok g) (hc : g.compiles items = true) (hp : Only "process" p items)
    (hm : Only "process_block" m items)
    (ht : ∀ n, .type "Inputs" n ∈ items → ∀ k e, .array (some k) e ∈ typedArgs p.args → k = n)
    (hti : ∀ n, .type "Inputs" n ∈ items → ∀ k, .array (some k) (.ref false) ∈ typedArgs m.args → k = n)
    (hto : ∀ n, .type "Outputs" n ∈ items → ∀ k, .array (some k) (.ref true) ∈ typedArgs m.args → k = n)
    (input : List (List α)) (hi : input.length = g.inputs) :
    ∃ c, g.blk.call input g.outputs = .ok (some c) ∧ c.fn = m.name ∧
      List.Forall₂ (ArgBlock input g.outputs) (typedArgs m.args) c.args := by
  obtain ⟨P⟩ := parts h
  have hb := P.blk
  have hpr := P.proc
  rw [hm.block] at hb
  rw [hp.process] at hpr
  -- the number of inputs known from `process` is that of the unit, unless it is 0
  obtain ⟨c0, hc0, -, -, -⟩ := C78_process_partial (α := List α) h hc hp ht input hi
  unfold Gen.compiles at hc
  simp only [hp.process, hm.block, Bool.and_eq_true] at hc
  obtain ⟨⟨⟨-, hcp⟩, hcb⟩, -⟩ := hc
  have hle : P.numIn.getD 0 ≤ input.length := by
    rcases procImpl_some hpr with ⟨-, e, -⟩ | ⟨args, -, e, -⟩
    · rw [e]; simp
    · rw [e] at hc0
      by_contra hlt
      simp [Proc.call, firstN, hlt, bind, Except.bind] at hc0
  have hle' : P.numOut.getD 0 ≤ g.outputs := by
    rcases procImpl_some hpr with ⟨-, -, e⟩ | ⟨args, -, e, ho⟩
    · rw [e]; simp
    · cases hno : P.numOut with
      | none => simp
      | some k =>
        rcases ho k hno with rfl | ⟨e', hr⟩
        · simp
        · rw [e] at hcp
          simp only [Bool.and_eq_true, hr, decide_eq_true_eq] at hcp
          simp [← hcp.2]
  rcases blkImpl_some hb with e | ⟨args, ha, e⟩
  · rw [e] at hcb ⊢
    simp only [Method.traitBlock, Bool.and_eq_true] at hcb
    obtain ⟨-, hcb⟩ := hcb
    refine ⟨_, rfl, rfl, ?_⟩
    split at hcb
    · next c f i o h1 =>
      simp only [Bool.and_eq_true, List.contains_iff_mem] at hcb
      rw [h1]
      exact .cons (.ctx hcb.1.1.1) (.cons (.flags hcb.1.1.2) (.cons (.inBlock hcb.1.2) (.cons (.outBlock hcb.2) .nil)))
    · cases hcb
  · have f := blkArgs_class ha
    rw [e] at hcb ⊢
    simp only [Bool.and_eq_true, List.all_eq_true, decide_eq_true_eq] at hcb
    obtain ⟨⟨hl1, hl2⟩, -⟩ := hcb
    simp only [Blk.call, firstN, if_pos hle, if_pos hle', bind, Except.bind]
    refine ⟨_, rfl, rfl, ?_⟩
    simp only
    rw [List.forall₂_map_right_iff]
    refine forall₂_trans f (List.forall₂_same.2 fun x _ => (rfl : x = x)) ?_
    rintro t hmem a - _ hcl rfl
    cases hcl with
    | ctx h => exact .ctx h
    | flags _ h => exact .flags h
    | @input n =>
      have h1 := hl1 n (slices_mem hmem)
      have h2 : n = input.length := by
        rw [hi, P.inputs]
        cases ho : (find items).inputs with
        | none => simpa using h1
        | some k => simpa using hti k (find_inputs ho) n hmem
      rw [← h1, h2, List.take_length]
      exact .input
    | @output n =>
      have h1 := hl2 n (slices_mem hmem)
      have h2 : n = g.outputs := by
        rw [P.outputs]
        cases ho : (find items).outputs with
        | none => simpa using h1
        | some k => simpa using hto k (find_outputs ho) n hmem
      rw [← h1, h2]
      exact .output

/-! ### Parameters -/

theorem valueTy_takes {segs : List String} {t : PTy} (h : valueTy segs = some t)
    (hp : ∀ a ∈ segs, ∀ b ∈ segs, a ∈ ["PFloat", "f32", "f64", "PInteger", "bool"] →
      b ∈ ["PFloat", "f32", "f64", "PInteger", "bool"] → a = b) (v : Pa.Val) :
    (Takes segs v → v.arg t.kind = some v) ∧ (¬ Takes segs v → v.arg t.kind = none) := by
  unfold valueTy at h
  simp only [List.contains_iff_mem] at h
  have key : ∀ s, s ∈ segs → s ∈ ["PFloat", "f32", "f64", "PInteger", "bool"] →
      ∀ s', s' ∈ segs → s' ∈ ["PFloat", "f32", "f64", "PInteger", "bool"] → s = s' :=
    fun s hs hs' s' h1 h2 => hp s hs s' h1 hs' h2
  split_ifs at h with c1 c2 c3 c4 c5 <;> simp only [Option.some.injEq] at h <;> subst h
  · refine ⟨fun ht => ?_, fun ht => ?_⟩
    · cases ht with
      | float _ => rfl
      | integer hs => exact absurd (key _ c1 (by simp) _ hs (by simp)) (by decide)
      | bool hs => exact absurd (key _ c1 (by simp) _ hs (by simp)) (by decide)
    · cases v with
      | float x => exact absurd (.float (.inl c1)) ht
      | _ => rfl
  · refine ⟨fun ht => ?_, fun ht => ?_⟩
    · cases ht with
      | float _ => rfl
      | integer hs => exact absurd (key _ c2 (by simp) _ hs (by simp)) (by decide)
      | bool hs => exact absurd (key _ c2 (by simp) _ hs (by simp)) (by decide)
    · cases v with
      | float x => exact absurd (.float (.inr (.inl c2))) ht
      | _ => rfl
  · refine ⟨fun ht => ?_, fun ht => ?_⟩
    · cases ht with
      | float _ => rfl
      | integer hs => exact absurd (key _ c3 (by simp) _ hs (by simp)) (by decide)
      | bool hs => exact absurd (key _ c3 (by simp) _ hs (by simp)) (by decide)
    · cases v with
      | float x => exact absurd (.float (.inr (.inr c3))) ht
      | _ => rfl
  · refine ⟨fun ht => ?_, fun ht => ?_⟩
    · cases ht with
      | float hs => rcases hs with hs | hs | hs <;> contradiction
      | integer _ => rfl
      | bool hs => exact absurd (key _ c4 (by simp) _ hs (by simp)) (by decide)
    · cases v with
      | integer x => exact absurd (.integer c4) ht
      | _ => rfl
  · refine ⟨fun ht => ?_, fun ht => ?_⟩
    · cases ht with
      | float hs => rcases hs with hs | hs | hs <;> contradiction
      | integer hs => contradiction
      | bool _ => rfl
    · cases v with
      | bool x => exact absurd (.bool c5) ht
      | _ => rfl

theorem forall_class {ts : List Ty} {as : List PArg} (h : List.Forall₂ Class ts as) :
    (∀ t ∈ ts, ∃ a ∈ as, Class t a) ∧ (∀ a ∈ as, ∃ t ∈ ts, Class t a) := by
  induction h with
  | nil => simp
  | cons h _ ih =>
    refine ⟨fun t ht => ?_, fun a ha => ?_⟩
    · rcases List.mem_cons.1 ht with rfl | ht
      · exact ⟨_, by simp, h⟩
      · obtain ⟨a, ha, hc⟩ := ih.1 t ht; exact ⟨a, by simp [ha], hc⟩
    · rcases List.mem_cons.1 ha with rfl | ha
      · exact ⟨_, by simp, h⟩
      · obtain ⟨t, ht, hc⟩ := ih.2 a ha; exact ⟨t, by simp [ht], hc⟩

/-- C78 (parameters): the parameters are the marked functions in the order in which they are written.  Parameter
`i` has the name of the `i`-th of them; applying a value to it calls that function with the value in the place of
its value argument and the context where it is wanted, if the value has the type that the function takes, and
panics otherwise; an index beyond the last one calls nothing.

Partial: no function may be marked twice (`C78_twice_violated`). -/
theorem C78_params_partial {α : Type} {items : List Item} {g : Gen}
    (h : parse items = .ok g) (hc : g.compiles items = true) (ho : OnceMarked items) :
    g.params.map Param.name = (paramFns items).map Method.name ∧
    (∀ i m, (paramFns items)[i]? = some m → Plain m → ∀ v,
      ((∀ segs q, .path segs q ∈ typedArgs m.args → Takes segs v) →
        ∃ args, g.apply (α := α) i v = .ok (some ⟨m.name, args⟩) ∧
          List.Forall₂ (ArgParam v) (typedArgs m.args) args) ∧
      ((∃ segs q, .path segs q ∈ typedArgs m.args ∧ ¬ Takes segs v) → g.apply (α := α) i v = .error .unwrap)) ∧
    (∀ i v, (paramFns items).length ≤ i → g.apply (α := α) i v = .ok none) := by
  obtain ⟨P⟩ := parts h
  have hps := P.params
  rw [marks_eq ho] at hps
  obtain ⟨hlen, hget⟩ := paramsOf_get hps
  refine ⟨?_, ?_, ?_⟩
  · apply List.ext_getElem?
    intro i
    simp only [List.getElem?_map]
    cases hp : g.params[i]? with
    | none =>
      have : (paramFns items)[i]? = none := by
        rw [List.getElem?_eq_none_iff] at hp ⊢; omega
      rw [this]; rfl
    | some p =>
      obtain ⟨m, hm, he⟩ := hget i p hp
      rw [hm]
      simp [(paramOf_eq he).1]
  · intro i m hm hpl v
    have hi : i < g.params.length := by
      rw [hlen]; exact (List.getElem?_eq_some_iff.1 hm).1
    obtain ⟨p, hp⟩ : ∃ p, g.params[i]? = some p := ⟨_, List.getElem?_eq_getElem hi⟩
    obtain ⟨m', hm', he⟩ := hget i p hp
    rw [hm] at hm'
    injection hm' with hm'
    subst hm'
    obtain ⟨-, hn, -, hcl, -, -⟩ := paramOf_eq he
    have hfl : .flags ∉ p.args := by
      unfold Gen.compiles at hc
      simp only [Bool.and_eq_true, List.all_eq_true] at hc
      have := (hc.2 p (List.mem_of_getElem? hp)).1
      simpa using this
    have happ : g.apply (α := α) i v = ((p.args.mapM (passArg v)).bind fun args => .ok (some ⟨m.name, args⟩)) := by
      unfold Gen.apply
      rw [hp]
      simp only [call_eq, hn]
      cases p.args.mapM (passArg (α := α) v) <;> rfl
    rw [happ]
    refine ⟨fun hf => ?_, fun ⟨segs, q, hs, hnt⟩ => ?_⟩
    · rcases mapM_pass (α := α) v p.args with ⟨vs, e, f⟩ | ⟨-, ty, hty, hna⟩
      · rw [e]
        refine ⟨vs, rfl, ?_⟩
        clear e
        refine forall₂_trans hcl f fun t ht a ha w hcl hw => ?_
        cases hcl with
        | ctx hs =>
          injection hw with hw
          subst hw
          exact .ctx hs
        | flags _ _ => exact absurd ha hfl
        | @value segs q ty hv =>
          simp only [passArg, (valueTy_takes hv (hpl segs q ht) v).1 (hf segs q ht)] at hw
          injection hw with hw
          subst hw
          exact .value (hf segs q ht)
      · obtain ⟨t, ht, hct⟩ := (forall_class hcl).2 _ hty
        cases hct with
        | @value segs q _ hv =>
          rw [(valueTy_takes hv (hpl segs q ht) v).1 (hf segs q ht)] at hna
          cases hna
    · rcases mapM_pass (α := α) v p.args with ⟨vs, e, f⟩ | ⟨e, -⟩
      · obtain ⟨a, ha, hct⟩ := (forall_class hcl).1 _ hs
        cases hct with
        | @value _ _ t hv =>
          have hna := (valueTy_takes hv (hpl segs q hs) v).2 hnt
          exfalso
          clear e hcl
          revert ha f
          generalize p.args = as
          intro f ha
          induction f with
          | nil => simp at ha
          | @cons b w _ _ hb _ ih =>
            rcases List.mem_cons.1 ha with rfl | ha
            · simp only [passArg, hna] at hb
              cases hb
            · exact ih ha
      · rw [e]; rfl
  · intro i v hi
    unfold Gen.apply
    rw [List.getElem?_eq_none (by omega)]

/-- C78 (types): what the generated call passes as value has the type that the function was written with. -/
theorem C78_types {items : List Item} {g : Gen} (h : parse items = .ok g) (ho : OnceMarked items) {i : Nat} {p : Param}
    (hp : g.params[i]? = some p) : ∃ m, (paramFns items)[i]? = some m ∧
      ∀ t, .value t ∈ p.args → ∃ segs q, .path segs q ∈ typedArgs m.args ∧ ∃ s ∈ segs, t.rust = some s := by
  obtain ⟨P⟩ := parts h
  have hps := P.params
  rw [marks_eq ho] at hps
  obtain ⟨-, hget⟩ := paramsOf_get hps
  obtain ⟨m, hm, he⟩ := hget i p hp
  obtain ⟨-, -, -, hcl, -, -⟩ := paramOf_eq he
  refine ⟨m, hm, fun t ht => ?_⟩
  obtain ⟨a, ha, hct⟩ := (forall_class hcl).2 _ ht
  cases hct with
  | value hv =>
    refine ⟨_, _, ha, ?_⟩
    unfold valueTy at hv
    simp only [List.contains_iff_mem] at hv
    split_ifs at hv with c1 c2 c3 c4 c5 <;> simp only [Option.some.injEq] at hv <;> subst hv
    exacts [⟨_, c1, rfl⟩, ⟨_, c2, rfl⟩, ⟨_, c3, rfl⟩, ⟨_, c4, rfl⟩, ⟨_, c5, rfl⟩]

/-- One parameter of each type. -/
example : ∃ g, parse (["PFloat", "f32", "f64", "PInteger", "bool"].map fun t => .fn { name := t, attrs := [⟨"param", .bare⟩], args := [.recv true, .typed (.path ["core", t] false)] }) = .ok g ∧
    g.params.map (fun p => p.ty.rust) = ["PFloat", "f32", "f64", "PInteger", "bool"].map some := ⟨_, rfl, rfl⟩

/-- C78 (refinement): the generated `param_apply` is what `Pa.applyUGen` (C36, C37) takes it to be, with the names
and types of the parameters: it panics for the same values, and otherwise passes the same value on. -/
theorem C78_refines {α : Type} {items : List Item} {g : Gen} (h : parse items = .ok g) (i : Nat) (v : Pa.Val) :
    (∃ args, ∃ w logs, ∃ p, g.params[i]? = some p ∧ g.apply (α := α) i v = .ok (some ⟨p.name, args⟩) ∧
      Pa.applyUGen (g.params.map fun p => (p.name, p.ty.kind)) i v = .ok (logs ++ [.param i w]) ∧
      (∀ x ∈ logs, x = .log) ∧
      args.filterMap (fun | .val x => some x | _ => none) = if p.ty = .trigger then [] else [w]) ∨
    (g.apply (α := α) i v = .error .unwrap ∧
      Pa.applyUGen (g.params.map fun p => (p.name, p.ty.kind)) i v = .error .unwrap) ∨
    (g.apply (α := α) i v = .ok none ∧ ∃ logs,
      Pa.applyUGen (g.params.map fun p => (p.name, p.ty.kind)) i v = .ok logs ∧ ∀ x ∈ logs, x = .log) := by
  obtain ⟨P⟩ := parts h
  obtain ⟨hlen, hget⟩ := paramsOf_get P.params
  unfold Gen.apply Pa.applyUGen
  simp only [List.getElem?_map]
  cases hp : g.params[i]? with
  | none =>
    refine .inr (.inr ⟨rfl, _, rfl, ?_⟩)
    intro x hx
    split at hx <;> simpa using hx
  | some p =>
    obtain ⟨m, hm, he⟩ := hget i p hp
    obtain ⟨hn, hfn, hty, -, hcnt, -⟩ := paramOf_eq he
    simp only [Option.map_some, call_eq]
    -- without value argument
    by_cases hz : p.args.countP PArg.isValue = 0
    · have hnv : ∀ ty, .value ty ∉ p.args := by
        intro ty hmem
        rw [List.countP_eq_zero] at hz
        exact hz _ hmem rfl
      have htr : p.ty = .trigger := by
        rw [hty]
        unfold tyOf
        rw [List.find?_eq_none.2 (by rw [List.countP_eq_zero] at hz; simpa using hz)]
      rcases mapM_pass (α := α) v p.args with ⟨vs, e, f⟩ | ⟨-, ty, hmem, -⟩
      · refine .inl ⟨vs, .trigger, if v.isSmoothing then [.log] else [], p, rfl, ?_, ?_, ?_, ?_⟩
        · rw [e, hfn, hn]; rfl
        · rw [htr]; simp [PTy.kind, Pa.Val.arg]
        · intro x hx; split at hx <;> simpa using hx
        · rw [if_pos htr]
          clear e
          revert f hnv
          generalize p.args = as
          intro hnv f
          induction f with
          | nil => rfl
          | @cons a w as vs ha _ ih =>
            cases a with
            | value ty => exact absurd (by simp) (hnv ty)
            | ctx => injection ha with ha; subst ha; exact ih fun ty h => hnv ty (by simp [h])
            | flags => injection ha with ha; subst ha; exact ih fun ty h => hnv ty (by simp [h])
      · exact absurd hmem (hnv ty)
    · -- with one
      have h1 : p.args.countP PArg.isValue = 1 := by omega
      have key : ∀ (as : List PArg) (vs : List (V α)), as.countP PArg.isValue = 1 →
          (∃ l r, as = l ++ .value (tyOf as) :: r ∧ l.countP PArg.isValue = 0 ∧ r.countP PArg.isValue = 0) := by
        intro as _ hc
        induction as with
        | nil => simp at hc
        | cons a as ih =>
          cases a with
          | value ty =>
            refine ⟨[], as, rfl, rfl, ?_⟩
            simpa [List.countP_cons, PArg.isValue] using hc
          | ctx =>
            obtain ⟨l, r, e, hl, hr⟩ := ih (by simpa [List.countP_cons, PArg.isValue] using hc)
            refine ⟨.ctx :: l, r, ?_, by simpa [List.countP_cons, PArg.isValue] using hl, hr⟩
            have : tyOf (.ctx :: as) = tyOf as := by simp [tyOf, PArg.isValue]
            rw [this, List.cons_append, ← e]
          | flags =>
            obtain ⟨l, r, e, hl, hr⟩ := ih (by simpa [List.countP_cons, PArg.isValue] using hc)
            refine ⟨.flags :: l, r, ?_, by simpa [List.countP_cons, PArg.isValue] using hl, hr⟩
            have : tyOf (.flags :: as) = tyOf as := by simp [tyOf, PArg.isValue]
            rw [this, List.cons_append, ← e]
      obtain ⟨l, r, e, hl, hr⟩ := key p.args [] h1
      rw [← hty] at e
      have none_of : ∀ (as : List PArg) (vs : List (V α)), as.countP PArg.isValue = 0 →
          List.Forall₂ (fun a w => passArg v a = .ok w) as vs →
          vs.filterMap (fun | .val x => some x | _ => none) = [] := by
        intro as vs hc f
        induction f with
        | nil => rfl
        | @cons a w as vs ha _ ih =>
          cases a with
          | value ty => simp [List.countP_cons, PArg.isValue] at hc
          | ctx => injection ha with ha; subst ha; exact ih (by simpa [List.countP_cons, PArg.isValue] using hc)
          | flags => injection ha with ha; subst ha; exact ih (by simpa [List.countP_cons, PArg.isValue] using hc)
      have hntr : p.ty ≠ .trigger := by
        have hc := paramOf_eq he
        obtain ⟨-, -, -, hcl, -⟩ := hc
        obtain ⟨t, -, hct⟩ := (forall_class hcl).2 (.value p.ty) (by rw [e]; simp)
        cases hct with
        | value hv =>
          intro ht
          rw [ht] at hv
          unfold valueTy at hv
          split_ifs at hv <;> simp at hv
      rcases mapM_pass (α := α) v p.args with ⟨vs, em, f⟩ | ⟨em, ty, hmem, hna⟩
      · rw [e] at f
        obtain ⟨vl, vr, f1, f2, rfl⟩ := forall₂_split f
        cases f2 with
        | @cons _ w _ vr hw f3 =>
          simp only [passArg] at hw
          cases hv : v.arg p.ty.kind with
          | none => rw [hv] at hw; cases hw
          | some x =>
            rw [hv] at hw
            injection hw with hw
            subst hw
            refine .inl ⟨vl ++ .val x :: vr, x, if v.isSmoothing then [.log] else [], p, rfl, ?_, ?_, ?_, ?_⟩
            · rw [em, hfn, hn]; rfl
            · simp
            · intro y hy; split at hy <;> simpa using hy
            · rw [if_neg hntr, List.filterMap_append, List.filterMap_cons, none_of l vl hl f1, none_of r vr hr f3]
              rfl
      · refine .inr (.inl ⟨by rw [em]; rfl, ?_⟩)
        have : ty = p.ty := by
          rw [e] at hmem
          simp only [List.mem_append, List.mem_cons, PArg.value.injEq] at hmem
          rw [List.countP_eq_zero] at hl hr
          rcases hmem with hmem | hmem | hmem
          · exact absurd rfl (hl _ hmem)
          · exact hmem
          · exact absurd rfl (hr _ hmem)
        rw [← this, hna]

/-- C78 (hints): the hint of a float parameter says what the attribute says.

Partial: only for float parameters, and a `range` must be written as a range (`C78_hints_violated`). -/
theorem C78_hints_partial {items : List Item} {g : Gen} (h : parse items = .ok g) (ho : OnceMarked items)
    {i : Nat} {m : Method} {a : PAttr} (hm : (paramFns items)[i]? = some m)
    (ha : ⟨"param", .list a⟩ ∈ m.attrs) {p : Param} (hp : g.params[i]? = some p)
    (hf : p.ty.kind = .float) (hr : a.range ≠ some .other) :
    ∃ r, p.hint = .float r (a.kind.bind List.head?) (a.logarithmic.getD false) a.default ∧
      (a.range = none ∧ r = none ∨ ∃ s e, a.range = some (.range (some s) (some e) true) ∧ r = some (s, e)) := by
  obtain ⟨P⟩ := parts h
  have hps := P.params
  rw [marks_eq ho] at hps
  obtain ⟨-, hget⟩ := paramsOf_get hps
  obtain ⟨m', hm', he⟩ := hget i p hp
  rw [hm] at hm'
  injection hm' with hm'
  subst hm'
  have hmem : .fn m ∈ items := by
    have := List.mem_of_getElem? hm
    obtain ⟨x, hx, hxm⟩ := List.mem_filterMap.1 this
    cases x with
    | fn k =>
      simp only at hxm
      split_ifs at hxm
      injection hxm with hxm
      subst hxm
      exact hx
    | type _ _ => cases hxm
    | other _ => cases hxm
  have huniq : ∀ x ∈ m.attrs, x.name = "param" → x = ⟨"param", .list a⟩ := by
    intro x hx hn
    have h1 := ho m hmem
    rw [List.countP_eq_length_filter] at h1
    have e1 : x ∈ m.attrs.filter (·.name = "param") := List.mem_filter.2 ⟨hx, by simpa using hn⟩
    have e2 : (⟨"param", .list a⟩ : Attr) ∈ m.attrs.filter (·.name = "param") := List.mem_filter.2 ⟨ha, by simp⟩
    revert h1 e1 e2
    generalize m.attrs.filter (·.name = "param") = l
    intro h1 e1 e2
    cases l with
    | nil => simp at e1
    | cons y l =>
      cases l with
      | nil => simp only [List.mem_singleton] at e1 e2; rw [e1, e2]
      | cons _ _ => simp at h1
  obtain ⟨-, -, -, -, -, a', hpa, hs, -⟩ := paramOf_eq he
  obtain ⟨p0, k1, k2, k3, k4, hh⟩ := hs a (paramAttrs_list hpa ha huniq)
  obtain ⟨s1, s2, s3, -, s5, s6⟩ := paramHints_set hh k1 k2 k3
  refine ⟨p.range, ?_, ?_⟩
  · unfold Param.hint
    cases hty : p.ty <;> rw [hty] at hf <;> simp only [PTy.kind, reduceCtorEq] at hf <;> rw [s1, s2, s3]
  · cases har : a.range with
    | none => exact .inl ⟨rfl, by rw [s6 har, k4]⟩
    | some r =>
      cases r with
      | other => exact absurd har hr
      | range s e c =>
        obtain ⟨x, y, rfl, rfl, rfl, hxy⟩ := s5 s e c har
        exact .inr ⟨x, y, rfl, hxy⟩

/-- C78 (`init`): the generated `init` calls the one function written for it. -/
theorem C78_init {items : List Item} {g : Gen} {m : Method} (h : parse items = .ok g) (hm : Only "init" m items) :
    g.init = some m.name := by
  obtain ⟨P⟩ := parts h
  rw [P.init, hm.init]
  rfl

/-- C78 (what is left): the block keeps everything in order, except for the types `Sample`, `Inputs` and `Outputs`
and functions moved to the trait impl; functions only lose the attributes of the macro.

Partial: there may be only one candidate for `process` and one for `process_block`
(`C78_candidates_violated`). -/
theorem C78_rest_partial {items : List Item} {g : Gen} (h : parse items = .ok g) (hc : g.compiles items = true)
    (hp : ∀ m k, .fn m ∈ items → .fn k ∈ items → Cand "process" m → Cand "process" k → m = k)
    (hb : ∀ m k, .fn m ∈ items → .fn k ∈ items → Cand "process_block" m → Cand "process_block" k → m = k) :
    g.rest = (items.filter fun x => match x with
      | .fn m => !(g.proc = .paste m || g.blk = .paste m)
      | .type n _ => !(["Sample", "Inputs", "Outputs"].contains n)
      | .other _ => true).map unmarked := by
  rw [← strip_eq]
  obtain ⟨P⟩ := parts h
  unfold Gen.compiles at hc
  simp only [Bool.and_eq_true] at hc
  obtain ⟨⟨⟨-, hcp⟩, hcb⟩, -⟩ := hc
  -- what is moved
  have hpp : ∀ m, g.proc = .paste m → .fn m ∈ items ∧ Cand "process" m ∧ m.name = "process" := by
    intro m e
    have h1 := P.proc
    rw [e] at hcp h1
    cases hf : (find items).process with
    | none => rw [hf] at h1; cases h1
    | some k =>
      rw [hf] at h1 hcp
      have hk : k = m := by
        rcases procImpl_some h1 with ⟨e', -⟩ | ⟨_, -, e', -⟩
        · injection e' with e'; exact e'.symm
        · cases e'
      subst hk
      rw [(find_last items).2.1] at hf
      rcases lastFn_mem hf with g | ⟨g, g'⟩
      · cases g
      · refine ⟨g, (cand_process k).1 g', ?_⟩
        simp only [Method.traitProcess, Bool.and_eq_true, decide_eq_true_eq] at hcp
        exact hcp.1.1
  have hbb : ∀ m, g.blk = .paste m → .fn m ∈ items ∧ Cand "process_block" m ∧ m.name = "process_block" := by
    intro m e
    have h1 := P.blk
    rw [e] at hcb h1
    cases hf : (find items).block with
    | none => rw [hf] at h1; cases h1
    | some k =>
      rw [hf] at h1 hcb
      have hk : k = m := by
        rcases blkImpl_some h1 with e' | ⟨_, -, e'⟩
        · injection e' with e'; exact e'.symm
        · cases e'
      subst hk
      rw [(find_last items).2.2] at hf
      rcases lastFn_mem hf with g | ⟨g, g'⟩
      · cases g
      · refine ⟨g, (cand_block k).1 g', ?_⟩
        simp only [Method.traitBlock, Bool.and_eq_true, decide_eq_true_eq] at hcb
        exact hcb.1.1.1
  have hr := P.rest
  generalize hrp : g.proc.moved = rp at hr
  generalize hrb : g.blk.moved = rb at hr
  have gp : ∀ m, .fn m ∈ items → ((rp && m.isProcess) = true ↔ g.proc = .paste m) := by
    intro m hm
    constructor
    · intro hh
      simp only [Bool.and_eq_true, cand_process] at hh
      cases hpr : g.proc with
      | paste k => rw [hp m k hm (hpp k hpr).1 hh.2 (hpp k hpr).2.1]
      | todo => rw [hpr] at hrp; simp only [Proc.moved] at hrp; rw [← hrp] at hh; simp at hh
      | wrap _ _ _ => rw [hpr] at hrp; simp only [Proc.moved] at hrp; rw [← hrp] at hh; simp at hh
    · intro e
      rw [e] at hrp
      simp only [Proc.moved] at hrp
      rw [← hrp]
      simpa [cand_process] using (hpp m e).2.1
  have gb : ∀ m, .fn m ∈ items → ((rb && m.isBlock) = true ↔ g.blk = .paste m) := by
    intro m hm
    constructor
    · intro hh
      simp only [Bool.and_eq_true, cand_block] at hh
      cases hpr : g.blk with
      | paste k => rw [hb m k hm (hbb k hpr).1 hh.2 (hbb k hpr).2.1]
      | default => rw [hpr] at hrb; simp only [Blk.moved] at hrb; rw [← hrb] at hh; simp at hh
      | wrap _ _ _ _ => rw [hpr] at hrb; simp only [Blk.moved] at hrb; rw [← hrb] at hh; simp at hh
    · intro e
      rw [e] at hrb
      simp only [Blk.moved] at hrb
      rw [← hrb]
      simpa [cand_block] using (hbb m e).2.1
  have hrm := removeAll_toRemove rp rb items (by
    rintro m hm ⟨h1, h2⟩
    have n1 := (hpp m ((gp m hm).1 h1)).2.2
    have n2 := (hbb m ((gb m hm).1 h2)).2.2
    rw [n1] at n2
    exact absurd n2 (by decide)) []
  simp only [List.nil_append, List.length_nil] at hrm
  unfold restOf at hr
  rw [hrm] at hr
  simp only [bind, Except.bind, Except.ok.injEq] at hr
  rw [← hr, List.filter_map, List.filter_filter]
  congr 1
  apply List.filter_congr
  intro x hx
  cases x with
  | fn m =>
    have e1 : (rp && m.isProcess) = decide (g.proc = .paste m) := by
      rw [Bool.eq_iff_iff, gp m hx]; simp
    have e2 : (rb && m.isBlock) = decide (g.blk = .paste m) := by
      rw [Bool.eq_iff_iff, gb m hx]; simp
    simp [gone, e1, e2, Item.strip, Item.isAssoc]
  | type n t =>
    by_cases h1 : n = "Sample" <;> by_cases h2 : n = "Inputs" <;> by_cases h3 : n = "Outputs" <;>
      simp [gone, Item.strip, Item.isAssoc, h1, h2, h3]
  | other i => simp [gone, Item.strip, Item.isAssoc]

/-! ### What goes wrong -/

/-- `&mut AudioCtx`, `&mut UGenFlags` -/
def ctxArg : Arg := .typed (.ref true ["AudioCtx"])
def flagsArg : Arg := .typed (.ref true ["UGenFlags"])

/-- `Ok` for the compiler. -/
def accepted (items : List Item) : Option Gen :=
  match parse items with
  | .ok g => if g.compiles items then some g else none
  | .error _ => none

/-- Two arrays of the same length get the same inputs, and the unit has only half of the inputs it wants. -/
theorem C78_alias_violated :
    ∃ g, accepted [.fn { name := "process", args := [.recv true, .typed (.array (some 1) .other), .typed (.array (some 1) .other)], ret := some (.array (some 1) .other) }] = some g ∧ g.inputs = 1 ∧
      g.proc.call [7] = .ok ⟨"process", [.frame [7], .frame [7]]⟩ := ⟨_, rfl, rfl, rfl⟩

/-- A number of inputs given that is smaller than the array: accepted, but every call panics. -/
theorem C78_override_violated :
    ∃ g, accepted [.type "Inputs" 1, .fn { name := "process", args := [.recv true, .typed (.array (some 2) .other)], ret := some (.array (some 1) .other) }] = some g ∧ g.inputs = 1 ∧
      ∀ x : Nat, g.proc.call [x] = .error .index := ⟨_, rfl, rfl, fun _ => rfl⟩

/-- Without a function for it the block is accepted, and every call of `process` panics. -/
theorem C78_missing_violated :
    ∃ g, accepted [.fn { name := "tick" }] = some g ∧ ∀ xs : List Nat, g.proc.call xs = .error .unreachable :=
  ⟨_, rfl, fun _ => rfl⟩

/-- Of several candidates the last one counts, not the one that is marked; and if it is moved, the others are
removed with it. -/
theorem C78_candidates_violated :
    (∃ g, accepted [.fn { name := "run", attrs := [⟨"process", .bare⟩], args := [.recv true, .typed (.array (some 1) .other)], ret := some (.array (some 1) .other) },
          .fn { name := "process", args := [.recv true, .typed (.array (some 1) .other)], ret := some (.array (some 1) .other) }] = some g ∧
        g.proc.call [7] = .ok ⟨"process", [.frame [7]]⟩) ∧
    (∃ g, accepted [.type "Inputs" 1, .type "Outputs" 1,
          .fn { name := "run", attrs := [⟨"process", .bare⟩], args := [.recv true, .typed (.array (some 1) .other)], ret := some (.array (some 1) .other) },
          .fn { name := "process", args := [.recv true, ctxArg, flagsArg, .typed (.path ["Frame"] false)], ret := some (.path ["Frame"] false) }] = some g ∧
        g.rest = []) := ⟨⟨_, rfl, rfl⟩, ⟨_, rfl, rfl⟩⟩

/-- A function marked twice is two parameters. -/
theorem C78_twice_violated :
    ∃ g, accepted [.fn { name := "freq", attrs := [⟨"param", .list { default := some 440 }⟩, ⟨"param", .list { kind := some ["Frequency"] }⟩], args := [.recv true, .typed (.path ["PFloat"] false)] }] = some g ∧
      g.params.map Param.name = ["freq", "freq"] ∧
      g.params.map Param.hint = [.float none (some "Frequency") false none, .float none (some "Frequency") false none] :=
  ⟨_, rfl, rfl, rfl⟩

/-- A range that is not written as a range and settings of an integer parameter are dropped without a message. -/
theorem C78_hints_violated :
    (∃ g, accepted [.fn { name := "freq", attrs := [⟨"param", .list { range := some .other }⟩], args := [.recv true, .typed (.path ["PFloat"] false)] }] = some g ∧
      g.params.map Param.hint = [.float none none false none]) ∧
    (∃ g, accepted [.fn { name := "mode", attrs := [⟨"param", .list { default := some 3, logarithmic := some true }⟩], args := [.recv true, .typed (.path ["PInteger"] false)] }] = some g ∧
      g.params.map Param.hint = [.integer none]) := ⟨⟨_, rfl, rfl⟩, ⟨_, rfl, rfl⟩⟩

/-- The macro takes these, but what it generates is never accepted: a parameter function with flags, a range for an
integer parameter, and a function marked `process` with the signature of the trait. -/
theorem C78_refused_violated :
    (∃ g, parse [.fn { name := "freq", attrs := [⟨"param", .bare⟩], args := [.recv true, flagsArg] }] = .ok g) ∧
    accepted [.fn { name := "freq", attrs := [⟨"param", .bare⟩], args := [.recv true, flagsArg] }] = none ∧
    (∃ g, parse [.fn { name := "n", attrs := [⟨"param", .list { range := some (.range (some 0) (some 4) true) }⟩], args := [.recv true, .typed (.path ["PInteger"] false)] }] = .ok g) ∧
    accepted [.fn { name := "n", attrs := [⟨"param", .list { range := some (.range (some 0) (some 4) true) }⟩], args := [.recv true, .typed (.path ["PInteger"] false)] }] = none ∧
    (∃ g, parse [.fn { name := "process", attrs := [⟨"process", .bare⟩], args := [.recv true, ctxArg, flagsArg, .typed (.path ["Frame"] false)], ret := some (.path ["Frame"] false) }] = .ok g) ∧
    accepted [.fn { name := "process", attrs := [⟨"process", .bare⟩], args := [.recv true, ctxArg, flagsArg, .typed (.path ["Frame"] false)], ret := some (.path ["Frame"] false) }] = none :=
  ⟨⟨_, rfl⟩, rfl, ⟨_, rfl⟩, rfl, ⟨_, rfl⟩, rfl⟩

/-- The macro itself panics: a function that is both is removed twice. -/
theorem C78_panic_violated :
    parse [.fn { name := "process", attrs := [⟨"process_block", .bare⟩], generics := 2, args := [.recv true, ctxArg, flagsArg, .typed (.ref false ["InBlock"]), .typed (.ref true ["OutBlock"])], ret := some (.path ["Frame"] false) }] = .error .panic := rfl

/-! ### Example -/

/-- A filter with one input, a block function and three parameters. -/
def exBlock : List Item :=
  [.other 0,
   .fn { name := "new", body := 1 },
   .fn { name := "setup", attrs := [⟨"init", .bare⟩], args := [.recv true], body := 2 },
   .fn { name := "process", args := [.recv true, ctxArg, .typed (.array (some 2) .other)], ret := some (.array (some 1) .other), body := 3 },
   .fn { name := "block", attrs := [⟨"process_block", .bare⟩], args := [.recv true, .typed (.array (some 1) (.ref true)), .typed (.array (some 2) (.ref false))], body := 4 },
   .fn { name := "cutoff", attrs := [⟨"doc", .bare⟩, ⟨"param", .list { kind := some ["Frequency"], default := some 440, range := some (.range (some 0) (some 20000) true) }⟩], args := [.recv true, .typed (.path ["PFloat"] false), ctxArg], body := 5 },
   .fn { name := "reset", attrs := [⟨"param", .bare⟩], args := [.recv true], body := 6 },
   .fn { name := "mode", attrs := [⟨"param", .list { fromTy := some 9 }⟩], args := [.recv true, ctxArg, .typed (.path ["knaster", "PInteger"] false)], body := 7 }]

example : ∃ g, accepted exBlock = some g ∧ g.init = some "setup" ∧ g.inputs = 2 ∧ g.outputs = 1 ∧
    g.proc.call [5, 6] = .ok ⟨"process", [.ctx, .frame [5, 6]]⟩ ∧
    g.blk.call [[5, 6], [7, 8]] 1 = .ok (some ⟨"block", [.outs [0], .slices [[5, 6], [7, 8]]]⟩) ∧
    g.params.map Param.name = ["cutoff", "reset", "mode"] ∧
    g.params.map Param.hint = [.float (some (0, 20000)) (some "Frequency") false (some 440), .trigger, .enum 9] ∧
    g.apply (α := Nat) 0 (.bool true) = .error .unwrap ∧
    g.apply (α := Nat) 1 (.bool true) = .ok (some ⟨"reset", []⟩) ∧
    g.apply (α := Nat) 2 (.integer 4) = .ok (some ⟨"mode", [.ctx, .val (.integer 4)]⟩) ∧
    g.rest.length = 8 :=
  ⟨_, rfl, rfl, rfl, rfl, rfl, rfl, rfl, rfl, rfl, rfl, rfl, rfl⟩

/-- It meets the hypotheses of the theorems. -/
example : (∃ m, Only "process" m exBlock) ∧ (∃ m, Only "process_block" m exBlock) ∧ (∃ m, Only "init" m exBlock) ∧
    OnceMarked exBlock ∧ (∀ m ∈ paramFns exBlock, Plain m) := by
  refine ⟨⟨{ name := "process", args := [.recv true, ctxArg, .typed (.array (some 2) .other)], ret := some (.array (some 1) .other), body := 3 }, ?_⟩,
    ⟨{ name := "block", attrs := [⟨"process_block", .bare⟩], args := [.recv true, .typed (.array (some 1) (.ref true)), .typed (.array (some 2) (.ref false))], body := 4 }, ?_⟩,
    ⟨{ name := "setup", attrs := [⟨"init", .bare⟩], args := [.recv true], body := 2 }, ?_⟩, ?_, ?_⟩
  · refine ⟨by simp [exBlock], .inl rfl, ?_⟩
    intro k hk hc
    simp only [exBlock, List.mem_cons, Item.fn.injEq, reduceCtorEq, List.not_mem_nil, or_false, false_or] at hk
    rcases hk with rfl | rfl | rfl | rfl | rfl | rfl | rfl <;> simp [Cand] at hc ⊢
  · refine ⟨by simp [exBlock], .inr ⟨_, List.mem_singleton.2 rfl, rfl⟩, ?_⟩
    intro k hk hc
    simp only [exBlock, List.mem_cons, Item.fn.injEq, reduceCtorEq, List.not_mem_nil, or_false, false_or] at hk
    rcases hk with rfl | rfl | rfl | rfl | rfl | rfl | rfl <;> simp [Cand] at hc ⊢
  · refine ⟨by simp [exBlock], .inr ⟨_, List.mem_singleton.2 rfl, rfl⟩, ?_⟩
    intro k hk hc
    simp only [exBlock, List.mem_cons, Item.fn.injEq, reduceCtorEq, List.not_mem_nil, or_false, false_or] at hk
    rcases hk with rfl | rfl | rfl | rfl | rfl | rfl | rfl <;> simp [Cand] at hc ⊢
  · intro k hk
    simp only [exBlock, List.mem_cons, Item.fn.injEq, reduceCtorEq, List.not_mem_nil, or_false, false_or] at hk
    rcases hk with rfl | rfl | rfl | rfl | rfl | rfl | rfl <;> decide
  · intro m hm
    have : m ∈ [({ name := "cutoff", attrs := [⟨"doc", .bare⟩, ⟨"param", .list { kind := some ["Frequency"], default := some 440, range := some (.range (some 0) (some 20000) true) }⟩], args := [.recv true, .typed (.path ["PFloat"] false), ctxArg], body := 5 } : Method),
        { name := "reset", attrs := [⟨"param", .bare⟩], args := [.recv true], body := 6 },
        { name := "mode", attrs := [⟨"param", .list { fromTy := some 9 }⟩], args := [.recv true, ctxArg, .typed (.path ["knaster", "PInteger"] false)], body := 7 }] := hm
    simp only [List.mem_cons, List.not_mem_nil, or_false] at this
    rcases this with rfl | rfl | rfl
    · intro segs q hs a ha b hb _ _
      simp only [typedArgs, ctxArg, List.mem_cons, Ty.path.injEq, reduceCtorEq, List.not_mem_nil, or_false] at hs
      obtain ⟨rfl, -⟩ := hs
      simp only [List.mem_singleton] at ha hb
      rw [ha, hb]
    · intro segs q hs
      simp [typedArgs] at hs
    · intro segs q hs a ha b hb h1 h2
      simp only [typedArgs, ctxArg, List.mem_cons, Ty.path.injEq, reduceCtorEq, List.not_mem_nil, or_false, false_or] at hs
      obtain ⟨rfl, -⟩ := hs
      simp only [List.mem_cons, List.not_mem_nil, or_false] at ha hb
      rcases ha with rfl | rfl <;> rcases hb with rfl | rfl <;> first | rfl | simp at h1 h2

end Verif.Ma
