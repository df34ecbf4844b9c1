import Verif.Model.Names
import Mathlib.Data.List.Basic
import Mathlib.Data.List.Induction
import Mathlib.Tactic.SplitIfs

/-!
# C87: names say which node is meant
-/

namespace Verif.Nm

/-! ### Specification: types and their names -/

/-- A Rust type as `type_name` shows it: a path with generic arguments, or a tuple. -/
inductive Ty where
  | path (mods : List (List Char)) (name : List Char) (args : List Ty)
  | tuple (args : List Ty)

/-- Arguments with commas in between. -/
def commas : List (List Char) → List Char
  | [] => []
  | [x] => x
  | x :: xs => x ++ ',' :: ' ' :: commas xs

mutual
/-- What `type_name` gives. -/
def Ty.full : Ty → List Char
  | .path mods name args =>
    mods.flatMap (· ++ [':', ':']) ++ name ++ (if args.isEmpty then [] else '<' :: commas (fulls args) ++ ['>'])
  | .tuple args => '(' :: commas (fulls args) ++ [')']
def fulls : List Ty → List (List Char)
  | [] => []
  | t :: ts => t.full :: fulls ts
end

mutual
/-- The short name: the same without the modules. -/
def Ty.short : Ty → List Char
  | .path _ name args => name ++ (if args.isEmpty then [] else '<' :: commas (shorts args) ++ ['>'])
  | .tuple args => '(' :: commas (shorts args) ++ [')']
def shorts : List Ty → List (List Char)
  | [] => []
  | t :: ts => t.short :: shorts ts
end

/-- An identifier. -/
def Ident (s : List Char) : Prop := s ≠ [] ∧ ∀ c ∈ s, delim c = false ∧ c ≠ ':' ∧ c ≠ ','

/-- Not a path with modules. -/
def Ty.bare : Ty → Prop
  | .path mods _ _ => mods = []
  | .tuple _ => True

mutual
/-- Only the first of several arguments has modules in its path. -/
def Ty.Plain : Ty → Prop
  | .path mods name args => (∀ m ∈ mods, Ident m) ∧ Ident name ∧ Plains args
  | .tuple args => Plains args
def Plains : List Ty → Prop
  | [] => True
  | t :: ts => t.Plain ∧ Bares ts
def Bares : List Ty → Prop
  | [] => True
  | t :: ts => t.Plain ∧ t.bare ∧ Bares ts
end

/-! ### The loop, character by character -/

/-- `shorten_name` with what was already written and the piece that is being read. -/
def go (acc run : List Char) : List Char → List Char
  | [] => if run = [] then acc else shortenStep acc run
  | c :: cs => if delim c then go (shortenStep acc (run ++ [c])) [] cs else go acc (run ++ [c]) cs

theorem split_run (run cs : List Char) (hr : ∀ c ∈ run, delim c = false) :
    splitInclusive delim (run ++ cs) = match splitInclusive delim cs with
      | [] => if run = [] then [] else [run]
      | x :: xs => (run ++ x) :: xs := by
  induction run with
  | nil =>
    rw [List.nil_append]
    cases splitInclusive delim cs <;> rfl
  | cons c run ih =>
    have ih' := ih fun c hc => hr c (List.mem_cons_of_mem _ hc)
    simp only [List.cons_append, splitInclusive, hr c List.mem_cons_self, Bool.false_eq_true, if_false, ih']
    cases splitInclusive delim cs with
    | nil => by_cases h : run = [] <;> simp [h]
    | cons x xs => rfl

theorem go_eq (cs : List Char) : ∀ acc run, (∀ c ∈ run, delim c = false) →
    go acc run cs = (splitInclusive delim (run ++ cs)).foldl shortenStep acc := by
  induction cs with
  | nil =>
    intro acc run hr
    rw [split_run run [] hr]
    by_cases h : run = [] <;> simp [go, splitInclusive, h]
  | cons c cs ih =>
    intro acc run hr
    by_cases hc : delim c = true
    · rw [split_run run _ hr]
      simp only [go, hc, if_true, splitInclusive, List.foldl_cons]
      exact ih _ [] (by simp)
    · simp only [Bool.not_eq_true] at hc
      simp only [go, hc, Bool.false_eq_true, if_false]
      rw [ih acc (run ++ [c]) (by
        intro x hx
        rcases List.mem_append.1 hx with h | h
        · exact hr x h
        · rw [List.mem_singleton.1 h]; exact hc)]
      simp

theorem shorten_go (name : List Char) : shorten name = go [] [] name := by
  rw [go_eq name [] [] (by simp)]; rfl

theorem go_run (run' : List Char) : ∀ acc run cs, (∀ c ∈ run', delim c = false) →
    go acc run (run' ++ cs) = go acc (run ++ run') cs := by
  induction run' with
  | nil => intro acc run cs _; simp
  | cons c r ih =>
    intro acc run cs h
    rw [List.cons_append, go, if_neg (by simp [h c List.mem_cons_self]), ih _ _ _ fun x hx => h x (List.mem_cons_of_mem _ hx)]
    simp

theorem afterColon_none {cs : List Char} (h : ∀ c ∈ cs, c ≠ ':') : afterColon cs = cs := by
  have : ∀ l : List Char, (∀ c ∈ l, c ≠ ':') → l.takeWhile (· ≠ ':') = l := by
    intro l
    induction l with
    | nil => intro _; rfl
    | cons c l ih =>
      intro h
      rw [List.takeWhile_cons, if_pos (by simpa using h c List.mem_cons_self), ih fun x hx => h x (List.mem_cons_of_mem _ hx)]
  rw [afterColon, this _ (by simpa using h), List.reverse_reverse]

theorem afterColon_append (xs : List Char) {cs : List Char} (h : ∀ c ∈ cs, c ≠ ':') :
    afterColon (xs ++ cs) = afterColon xs ++ cs := by
  rw [afterColon, afterColon, List.reverse_append, List.takeWhile_append_of_pos, List.reverse_append, List.reverse_reverse]
  intro c hc
  simpa using h c (by simpa using hc)

theorem afterColon_colon (xs : List Char) : afterColon (xs ++ [':']) = [] := by
  simp [afterColon]

theorem step_delim {acc run : List Char} {d : Char} (hd : d = '<' ∨ d = '>' ∨ d = '(' ∨ d = ')') :
    shortenStep acc (run ++ [d]) = acc ++ afterColon run ++ [d] := by
  have h1 : afterColon (run ++ [d]) = afterColon run ++ [d] :=
    afterColon_append run (by rcases hd with rfl | rfl | rfl | rfl <;> simp)
  rw [shortenStep, h1, ← List.append_assoc, List.getLast?_concat]
  rcases hd with rfl | rfl | rfl | rfl <;> rfl

theorem go_delim {acc run cs : List Char} {d : Char} (hd : d = '<' ∨ d = '>' ∨ d = '(' ∨ d = ')') :
    go acc run (d :: cs) = go (acc ++ afterColon run ++ [d]) [] cs := by
  rw [go, if_pos (by rcases hd with rfl | rfl | rfl | rfl <;> decide), step_delim hd]

/-- What is left to do after the text `full`: the same as having written `short`. -/
def Writes (full short : List Char) (acc run : List Char) : Prop :=
  ∃ acc' run', (∀ rest, go acc run (full ++ rest) = go acc' run' rest) ∧ (∀ c ∈ run', delim c = false) ∧
    acc' ++ afterColon run' = acc ++ afterColon run ++ short

theorem Writes.trans {f₁ s₁ f₂ s₂ acc run : List Char} (h₁ : Writes f₁ s₁ acc run)
    (h₂ : ∀ acc run, (∀ c ∈ run, delim c = false) → Writes f₂ s₂ acc run)  : Writes (f₁ ++ f₂) (s₁ ++ s₂) acc run := by
  obtain ⟨a, r, h1, h2, h3⟩ := h₁
  obtain ⟨a', r', h4, h5, h6⟩ := h₂ a r h2
  refine ⟨a', r', fun rest => ?_, h5, ?_⟩
  · rw [List.append_assoc, h1, h4]
  · rw [h6, h3]; simp

theorem writes_ident {name acc run : List Char} (h : Ident name) (hr : ∀ c ∈ run, delim c = false) :
    Writes name name acc run :=
  ⟨acc, run ++ name, fun rest => go_run name acc run rest fun c hc => (h.2 c hc).1,
    fun c hc => (List.mem_append.1 hc).elim (hr c) fun hc => (h.2 c hc).1,
    by rw [afterColon_append run fun c hc => (h.2 c hc).2.1, List.append_assoc]⟩

theorem writes_comma {acc run : List Char} (hr : ∀ c ∈ run, delim c = false) : Writes [',', ' '] [',', ' '] acc run :=
  ⟨acc, run ++ [',', ' '], fun rest => go_run [',', ' '] acc run rest (by decide),
    fun c hc => (List.mem_append.1 hc).elim (hr c) fun hc => by
      simp only [List.mem_cons, List.not_mem_nil, or_false] at hc
      rcases hc with rfl | rfl <;> decide,
    by rw [afterColon_append run (by decide), List.append_assoc]⟩

theorem writes_delim {acc run : List Char} {d : Char} (hd : d = '<' ∨ d = '>' ∨ d = '(' ∨ d = ')') : Writes [d] [d] acc run :=
  ⟨acc ++ afterColon run ++ [d], [], fun _ => go_delim hd, by simp, by simp [afterColon]⟩

theorem writes_mods {mods : List (List Char)} {name acc : List Char} (hm : ∀ m ∈ mods, Ident m) (h : Ident name) :
    Writes (mods.flatMap (· ++ [':', ':']) ++ name) name acc [] := by
  have hd : ∀ c ∈ mods.flatMap (· ++ [':', ':']) ++ name, delim c = false := by
    intro c hc
    simp only [List.mem_append, List.mem_flatMap] at hc
    rcases hc with ⟨m, hm', hc | hc⟩ | hc
    · exact ((hm m hm').2 c hc).1
    · simp only [List.mem_cons, List.not_mem_nil, or_false, or_self] at hc
      subst hc; decide
    · exact (h.2 c hc).1
  refine ⟨acc, mods.flatMap (· ++ [':', ':']) ++ name, fun rest => by rw [go_run _ acc [] rest hd]; rfl, hd, ?_⟩
  rw [afterColon_append _ fun c hc => (h.2 c hc).2.1]
  have : afterColon (mods.flatMap (· ++ [':', ':'])) = [] := by
    induction mods using List.reverseRecOn with
    | nil => rfl
    | append_singleton ms m ih =>
      rw [List.flatMap_append, List.flatMap_singleton,
        show ms.flatMap (· ++ [':', ':']) ++ (m ++ [':', ':']) = (ms.flatMap (· ++ [':', ':']) ++ m ++ [':']) ++ [':'] by simp]
      exact afterColon_colon _
  rw [this]
  simp [afterColon]

mutual
theorem writes_ty : (t : Ty) → t.Plain → ∀ acc run, (∀ c ∈ run, delim c = false) → (t.bare ∨ run = []) →
    Writes t.full t.short acc run
  | .path mods name args, hp, acc, run, hr, hb => by
    rw [Ty.Plain] at hp
    obtain ⟨hm, hn, ha⟩ := hp
    have h1 : Writes (mods.flatMap (· ++ [':', ':']) ++ name) name acc run := by
      rcases hb with hb | rfl
      · rw [Ty.bare] at hb
        subst hb
        exact writes_ident hn hr
      · exact writes_mods hm hn
    rw [Ty.full, Ty.short]
    cases args with
    | nil => simpa using h1
    | cons t ts =>
      simp only [List.isEmpty_cons, Bool.false_eq_true, if_false]
      have h2 : ∀ acc run, Writes ('<' :: commas (fulls (t :: ts)) ++ ['>']) ('<' :: commas (shorts (t :: ts)) ++ ['>']) acc run := by
        intro acc run
        obtain ⟨a, r, e1, e2, e3⟩ := writes_first (t :: ts) ha (acc ++ afterColon run ++ ['<'])
        obtain ⟨a', r', e4, e5, e6⟩ := writes_delim (acc := a) (run := r) (d := '>') (by simp)
        refine ⟨a', r', fun rest => ?_, e5, ?_⟩
        · rw [List.cons_append, List.cons_append, go_delim (by simp), List.append_assoc (commas _), e1, e4]
        · rw [e6, e3]; simp [afterColon]
      exact h1.trans fun acc run _ => h2 acc run
  | .tuple args, hp, acc, run, hr, hb => by
    rw [Ty.Plain] at hp
    rw [Ty.full, Ty.short]
    obtain ⟨a, r, e1, e2, e3⟩ := writes_first args hp (acc ++ afterColon run ++ ['('])
    obtain ⟨a', r', e4, e5, e6⟩ := writes_delim (acc := a) (run := r) (d := ')') (by simp)
    refine ⟨a', r', fun rest => ?_, e5, ?_⟩
    · rw [List.cons_append, List.cons_append, go_delim (by simp), List.append_assoc (commas _), e1, e4]
    · rw [e6, e3]; simp [afterColon]
theorem writes_first : (ts : List Ty) → Plains ts → ∀ acc, Writes (commas (fulls ts)) (commas (shorts ts)) acc []
  | [], _, acc => ⟨acc, [], fun _ => rfl, by simp, by simp [shorts, commas]⟩
  | t :: ts, hp, acc => by
    rw [Plains] at hp
    have h1 := writes_ty t hp.1 acc [] (by simp) (.inr rfl)
    cases ts with
    | nil => simpa [fulls, shorts, commas] using h1
    | cons u us =>
      have h2 := (h1.trans fun _ _ => writes_comma).trans fun acc run hr => writes_rest (u :: us) hp.2 acc run hr
      simpa [fulls, shorts, commas, List.append_assoc] using h2
theorem writes_rest : (ts : List Ty) → Bares ts → ∀ acc run, (∀ c ∈ run, delim c = false) →
    Writes (commas (fulls ts)) (commas (shorts ts)) acc run
  | [], _, acc, run, hr => ⟨acc, run, fun _ => rfl, hr, by simp [shorts, commas]⟩
  | t :: ts, hp, acc, run, hr => by
    rw [Bares] at hp
    have h1 := writes_ty t hp.1 acc run hr (.inl hp.2.1)
    cases ts with
    | nil => simpa [fulls, shorts, commas] using h1
    | cons u us =>
      have h2 := (h1.trans fun _ _ => writes_comma).trans fun acc run hr => writes_rest (u :: us) hp.2.2 acc run hr
      simpa [fulls, shorts, commas, List.append_assoc] using h2
end

theorem short_last : (t : Ty) → t.Plain → ∃ c, t.short.getLast? = some c ∧ c ≠ ',' ∧ c ≠ ';'
  | .path mods name args, hp => by
    rw [Ty.Plain] at hp
    rw [Ty.short]
    cases args with
    | nil =>
      have hne := hp.2.1.1
      refine ⟨name.getLast hne, by simp [List.getLast?_eq_getLast_of_ne_nil hne], ?_⟩
      have := hp.2.1.2 _ (List.getLast_mem hne)
      refine ⟨this.2.2, ?_⟩
      intro h
      rw [h] at this
      exact absurd this.1 (by decide)
    | cons t ts =>
      refine ⟨'>', ?_, by decide, by decide⟩
      simp only [List.isEmpty_cons, Bool.false_eq_true, if_false]
      rw [← List.append_assoc, List.getLast?_concat]
  | .tuple args, _ => ⟨')', by rw [Ty.short, List.getLast?_concat], by decide, by decide⟩

/-- **C87.**  The name of a new node is the name of its type without the modules.

Missing for the full claim: types with several arguments of which another than the first one has modules, and arrays
(`C87_short_violated`). -/
theorem C87_short_partial (t : Ty) (h : t.Plain) : shorten t.full = t.short := by
  obtain ⟨a, r, h1, h2, h3⟩ := writes_ty t h [] [] (by simp) (.inr rfl)
  obtain ⟨c, h4, h5, h6⟩ := short_last t h
  have h3' : a ++ afterColon r = t.short := by simpa [afterColon] using h3
  have h7 := h1 []
  rw [List.append_nil] at h7
  rw [shorten_go, h7, go]
  split_ifs with hr
  · subst hr
    simpa [afterColon] using h3'
  · rw [shortenStep, h3', h4]
    split
    · rename_i h8; exact absurd (Option.some.inj h8) h5
    · rename_i h8; exact absurd (Option.some.inj h8) h6
    · rfl

/-- `knaster_core_dsp::wrappers_core::math::WrMul<knaster_core_dsp::ugens::osc::SinWt<f32>>` -/
def demoTy : Ty := .path ["knaster_core_dsp".toList, "wrappers_core".toList, "math".toList] "WrMul".toList
  [.path ["knaster_core_dsp".toList, "ugens".toList, "osc".toList] "SinWt".toList [.path [] "f32".toList []]]

example : demoTy.Plain ∧ demoTy.full = "knaster_core_dsp::wrappers_core::math::WrMul<knaster_core_dsp::ugens::osc::SinWt<f32>>".toList ∧
    demoTy.short = "WrMul<SinWt<f32>>".toList := by
  refine ⟨?_, by decide +kernel, by decide +kernel⟩
  simp only [demoTy, Ty.Plain, Plains, Bares, Ident, and_true]
  decide +kernel

/-- `MathUGen` for one channel, as in knaster_core_dsp/src/ugens/math.rs. -/
def mathTy (f : List Char) : Ty := .path ["knaster_core_dsp".toList, "ugens".toList, "math".toList] "MathUGen".toList
  [.path [] f [],
   .path ["typenum".toList, "uint".toList] "UInt".toList
     [.path ["typenum".toList, "uint".toList] "UTerm".toList [], .path ["typenum".toList, "bit".toList] "B1".toList []],
   .path ["knaster_core_dsp".toList, "ugens".toList, "math".toList] "Add".toList []]

/-- C87 is false for types with several arguments: all but the last one before a bracket are dropped with their commas, so
that adding in `f32` and in `f64` have the same name; and the length of an array gets a second space. -/
theorem C87_short_violated :
    shorten (mathTy "f32".toList).full = "MathUGen<UInt<B1>Add>".toList ∧
    shorten (mathTy "f64".toList).full = "MathUGen<UInt<B1>Add>".toList ∧
    (mathTy "f32".toList).short = "MathUGen<f32, UInt<UTerm, B1>, Add>".toList ∧
    shorten "[f32; 4]".toList = "[f32;  4]".toList ∧ shorten "f32,".toList = "f32, ".toList := by
  refine ⟨by decide +kernel, by decide +kernel, by decide +kernel, by decide +kernel, by decide +kernel⟩

/-! ### Looking nodes up by name -/

/-- What is done to the nodes of a graph. -/
inductive NOp where
  | push (slot key : Nat) (typeName : List Char)
  | setName (key : Nat) (name : List Char)
  | remove (key : Nat)
  deriving DecidableEq

/-- The name of a node after a history (latest first): the one set last, or the one it got from its type. -/
def nameOf : List NOp → Nat → Option (List Char)
  | [], _ => none
  | .push _ k' ty :: h, k => if k' = k then some (shorten ty) else nameOf h k
  | .setName k' n :: h, k => if k' = k then some n else nameOf h k
  | .remove k' :: h, k => if k' = k then none else nameOf h k

/-- The key of a pushed node is new. -/
def Fresh (h : List NOp) (k : Nat) : Prop := ∀ i ty, .push i k ty ∉ h

/-- The slots after a history in which no name was given to a node that is gone. -/
inductive Reach : List NOp → Slots → Prop where
  | nil : Reach [] []
  | push {h s s' i k ty} : Reach h s → Fresh h k → push s i k ty = some s' → Reach (.push i k ty :: h) s'
  | setName {h s s' k n} : Reach h s → setName s k n = .ok s' → Reach (.setName k n :: h) s'
  | remove {h s k} : Reach h s → Reach (.remove k :: h) (remove s k)

theorem mem_rename {s : Slots} {k k' : Nat} {n x : List Char} :
    some (k', x) ∈ rename s k n ↔ (k' = k ∧ x = n ∧ ∃ y, some (k, y) ∈ s) ∨ (k' ≠ k ∧ some (k', x) ∈ s) := by
  simp only [rename, List.mem_map]
  constructor
  · rintro ⟨a, ha, hx⟩
    rcases a with _ | ⟨ka, na⟩
    · simp at hx
    · by_cases h : ka = k
      · subst h
        simp only [if_true, Option.some.injEq, Prod.mk.injEq] at hx
        exact .inl ⟨hx.1.symm, hx.2.symm, na, ha⟩
      · simp only [h, if_false, Option.some.injEq, Prod.mk.injEq] at hx
        obtain ⟨rfl, rfl⟩ := hx
        exact .inr ⟨h, ha⟩
  · rintro (⟨rfl, rfl, y, hy⟩ | ⟨h, hx⟩)
    · exact ⟨_, hy, by simp⟩
    · exact ⟨_, hx, by simp [h]⟩

theorem mem_remove {s : Slots} {k k' : Nat} {x : List Char} :
    some (k', x) ∈ remove s k ↔ k' ≠ k ∧ some (k', x) ∈ s := by
  simp only [remove, List.mem_map]
  constructor
  · rintro ⟨a, ha, hx⟩
    rcases a with _ | ⟨ka, na⟩
    · simp at hx
    · by_cases h : ka = k
      · simp [h] at hx
      · simp only [h, if_false, Option.some.injEq, Prod.mk.injEq] at hx
        obtain ⟨rfl, rfl⟩ := hx
        exact ⟨h, ha⟩
  · rintro ⟨h, hx⟩
    exact ⟨_, hx, by simp [h]⟩

theorem mem_push {s s' : Slots} {i k k' : Nat} {ty x : List Char} (h : push s i k ty = some s') :
    some (k', x) ∈ s' ↔ (k' = k ∧ x = shorten ty) ∨ some (k', x) ∈ s := by
  rw [push] at h
  split at h
  · obtain rfl := Option.some.inj h
    simp [or_comm]
  · split at h
    · rename_i hi
      obtain rfl := Option.some.inj h
      obtain ⟨hlt, hi⟩ := List.getElem?_eq_some_iff.1 hi
      rw [List.mem_iff_getElem?, List.mem_iff_getElem?]
      constructor
      · rintro ⟨j, hj⟩
        rw [List.getElem?_set] at hj
        split at hj
        · simp only [Option.some.injEq, Prod.mk.injEq] at hj
          exact .inl ⟨hj.1.symm, hj.2.symm⟩
        · exact .inr ⟨j, hj⟩
      · rintro (⟨rfl, rfl⟩ | ⟨j, hj⟩)
        · exact ⟨i, by simp [hlt]⟩
        · refine ⟨j, ?_⟩
          rw [List.getElem?_set, if_neg]
          · exact hj
          · rintro rfl
            rw [List.getElem?_eq_getElem hlt, hi] at hj
            simp at hj
    · simp at h

theorem any_iff {s : Slots} {k : Nat} :
    (s.any fun x => match x with | some (k', _) => decide (k' = k) | none => false) = true ↔ ∃ n, some (k, n) ∈ s := by
  rw [List.any_eq_true]
  constructor
  · rintro ⟨x, hx, h⟩
    rcases x with _ | ⟨k', n⟩
    · simp at h
    · simp only [decide_eq_true_eq] at h
      subst h
      exact ⟨n, hx⟩
  · rintro ⟨n, hn⟩
    exact ⟨_, hn, by simp⟩

theorem setName_ok {s s' : Slots} {k : Nat} {n : List Char} (h : setName s k n = .ok s') :
    s' = rename s k n ∧ ∃ y, some (k, y) ∈ s := by
  rw [setName] at h
  split at h
  · rename_i ha
    exact ⟨(Except.ok.inj h).symm, any_iff.1 ha⟩
  · simp at h

theorem fresh_none {h : List NOp} {s : Slots} (hr : Reach h s) {k : Nat} (hf : Fresh h k) : ∀ n, some (k, n) ∉ s := by
  induction hr with
  | nil => simp
  | push h1 h2 h3 ih =>
    intro n hn
    rcases (mem_push h3).1 hn with ⟨rfl, -⟩ | hn
    · exact hf _ _ List.mem_cons_self
    · exact ih (fun i ty hm => hf i ty (List.mem_cons_of_mem _ hm)) n hn
  | setName h1 h2 ih =>
    intro n hn
    obtain ⟨rfl, y, hy⟩ := setName_ok h2
    have ih' := ih (fun i ty hm => hf i ty (List.mem_cons_of_mem _ hm))
    rcases mem_rename.1 hn with ⟨rfl, -, -⟩ | ⟨-, hn⟩
    · exact ih' y hy
    · exact ih' n hn
  | remove h1 ih =>
    intro n hn
    exact ih (fun i ty hm => hf i ty (List.mem_cons_of_mem _ hm)) n (mem_remove.1 hn).2

theorem mem_iff {h : List NOp} {s : Slots} (hr : Reach h s) (k : Nat) (n : List Char) :
    some (k, n) ∈ s ↔ nameOf h k = some n := by
  induction hr generalizing n with
  | nil => simp [nameOf]
  | @push h s s' i k' ty h1 h2 h3 ih =>
    rw [mem_push h3, nameOf]
    by_cases hk : k' = k
    · subst hk
      have := fresh_none h1 h2 n
      simp [this, eq_comm]
    · rw [if_neg hk, ih]
      simp [Ne.symm hk]
  | @setName h s s' k' n' h1 h2 ih =>
    obtain ⟨rfl, y, hy⟩ := setName_ok h2
    rw [mem_rename, nameOf]
    by_cases hk : k' = k
    · subst hk
      simp only [true_and, ne_eq, not_true_eq_false, false_and, or_false, if_true, Option.some.injEq]
      exact ⟨fun h => h.1.symm, fun h => ⟨h.symm, y, hy⟩⟩
    · rw [if_neg hk, ← ih]
      simp [Ne.symm hk]
  | @remove h s k' h1 ih =>
    rw [mem_remove, nameOf]
    by_cases hk : k' = k
    · simp [hk]
    · rw [if_neg hk, ih]
      simp [Ne.symm hk]

theorem lookup_some {s : Slots} {n : List Char} {k : Nat} (h : lookup s n = some k) : some (k, n) ∈ s := by
  induction s with
  | nil => simp [lookup] at h
  | cons x s ih =>
    rcases x with _ | ⟨k', n'⟩
    · exact List.mem_cons_of_mem _ (ih h)
    · rw [lookup] at h
      split at h
      · rename_i hn
        rw [← hn, ← Option.some.inj h]
        exact List.mem_cons_self
      · exact List.mem_cons_of_mem _ (ih h)

theorem lookup_none {s : Slots} {n : List Char} (h : lookup s n = none) (k : Nat) : some (k, n) ∉ s := by
  induction s with
  | nil => simp
  | cons x s ih =>
    rcases x with _ | ⟨k', n'⟩
    · simpa using ih h
    · rw [lookup] at h
      split at h
      · simp at h
      · rename_i hn
        simp only [List.mem_cons, Option.some.injEq, Prod.mk.injEq, not_or]
        exact ⟨fun h' => hn h'.2.symm, ih h⟩

/-- **C87.**  Looking up a name gives a node that has this name, and gives one whenever there is one; so if only one node has
the name, it is the one that is found, whatever else is added, named and removed. -/
theorem C87_lookup {h : List NOp} {s : Slots} (hr : Reach h s) (n : List Char) :
    (∀ k, lookup s n = some k → nameOf h k = some n) ∧
    (lookup s n = none ↔ ∀ k, nameOf h k ≠ some n) ∧
    (∀ k, nameOf h k = some n → (∀ k', nameOf h k' = some n → k' = k) → lookup s n = some k) := by
  have h1 : ∀ k, lookup s n = some k → nameOf h k = some n := fun k hk => (mem_iff hr k n).1 (lookup_some hk)
  have h2 : lookup s n = none → ∀ k, nameOf h k ≠ some n := fun hn k hk => lookup_none hn k ((mem_iff hr k n).2 hk)
  refine ⟨h1, ⟨h2, fun hn => ?_⟩, ?_⟩
  · cases hl : lookup s n with
    | none => rfl
    | some k => exact absurd (h1 k hl) (hn k)
  · intro k hk hu
    cases hl : lookup s n with
    | none => exact absurd hk (h2 hl k)
    | some k' => rw [hu k' (h1 k' hl)]

/-- **C87.**  Giving a node a name works exactly if the node is still there; else it panics. -/
theorem C87_setName {h : List NOp} {s : Slots} (hr : Reach h s) (k : Nat) (n : List Char) :
    (nameOf h k ≠ none → ∃ s', setName s k n = .ok s' ∧ Reach (.setName k n :: h) s') ∧
    (nameOf h k = none → setName s k n = .error .index) := by
  constructor
  · intro hk
    obtain ⟨x, hx⟩ := Option.ne_none_iff_exists'.1 hk
    have ha := any_iff.2 ⟨x, (mem_iff hr k x).2 hx⟩
    have hs : setName s k n = .ok (rename s k n) := by rw [setName]; exact if_pos ha
    exact ⟨_, hs, .setName hr hs⟩
  · intro hk
    rw [setName]
    refine if_neg fun ha => ?_
    obtain ⟨x, hx⟩ := any_iff.1 ha
    rw [(mem_iff hr k x).1 hx] at hk
    simp at hk

/-- Three nodes: the first is removed, the third takes its place and is given a name. -/
def demoHist : List NOp := [.setName 2 "bass".toList, .push 0 2 "a::Osc<f32>".toList, .remove 0, .push 1 1 "a::Osc<f32>".toList,
  .push 0 0 "b::Env".toList]

theorem demo_reach : Reach demoHist [some (2, "bass".toList), some (1, "Osc<f32>".toList)] := by
  have h0 := Reach.nil
  have h1 : Reach _ [some (0, "Env".toList)] := h0.push (i := 0) (k := 0) (ty := "b::Env".toList) (by simp [Fresh]) (by decide +kernel)
  have h2 : Reach _ [some (0, "Env".toList), some (1, "Osc<f32>".toList)] :=
    h1.push (i := 1) (k := 1) (ty := "a::Osc<f32>".toList) (by simp [Fresh]) (by decide +kernel)
  have h3 : Reach _ [none, some (1, "Osc<f32>".toList)] := h2.remove (k := 0)
  have h4 : Reach _ [some (2, "Osc<f32>".toList), some (1, "Osc<f32>".toList)] :=
    h3.push (i := 0) (k := 2) (ty := "a::Osc<f32>".toList) (by simp [Fresh]) (by decide +kernel)
  exact h4.setName (k := 2) (n := "bass".toList) (by decide +kernel)

example : lookup [some (2, "bass".toList), some (1, "Osc<f32>".toList)] "bass".toList = some 2 ∧
    nameOf demoHist 2 = some "bass".toList ∧ nameOf demoHist 1 = some "Osc<f32>".toList ∧ nameOf demoHist 0 = none := by
  refine ⟨by decide +kernel, by decide +kernel, by decide +kernel, by decide +kernel⟩

/-- C87 is false when a name is given twice: the node that was named last is not found. -/
theorem C87_same_violated : ∃ h s, Reach (.setName 1 "x".toList :: h) s ∧ lookup s "x".toList = some 0 := by
  have h0 := Reach.nil
  have h1 : Reach _ [some (0, "Env".toList)] := h0.push (i := 0) (k := 0) (ty := "b::Env".toList) (by simp [Fresh]) (by decide +kernel)
  have h2 : Reach _ [some (0, "Env".toList), some (1, "Osc".toList)] :=
    h1.push (i := 1) (k := 1) (ty := "a::Osc".toList) (by simp [Fresh]) (by decide +kernel)
  have h3 : Reach _ [some (0, "x".toList), some (1, "Osc".toList)] := h2.setName (k := 0) (n := "x".toList) (by decide +kernel)
  have h4 : Reach _ [some (0, "x".toList), some (1, "x".toList)] := h3.setName (k := 1) (n := "x".toList) (by decide +kernel)
  exact ⟨_, _, h4, by decide +kernel⟩

/-- **C87.**  Whether a node with some identifier exists: it has to be of this graph and still there. -/
theorem C87_hasNode {h : List NOp} {s : Slots} (hr : Reach h s) (graph : Nat) (id : Nat × Nat) :
    hasNode graph s id = true ↔ id.1 = graph ∧ nameOf h id.2 ≠ none := by
  rw [hasNode, Bool.and_eq_true, decide_eq_true_eq]
  refine and_congr_right fun _ => (any_iff (s := s) (k := id.2)).trans ?_
  rw [Option.ne_none_iff_exists']
  exact exists_congr fun n => mem_iff hr id.2 n

/-- C87 is false for nodes of other graphs: naming a node that is not in the graph gives the name to the node of the graph that
happens to have its key.  (The keys of every graph are given out in the same order.) -/
theorem C87_foreign_violated {h : List NOp} {s : Slots} (hr : Reach h s) (graph other : Nat) (hg : other ≠ graph) (k : Nat)
    (n : List Char) (hk : nameOf h k ≠ none) :
    hasNode graph s (other, k) = false ∧ ∃ s', setNameId s (other, k) n = .ok s' ∧ some (k, n) ∈ s' := by
  constructor
  · rw [hasNode, decide_eq_false hg, Bool.false_and]
  · obtain ⟨s', h1, h2⟩ := (C87_setName hr k n).1 hk
    exact ⟨s', h1, (mem_iff h2 k n).2 (if_pos rfl)⟩

example : Reach demoHist [some (2, "bass".toList), some (1, "Osc<f32>".toList)] ∧ nameOf demoHist 2 ≠ none :=
  ⟨demo_reach, by decide +kernel⟩

/-! ### Identifiers in the drawing -/

theorem digit_inj : ∀ a < 10, ∀ b < 10, Char.ofNat (48 + a) = Char.ofNat (48 + b) → a = b := by decide +kernel

theorem digit_ne : ∀ a < 10, Char.ofNat (48 + a) ≠ '_' ∧ Char.ofNat (48 + a) ≠ '"' ∧ Char.ofNat (48 + a) ≠ '\\' := by decide +kernel

theorem dec_ne_nil (n : Nat) : dec n ≠ [] := by
  rw [dec]
  split <;> simp

theorem dec_mem (n : Nat) : ∀ c ∈ dec n, c ≠ '_' ∧ c ≠ '"' ∧ c ≠ '\\' := by
  induction n using Nat.strongRecOn with
  | _ n ih =>
    rw [dec]
    split
    · rename_i h
      intro c hc
      rw [List.mem_singleton.1 hc]
      exact digit_ne n h
    · rename_i h
      intro c hc
      rcases List.mem_append.1 hc with hc | hc
      · exact ih (n / 10) (by omega) c hc
      · rw [List.mem_singleton.1 hc]
        exact digit_ne _ (Nat.mod_lt _ (by decide))

theorem dec_inj (n : Nat) : ∀ m, dec n = dec m → n = m := by
  induction n using Nat.strongRecOn with
  | _ n ih =>
    intro m h
    rw [dec, dec.eq_def m] at h
    split at h <;> split at h
    · rename_i h1 h2
      exact digit_inj n h1 m h2 (List.cons.inj h).1
    · have := congrArg List.length h
      have h2 := List.length_pos_of_ne_nil (dec_ne_nil (m / 10))
      simp only [List.length_append, List.length_singleton] at this
      omega
    · have := congrArg List.length h
      have h2 := List.length_pos_of_ne_nil (dec_ne_nil (n / 10))
      simp only [List.length_append, List.length_singleton] at this
      omega
    · rename_i h1 h2
      obtain ⟨h3, h4⟩ := List.append_inj' h rfl
      have h5 := ih (n / 10) (by omega) (m / 10) h3
      have h6 := digit_inj _ (Nat.mod_lt n (by decide)) _ (Nat.mod_lt m (by decide)) (List.cons.inj h4).1
      omega

/-- **C87.**  The nodes of a drawing have different identifiers, whatever their names are. -/
theorem C87_dot_distinct {i j : Nat} {a b : List Char} (h : dotId i a = dotId j b) : i = j ∧ a = b := by
  have key : ∀ (xs ys : List Char), (∀ c ∈ xs, c ≠ '_') → (∀ c ∈ ys, c ≠ '_') → xs ++ '_' :: a = ys ++ '_' :: b → xs = ys ∧ a = b := by
    intro xs
    induction xs with
    | nil =>
      intro ys _ hy h
      cases ys with
      | nil => exact ⟨rfl, (List.cons.inj h).2⟩
      | cons y ys => exact absurd (List.cons.inj h).1.symm (hy y List.mem_cons_self)
    | cons x xs ih =>
      intro ys hx hy h
      cases ys with
      | nil => exact absurd (List.cons.inj h).1 (hx x List.mem_cons_self)
      | cons y ys =>
        obtain ⟨h1, h2⟩ := List.cons.inj h
        obtain ⟨h3, h4⟩ := ih ys (fun c hc => hx c (List.mem_cons_of_mem _ hc)) (fun c hc => hy c (List.mem_cons_of_mem _ hc)) h2
        exact ⟨by rw [h1, h3], h4⟩
  obtain ⟨h1, h2⟩ := key _ _ (fun c hc => (dec_mem i c hc).1) (fun c hc => (dec_mem j c hc).1) h
  exact ⟨dec_inj i j h1, h2⟩

/-- **C87.**  An identifier is read back as it was written, if the name has no quotes and backslashes. -/
theorem C87_dot_read_partial (i : Nat) (name rest : List Char) (hn : ∀ c ∈ name, c ≠ '"' ∧ c ≠ '\\') :
    ∃ s, quoted (dotId i name) ++ rest = '"' :: s ∧ readQuoted s = some (dotId i name, rest) := by
  refine ⟨dotId i name ++ '"' :: rest, by simp [quoted], ?_⟩
  have hall : ∀ c ∈ dotId i name, c ≠ '"' ∧ c ≠ '\\' := by
    intro c hc
    simp only [dotId, List.mem_append, List.mem_cons] at hc
    rcases hc with hc | rfl | hc
    · exact ⟨(dec_mem i c hc).2.1, (dec_mem i c hc).2.2⟩
    · decide
    · exact hn c hc
  generalize dotId i name = w at *
  induction w with
  | nil => simp [readQuoted]
  | cons c w ih =>
    have hc := hall c List.mem_cons_self
    rw [List.cons_append, readQuoted.eq_4 c _ hc.1 (fun cs h _ => hc.2 h), ih fun x hx => hall x (List.mem_cons_of_mem _ hx)]
    rfl

/-- C87 is false for names with quotes, which can be given with `set_name`: the identifier ends at the quote. -/
theorem C87_dot_read_violated :
    readQuoted ((quoted (dotId 3 "a\"b".toList)).drop 1) = some ("3_a".toList, "b\"".toList) := by decide +kernel

/-- C87 is false for names with an ampersand, such as those of types with references: only angle brackets are replaced in the
label, which then has a bare ampersand in its HTML. -/
theorem C87_label_violated : labelName "Read<&u8>".toList = "Read&#60;&u8&#62;".toList := by decide +kernel

example : dotId 12 "Osc<f32>".toList = "12_Osc<f32>".toList ∧ labelName "Osc<f32>".toList = "Osc&#60;f32&#62;".toList := by
  refine ⟨by decide +kernel, by decide +kernel⟩

end Verif.Nm
