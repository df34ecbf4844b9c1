import Verif.Model.Nested
import Verif.Props.System
import Mathlib.Data.Prod.Lex

/-!
# Graphs inside graphs: the meaning of wirings and the invariant of the machine
-/

namespace Verif.Ne

open Verif.G
open Verif.Sys (Y Fine)

/-! ### Wirings -/

/-- Where a channel comes from. -/
inductive Wire (N : Type) where
  | node (n : N) (c : Nat)
  | input (c : Nat)
  | silent
  deriving DecidableEq

/-- A wiring of nodes. -/
structure Net (N : Type) where
  live : N → Prop
  ins : N → List (Wire N)
  pars : N → List (Nat × Wire N)
  outs : List (Wire N)

section
variable {S : Type} [Zero S]

/-- The samples of a channel. -/
def Wire.val {N : Type} (bs : Nat) (inp : Nat → Nat → S) (out : N → Nat → Nat → S) : Wire N → List S
  | .node n c => (List.range bs).map (out n c)
  | .input c => (List.range bs).map (inp c)
  | .silent => List.replicate bs 0

/-- What a unit may do in a block: from its state, its input channels and its linked parameters to a new
state and output samples. -/
abbrev Beh (S σ : Type) := σ → List (List S) → List (Nat × List S) → σ → (Nat → Nat → S) → Prop

/-- One block of a wiring. -/
structure Net.Run {N : Type} {σ : N → Type} (P : Net N) (U : ∀ n, Beh S (σ n)) (bs : Nat) (inp : Nat → Nat → S)
    (st st' : ∀ n, σ n) (out : N → Nat → Nat → S) : Prop where
  step : ∀ n, P.live n → U n (st n) ((P.ins n).map (Wire.val bs inp out))
    ((P.pars n).map fun p => (p.1, p.2.val bs inp out)) (st' n) (out n)
  idle : ∀ n, ¬ P.live n → st' n = st n

/-- A wiring as a unit of another one: its inputs and outputs are those of the unit. -/
def Sub {M : Type} {τ : M → Type} (G : Net M) (U : ∀ m, Beh S (τ m)) (bs : Nat) : Beh S (∀ m, τ m) :=
  fun st ins _ st' o => ∃ out, G.Run U bs (chan ins) st st' out ∧
    ∀ c, ∀ i < bs, o c i = ((G.outs.getD c .silent).val bs (chan ins) out).getD i 0

/-! ### Putting the nodes of an inner wiring into the outer one -/

variable {N M : Type}

/-- A channel of the outer wiring that does not come from the inner one. -/
def up : Wire (Option N) → Wire (N ⊕ M)
  | .node (some n) c => .node (.inl n) c
  | .node none _ => .silent
  | .input c => .input c
  | .silent => .silent

/-- A channel of the inner wiring: its inputs come from what the outer node is connected to. -/
def down (P : Net (Option N)) : Wire M → Wire (N ⊕ M)
  | .node m c => .node (.inr m) c
  | .input c => up ((P.ins none).getD c .silent)
  | .silent => .silent

/-- A channel of the outer wiring: the outputs of the outer node are those of the inner wiring. -/
def flatW (P : Net (Option N)) (G : Net M) : Wire (Option N) → Wire (N ⊕ M)
  | .node none c => down P (G.outs.getD c .silent)
  | w => up w

/-- The outer wiring with the inner one in the place of the node `none`. -/
def inline (P : Net (Option N)) (G : Net M) : Net (N ⊕ M) where
  live n := match n with
    | .inl n => P.live (some n)
    | .inr m => G.live m
  ins n := match n with
    | .inl n => (P.ins (some n)).map (flatW P G)
    | .inr m => (G.ins m).map (down P)
  pars n := match n with
    | .inl n => (P.pars (some n)).map fun p => (p.1, flatW P G p.2)
    | .inr m => (G.pars m).map fun p => (p.1, down P p.2)
  outs := P.outs.map (flatW P G)

/-- The states of the units. -/
abbrev OSt (σ : N → Type) (τ : M → Type) : Option N → Type
  | some n => σ n
  | none => ∀ m, τ m

/-- The states of all nodes of the flat wiring. -/
abbrev FSt (σ : N → Type) (τ : M → Type) : N ⊕ M → Type
  | .inl n => σ n
  | .inr m => τ m

/-- The units of the outer wiring, the inner wiring being the unit of `none`. -/
def outerU {σ : N → Type} {τ : M → Type} (G : Net M) (U : ∀ n, Beh S (σ n)) (V : ∀ m, Beh S (τ m)) (bs : Nat) :
    ∀ n, Beh S (OSt σ τ n)
  | some n => U n
  | none => Sub G V bs

/-- The units of the flat wiring. -/
def flatU {σ : N → Type} {τ : M → Type} (U : ∀ n, Beh S (σ n)) (V : ∀ m, Beh S (τ m)) : ∀ n, Beh S (FSt σ τ n)
  | .inl n => U n
  | .inr m => V m

/-- The states of the flat wiring. -/
def flatSt {σ : N → Type} {τ : M → Type} (st : ∀ n, OSt σ τ n) : ∀ n, FSt σ τ n
  | .inl n => st (some n)
  | .inr m => st none m

theorem val_length {K : Type} (bs : Nat) (inp : Nat → Nat → S) (out : K → Nat → Nat → S) (w : Wire K) :
    (w.val bs inp out).length = bs := by
  cases w <;> simp [Wire.val]

theorem chan_val {K : Type} {bs : Nat} {inp : Nat → Nat → S} {out : K → Nat → Nat → S} {ws : List (Wire K)} {c : Nat} :
    (List.range bs).map (chan (ws.map (Wire.val bs inp out)) c) = (ws.getD c .silent).val bs inp out := by
  have : (ws.map (Wire.val bs inp out)).getD c [] = if c < ws.length then (ws.getD c .silent).val bs inp out else [] := by
    simp only [List.getD_eq_getElem?_getD, List.getElem?_map]
    split_ifs with h
    · simp [List.getElem?_eq_getElem h]
    · simp [List.getElem?_eq_none (Nat.le_of_not_lt h)]
  refine List.ext_getElem (by simp [val_length]) ?_
  intro i h1 h2
  simp only [List.length_map, List.length_range] at h1
  simp only [List.getElem_map, List.getElem_range, chan, this]
  split_ifs with h
  · rw [List.getD_eq_getElem?_getD, List.getElem?_eq_getElem h2, Option.getD_some]
  · have e : ws.getD c .silent = .silent := by
      simp [List.getD_eq_getElem?_getD, List.getElem?_eq_none (Nat.le_of_not_lt h)]
    simp only [e, Wire.val, List.getElem_replicate]
    rfl

/-- Reading a channel the inner wiring hands through is reading what it comes from. -/
theorem map_getD {bs : Nat} {l : List S} (h : l.length = bs) {f : Nat → S} (hf : ∀ i < bs, f i = l.getD i 0) :
    (List.range bs).map f = l := by
  refine List.ext_getElem (by simp [h]) ?_
  intro i h1 h2
  simp only [List.length_map, List.length_range] at h1
  simp [hf i h1, List.getElem?_eq_getElem h2]

/-- The samples of the flat wiring from those of the two wirings. -/
def flatOut (out : Option N → Nat → Nat → S) (outG : M → Nat → Nat → S) : N ⊕ M → Nat → Nat → S
  | .inl n => out (some n)
  | .inr m => outG m

theorem up_val {bs : Nat} {inp : Nat → Nat → S} {out : Option N → Nat → Nat → S} {outG : M → Nat → Nat → S}
    {w : Wire (Option N)} (h : ∀ c, w ≠ .node none c) :
    (up w : Wire (N ⊕ M)).val bs inp (flatOut out outG) = w.val bs inp out := by
  match w, h with
  | .node (some n) c, _ => rfl
  | .node none c, h => exact absurd rfl (h c)
  | .input c, _ => rfl
  | .silent, _ => rfl

theorem down_val {P : Net (Option N)} (hself : ∀ c, .node none c ∉ P.ins none) {bs : Nat} {inp : Nat → Nat → S}
    {out : Option N → Nat → Nat → S} {outG : M → Nat → Nat → S} (w : Wire M) :
    (down P w).val bs inp (flatOut out outG) =
      w.val bs (chan ((P.ins none).map (Wire.val bs inp out))) outG := by
  cases w with
  | node m c => rfl
  | silent => rfl
  | input c =>
    show (up ((P.ins none).getD c .silent) : Wire (N ⊕ M)).val bs inp (flatOut out outG) =
      (List.range bs).map (chan ((P.ins none).map (Wire.val bs inp out)) c)
    rw [up_val, chan_val]
    intro d hd
    refine hself d ?_
    rw [List.getD_eq_getElem?_getD] at hd
    cases hx : (P.ins none)[c]? with
    | none => simp [hx] at hd
    | some w =>
      simp only [hx, Option.getD_some] at hd
      exact hd ▸ List.mem_of_getElem? hx

theorem flatW_val {P : Net (Option N)} {G : Net M} (hself : ∀ c, .node none c ∉ P.ins none) {bs : Nat}
    {inp : Nat → Nat → S} {out : Option N → Nat → Nat → S} {outG : M → Nat → Nat → S}
    (ho : ∀ c, ∀ i < bs, out none c i = ((G.outs.getD c .silent).val bs
      (chan ((P.ins none).map (Wire.val bs inp out))) outG).getD i 0) (w : Wire (Option N)) :
    (flatW P G w).val bs inp (flatOut out outG) = w.val bs inp out := by
  match w with
  | .node none c =>
    simp only [flatW]
    rw [down_val hself]
    exact (map_getD (val_length ..) (ho c)).symm
  | .node (some n) c => rfl
  | .input c => rfl
  | .silent => rfl

/-- A run of the outer wiring with the inner one as a unit is a run of the flat wiring. -/
theorem inline_of_run {σ : N → Type} {τ : M → Type} {P : Net (Option N)} {G : Net M}
    (hself : ∀ c, .node none c ∉ P.ins none) {U : ∀ n, Beh S (σ n)} {V : ∀ m, Beh S (τ m)} {bs : Nat}
    {inp : Nat → Nat → S} {st st' : ∀ n, OSt σ τ n} {out : Option N → Nat → Nat → S} (hlive : P.live none)
    (h : P.Run (outerU G U V bs) bs inp st st' out) :
    ∃ outF, (inline P G).Run (flatU U V) bs inp (flatSt st) (flatSt st') outF ∧
      (∀ n, outF (.inl n) = out (some n)) ∧
      (inline P G).outs.map (Wire.val bs inp outF) = P.outs.map (Wire.val bs inp out) := by
  obtain ⟨outG, hG, ho⟩ := h.step none hlive
  have hw := flatW_val (G := G) hself (inp := inp) (out := out) ho
  refine ⟨flatOut out outG, ⟨?_, ?_⟩, fun _ => rfl, ?_⟩
  · intro n hn
    cases n with
    | inl n =>
      have := h.step (some n) hn
      simp only [inline, List.map_map]
      have e1 : (P.ins (some n)).map (Wire.val bs inp (flatOut out outG) ∘ flatW P G) =
          (P.ins (some n)).map (Wire.val bs inp out) := List.map_congr_left fun w _ => hw w
      have e2 : (P.pars (some n)).map ((fun p : Nat × Wire (N ⊕ M) => (p.1, p.2.val bs inp (flatOut out outG))) ∘
          fun p => (p.1, flatW P G p.2)) = (P.pars (some n)).map fun p => (p.1, p.2.val bs inp out) :=
        List.map_congr_left fun p _ => by simp [hw p.2]
      rw [e1, e2]
      exact this
    | inr m =>
      have := hG.step m hn
      simp only [inline, List.map_map]
      have e1 : (G.ins m).map (Wire.val bs inp (flatOut out outG) ∘ down P) =
          (G.ins m).map (Wire.val bs (chan ((P.ins none).map (Wire.val bs inp out))) outG) :=
        List.map_congr_left fun w _ => down_val hself w
      have e2 : (G.pars m).map ((fun p : Nat × Wire (N ⊕ M) => (p.1, p.2.val bs inp (flatOut out outG))) ∘
          fun p => (p.1, down P p.2)) =
          (G.pars m).map fun p => (p.1, p.2.val bs (chan ((P.ins none).map (Wire.val bs inp out))) outG) :=
        List.map_congr_left fun p _ => by simp [down_val hself p.2]
      rw [e1, e2]
      exact this
  · intro n hn
    cases n with
    | inl n => exact h.idle (some n) hn
    | inr m => exact hG.idle m hn
  · simp only [inline, List.map_map]
    exact List.map_congr_left fun w _ => hw w

/-- A run of the flat wiring is a run of the outer wiring with the inner one as a unit. -/
theorem run_of_inline {σ : N → Type} {τ : M → Type} {P : Net (Option N)} {G : Net M}
    (hself : ∀ c, .node none c ∉ P.ins none) {U : ∀ n, Beh S (σ n)} {V : ∀ m, Beh S (τ m)} {bs : Nat}
    {inp : Nat → Nat → S} {st st' : ∀ n, OSt σ τ n} {outF : N ⊕ M → Nat → Nat → S} (hlive : P.live none)
    (h : (inline P G).Run (flatU U V) bs inp (flatSt st) (flatSt st') outF) :
    ∃ out, P.Run (outerU G U V bs) bs inp st st' out ∧ (∀ n, outF (.inl n) = out (some n)) ∧
      (inline P G).outs.map (Wire.val bs inp outF) = P.outs.map (Wire.val bs inp out) := by
  -- the outputs of the inner wiring
  let out0 : Option N → Nat → Nat → S
    | some n => outF (.inl n)
    | none => fun _ _ => 0
  let outG : M → Nat → Nat → S := fun m => outF (.inr m)
  let out : Option N → Nat → Nat → S
    | some n => outF (.inl n)
    | none => fun c i => ((G.outs.getD c .silent).val bs (chan ((P.ins none).map (Wire.val bs inp out0))) outG).getD i 0
  have hins : (P.ins none).map (Wire.val bs inp out) = (P.ins none).map (Wire.val bs inp out0) := by
    refine List.map_congr_left ?_
    intro w hwm
    match w, hwm with
    | .node (some n) c, _ => rfl
    | .node none c, hwm => exact absurd hwm (hself c)
    | .input c, _ => rfl
    | .silent, _ => rfl
  have hF : outF = flatOut out outG := by
    funext n
    cases n <;> rfl
  have ho : ∀ c, ∀ i < bs, out none c i = ((G.outs.getD c .silent).val bs
      (chan ((P.ins none).map (Wire.val bs inp out))) outG).getD i 0 := by
    intro c i _
    rw [hins]
  have hw := flatW_val (G := G) hself (inp := inp) (out := out) ho
  rw [hF] at h
  refine ⟨out, ⟨?_, ?_⟩, fun _ => rfl, ?_⟩
  · intro n hn
    cases n with
    | some n =>
      have := h.step (.inl n) hn
      simp only [inline, List.map_map] at this
      have e1 : (P.ins (some n)).map (Wire.val bs inp (flatOut out outG) ∘ flatW P G) =
          (P.ins (some n)).map (Wire.val bs inp out) := List.map_congr_left fun w _ => hw w
      have e2 : (P.pars (some n)).map ((fun p : Nat × Wire (N ⊕ M) => (p.1, p.2.val bs inp (flatOut out outG))) ∘
          fun p => (p.1, flatW P G p.2)) = (P.pars (some n)).map fun p => (p.1, p.2.val bs inp out) :=
        List.map_congr_left fun p _ => by simp [hw p.2]
      rw [e1, e2] at this
      exact this
    | none =>
      refine ⟨outG, ⟨?_, ?_⟩, ho⟩
      · intro m hm
        have := h.step (.inr m) hm
        simp only [inline, List.map_map] at this
        have e1 : (G.ins m).map (Wire.val bs inp (flatOut out outG) ∘ down P) =
            (G.ins m).map (Wire.val bs (chan ((P.ins none).map (Wire.val bs inp out))) outG) :=
          List.map_congr_left fun w _ => down_val hself w
        have e2 : (G.pars m).map ((fun p : Nat × Wire (N ⊕ M) => (p.1, p.2.val bs inp (flatOut out outG))) ∘
            fun p => (p.1, down P p.2)) =
            (G.pars m).map fun p => (p.1, p.2.val bs (chan ((P.ins none).map (Wire.val bs inp out))) outG) :=
          List.map_congr_left fun p _ => by simp [down_val hself p.2]
        rw [e1, e2] at this
        exact this
      · intro m hm
        exact h.idle (.inr m) hm
  · intro n hn
    cases n with
    | some n => exact h.idle (.inl n) hn
    | none => exact absurd hlive hn
  · rw [hF]
    simp only [inline, List.map_map]
    exact List.map_congr_left fun w _ => hw w

/-! ### Wirings without cycles leave no choice -/

/-- The wire comes out of one of the nodes `A`. -/
def Wire.From {K : Type} (w : Wire K) (A : K → Prop) : Prop := ∀ m c, w = .node m c → A m

/-- Live nodes are fed by live nodes of lower rank only, outputs by live nodes only. -/
structure Net.Ranked {K : Type} (P : Net K) {α : Type} [LT α] (r : K → α) : Prop where
  ins : ∀ n, P.live n → ∀ w ∈ P.ins n, w.From fun m => P.live m ∧ r m < r n
  pars : ∀ n, P.live n → ∀ p ∈ P.pars n, p.2.From fun m => P.live m ∧ r m < r n
  outs : ∀ w ∈ P.outs, w.From P.live

/-- The unit has no choice in state `s`. -/
def Beh.Det {σ : Type} (B : Beh S σ) (bs : Nat) (s : σ) : Prop :=
  ∀ ins ps s1 o1 s2 o2, B s ins ps s1 o1 → B s ins ps s2 o2 → s1 = s2 ∧ ∀ c, ∀ i < bs, o1 c i = o2 c i

theorem val_congr {K : Type} {bs : Nat} {inp : Nat → Nat → S} {out1 out2 : K → Nat → Nat → S} {w : Wire K}
    (h : w.From fun m => ∀ c, ∀ i < bs, out1 m c i = out2 m c i) : w.val bs inp out1 = w.val bs inp out2 := by
  cases w with
  | node m c =>
    simp only [Wire.val]
    exact List.map_congr_left fun i hi => h m c rfl c i (List.mem_range.1 hi)
  | input c => rfl
  | silent => rfl

theorem Net.Run.unique {K : Type} {σ : K → Type} {P : Net K} {α : Type} [LT α] [WellFoundedLT α] {r : K → α}
    (hr : P.Ranked r) {U : ∀ n, Beh S (σ n)} {bs : Nat} {inp : Nat → Nat → S}
    {st st1 st2 : ∀ n, σ n} (hU : ∀ n, P.live n → (U n).Det bs (st n)) {out1 out2 : K → Nat → Nat → S}
    (h1 : P.Run U bs inp st st1 out1) (h2 : P.Run U bs inp st st2 out2) :
    st1 = st2 ∧ (∀ n, P.live n → ∀ c, ∀ i < bs, out1 n c i = out2 n c i) ∧
      P.outs.map (Wire.val bs inp out1) = P.outs.map (Wire.val bs inp out2) := by
  have key : ∀ x : α, ∀ n, r n = x → P.live n → st1 n = st2 n ∧ ∀ c, ∀ i < bs, out1 n c i = out2 n c i := by
    intro x
    induction x using WellFoundedLT.induction with
    | _ x ih =>
      intro n hn hl
      have e1 : (P.ins n).map (Wire.val bs inp out1) = (P.ins n).map (Wire.val bs inp out2) := by
        refine List.map_congr_left fun w hw => val_congr fun m c e => ?_
        obtain ⟨h3, h4⟩ := hr.ins n hl w hw m c e
        exact (ih (r m) (hn ▸ h4) m rfl h3).2
      have e2 : ((P.pars n).map fun p => (p.1, p.2.val bs inp out1)) =
          (P.pars n).map fun p => (p.1, p.2.val bs inp out2) := by
        refine List.map_congr_left fun p hp => ?_
        rw [val_congr fun m c e => ?_]
        obtain ⟨h3, h4⟩ := hr.pars n hl p hp m c e
        exact (ih (r m) (hn ▸ h4) m rfl h3).2
      have s1 := h1.step n hl
      rw [e1, e2] at s1
      exact hU n hl _ _ _ _ _ _ s1 (h2.step n hl)
  refine ⟨?_, fun n hn => (key _ n rfl hn).2, ?_⟩
  · funext n
    by_cases hl : P.live n
    · exact (key _ n rfl hl).1
    · rw [h1.idle n hl, h2.idle n hl]
  · refine List.map_congr_left fun w hw => val_congr fun m c e => ?_
    exact (key _ m rfl (hr.outs w hw m c e)).2

/-- The ranks of the flat wiring: the nodes of the inner one take the place of the outer node. -/
def flatRank {α β : Type} [Bot β] (r : Option N → α) (q : M → β) : N ⊕ M → α ×ₗ β
  | .inl n => toLex (r (some n), ⊥)
  | .inr m => toLex (r none, q m)

theorem mem_getD {K : Type} {l : List (Wire K)} {c : Nat} {n : K} {d : Nat} (h : l.getD c .silent = .node n d) :
    .node n d ∈ l := by
  rw [List.getD_eq_getElem?_getD] at h
  cases hx : l[c]? with
  | none => simp [hx] at h
  | some w =>
    simp only [hx, Option.getD_some] at h
    exact h ▸ List.mem_of_getElem? hx

theorem inline_ranked {α β : Type} [Preorder α] [Preorder β] [OrderBot β] {P : Net (Option N)} {G : Net M}
    {r : Option N → α} {q : M → β} (hP : P.Ranked r) (hG : G.Ranked q) (hlive : P.live none) :
    (inline P G).Ranked (flatRank r q) := by
  -- wires that do not pass through the inner wiring
  have hup : ∀ (w : Wire (Option N)) (A : Option N → Prop), w.From A → ¬ A none →
      (up w : Wire (N ⊕ M)).From fun m => ∃ n, m = .inl n ∧ A (some n) := by
    intro w A hw hA m c e
    match w, hw, e with
    | .node (some n) c', hw, e =>
      simp only [up, Wire.node.injEq] at e
      exact ⟨n, e.1.symm, hw _ _ rfl⟩
    | .node none c', hw, e => exact absurd (hw _ _ rfl) hA
    | .input c', hw, e => simp [up] at e
    | .silent, hw, e => simp [up] at e
  have hdown : ∀ (w : Wire M) (B : M → Prop), w.From B →
      (down P w).From fun m => (∃ n, m = .inl n ∧ P.live (some n) ∧ r (some n) < r none) ∨ ∃ i, m = .inr i ∧ B i := by
    intro w B hw m c e
    match w, hw, e with
    | .node i c', hw, e =>
      simp only [down, Wire.node.injEq] at e
      exact .inr ⟨i, e.1.symm, hw _ _ rfl⟩
    | .input c', hw, e =>
      refine .inl (hup _ (fun n => P.live n ∧ r n < r none) ?_ (fun h => lt_irrefl _ h.2) m c e)
      intro n d hn
      exact hP.ins none hlive _ (mem_getD hn) _ _ rfl
    | .silent, hw, e => simp [down] at e
  have hflat : ∀ (w : Wire (Option N)) (x : α), (w.From fun m => P.live m ∧ r m < x) →
      (flatW P G w).From fun m => (inline P G).live m ∧ ∀ b : β, flatRank r q m < toLex (x, b) := by
    intro w x hw m c e
    match w, hw, e with
    | .node (some n) c', hw, e =>
      simp only [flatW, up, Wire.node.injEq] at e
      rw [← e.1]
      have := hw _ _ rfl
      exact ⟨this.1, fun b => by simp [flatRank, Prod.Lex.lt_iff, this.2]⟩
    | .node none c', hw, e =>
      have h0 := (hw _ _ rfl).2
      rcases hdown _ G.live (fun i d hd => hG.outs _ (mem_getD hd) _ _ rfl) m c e with ⟨n, rfl, h1, h2⟩ | ⟨i, rfl, h1⟩
      · exact ⟨h1, fun b => by simp [flatRank, Prod.Lex.lt_iff, lt_trans h2 h0]⟩
      · exact ⟨h1, fun b => by simp [flatRank, Prod.Lex.lt_iff, h0]⟩
    | .input c', hw, e => simp [flatW, up] at e
    | .silent, hw, e => simp [flatW, up] at e
  have hinner : ∀ (w : Wire M) (i : M), (w.From fun m => G.live m ∧ q m < q i) →
      (down P w).From fun m => (inline P G).live m ∧ flatRank r q m < flatRank r q (.inr i : N ⊕ M) := by
    intro w i hw m c e
    rcases hdown w _ hw m c e with ⟨n, rfl, h1, h2⟩ | ⟨j, rfl, h1, h2⟩
    · exact ⟨h1, by simp [flatRank, Prod.Lex.lt_iff, h2]⟩
    · exact ⟨h1, by simp [flatRank, Prod.Lex.lt_iff, h2]⟩
  refine ⟨?_, ?_, ?_⟩
  · intro n hn w hw
    cases n with
    | inl n =>
      obtain ⟨w0, h0, rfl⟩ := List.mem_map.1 hw
      intro m c e
      obtain ⟨h1, h2⟩ := hflat w0 _ (hP.ins _ hn _ h0) m c e
      exact ⟨h1, h2 _⟩
    | inr i =>
      obtain ⟨w0, h0, rfl⟩ := List.mem_map.1 hw
      exact hinner w0 i (hG.ins _ hn _ h0)
  · intro n hn w hw
    cases n with
    | inl n =>
      obtain ⟨w0, h0, rfl⟩ := List.mem_map.1 hw
      intro m c e
      obtain ⟨h1, h2⟩ := hflat w0.2 _ (hP.pars _ hn _ h0) m c e
      exact ⟨h1, h2 _⟩
    | inr i =>
      obtain ⟨w0, h0, rfl⟩ := List.mem_map.1 hw
      exact hinner w0.2 i (hG.pars _ hn _ h0)
  · intro w hw
    obtain ⟨w0, h0, rfl⟩ := List.mem_map.1 hw
    intro m c e
    match w0, h0, e with
    | .node (some n) c', h0, e =>
      simp only [flatW, up, Wire.node.injEq] at e
      rw [← e.1]
      exact hP.outs _ h0 _ _ rfl
    | .node none c', h0, e =>
      rcases hdown _ G.live (fun i d hd => hG.outs _ (mem_getD hd) _ _ rfl) m c e with ⟨n, rfl, h1, h2⟩ | ⟨i, rfl, h1⟩
      · exact h1
      · exact h1
    | .input c', h0, e => simp [flatW, up] at e
    | .silent, h0, e => simp [flatW, up] at e

/-! ### The wiring of a graph -/

/-- A connection as a wire. -/
def wire : Option Edge → Wire Key
  | some ⟨.node a, c, _⟩ => .node a c
  | some ⟨.graph, c, _⟩ => .input c
  | none => .silent

/-- The wiring of a graph. -/
def net (g : Graph) : Net Key where
  live k := Live g k
  ins k := ((g.ins k).getD []).map wire
  pars k := ((g.pars k).getD []).map fun pe => (pe.param, .node pe.source pe.chan)
  outs := g.outs.map wire

theorem wire_val {bs : Nat} {inp : Nat → Nat → S} {out : Key → Nat → Nat → S} (e : Option Edge) :
    (wire e).val bs inp out = edgeVal bs inp out e := by
  match e with
  | none => rfl
  | some ⟨.node a, c, _⟩ => rfl
  | some ⟨.graph, c, _⟩ => rfl

theorem outs_val {g : Graph} {bs : Nat} {inp : Nat → Nat → S} {out : Key → Nat → Nat → S} :
    (net g).outs.map (Wire.val bs inp out) = g.outs.map (edgeVal bs inp out) := by
  simp only [net, List.map_map]
  exact List.map_congr_left fun e _ => wire_val e

/-- What an ordinary unit does. -/
def fn {St : Type} (proc : Proc S St) (k : Key) : Beh S St := fun s ins ps s' o => proc k s ins ps = (s', o)

theorem fn_det {St : Type} (proc : Proc S St) (k : Key) (bs : Nat) (s : St) : (fn proc k).Det bs s := by
  intro ins ps s1 o1 s2 o2 h1 h2
  have := h1.symm.trans h2
  simp only [Prod.mk.injEq] at this
  exact ⟨this.1, fun c i _ => by rw [this.2]⟩

theorem run_net {St : Type} {g : Graph} (hw : WF g) {bs : Nat} {proc : Proc S St} {inp : Nat → Nat → S}
    {st st' : Key → St} {out : Key → Nat → Nat → S} :
    BlockSpec g bs proc inp st st' out ↔ (net g).Run (fn proc) bs inp st st' out := by
  have hval : ∀ es : List (Option Edge), (es.map wire).map (Wire.val bs inp out) = es.map (edgeVal bs inp out) := by
    intro es
    rw [List.map_map]
    exact List.map_congr_left fun e _ => wire_val e
  constructor
  · intro h
    refine ⟨?_, h.idle⟩
    intro k hk
    obtain ⟨n, hn⟩ := Option.isSome_iff_exists.1 hk.1
    have hk2 : ¬ g.isPending k = true := by simp [hk.2]
    obtain ⟨es, hes⟩ := Option.ne_none_iff_exists'.1 (fun e => hk2 ((hw.live k n hn).1 e))
    obtain ⟨ps, hps⟩ := Option.ne_none_iff_exists'.1 (fun e => hk2 ((hw.livep k n hn).1 e))
    have h1 : g.ins k = some es := by simp [ins_eq, hn, hes]
    have h2 : g.pars k = some ps := by simp [pars_eq, hn, hps]
    have := h.step k es ps hk h1 h2
    simp only [net, h1, h2, Option.getD_some, hval, List.map_map]
    exact this
  · intro h
    refine ⟨?_, h.idle⟩
    intro k es ps hk h1 h2
    have := h.step k hk
    simp only [net, h1, h2, Option.getD_some, hval, List.map_map] at this
    exact this

theorem ranked_of_fine {g : Graph} (hw : WF g) (hf : Fine g) : ∃ r : Key → Nat, (net g).Ranked r := by
  obtain ⟨order, hs⟩ := hf.sound hw
  obtain ⟨rem, hord⟩ := hs.ord
  obtain ⟨hnd, hmem⟩ := order_nodup_mem hw hord
  have hlt : ∀ a b, Live g b → Needs g a b → order.idxOf a < order.idxOf b := by
    intro a b hb hab
    obtain ⟨pre, post, e⟩ := List.append_of_mem ((hmem b).2 hb)
    have ha := hs.topo pre b post e a hab
    rw [e] at hnd
    have hbp : b ∉ pre := fun h => by
      rw [List.nodup_append] at hnd
      exact hnd.2.2 b h b (List.mem_cons_self ..) rfl
    rw [e, List.idxOf_append_of_mem ha, List.idxOf_append_of_notMem hbp]
    have := List.idxOf_lt_length_iff.2 ha
    omega
  have hsrc : ∀ e a, SrcOk g e → e.source = .node a → Live g a := by
    intro e a h1 h2
    obtain ⟨n, h3, h4, -⟩ := h1.1 a h2
    exact ⟨by simp [h3], h4⟩
  have hwire : ∀ (o : Option Edge) m c, wire o = .node m c → ∃ e, o = some e ∧ e.source = .node m := by
    intro o m c h
    match o, h with
    | none, h => simp [wire] at h
    | some ⟨.graph, _, _⟩, h => simp [wire] at h
    | some ⟨.node a, c', f⟩, h =>
      simp only [wire, Wire.node.injEq] at h
      exact ⟨_, rfl, by simp [h.1]⟩
  refine ⟨fun k => order.idxOf k, ?_, ?_, ?_⟩
  · intro k hk w hw m c e
    obtain ⟨o, ho, rfl⟩ := List.mem_map.1 hw
    obtain ⟨ed, rfl, he⟩ := hwire o m c e
    cases hi : g.ins k with
    | none => simp [hi] at ho
    | some es =>
      simp only [hi, Option.getD_some] at ho
      obtain ⟨i, hi'⟩ := List.mem_iff_getElem?.1 ho
      have hed : g.edge k i = some ed := by rw [edge_of_ins hi, hi']; rfl
      exact ⟨hsrc _ _ (hf.nodangle.1 _ _ _ hed) he, hlt _ _ hk (.inl ⟨i, ed, hed, he⟩)⟩
  · intro k hk w hw m c e
    obtain ⟨pe, ho, rfl⟩ := List.mem_map.1 hw
    simp only [Wire.node.injEq] at e
    cases hi : g.pars k with
    | none => simp [hi] at ho
    | some es =>
      simp only [hi, Option.getD_some] at ho
      rw [← e.1]
      exact ⟨(hf.params _ _ _ hi ho).1, hlt _ _ hk (.inr ⟨es, pe, hi, ho, rfl⟩)⟩
  · intro w hw m c e
    obtain ⟨o, ho, rfl⟩ := List.mem_map.1 hw
    obtain ⟨ed, rfl, he⟩ := hwire o m c e
    obtain ⟨i, hi'⟩ := List.mem_iff_getElem?.1 ho
    exact hsrc _ _ (hf.nodangle.2 i ed (by rw [Graph.out, hi']; rfl)) he

/-! ### The machine -/

/-- What holds for a graph at any depth. -/
structure Core {U : Type} (bs : Nat) (g : Sg S U) : Prop where
  sim : ∃ t, Sys.Sim g.y t
  wf : WF g.y.g
  sch : Sys.SchOk g.y
  silent : Sys.Silent bs g.y.mem
  plays : Sys.Plays (S := S) U g.gc bs g.y.newest.1
  wfc : WF g.gc
  rank : ∃ r : Key → Nat, (net g.gc).Ranked r

theorem core_init {U : Type} (id numIn numOut bs cap : Nat) (heap : Key → U) :
    Core (S := S) bs ⟨Y.init id numIn numOut bs cap heap, .init id numIn numOut⟩ := by
  refine ⟨Sys.sim_init .., wf_init .., Sys.schOk_init id numIn numOut bs cap heap, fun _ _ _ => rfl,
    Sys.plays_init id numIn numOut bs, wf_init .., fun _ => 0, ?_, ?_, ?_⟩
  · intro n hn
    simp [net, Live, Graph.init, Graph.get] at hn
  · intro n hn
    simp [net, Live, Graph.init, Graph.get] at hn
  · intro w hw m c e
    simp only [net, Graph.init, List.map_replicate, List.mem_replicate] at hw
    rw [hw.2] at e
    simp [wire] at e

/-- The states of the unit generators do not matter. -/
theorem Core.heap {U : Type} {bs : Nat} {g : Sg S U} (h : Core bs g) (hp : Key → U) :
    Core bs (⟨{ g.y with heap := hp }, g.gc⟩ : Sg S U) := by
  obtain ⟨t, ht⟩ := h.sim
  exact ⟨⟨t, ht.reach, ht.mt, ht.applied, ht.ring, ht.cap, ht.cur⟩, h.wf, h.sch, h.silent, h.plays, h.wfc, h.rank⟩

theorem isCommit_of {op : Op} (h : ∀ rm fs, op ≠ .commit rm fs) : Sys.isCommit op = false := by
  cases op <;> first | rfl | exact absurd rfl (h _ _)

theorem core_edit {U : Type} {sl : Key → Nat} {bs : Nat} {g : Sg S U} (h : Core bs g) {op : Op} {y' r}
    (hop : ∀ rm fs, op ≠ .commit rm fs) (he : Sys.edit sl g.y op = .ok (y', r)) :
    Core bs ⟨y', g.gc⟩ ∧ y'.heap = g.y.heap := by
  obtain ⟨t, hs⟩ := h.sim
  obtain ⟨h1, h2, -, h3, h4, h5, h6, -, -, -⟩ := Sys.sim_edit hs h.wf (isCommit_of hop) he
  refine ⟨⟨h1, h2, ?_, by rw [h5]; exact h.silent, ?_, h.wfc, h.rank⟩, h6⟩
  · rw [Sys.SchOk, h3, h4]; exact h.sch
  · rw [Y.newest, h3, h4]; exact h.plays

theorem core_commit {U : Type} {bs : Nat} (hbs : 0 < bs) {g : Sg S U} (h : Core bs g) {rm : Key → Bool} {g1 y'}
    (hfo : freeOld rm (fun f => g.y.applied (f + 1)) g.y.g = .ok g1) (hfine : g1.recalc = true → Fine g1)
    (hc : Sys.commit bs g.y rm = .ok y') : Core bs ⟨y', if g1.recalc then g1 else g.gc⟩ ∧ y'.heap = g.y.heap := by
  obtain ⟨t, hs⟩ := h.sim
  obtain ⟨h1, h2, h3, h4, h5, -, -, g1', hfo', hw1, hcase⟩ := Sys.sim_commit hs h.wf hc
  rw [hfo] at hfo'
  simp only [Except.ok.injEq] at hfo'
  subst hfo'
  refine ⟨⟨h1, h2, Sys.schOk_commit h.sch hc, by rw [h4]; exact h.silent, ?_, ?_, ?_⟩, h5⟩
  · rcases hcase with ⟨hr, -, hring, -⟩ | ⟨hr, -, sch, td, hms, hring⟩
    · rw [hr, Y.newest, hring, h3]; exact h.plays
    · rw [hr, Y.newest, hring]
      simp only [if_true, List.getLast?_concat, Option.getD_some]
      exact Sys.plays_of_fine hbs hw1 (hfine hr) hms
  · dsimp only
    split
    · exact hw1
    · exact h.wfc
  · dsimp only
    split
    · next hr => exact ranked_of_fine hw1 (hfine hr)
    · exact h.rank

theorem core_block {U : Type} {bs : Nat} {g : Sg S U} (h : Core bs g) (proc : Proc S U) (inp : Nat → Nat → S) :
    ∃ y' o out, Sys.block bs g.y proc inp = .ok (y', o) ∧ Core bs ⟨y', g.gc⟩ ∧
      (net g.gc).Run (fn proc) bs inp g.y.heap y'.heap out ∧ o = (net g.gc).outs.map (Wire.val bs inp out) := by
  obtain ⟨t, hs⟩ := h.sim
  obtain ⟨y', o, hb, h1, h2, h3, -, -, h4, -, h5, h6, h7, h8⟩ := Sys.sim_block (bs := bs) hs h.sch proc inp
  obtain ⟨hz, out, hb1, hb2⟩ := h.plays proc inp g.y.mem g.y.heap h.silent
  refine ⟨y', o, out, hb, ⟨h1, by rw [h3]; exact h.wf, h2, by rw [h6]; exact hz, ?_, h.wfc, h.rank⟩, ?_, ?_⟩
  · rw [Y.newest, h4]
    simp only [List.getLast?_nil, Option.getD_none]
    rw [h5]
    exact h.plays
  · rw [h7]
    exact (run_net h.wfc).1 hb1
  · rw [outs_val]
    exact h8.trans hb2

/-- What holds for the unit generators at any depth. -/
def Good {L : Type} (bs : Nat) : (n : Nat) → Lev S L n → Prop
  | 0, _ => True
  | _ + 1, .inl _ => True
  | n + 1, .inr g => Core bs g ∧ ∀ k, Good bs n (g.y.heap k)

variable {L : Type}

theorem good_fresh {bs : Nat} : ∀ (n : Nat) (u : Lev S L n), Fresh bs n u → Good bs n u
  | 0, _, _ => trivial
  | _ + 1, .inl _, _ => trivial
  | n + 1, .inr g, h => by
    obtain ⟨id, nI, nO, cap, hp, rfl, h⟩ := h
    exact ⟨core_init .., fun k => good_fresh n _ (h k)⟩

theorem good_gstep {sl : Key → Nat} {bs : Nat} (hbs : 0 < bs) {n : Nat} {R : Lev S L n → Lev S L n → Prop}
    (hR : ∀ u u', R u u' → Good bs n u → Good bs n u') {g g' : Sg S (Lev S L n)} (h : GStep Fine sl bs R g g')
    (hc : Core bs g) (hg : ∀ k, Good bs n (g.y.heap k)) : Core bs g' ∧ ∀ k, Good bs n (g'.y.heap k) := by
  cases h with
  | edit hop he =>
    obtain ⟨h1, h2⟩ := core_edit hc hop he
    refine ⟨h1, ?_⟩
    simp only [h2]
    exact hg
  | commit hfo hf hcm =>
    obtain ⟨h1, h2⟩ := core_commit hbs hc hfo hf hcm
    refine ⟨h1, ?_⟩
    simp only [h2]
    exact hg
  | @unit k u hu =>
    refine ⟨hc.heap _, ?_⟩
    intro j
    simp only [setUnit]
    split
    · exact hR _ _ hu (hg k)
    · exact hg j

theorem good_step {sl : Key → Nat} {bs : Nat} (hbs : 0 < bs) : ∀ (n : Nat) (u u' : Lev S L n),
    LStep Fine sl bs n u u' → Good bs n u → Good bs n u'
  | 0, _, _, _, _ => trivial
  | _ + 1, .inl _, .inl _, _, _ => trivial
  | n + 1, .inr _, .inr _, h, hg => good_gstep hbs (good_step hbs n) h hg.1 hg.2
  | _ + 1, .inl _, .inr _, h, _ => h.elim
  | _ + 1, .inr _, .inl _, h, _ => h.elim

/-- The states of the meaning: a graph inside is a wiring with the states of its units, without any of the
machinery. -/
abbrev Mn (L : Type) : Nat → Type
  | 0 => L
  | n + 1 => L ⊕ (Graph × (Key → Mn L n))

/-- Forget the machinery. -/
def mean : (n : Nat) → Lev S L n → Mn L n
  | 0, s => s
  | _ + 1, .inl s => .inl s
  | n + 1, .inr g => .inr (g.gc, fun k => mean n (g.y.heap k))

/-- The meaning of a unit generator at the end of path `p`: a graph inside is a wiring inside. -/
def LMean (bs : Nat) (leaf : List Key → Proc S L) : (n : Nat) → List Key → Key → Beh S (Mn L n)
  | 0, p, k => fn (leaf p) k
  | _ + 1, p, k => fun s ins ps s' o => match s, s' with
    | .inl s, .inl s' => leaf p k s ins ps = (s', o)
    | .inr (g, st), .inr (g', st') => g' = g ∧ Sub (net g) (LMean bs leaf _ (p ++ [k])) bs st ins ps st' o
    | _, _ => False

theorem chan_outs {K : Type} {bs : Nat} {inp : Nat → Nat → S} {out : K → Nat → Nat → S} (ws : List (Wire K)) (c i : Nat) :
    chan (ws.map (Wire.val bs inp out)) c i = ((ws.getD c .silent).val bs inp out).getD i 0 := by
  simp only [chan, List.getD_eq_getElem?_getD, List.getElem?_map]
  cases hw : ws[c]? with
  | none =>
    simp only [Option.map_none, Option.getD_none, List.getElem?_nil, Wire.val]
    by_cases hi : i < bs
    · simp [hi]
    · simp [hi]
  | some w => rfl

/-- A run of the machine is a run of the meaning, when the units do what they mean and stay good. -/
theorem run_mean {bs : Nat} {leaf : List Key → Proc S L} {n : Nat} {p : List Key}
    (hp : ∀ (k : Key) (s : Lev S L n) (ins : List (List S)) (ps : List (Nat × List S)), Good bs n s →
      LMean bs leaf n p k (mean n s) ins ps (mean n (lproc bs leaf n p k s ins ps).1) (lproc bs leaf n p k s ins ps).2 ∧
      Good bs n (lproc bs leaf n p k s ins ps).1) {P : Net Key} {inp : Nat → Nat → S} {st st' : Key → Lev S L n}
    {out : Key → Nat → Nat → S} (h : P.Run (fn (lproc bs leaf n p)) bs inp st st' out) (hg : ∀ k, Good bs n (st k)) :
    P.Run (LMean bs leaf n p) bs inp (fun k => mean n (st k)) (fun k => mean n (st' k)) out ∧
      ∀ k, Good bs n (st' k) := by
  have key : ∀ k, P.live k → LMean bs leaf n p k (mean n (st k)) ((P.ins k).map (Wire.val bs inp out))
      ((P.pars k).map fun p => (p.1, p.2.val bs inp out)) (mean n (st' k)) (out k) ∧ Good bs n (st' k) := by
    intro k hk
    have h1 : lproc bs leaf n p k (st k) ((P.ins k).map (Wire.val bs inp out))
      ((P.pars k).map fun p => (p.1, p.2.val bs inp out)) = (st' k, out k) := h.step k hk
    have h2 := hp k (st k) ((P.ins k).map (Wire.val bs inp out))
      ((P.pars k).map fun p => (p.1, p.2.val bs inp out)) (hg k)
    rw [h1] at h2
    exact h2
  refine ⟨⟨fun k hk => (key k hk).1, fun k hk => by simp only [h.idle k hk]⟩, fun k => ?_⟩
  by_cases hk : P.live k
  · exact (key k hk).2
  · rw [h.idle k hk]
    exact hg k

/-- The unit generators do what they mean and stay good. -/
theorem lproc_mean {bs : Nat} (leaf : List Key → Proc S L) : ∀ (n : Nat) (p : List Key) (k : Key) (s : Lev S L n)
    (ins : List (List S)) (ps : List (Nat × List S)), Good bs n s →
    LMean bs leaf n p k (mean n s) ins ps (mean n (lproc bs leaf n p k s ins ps).1) (lproc bs leaf n p k s ins ps).2 ∧
      Good bs n (lproc bs leaf n p k s ins ps).1 := by
  intro n
  induction n with
  | zero => intro p k s ins ps _; exact ⟨rfl, trivial⟩
  | succ n ih =>
    intro p k s ins ps hg
    match s, hg with
    | .inl s, _ => exact ⟨rfl, trivial⟩
    | .inr g, hg =>
      obtain ⟨y', o, out, hb, hc, hrun, ho⟩ := core_block hg.1 (lproc bs leaf n (p ++ [k])) (chan ins)
      have e : lproc bs leaf (n + 1) p k (.inr g) ins ps = (.inr { g with y := y' }, chan o) := by
        simp only [lproc, nproc, hb]
      rw [e]
      obtain ⟨h1, h2⟩ := run_mean (ih (p ++ [k])) hrun hg.2
      refine ⟨⟨rfl, out, h1, ?_⟩, hc, h2⟩
      intro c i _
      show chan o c i = _
      rw [ho, chan_outs]

/-- What holds in every reachable state. -/
theorem nreach_good {sl : Key → Nat} {bs : Nat} (hbs : 0 < bs) {n : Nat} {g : Sg S (Lev S L n)}
    (h : NReach Fine sl bs g) : Core bs g ∧ ∀ k, Good bs n (g.y.heap k) := by
  induction h with
  | init id numIn numOut cap heap hf => exact ⟨core_init .., fun k => good_fresh n _ (hf k)⟩
  | step _ hs ih => exact good_gstep hbs (good_step hbs n) hs ih.1 ih.2
  | @block g y' o leaf inp _ hb ih =>
    obtain ⟨y2, o2, out, hb2, hc, hrun, -⟩ := core_block ih.1 (lproc bs leaf n []) inp
    rw [hb] at hb2
    simp only [Except.ok.injEq, Prod.mk.injEq] at hb2
    obtain ⟨rfl, rfl⟩ := hb2
    exact ⟨hc, (run_mean (lproc_mean leaf n []) hrun ih.2).2⟩

/-! ### The meaning leaves no choice -/

/-- All wirings inside are free of cycles. -/
def Rk : (n : Nat) → Mn L n → Prop
  | 0, _ => True
  | _ + 1, .inl _ => True
  | n + 1, .inr (g, st) => (∃ r : Key → Nat, (net g).Ranked r) ∧ ∀ k, Rk n (st k)

theorem rk_of_good {bs : Nat} : ∀ (n : Nat) (s : Lev S L n), Good bs n s → Rk n (mean n s)
  | 0, _, _ => trivial
  | _ + 1, .inl _, _ => trivial
  | n + 1, .inr _, h => ⟨h.1.rank, fun k => rk_of_good n _ (h.2 k)⟩

theorem sub_det {M : Type} {τ : M → Type} {G : Net M} {V : ∀ m, Beh S (τ m)} {bs : Nat} {α : Type} [LT α]
    [WellFoundedLT α] {q : M → α} (hG : G.Ranked q) {s : ∀ m, τ m} (hV : ∀ m, G.live m → (V m).Det bs (s m)) :
    (Sub G V bs).Det bs s := by
  rintro ins ps s1 o1 s2 o2 ⟨out1, hr1, ho1⟩ ⟨out2, hr2, ho2⟩
  obtain ⟨h3, -, h4⟩ := Net.Run.unique hG hV hr1 hr2
  refine ⟨h3, fun c i hi => ?_⟩
  rw [ho1 c i hi, ho2 c i hi, ← chan_outs, ← chan_outs, h4]

theorem lmean_det {bs : Nat} (leaf : List Key → Proc S L) : ∀ (n : Nat) (p : List Key) (k : Key) (s : Mn L n),
    Rk n s → (LMean bs leaf n p k).Det bs s := by
  intro n
  induction n with
  | zero => intro p k s _; exact fn_det (leaf p) k bs s
  | succ n ih =>
    intro p k s hs ins ps s1 o1 s2 o2 h1 h2
    match s, hs, s1, s2, h1, h2 with
    | .inl s, _, .inl s1, .inl s2, h1, h2 =>
      have := h1.symm.trans h2
      simp only [Prod.mk.injEq] at this
      exact ⟨by rw [this.1], fun c i _ => by rw [this.2]⟩
    | .inr (g, st), hs, .inr (g1, st1), .inr (g2, st2), h1, h2 =>
      obtain ⟨rfl, h1⟩ := h1
      obtain ⟨rfl, h2⟩ := h2
      obtain ⟨r, hr⟩ := hs.1
      obtain ⟨h3, h4⟩ := sub_det hr (fun m _ => ih (p ++ [k]) m (st m) (hs.2 m)) _ _ _ _ _ _ h1 h2
      exact ⟨by rw [h3], h4⟩

end

end Verif.Ne
