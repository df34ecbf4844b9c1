import Verif.Model.Lifetime
import Verif.Lemmas.Schedule
import Verif.Lemmas.System

/-!
# Lemmas for the life of buffers: parameter connections stay, pointers go into the newest allocation
-/

namespace Verif.Li

open Verif.G
open Verif.Sys (bind_inv live_dropFlagged isCommit isSome_modify isSome_free1 makeSchedule_keys)

/-! ### A parameter connection of a node stays until the node is freed -/

/-- Parameter `p` of node `k` is connected. -/
def HasP (g : Graph) (k : Key) (p : Nat) : Prop := ∃ pe ∈ (g.pars k).getD [], pe.param = p

/-- What the parts of an edit keep; `X` are parameters being rewired. -/
structure Pm (X : Key → Nat → Prop) (g g' : Graph) : Prop where
  next : g.nextKey ≤ g'.nextKey
  live : ∀ k < g.nextKey, Live g' k → Live g k
  par : ∀ k < g.nextKey, Live g' k → (g.pars k).isSome → (g'.pars k).isSome
  keep : ∀ k < g.nextKey, Live g' k → ∀ p, ¬ X k p → HasP g k p → HasP g' k p

variable {X : Key → Nat → Prop}

theorem Pm.refl (g : Graph) : Pm X g g := ⟨Nat.le_refl _, fun _ _ h => h, fun _ _ _ h => h, fun _ _ _ _ _ h => h⟩

theorem Pm.trans {g g' g'' : Graph} (h : Pm X g g') (h' : Pm X g' g'') : Pm X g g'' where
  next := Nat.le_trans h.next h'.next
  live k hk hl := h.live k hk (h'.live k (Nat.lt_of_lt_of_le hk h.next) hl)
  par k hk hl hp :=
    have hk' := Nat.lt_of_lt_of_le hk h.next
    h'.par k hk' hl (h.par k hk (h'.live k hk' hl) hp)
  keep k hk hl p hx hp :=
    have hk' := Nat.lt_of_lt_of_le hk h.next
    h'.keep k hk' hl p hx (h.keep k hk (h'.live k hk' hl) p hx hp)

theorem pm_of {g g' : Graph} (h1 : g.nextKey ≤ g'.nextKey)
    (h2 : ∀ k < g.nextKey, (g'.get k).isSome → (g.get k).isSome)
    (h3 : ∀ k, g.isPending k = true → g'.isPending k = true)
    (h4 : ∀ k < g.nextKey, g'.isPending k = false → g'.pars k = g.pars k) : Pm X g g' where
  next := h1
  live k hk hl := by
    refine ⟨h2 k hk hl.1, ?_⟩
    cases hp : g.isPending k with
    | false => rfl
    | true => have := h3 k hp; rw [hl.2] at this; simp at this
  par k hk hl hp := by rw [h4 k hk hl.2]; exact hp
  keep k hk hl p _ hp := by
    unfold HasP
    rw [h4 k hk hl.2]
    exact hp

theorem pars_modify (g : Graph) (k j : Key) (f : NodeRec → NodeRec) (hf : ∀ n, (f n).pars = n.pars) :
    (g.modify k f).pars j = g.pars j := by
  rw [pars_eq, get_modify, pars_eq]
  split
  · next h => subst h; cases g.get j <;> simp [hf]
  · rfl

theorem pm_modify (g : Graph) (k : Key) (f : NodeRec → NodeRec) (hf : ∀ n, (f n).pars = n.pars) :
    Pm X g (g.modify k f) :=
  pm_of (Nat.le_refl _) (fun j _ h => by rw [isSome_modify] at h; exact h) (fun _ h => h)
    (fun j _ _ => pars_modify g k j f hf)

theorem pm_recalc (g : Graph) : Pm X g { g with recalc := true } :=
  pm_of (Nat.le_refl _) (fun _ _ h => h) (fun _ h => h) (fun _ _ _ => rfl)

theorem pm_free1 (g : Graph) (k : Key) : Pm X g (free1 g k) := by
  refine pm_of (Nat.le_refl _) (fun j _ h => by rw [isSome_free1] at h; exact h) ?_ ?_
  · intro j hj
    rw [isPending_iff] at hj ⊢
    rw [free1_pending, List.map_append]
    exact List.mem_append_left _ hj
  · intro j _ hj
    have hne : j ≠ k := by
      rintro rfl
      have : (free1 g j).isPending j = true := by rw [isPending_iff, free1_pending]; simp
      rw [hj] at this
      simp at this
    rw [pars_eq, get_free1, if_neg hne, pars_eq]
    cases g.get j <;> rfl

theorem pm_bypass (g : Graph) (k : Key) (e : Edge) : Pm X g (bypass g k e) := by
  refine pm_of (Nat.le_refl _) (fun j _ h => ?_) (fun _ h => h) (fun j _ _ => ?_)
  · rw [get_bypass] at h
    cases hg : g.get j <;> simp_all
  · rw [pars_eq, get_bypass, pars_eq]
    cases g.get j <;> rfl

theorem get_push_ne (sl) (g : Graph) (n : NodeRec) (j : Key) (hj : j ≠ g.nextKey) :
    (pushNode sl g n).get j = g.get j := by
  have e : g.get j = ((g.nodes.take (sl g.nextKey) ++ g.nodes.drop (sl g.nextKey)).find? (fun p => p.1 == j)).map Prod.snd := by
    rw [List.take_append_drop]; rfl
  rw [e, get_eq]
  simp only [pushNode, List.find?_append, List.find?_cons]
  have : (g.nextKey == j) = false := by simpa using fun h => hj h.symm
  simp [this]

theorem pm_push (sl) (g : Graph) (n : NodeRec) : Pm X g (pushNode sl g n) := by
  refine pm_of (Nat.le_succ _) (fun j hj h => ?_) (fun _ h => h) (fun j hj _ => ?_)
  · rwa [get_push_ne sl g n j (Nat.ne_of_lt hj)] at h
  · rw [pars_eq, get_push_ne sl g n j (Nat.ne_of_lt hj), pars_eq]

theorem pm_setEdge {g g' : Graph} {k i e} (h : setEdge g k i e = .ok g') : Pm X g g' := by
  obtain ⟨es, -, -, rfl⟩ := setEdge_ok h
  exact pm_modify g k (fun n => { n with ins := some (es.set i e) }) fun _ => rfl

theorem pm_setOut {g g' : Graph} {i e} (h : setOut g i e = .ok g') : Pm X g g' := by
  obtain ⟨-, rfl⟩ := setOut_ok h
  exact pm_of (Nat.le_refl _) (fun _ _ h => h) (fun _ h => h) (fun _ _ _ => rfl)

theorem pm_dropAll (g : Graph) (s c) : Pm X g (dropAll g s c) := by
  refine pm_of (Nat.le_refl _) (fun j _ h => ?_) (fun _ h => h) (fun j _ _ => ?_)
  · rw [dropAll_get] at h
    cases hg : g.get j <;> simp_all
  · rw [pars_eq, dropAll_get, pars_eq]
    cases g.get j <;> rfl

theorem pm_tail {sl} {g g' : Graph} {source sink so si add fb}
    (he : connectTail sl g source sink so si add fb = .ok g') : Pm X g g' := by
  unfold connectTail at he
  split at he
  · exact pm_setEdge he
  · obtain ⟨o, -, he⟩ := bind_inv he
    cases o with
    | none => exact pm_setEdge he
    | some ex =>
      obtain ⟨g2, h2, he⟩ := bind_inv he
      obtain ⟨g3, h3, he⟩ := bind_inv he
      exact (((pm_push sl g _).trans (pm_setEdge h2)).trans (pm_setEdge h3)).trans (pm_setEdge he)

theorem pm_connectToNode {sl} {g g' : Graph} {source sink so si add fb}
    (he : connectToNode sl g source sink so si add fb = .ok g') : Pm X g g' := by
  unfold connectToNode at he
  dsimp only at he
  refine (pm_recalc g).trans ?_
  split at he
  · obtain ⟨g1, h1, he⟩ := bind_inv he
    exact (((pm_push sl _ _).trans (pm_push sl _ _)).trans (pm_setEdge h1)).trans (pm_tail he)
  · exact pm_tail he

theorem pm_connectToOut {sl} {g g' : Graph} {source so si add}
    (he : connectToOut sl g source so si add = .ok g') : Pm X g g' := by
  unfold connectToOut at he
  dsimp only at he
  refine (pm_recalc g).trans ?_
  split at he
  · exact pm_setOut he
  · obtain ⟨o, -, he⟩ := bind_inv he
    cases o with
    | none => exact pm_setOut he
    | some ex =>
      obtain ⟨g2, h2, he⟩ := bind_inv he
      obtain ⟨g3, h3, he⟩ := bind_inv he
      exact (((pm_push sl _ _).trans (pm_setEdge h2)).trans (pm_setEdge h3)).trans (pm_setOut he)

theorem pm_takeOut {g g' : Graph} {ch e} (h : takeOut g ch e = .ok g') : Pm X g g' :=
  takeOut_ind (P := Pm X g) (fun _ _ _ hg _ _ _ => hg.trans (pm_free1 _ _))
    (fun _ _ _ _ hg _ _ _ => hg.trans (pm_bypass _ _ _)) (fun _ _ _ hg hs => hg.trans (pm_setOut hs)) (.refl g) h

theorem pm_takeIn {g g' : Graph} {k ch e} (h : takeIn g k ch e = .ok g') : Pm X g g' :=
  takeIn_ind (P := Pm X g) (fun _ _ _ hg _ _ _ => hg.trans (pm_free1 _ _))
    (fun _ _ _ _ hg _ _ _ => hg.trans (pm_bypass _ _ _)) (fun _ _ _ _ hg hs => hg.trans (pm_setEdge hs)) (.refl g) h

/-- Changing the parameter connections of one node. -/
theorem pm_pars {g : Graph} {k : Key} {f : NodeRec → NodeRec}
    (h : ∀ n, g.get k = some n → n.pars.isSome → (f n).pars.isSome)
    (h' : ∀ n, g.get k = some n → ∀ p, ¬ X k p → (∃ pe ∈ n.pars.getD [], pe.param = p) →
      ∃ pe ∈ (f n).pars.getD [], pe.param = p) : Pm X g (g.modify k f) where
  next := Nat.le_refl _
  live j _ hl := ⟨by have := hl.1; rwa [isSome_modify] at this, hl.2⟩
  par j _ _ hp := by
    rw [pars_eq] at hp ⊢
    rw [get_modify]
    split
    · next e =>
      subst e
      cases hg : g.get j with
      | none => simp [hg] at hp
      | some n => simp only [hg, Option.bind_some] at hp; simpa using h n hg hp
    · exact hp
  keep j _ _ p hx hp := by
    unfold HasP at hp ⊢
    rw [pars_eq] at hp ⊢
    rw [get_modify]
    split
    · next e =>
      subst e
      cases hg : g.get j with
      | none => simp [hg] at hp
      | some n => simp only [hg, Option.bind_some] at hp; simpa using h' n hg p hx hp
    · exact hp

theorem mem_swapRemove_of {α} {l : List α} {i : Nat} {x y : α} (hi : l[i]? = some y) (hx : x ∈ l) (hne : x ≠ y) :
    x ∈ swapRemove l i := by
  unfold swapRemove
  rcases List.eq_nil_or_concat l with rfl | ⟨l', z, rfl⟩
  · simp at hx
  · rw [List.concat_eq_append] at *
    simp only [List.getLast?_append, List.getLast?_singleton, Option.some_or]
    have hlen : i < (l' ++ [z]).length := by
      by_contra hc
      rw [List.getElem?_eq_none (by omega)] at hi
      simp at hi
    rcases Nat.lt_or_ge i l'.length with h1 | h1
    · rw [List.set_append_left _ _ h1, List.dropLast_concat]
      rw [List.getElem?_append_left h1] at hi
      rcases List.mem_append.1 hx with h2 | h2
      · obtain ⟨j, hj⟩ := List.mem_iff_getElem?.1 h2
        have : i ≠ j := by
          rintro rfl
          rw [hi] at hj
          exact hne (Option.some.inj hj).symm
        exact List.mem_iff_getElem?.2 ⟨j, by rw [List.getElem?_set_ne this]; exact hj⟩
      · rw [List.mem_singleton.1 h2]
        exact List.mem_iff_getElem?.2 ⟨i, by simp [h1]⟩
    · have h2 : i = l'.length := by simp at hlen; omega
      subst h2
      have : (l' ++ [z]).set l'.length z = l' ++ [z] := by simp
      rw [this, List.dropLast_concat]
      have : y = z := by simpa using hi.symm
      rcases List.mem_append.1 hx with h3 | h3
      · exact h3
      · exact absurd ((List.mem_singleton.1 h3).trans this.symm) hne

theorem pm_step {sl} {g g' : Graph} {op : Op} {r} (hg : WF g) (hl : isCommit op = false)
    (h : op.run sl g = .ok (g', r)) : Pm (fun _ _ => False) g g' := by
  cases op with
  | push i o d =>
    simp only [Op.run, Except.ok.injEq, Prod.mk.injEq] at h
    rw [← h.1]
    exact pm_push _ _ _
  | connect s so si k a f =>
    simp only [Op.run, connect2] at h
    split at h
    · rcases connectInputToNode_ok h with ⟨rfl, -⟩ | ⟨-, nk, -, -, -, h1⟩
      · exact .refl _
      · exact pm_connectToNode h1
    · rcases connectNodes_ok h with ⟨rfl, -⟩ | ⟨-, ns, nk, hns, -, -, -, -, h1⟩
      · exact .refl _
      · exact pm_connectToNode h1
    · rcases connectNodeToOutput_ok h with ⟨rfl, -⟩ | ⟨-, ns, hns, -, -, h1⟩
      · exact .refl _
      · exact pm_connectToOut h1
    · rcases connectInputToOutput_ok h with ⟨rfl, -⟩ | ⟨-, -, -, h1⟩
      · exact .refl _
      · exact pm_connectToOut h1
  | param s so p k a =>
    rcases connectParam_ok h with ⟨rfl, -⟩ | ⟨-, ns, nk, idx, es, -, -, hnk, -, hes, h⟩
    · exact .refl _
    · rcases h with ⟨-, rfl⟩ | ⟨-, -, rfl⟩ | ⟨-, pos, ex, g2, g3, hpos, hex, h2, h3, rfl⟩
      · refine pm_pars (fun _ _ _ => rfl) ?_
        rintro n hn q - ⟨pe, h1, rfl⟩
        rw [hnk] at hn
        simp only [Option.some.injEq] at hn
        subst hn
        rw [hes] at h1
        simp only [Option.getD_some, List.mem_append, List.mem_filter] at h1 ⊢
        by_cases hq : pe.param = idx
        · exact ⟨_, .inr (List.mem_singleton.2 rfl), hq.symm⟩
        · exact ⟨pe, .inl ⟨h1, by simpa using hq⟩, rfl⟩
      · refine pm_pars (fun _ _ _ => rfl) ?_
        rintro n hn q - ⟨pe, h1, rfl⟩
        rw [hnk] at hn
        simp only [Option.some.injEq] at hn
        subst hn
        rw [hes] at h1
        exact ⟨pe, List.mem_append_left _ h1, rfl⟩
      · have hxe : ex.param = idx := by
          have : ∀ (l : List PEdge) (i : Nat) (e : PEdge), position (fun pe => pe.param == idx) l = some i →
              l[i]? = some e → e.param = idx := by
            intro l
            induction l with
            | nil => simp [position]
            | cons c l ih =>
              intro i e hi he
              rw [position] at hi
              split at hi
              · next hc =>
                simp only [Option.some.injEq] at hi
                subst hi
                simp only [List.getElem?_cons_zero, Option.some.injEq] at he
                subst he
                simpa using hc
              · simp only [Option.map_eq_some_iff] at hi
                obtain ⟨j, hj, rfl⟩ := hi
                exact ih j e hj (by simpa using he)
          exact this _ _ _ hpos hex
        have h0 : Pm (fun j p => j = k.key ∧ p = idx) g g3 := by
          refine (((pm_pars (k := k.key) (f := fun n => { n with pars := some (swapRemove es pos) })
            (fun _ _ _ => rfl) ?_).trans (pm_push _ _ _)).trans (pm_setEdge h2)).trans (pm_setEdge h3)
          rintro n hn q hx ⟨pe, h1, rfl⟩
          rw [hnk] at hn
          simp only [Option.some.injEq] at hn
          subst hn
          rw [hes] at h1
          refine ⟨pe, ?_, rfl⟩
          refine mem_swapRemove_of hex h1 ?_
          rintro rfl
          exact hx ⟨rfl, hxe⟩
        have hlive : ∀ j, Live (g3.modify k.key fun n => { n with pars := n.pars.map (· ++ [⟨g.nextKey, 0, idx⟩]) }) j →
            Live g3 j := fun j hj => ⟨by have := hj.1; rwa [isSome_modify] at this, hj.2⟩
        have h1 : Pm (fun j p => j = k.key ∧ p = idx) g3
            (g3.modify k.key fun n => { n with pars := n.pars.map (· ++ [⟨g.nextKey, 0, idx⟩]) }) := by
          refine pm_pars (fun n _ hp => by simpa using hp) ?_
          rintro n hn q - ⟨pe, h1, rfl⟩
          cases hp : n.pars with
          | none => simp [hp] at h1
          | some ps =>
            rw [hp] at h1
            exact ⟨pe, List.mem_append_left _ h1, rfl⟩
        have h01 := h0.trans h1
        refine ⟨h01.next, h01.live, h01.par, ?_⟩
        intro j hj hl p _ hp
        by_cases hx : j = k.key ∧ p = idx
        · obtain ⟨rfl, rfl⟩ := hx
          have hs := h0.par k.key hj (hlive _ hl) (by rw [pars_eq, hnk]; simp [hes])
          unfold HasP
          rw [pars_eq, get_modify, if_pos rfl]
          rw [pars_eq] at hs
          cases hgg : g3.get k.key with
          | none => simp [hgg] at hs
          | some n =>
            simp only [hgg, Option.bind_some] at hs
            obtain ⟨ps, hps⟩ := Option.isSome_iff_exists.1 hs
            exact ⟨⟨g.nextKey, 0, p⟩, by simp [hps], rfl⟩
        · exact h01.keep j hj hl p hx hp
  | disconnectSource s c =>
    rcases disconnectSource_ok h with ⟨rfl, -⟩ | ⟨-, ⟨n, rec, -, -, -, -, rfl⟩ | ⟨g1, -, -, h1, -, rfl⟩⟩
    · exact .refl _
    · exact pm_dropAll _ _ _
    · exact (pm_takeOut h1).trans (pm_dropAll _ _ _)
  | disconnectSink c k =>
    rcases disconnectSink_ok h with ⟨rfl, -⟩ |
      ⟨-, ⟨n, rec, es, g1, -, -, -, -, -, h1, rfl⟩ | ⟨-, -, h1⟩⟩
    · exact .refl _
    · exact (pm_takeIn h1).trans (pm_recalc _)
    · exact pm_takeOut h1
  | free n =>
    simp only [Op.run, editFree] at h
    split at h
    · simp only [Except.ok.injEq, Prod.mk.injEq] at h; rw [← h.1]; exact .refl _
    · simp only [Except.ok.injEq] at h
      have : g' = (freeNode g n.key).1 := by rw [h]
      rw [this]
      exact freeNode_ind (P := Pm _ g) (fun _ _ _ hg _ _ _ => hg.trans (pm_free1 _ _)) _ _ (.refl g)
  | mortality n m st =>
    simp only [Op.run, Except.ok.injEq] at h
    have hg' : g' = (setMortality g n m st).1 := by rw [h]
    rw [hg']
    unfold setMortality
    split
    · exact .refl _
    · exact pm_modify g n.key (fun r => { r with mortal := m }) fun _ => rfl
  | commit rm fs => simp [isCommit] at hl

theorem pm_freeOld {rm fs} {g g' : Graph} (h : freeOld rm fs g = .ok g') : Pm X g g' := by
  obtain ⟨g1, h1, rfl⟩ := freeOld_ok h
  have h0 : Pm X g g1 := evalMany_ind (P := Pm X g) (fun _ _ _ hg _ _ _ => hg.trans (pm_free1 _ _))
    (fun _ _ _ _ hg _ _ _ => hg.trans (pm_bypass _ _ _)) _
    (freeMany_ind (P := Pm X g) (fun _ _ _ hg _ _ _ => hg.trans (pm_free1 _ _)) _ _ (.refl g)) h1
  have e : ∀ k, Live (dropFlagged fs g1) k → (dropFlagged fs g1).pars k = g1.pars k := by
    intro k hl
    have hne : k ∉ goneKeys fs g1 := by
      intro hc
      have := hl.1
      rw [get_dropFlagged, if_pos hc] at this
      simp at this
    rw [pars_eq, get_dropFlagged, if_neg hne, pars_eq]
  refine h0.trans ⟨Nat.le_refl _, fun k _ hl => (live_dropFlagged fs g1 k).1 hl, ?_, ?_⟩
  · intro k _ hl
    rw [e k hl]
    exact id
  · intro k _ hl p _
    unfold HasP
    rw [e k hl]
    exact id

/-! ### Every pointer of a schedule goes into the allocation it is sent with -/

/-- All sources are nodes that have not been freed. -/
structure SrcLive (g : Graph) : Prop where
  ins : ∀ k i e a, g.edge k i = some e → e.source = .node a → Live g a
  outs : ∀ i e a, g.out i = some e → e.source = .node a → Live g a
  pars : ∀ k es pe, g.pars k = some es → pe ∈ es → Live g pe.source

/-- All pointers of a schedule go into allocation `b`. -/
structure Into (sch : Schedule) (b : Nat) : Prop where
  ins : ∀ t ∈ sch.tasks, ∀ i ∈ t.ins, ∀ c, bufOf i = some c → c = b
  out : ∀ t ∈ sch.tasks, t.out.1 = b
  outs : ∀ i, some i ∈ sch.outs → ∀ c, bufOf i = some c → c = b
  ar : ∀ x ∈ sch.ar, ∀ c, bufOf x.buffer = some c → c = b

theorem getBlock_buf (a : Alloc) (c bs n : Nat) : (getBlock a c bs n).1.buf = a.buf := by
  unfold getBlock
  split
  · split <;> rfl
  · rfl

theorem returnBlock_buf {a a' : Alloc} {o : Nat} (h : returnBlock a o = .ok a') : a'.buf = a.buf := by
  unfold returnBlock at h
  obtain ⟨⟨bs, r⟩, -, h⟩ := bind_inv h
  simp only [Except.ok.injEq] at h
  subst h
  rfl

theorem returnAll_same {g : Graph} : ∀ {ks : List Key} {s s' : AState}, returnAll g s ks = .ok s' →
    s'.outm = s.outm ∧ s'.alloc.buf = s.alloc.buf := by
  intro ks
  induction ks with
  | nil => intro s s' h; simp only [returnAll, Except.ok.injEq] at h; subst h; exact ⟨rfl, rfl⟩
  | cons k ks ih =>
    intro s s' h
    rw [returnAll] at h
    obtain ⟨s1, h1, h2⟩ := bind_inv h
    obtain ⟨h3, h4⟩ := ih h2
    rw [h3, h4]
    unfold returnKey at h1
    split at h1
    · simp at h1
    · split at h1
      · obtain ⟨a, h5, h6⟩ := bind_inv h1
        simp only [Except.ok.injEq] at h6
        subst h6
        exact ⟨rfl, returnBlock_buf h5⟩
      · simp only [Except.ok.injEq] at h1
        subst h1
        exact ⟨rfl, rfl⟩

theorem assignNode_off {g : Graph} {bs : Nat} {s s' : AState} {k : Key} (h : assignNode g bs s k = .ok s') :
    (∃ o, s'.outm k = .off o) ∧ (∀ j, j ≠ k → s'.outm j = s.outm j) ∧ s'.alloc.buf = s.alloc.buf := by
  unfold assignNode at h
  split at h
  · simp at h
  · next n hn =>
    simp only at h
    split at h
    · obtain ⟨h1, h2⟩ := returnAll_same h
      rw [h1, h2]
      refine ⟨⟨_, if_pos rfl⟩, fun j hj => if_neg hj, getBlock_buf _ _ _ _⟩
    · simp at h

theorem assignAll_off {g : Graph} {bs : Nat} : ∀ {order : List Key} {s s' : AState},
    assignAll g bs s order = .ok s' →
    (∀ k, (k ∈ order ∨ ∃ o, s.outm k = .off o) → ∃ o, s'.outm k = .off o) ∧ s'.alloc.buf = s.alloc.buf := by
  intro order
  induction order with
  | nil =>
    intro s s' h
    simp only [assignAll, Except.ok.injEq] at h
    subst h
    exact ⟨fun k hk => by simpa using hk, rfl⟩
  | cons k ks ih =>
    intro s s' h
    rw [assignAll] at h
    obtain ⟨s1, h1, h2⟩ := bind_inv h
    obtain ⟨h3, h4⟩ := ih h2
    obtain ⟨h5, h6, h7⟩ := assignNode_off h1
    refine ⟨fun j hj => h3 j ?_, h4.trans h7⟩
    by_cases hjk : j = k
    · subst hjk; exact .inr h5
    · rcases hj with hj | hj
      · rcases List.mem_cons.1 hj with e | hj
        · exact absurd e hjk
        · exact .inl hj
      · exact .inr (by rw [h6 j hjk]; exact hj)

theorem mapR_fwd {α β : Type} {f : α → R β} : ∀ {l : List α} {ys : List β}, mapR f l = .ok ys →
    ∀ x ∈ l, ∃ y ∈ ys, f x = .ok y := by
  intro l
  induction l with
  | nil => intro ys h x hx; simp at hx
  | cons z l ih =>
    intro ys h x hx
    rw [mapR] at h
    obtain ⟨w, h1, h⟩ := bind_inv h
    obtain ⟨ws, h2, h⟩ := bind_inv h
    simp only [Except.ok.injEq] at h
    subst h
    rcases List.mem_cons.1 hx with rfl | hx
    · exact ⟨w, by simp, h1⟩
    · obtain ⟨y, h3, h4⟩ := ih h2 x hx
      exact ⟨y, List.mem_cons_of_mem _ h3, h4⟩

/-- What a schedule sent for a graph looks like. -/
structure Sent (g : Graph) (s s' : AState) (sch : Schedule) : Prop where
  keys : ∀ k, (∃ t ∈ sch.tasks, t.key = k) ↔ Live g k
  grow : s'.alloc.buf = s.alloc.buf ∨ s'.alloc.buf = s.alloc.buf + 1
  sets : ∀ k p, Live g k → HasP g k p → ∃ x ∈ sch.ar, x.node = k ∧ x.param = p
  only : ∀ x ∈ sch.ar, Live g x.node ∧ HasP g x.node x.param
  into : SrcLive g → Into sch s'.alloc.buf

theorem makeSchedule_sent {g : Graph} {bs : Nat} {s s' : AState} {sch : Schedule} (hg : WF g)
    (h : makeSchedule g bs s = .ok (s', sch)) : Sent g s s' sch := by
  obtain ⟨rem, ho⟩ := makeSchedule_keys h
  obtain ⟨hnd, hmem⟩ := order_nodup_mem hg ho
  have hkeys : ∀ k, (∃ t ∈ sch.tasks, t.key = k) ↔ Live g k := by
    intro k; rw [← hmem k, List.mem_map]
  generalize hord : sch.tasks.map Task.key = order at *
  unfold makeSchedule at h
  rw [ho] at h
  simp only [bind_ok] at h
  split at h
  · simp at h
  obtain ⟨s1, h1, h⟩ := bind_inv h
  obtain ⟨h2, h3⟩ := assignAll_off h1
  obtain ⟨tasks, h4, h⟩ := bind_inv h
  obtain ⟨outs, h5, h⟩ := bind_inv h
  obtain ⟨ar, h6, h⟩ := bind_inv h
  simp only [Except.ok.injEq, Prod.mk.injEq] at h
  obtain ⟨hs', rfl⟩ := h
  rw [hs'] at h4 h5 h6
  have hbuf : s'.alloc.buf = s1.alloc.finish.buf := by rw [← hs']; rfl
  have hptr : ∀ k ∈ order, ∀ b o, s'.outm k = .ptr b o → b = s'.alloc.buf := by
    intro k hk b o e
    obtain ⟨o', ho'⟩ := h2 k (.inl hk)
    rw [← hs'] at e
    simp only [swapAll, hk, if_true, ho'] at e
    split at e
    · simp only [Out.ptr.injEq] at e
      rw [hbuf, ← e.1]
    · simp at e
  have hout : ∀ k, Live g k → ∀ c i, outPtr g bs s' k c = .ok i → ∀ d, bufOf i = some d → d = s'.alloc.buf := by
    intro k hk c i e d hd
    unfold outPtr at e
    split at e
    · simp at e
    · split at e
      · next b o hb =>
        simp only [Except.ok.injEq] at e
        subst e
        simp only [bufOf, Option.some.injEq] at hd
        subst hd
        exact hptr k ((hmem k).2 hk) _ _ hb
      · simp at e
  refine ⟨hkeys, ?_, ?_, ?_, ?_⟩
  · rw [hbuf]
    have : s1.alloc.buf = s.alloc.buf := by
      rw [h3]
      exact getBlock_buf _ _ _ _
    unfold Alloc.finish
    split
    · exact .inl this
    · exact .inr (by simp [this])
  · rintro k p hl ⟨pe, hpe, rfl⟩
    obtain ⟨x, hx, hx2⟩ := mapR_fwd h6 (k, pe) (by
      simp only [List.mem_flatMap, List.mem_map, List.mem_filter, Prod.mk.injEq]
      refine ⟨k, ⟨?_, by simpa using (hmem k).2 hl⟩, pe, hpe, rfl, rfl⟩
      simpa using (get_isSome g k).1 hl.1)
    refine ⟨x, hx, ?_⟩
    simp only [makeAr] at hx2
    split at hx2
    · simp at hx2
    · obtain ⟨i, -, hx2⟩ := bind_inv hx2
      split at hx2
      · simp only [Except.ok.injEq] at hx2
        subst hx2
        exact ⟨rfl, rfl⟩
      · simp at hx2
  · intro x hx
    obtain ⟨⟨k, pe⟩, hkp, hx2⟩ := mapR_mem h6 x hx
    simp only [List.mem_flatMap, List.mem_map, List.mem_filter, Prod.mk.injEq] at hkp
    obtain ⟨k', ⟨-, hk'⟩, pe', hpe, rfl, rfl⟩ := hkp
    simp only [makeAr] at hx2
    split at hx2
    · simp at hx2
    · obtain ⟨i, -, hx2⟩ := bind_inv hx2
      split at hx2
      · simp only [Except.ok.injEq] at hx2
        subst hx2
        exact ⟨(hmem _).1 (by simpa using hk'), pe', hpe, rfl⟩
      · simp at hx2
  · intro hsl
    refine ⟨?_, ?_, ?_, ?_⟩
    · intro t ht i hi c hc
      obtain ⟨k, hk, h7⟩ := mapR_mem h4 t ht
      unfold makeTask at h7
      split at h7
      · simp at h7
      next n hn =>
      split at h7
      · simp at h7
      next es hes =>
      obtain ⟨is, h8, h7⟩ := bind_inv h7
      split at h7
      · simp only [Except.ok.injEq] at h7
        subst h7
        obtain ⟨e, he, h9⟩ := mapR_mem h8 i hi
        obtain ⟨j, hj⟩ := List.mem_iff_getElem?.1 he
        have hins : g.ins k = some es := by rw [ins_eq, hn]; exact hes
        match e, h9, hj with
        | none, h9, _ =>
          simp only [makeIn] at h9
          split at h9
          · simp at h9
          · simp only [Except.ok.injEq] at h9
            subst h9
            simp only [bufOf, Option.some.injEq] at hc
            exact hc.symm
        | some ⟨.graph, c', f⟩, h9, _ =>
          simp only [makeIn, Except.ok.injEq] at h9
          subst h9
          simp [bufOf] at hc
        | some ⟨.node a, c', f⟩, h9, hj =>
          simp only [makeIn] at h9
          exact hout a (hsl.ins k j _ a (by rw [edge_of_ins hins, hj]; rfl) rfl) _ _ h9 c hc
      · simp at h7
    · intro t ht
      obtain ⟨k, hk, h7⟩ := mapR_mem h4 t ht
      unfold makeTask at h7
      split at h7
      · simp at h7
      split at h7
      · simp at h7
      obtain ⟨is, h8, h7⟩ := bind_inv h7
      split at h7
      · next b o hb =>
        simp only [Except.ok.injEq] at h7
        subst h7
        exact hptr k hk _ _ hb
      · simp at h7
    · intro i hi c hc
      obtain ⟨e, he, h7⟩ := mapR_mem h5 _ hi
      obtain ⟨j, hj⟩ := List.mem_iff_getElem?.1 he
      match e, h7, hj with
      | none, h7, _ => simp [makeOut] at h7
      | some ⟨.graph, c', f⟩, h7, _ =>
        simp only [makeOut, Except.ok.injEq, Option.some.injEq] at h7
        subst h7
        simp [bufOf] at hc
      | some ⟨.node a, c', f⟩, h7, hj =>
        simp only [makeOut] at h7
        split at h7
        · simp at h7
        obtain ⟨i', h8, h7⟩ := bind_inv h7
        split at h7
        · simp only [Except.ok.injEq, Option.some.injEq] at h7
          subst h7
          exact hout a (hsl.outs j _ a (by rw [Graph.out, hj]; rfl) rfl) _ _ h8 c hc
        · simp at h7
    · intro x hx c hc
      obtain ⟨⟨k, pe⟩, hkp, hx2⟩ := mapR_mem h6 x hx
      simp only [List.mem_flatMap, List.mem_map, Prod.mk.injEq] at hkp
      obtain ⟨k', -, pe', hpe, rfl, rfl⟩ := hkp
      simp only [makeAr] at hx2
      split at hx2
      · simp at hx2
      · obtain ⟨i, h8, hx2⟩ := bind_inv hx2
        split at hx2
        · simp only [Except.ok.injEq] at hx2
          subst hx2
          cases hp : g.pars k' with
          | none => simp [hp] at hpe
          | some ps =>
            simp only [hp, Option.getD_some] at hpe
            exact hout _ (hsl.pars k' ps pe' hp hpe) _ _ h8 c hc
        · simp at hx2

/-! ### The pointers kept by the unit generators -/

/-- The schedule sets parameter `p` of node `k`. -/
def Sets (cs : List ArChange) (k : Key) (p : Nat) : Prop := ∃ x ∈ cs, x.node = k ∧ x.param = p

theorem setAr_sets : ∀ (cs : List ArChange) (ar : Key → Nat → Option In) (k : Key) (p : Nat),
    (Sets cs k p → ∃ x ∈ cs, setAr ar cs k p = some x.buffer) ∧
    (¬ Sets cs k p → setAr ar cs k p = ar k p) := by
  intro cs
  induction cs with
  | nil => intro ar k p; exact ⟨fun ⟨x, hx, _⟩ => by simp at hx, fun _ => rfl⟩
  | cons c cs ih =>
    intro ar k p
    rw [setAr]
    obtain ⟨h1, h2⟩ := ih (fun k p => if k = c.node ∧ p = c.param then some c.buffer else ar k p) k p
    by_cases hs : Sets cs k p
    · refine ⟨fun _ => ?_, fun h => absurd ?_ h⟩
      · obtain ⟨x, hx, e⟩ := h1 hs
        exact ⟨x, List.mem_cons_of_mem _ hx, e⟩
      · obtain ⟨x, hx, e⟩ := hs
        exact ⟨x, List.mem_cons_of_mem _ hx, e⟩
    · rw [h2 hs]
      constructor
      · rintro ⟨x, hx, rfl, rfl⟩
        rcases List.mem_cons.1 hx with rfl | hx
        · exact ⟨x, by simp, by simp⟩
        · exact absurd ⟨x, hx, rfl, rfl⟩ hs
      · intro h
        refine if_neg ?_
        rintro ⟨rfl, rfl⟩
        exact h ⟨c, by simp, rfl, rfl⟩

/-- What is set when all schedules have arrived is still connected in the graph. -/
def Fin' (g : Graph) (P : Key → Nat → Prop) : Prop :=
  ∀ k p, P k p → k < g.nextKey ∧ (Live g k → HasP g k p)

/-- Every schedule on its way sets again all pointers of the nodes it runs. -/
def Chain (g : Graph) (P : Key → Nat → Prop) : List TD → Prop
  | [] => Fin' g P
  | td :: r => (∀ t ∈ td.sch.tasks, ∀ p, P t.key p → Sets td.sch.ar t.key p) ∧
      Chain g (fun k p => P k p ∨ Sets td.sch.ar k p) r

theorem fin_mono {g g' : Graph} (hp : Pm (fun _ _ => False) g g') {P} (h : Fin' g P) : Fin' g' P := by
  intro k p hk
  obtain ⟨h1, h2⟩ := h k p hk
  exact ⟨Nat.lt_of_lt_of_le h1 hp.next, fun hl => hp.keep k h1 hl p (fun h => h) (h2 (hp.live k h1 hl))⟩

theorem chain_mono {g g' : Graph} (hp : Pm (fun _ _ => False) g g') : ∀ {ring : List TD} {P},
    Chain g P ring → Chain g' P ring := by
  intro ring
  induction ring with
  | nil => intro P h; exact fin_mono hp h
  | cons td r ih => intro P h; exact ⟨h.1, ih h.2⟩

theorem chain_send {g g' : Graph} {s s' : AState} {sch : Schedule} (hg : WF g) (hs : Sent g s s' sch)
    (h1 : g'.nextKey = g.nextKey) (h2 : ∀ k, Live g' k ↔ Live g k) (h3 : ∀ k p, HasP g k p → HasP g' k p) (a) :
    ∀ {ring : List TD} {P}, Chain g P ring → Chain g' P (ring ++ [⟨sch, a⟩]) := by
  intro ring
  induction ring with
  | nil =>
    intro P h
    refine ⟨?_, ?_⟩
    · intro t ht p hp
      have hl := (hs.keys t.key).1 ⟨t, ht, rfl⟩
      exact hs.sets _ _ hl ((h _ _ hp).2 hl)
    · intro k p hp
      rcases hp with hp | ⟨x, hx, rfl, rfl⟩
      · obtain ⟨h4, h5⟩ := h k p hp
        exact ⟨by rw [h1]; exact h4, fun hl => h3 _ _ (h5 ((h2 k).1 hl))⟩
      · obtain ⟨h4, h5⟩ := hs.only x hx
        obtain ⟨n, hn⟩ := Option.isSome_iff_exists.1 h4.1
        exact ⟨by rw [h1]; exact hg.lt _ _ hn, fun _ => h3 _ _ h5⟩
  | cons td r ih => intro P h; exact ⟨h.1, ih h.2⟩

theorem chain_congr {g : Graph} : ∀ {ring : List TD} {P Q : Key → Nat → Prop}, (∀ k p, Q k p → P k p) →
    Chain g P ring → Chain g Q ring := by
  intro ring
  induction ring with
  | nil => intro P Q hq h k p hk; exact h k p (hq k p hk)
  | cons td r ih =>
    intro P Q hq h
    refine ⟨fun t ht p hp => h.1 t ht p (hq _ _ hp), ih ?_ h.2⟩
    rintro k p (h | h)
    · exact .inl (hq k p h)
    · exact .inr h

/-! ### The invariants -/

/-- The allocation the current schedule was made for. -/
def LS.base (s : LS) : Nat := s.cur.arc.getD s.arc

/-- What keeps the pointers good. -/
structure Safe (s : LS) : Prop where
  wf : WF s.g
  ring : ∀ td ∈ s.ring, ∃ b, td.arc = some b ∧ Into td.sch b
  cur : Into s.cur.sch s.base
  held : ∀ t ∈ s.cur.sch.tasks, ∀ p i, s.ar t.key p = some i → ∀ c, bufOf i = some c → c = s.base
  chain : Chain s.g (fun k p => (s.ar k p).isSome) s.ring

/-- New schedules are only made while all sources are live. -/
def Sourced (s : LS) : Step → Prop
  | .send => s.g.recalc = true → SrcLive s.g
  | _ => True

theorem safe_init (id a b bs cap) : Safe (.init id a b bs cap) where
  wf := wf_init id a b
  ring := by simp [LS.init]
  cur := by
    refine ⟨?_, ?_, ?_, ?_⟩ <;> simp [LS.init]
  held := by simp [LS.init]
  chain := by intro k p h; simp [LS.init] at h

theorem safe_step {sl bs} {s s' : LS} {st : Step} (h : Safe s) (hl : st.legal) (he : Sourced s st)
    (hr : st.run sl bs s = .ok (some s')) : Safe s' := by
  cases st with
  | edit op =>
    simp only [Step.run] at hr
    split at hr
    · simp at hr
    obtain ⟨⟨g, r⟩, h1, hr⟩ := bind_inv hr
    simp only [Except.ok.injEq, Option.some.injEq] at hr
    subst hr
    have hc : isCommit op = false := by cases op <;> first | rfl | exact absurd hl id
    exact ⟨wf_step h.wf h1, h.ring, h.cur, h.held, chain_mono (pm_step h.wf hc h1) h.chain⟩
  | freeNodes rm fs =>
    simp only [Step.run] at hr
    split at hr
    · simp at hr
    obtain ⟨g, h1, hr⟩ := bind_inv hr
    simp only [Except.ok.injEq, Option.some.injEq] at hr
    subst hr
    exact ⟨wf_freeOld h.wf h1, h.ring, h.cur, h.held, chain_mono (pm_freeOld h1) h.chain⟩
  | freeBuf i =>
    simp only [Step.run] at hr
    split at hr
    · simp at hr
    split at hr
    · simp at hr
    simp only [Except.ok.injEq, Option.some.injEq] at hr
    subst hr
    split
    · exact ⟨h.wf, h.ring, h.cur, h.held, h.chain⟩
    · exact h
  | drain =>
    simp only [Step.run] at hr
    split at hr
    · simp at hr
    simp only [Except.ok.injEq, Option.some.injEq] at hr
    subst hr
    exact ⟨h.wf, h.ring, h.cur, h.held, h.chain⟩
  | send =>
    simp only [Step.run] at hr
    split at hr
    · simp at hr
    split at hr
    · next hrec =>
      obtain ⟨⟨a, sch⟩, h1, hr⟩ := bind_inv hr
      simp only at hr
      split at hr
      · simp only [Except.ok.injEq, Option.some.injEq] at hr
        subst hr
        have hs := makeSchedule_sent h.wf h1
        refine ⟨h.wf.congr rfl rfl rfl rfl, ?_, h.cur, h.held, ?_⟩
        · intro td htd
          rcases List.mem_append.1 htd with htd | htd
          · exact h.ring td htd
          · rw [List.mem_singleton.1 htd]
            exact ⟨_, rfl, hs.into (he hrec)⟩
        · exact chain_send (g' := { s.g with flag := s.g.flag + 1, recalc := false }) h.wf hs rfl
            (fun _ => Iff.rfl) (fun _ _ h => h) _ h.chain
      · simp at hr
    · simp only [Except.ok.injEq, Option.some.injEq] at hr
      subst hr
      exact ⟨h.wf, h.ring, h.cur, h.held, h.chain⟩
  | drop =>
    simp only [Step.run] at hr
    split at hr
    · simp at hr
    simp only [Except.ok.injEq, Option.some.injEq] at hr
    subst hr
    exact ⟨h.wf, h.ring, h.cur, h.held, h.chain⟩
  | recv =>
    simp only [Step.run] at hr
    split at hr
    · simp at hr
    next td ring hring =>
    simp only [Except.ok.injEq, Option.some.injEq] at hr
    subst hr
    obtain ⟨b, hb, hinto⟩ := h.ring td (by rw [hring]; simp)
    have hch := h.chain
    rw [hring] at hch
    have hset : ∀ k p, (setAr s.ar td.sch.ar k p).isSome → (s.ar k p).isSome ∨ Sets td.sch.ar k p := by
      intro k p hk
      by_cases hs : Sets td.sch.ar k p
      · exact .inr hs
      · rw [(setAr_sets _ _ _ _).2 hs] at hk
        exact .inl hk
    refine ⟨h.wf, fun x hx => h.ring x (by rw [hring]; exact List.mem_cons_of_mem _ hx), ?_, ?_,
      chain_congr hset hch.2⟩
    · simpa [LS.base, hb] using hinto
    · intro t ht p i hi c hc
      have hs : Sets td.sch.ar t.key p := by
        rcases hset t.key p (by simp only at hi; rw [hi]; rfl) with hk | hk
        · exact hch.1 t ht p hk
        · exact hk
      obtain ⟨x, hx, e⟩ := (setAr_sets _ s.ar _ _).1 hs
      simp only at hi
      rw [e] at hi
      simp only [Option.some.injEq] at hi
      subst hi
      simpa [LS.base, hb] using hinto.ar x hx c hc
  | take =>
    simp only [Step.run] at hr
    split at hr
    · simp only [Except.ok.injEq, Option.some.injEq] at hr
      subst hr
      exact h
    · next b hb =>
      simp only [Except.ok.injEq, Option.some.injEq] at hr
      subst hr
      have e : s.base = b := by simp [LS.base, hb]
      refine ⟨h.wf, h.ring, ?_, ?_, h.chain⟩
      · have := h.cur
        rw [e] at this
        exact this
      · have := h.held
        rw [e] at this
        exact this

theorem Reaches.safe {sl bs} {E : LS → Step → Prop} (hE : ∀ s st, E s st → Sourced s st) {s : LS}
    (h : Reaches sl bs E s) : Safe s := by
  induction h with
  | init id a b cap => exact safe_init id a b bs cap
  | step st _ hl he hr ih => exact safe_step ih hl (hE _ _ he) hr

/-- What the other holders hold. -/
def LS.rest (s : LS) : List Nat := (s.ring ++ s.old ++ [s.cur]).filterMap TD.arc ++ [s.arc]

theorem holders_eq (s : LS) : s.holders = (if s.gone then [] else s.a.alloc.buf :: s.toFree) ++ s.rest := by
  rw [LS.holders, LS.rest, List.append_assoc]

/-- Who holds what. -/
structure Hold (s : LS) : Prop where
  wf : WF s.g
  listed : s.gone = false → ∀ b ∈ s.rest, b = s.a.alloc.buf ∨ b ∈ s.toFree
  nodup : s.toFree.Nodup
  lt : ∀ b ∈ s.toFree, b < s.a.alloc.buf
  arcs : ∀ td ∈ s.ring, td.arc.isSome
  newest : (s.ring.getLast?.getD s.cur).arc.getD s.arc = s.a.alloc.buf

theorem hold_init (id a b bs cap) : Hold (.init id a b bs cap) where
  wf := wf_init id a b
  listed := by simp [LS.init, LS.rest, AState.init, Alloc.init]
  nodup := by simp [LS.init]
  lt := by simp [LS.init]
  arcs := by simp [LS.init]
  newest := by simp [LS.init, AState.init, Alloc.init]

theorem mem_rest {s : LS} {b : Nat} : b ∈ s.rest ↔
    (∃ td ∈ s.ring, td.arc = some b) ∨ (∃ td ∈ s.old, td.arc = some b) ∨ s.cur.arc = some b ∨ b = s.arc := by
  simp only [LS.rest, List.mem_append, List.mem_filterMap, List.mem_singleton]
  constructor
  · rintro (⟨td, ((h | h) | rfl), e⟩ | rfl)
    · exact .inl ⟨td, h, e⟩
    · exact .inr (.inl ⟨td, h, e⟩)
    · exact .inr (.inr (.inl e))
    · exact .inr (.inr (.inr rfl))
  · rintro (⟨td, h, e⟩ | ⟨td, h, e⟩ | h | rfl)
    · exact .inl ⟨td, .inl (.inl h), e⟩
    · exact .inl ⟨td, .inl (.inr h), e⟩
    · exact .inl ⟨_, .inr rfl, h⟩
    · exact .inr rfl

theorem rest_audio {sl bs} {s s' : LS} {st : Step} (ha : st.audio = true) (hr : st.run sl bs s = .ok (some s')) :
    (∀ b ∈ s'.rest, b ∈ s.rest) ∧ s'.g = s.g ∧ s'.a = s.a ∧ s'.toFree = s.toFree ∧ s'.gone = s.gone ∧ s'.pc = s.pc := by
  cases st with
  | recv =>
    simp only [Step.run] at hr
    split at hr
    · simp at hr
    next td ring hring =>
    simp only [Except.ok.injEq, Option.some.injEq] at hr
    subst hr
    refine ⟨?_, rfl, rfl, rfl, rfl, rfl⟩
    intro b hb
    rw [mem_rest] at hb ⊢
    simp only at hb
    rcases hb with ⟨x, hx, e⟩ | ⟨x, hx, e⟩ | hb | hb
    · exact .inl ⟨x, by rw [hring]; exact List.mem_cons_of_mem _ hx, e⟩
    · split at hx
      · rcases List.mem_append.1 hx with hx | hx
        · exact .inr (.inl ⟨x, hx, e⟩)
        · rw [List.mem_singleton.1 hx] at e
          exact .inr (.inr (.inl e))
      · exact .inr (.inl ⟨x, hx, e⟩)
    · exact .inl ⟨td, by rw [hring]; simp, hb⟩
    · exact .inr (.inr (.inr hb))
  | take =>
    simp only [Step.run] at hr
    split at hr
    · simp only [Except.ok.injEq, Option.some.injEq] at hr
      subst hr
      exact ⟨fun _ h => h, rfl, rfl, rfl, rfl, rfl⟩
    · next b hb =>
      simp only [Except.ok.injEq, Option.some.injEq] at hr
      subst hr
      refine ⟨?_, rfl, rfl, rfl, rfl, rfl⟩
      intro c hc
      rw [mem_rest] at hc ⊢
      simp only at hc
      rcases hc with hc | hc | hc | hc
      · exact .inl hc
      · exact .inr (.inl hc)
      · simp at hc
      · rw [hc]; exact .inr (.inr (.inl hb))
  | _ => simp [Step.audio] at ha

theorem hold_step {sl bs} {s s' : LS} {st : Step} (h : Hold s)
    (hr : st.run sl bs s = .ok (some s')) : Hold s' := by
  cases st with
  | edit op =>
    simp only [Step.run] at hr
    split at hr
    · simp at hr
    obtain ⟨⟨g, r⟩, h1, hr⟩ := bind_inv hr
    simp only [Except.ok.injEq, Option.some.injEq] at hr
    subst hr
    exact ⟨wf_step h.wf h1, h.listed, h.nodup, h.lt, h.arcs, h.newest⟩
  | freeNodes rm fs =>
    simp only [Step.run] at hr
    split at hr
    · simp at hr
    obtain ⟨g, h1, hr⟩ := bind_inv hr
    simp only [Except.ok.injEq, Option.some.injEq] at hr
    subst hr
    exact ⟨wf_freeOld h.wf h1, h.listed, h.nodup, h.lt, h.arcs, h.newest⟩
  | freeBuf i =>
    simp only [Step.run] at hr
    split at hr
    · simp at hr
    split at hr
    · simp at hr
    next b hb =>
    simp only [Except.ok.injEq, Option.some.injEq] at hr
    subst hr
    split
    · next hc =>
      refine ⟨h.wf, ?_, h.nodup.sublist (List.eraseIdx_sublist _ _), fun c hc => h.lt c (List.mem_of_mem_eraseIdx hc), h.arcs, h.newest⟩
      intro hg c hcr
      have hg' : s.gone = false := hg
      have hcr' : c ∈ s.rest := hcr
      rcases h.listed hg' c hcr' with e | hm
      · exact .inl e
      · refine .inr ?_
        have hne : c ≠ b := by
          rintro rfl
          rw [holders_eq, hg'] at hc
          simp only [Bool.false_eq_true, if_false, List.count_append, List.count_cons] at hc
          have h1 : 0 < s.toFree.count c := List.count_pos_iff.2 hm
          have h2 : 0 < s.rest.count c := List.count_pos_iff.2 hcr'
          omega
        obtain ⟨j, hj⟩ := List.mem_iff_getElem?.1 hm
        have hji : j ≠ i := by
          rintro rfl
          rw [hb] at hj
          exact hne (Option.some.inj hj).symm
        rw [List.mem_eraseIdx_iff_getElem?]
        exact ⟨j, hji, hj⟩
    · exact h
  | drain =>
    simp only [Step.run] at hr
    split at hr
    · simp at hr
    simp only [Except.ok.injEq, Option.some.injEq] at hr
    subst hr
    refine ⟨h.wf, ?_, h.nodup, h.lt, h.arcs, h.newest⟩
    intro hg b hb
    refine h.listed hg b ?_
    rw [mem_rest] at hb ⊢
    simp only [List.not_mem_nil, false_and, exists_false, false_or] at hb
    rcases hb with hb | hb | hb
    · exact .inl hb
    · exact .inr (.inr (.inl hb))
    · exact .inr (.inr (.inr hb))
  | send =>
    simp only [Step.run] at hr
    split at hr
    · simp at hr
    split at hr
    · next hrec =>
      obtain ⟨⟨a, sch⟩, h1, hr⟩ := bind_inv hr
      simp only at hr
      split at hr
      · simp only [Except.ok.injEq, Option.some.injEq] at hr
        subst hr
        have hs := makeSchedule_sent h.wf h1
        refine ⟨h.wf.congr rfl rfl rfl rfl, ?_, ?_, ?_, ?_, ?_⟩
        · intro hg b hb
          have hb2 : b ∈ s.rest ∨ b = a.alloc.buf := by
            rw [mem_rest] at hb ⊢
            simp only [List.mem_append, List.mem_singleton] at hb
            rcases hb with ⟨td, htd | rfl, e⟩ | hb | hb | hb
            · exact .inl (.inl ⟨td, htd, e⟩)
            · simp only [Option.some.injEq] at e
              exact .inr e.symm
            · exact .inl (.inr (.inl hb))
            · exact .inl (.inr (.inr (.inl hb)))
            · exact .inl (.inr (.inr (.inr hb)))
          rcases hb2 with hb2 | hb2
          · simp only
            rcases h.listed hg b hb2 with e | hm
            · split
              · next hs => exact .inl (e.trans hs.symm)
              · exact .inr (by rw [e]; simp)
            · split
              · exact .inr hm
              · exact .inr (List.mem_append_left _ hm)
          · exact .inl hb2
        · simp only
          split
          · exact h.nodup
          · rw [List.nodup_append]
            refine ⟨h.nodup, by simp, ?_⟩
            intro x hx y hy
            rw [List.mem_singleton.1 hy]
            exact Nat.ne_of_lt (h.lt x hx)
        · intro b hb
          simp only at hb ⊢
          split at hb
          · next e => rw [e]; exact h.lt b hb
          · next hne =>
            have hb' : b ≤ s.a.alloc.buf := by
              rcases List.mem_append.1 hb with hb | hb
              · exact Nat.le_of_lt (h.lt b hb)
              · exact Nat.le_of_eq (List.mem_singleton.1 hb)
            rcases hs.grow with e | e
            · exact absurd e hne
            · omega
        · intro td htd
          rcases List.mem_append.1 htd with htd | htd
          · exact h.arcs td htd
          · rw [List.mem_singleton.1 htd]
            rfl
        · simp
      · simp at hr
    · simp only [Except.ok.injEq, Option.some.injEq] at hr
      subst hr
      exact ⟨h.wf, h.listed, h.nodup, h.lt, h.arcs, h.newest⟩
  | drop =>
    simp only [Step.run] at hr
    split at hr
    · simp at hr
    simp only [Except.ok.injEq, Option.some.injEq] at hr
    subst hr
    exact ⟨h.wf, by simp, by simp, by simp, h.arcs, h.newest⟩
  | recv =>
    obtain ⟨h1, h2, h3, h4, h5, h6⟩ := rest_audio rfl hr
    refine ⟨by rw [h2]; exact h.wf, ?_, by rw [h4]; exact h.nodup, by rw [h3, h4]; exact h.lt, ?_, ?_⟩
    · intro hg b hb
      rw [h3, h4]
      exact h.listed (by rw [← h5]; exact hg) b (h1 b hb)
    · simp only [Step.run] at hr
      split at hr
      · simp at hr
      next td ring hring =>
      simp only [Except.ok.injEq, Option.some.injEq] at hr
      subst hr
      intro x hx
      exact h.arcs x (by rw [hring]; exact List.mem_cons_of_mem _ hx)
    · simp only [Step.run] at hr
      split at hr
      · simp at hr
      next td ring hring =>
      simp only [Except.ok.injEq, Option.some.injEq] at hr
      subst hr
      have := h.newest
      rw [hring] at this
      simp only [List.getLast?_cons, Option.getD_some] at this
      exact this
  | take =>
    obtain ⟨h1, h2, h3, h4, h5, h6⟩ := rest_audio rfl hr
    refine ⟨by rw [h2]; exact h.wf, ?_, by rw [h4]; exact h.nodup, by rw [h3, h4]; exact h.lt, ?_, ?_⟩
    · intro hg b hb
      rw [h3, h4]
      exact h.listed (by rw [← h5]; exact hg) b (h1 b hb)
    · simp only [Step.run] at hr
      split at hr
      · simp only [Except.ok.injEq, Option.some.injEq] at hr
        subst hr
        exact h.arcs
      next b hb =>
      simp only [Except.ok.injEq, Option.some.injEq] at hr
      subst hr
      exact h.arcs
    · simp only [Step.run] at hr
      split at hr
      · simp only [Except.ok.injEq, Option.some.injEq] at hr
        subst hr
        exact h.newest
      next b hb =>
      simp only [Except.ok.injEq, Option.some.injEq] at hr
      subst hr
      have := h.newest
      simp only
      cases hl : s.ring.getLast? with
      | none =>
        rw [hl] at this
        simp only [Option.getD_none, hb, Option.getD_some] at this
        simpa using this
      | some td =>
        rw [hl] at this
        obtain ⟨x, hx⟩ := Option.isSome_iff_exists.1 (h.arcs td (List.mem_of_getLast? hl))
        simpa [hx] using this

theorem Reaches.hold {sl bs} {E : LS → Step → Prop} {s : LS} (h : Reaches sl bs E s) : Hold s := by
  induction h with
  | init id a b cap => exact hold_init id a b bs cap
  | step st _ _ _ hr ih => exact hold_step ih hr

/-- No schedule arrives between `free_old_task_data` and the sending of the next one. -/
def Calm (s : LS) : Step → Prop
  | .recv => s.pc ≠ .sending
  | _ => True

/-- Room in the ring of old task data. -/
def Room (s : LS) : Prop := s.old.length + s.ring.length ≤ s.cap ∧ (s.pc = .sending → s.old = [])

theorem room_step {sl bs} {s s' : LS} {st : Step} (h : Room s) (he : Calm s st)
    (hr : st.run sl bs s = .ok (some s')) : Room s' := by
  cases st with
  | edit op =>
    simp only [Step.run] at hr
    split at hr
    · simp at hr
    obtain ⟨⟨g, r⟩, h1, hr⟩ := bind_inv hr
    simp only [Except.ok.injEq, Option.some.injEq] at hr
    subst hr
    exact h
  | freeNodes rm fs =>
    simp only [Step.run] at hr
    split at hr
    · simp at hr
    obtain ⟨g, h1, hr⟩ := bind_inv hr
    simp only [Except.ok.injEq, Option.some.injEq] at hr
    subst hr
    exact ⟨h.1, by simp⟩
  | freeBuf i =>
    simp only [Step.run] at hr
    split at hr
    · simp at hr
    split at hr
    · simp at hr
    simp only [Except.ok.injEq, Option.some.injEq] at hr
    subst hr
    split
    · exact h
    · exact h
  | drain =>
    simp only [Step.run] at hr
    split at hr
    · simp at hr
    simp only [Except.ok.injEq, Option.some.injEq] at hr
    subst hr
    have := h.1
    refine ⟨?_, fun _ => rfl⟩
    simp only [List.length_nil]
    omega
  | send =>
    simp only [Step.run] at hr
    split at hr
    · simp at hr
    next hp =>
    split at hr
    · obtain ⟨⟨a, sch⟩, h1, hr⟩ := bind_inv hr
      simp only at hr
      split at hr
      · next hc =>
        simp only [Except.ok.injEq, Option.some.injEq] at hr
        subst hr
        have := h.2 (by simpa using hp)
        refine ⟨?_, by simp⟩
        simp only [this, List.length_append, List.length_nil, List.length_cons]
        omega
      · simp at hr
    · simp only [Except.ok.injEq, Option.some.injEq] at hr
      subst hr
      exact ⟨h.1, by simp⟩
  | drop =>
    simp only [Step.run] at hr
    split at hr
    · simp at hr
    simp only [Except.ok.injEq, Option.some.injEq] at hr
    subst hr
    exact h
  | recv =>
    simp only [Step.run] at hr
    split at hr
    · simp at hr
    next td ring hring =>
    simp only [Except.ok.injEq, Option.some.injEq] at hr
    subst hr
    have h1 := h.1
    rw [hring] at h1
    simp only [List.length_cons] at h1
    refine ⟨?_, fun hp => absurd hp he⟩
    simp only
    split
    · simp only [List.length_append, List.length_cons, List.length_nil]
      omega
    · omega
  | take =>
    simp only [Step.run] at hr
    split at hr
    · simp only [Except.ok.injEq, Option.some.injEq] at hr
      subst hr
      exact h
    · simp only [Except.ok.injEq, Option.some.injEq] at hr
      subst hr
      exact h

theorem Reaches.room {sl bs} {E : LS → Step → Prop} (hE : ∀ s st, E s st → Calm s st) {s : LS}
    (h : Reaches sl bs E s) : Room s := by
  induction h with
  | init id a b cap => exact ⟨by simp [LS.init], by simp [LS.init]⟩
  | step st _ _ he hr ih => exact room_step ih (hE _ _ he) hr

theorem reaches_runAll {sl bs} {E : LS → Step → Prop} (hE : ∀ s st, E s st) : ∀ {sts : List Step} {s s' : LS},
    Reaches sl bs E s → (∀ st ∈ sts, st.legal) → runAll sl bs s sts = .ok (some s') → Reaches sl bs E s' := by
  intro sts
  induction sts with
  | nil => intro s s' h _ hr; simp only [runAll, Except.ok.injEq, Option.some.injEq] at hr; subst hr; exact h
  | cons st sts ih =>
    intro s s' h hl hr
    rw [runAll] at hr
    obtain ⟨o, h1, hr⟩ := bind_inv hr
    cases o with
    | none => simp at hr
    | some s1 => exact ih (.step st h (hl st (by simp)) (hE _ _) h1) (fun x hx => hl x (List.mem_cons_of_mem _ hx)) hr

/-! ### A test for concrete graphs -/

/-- `SrcLive`, computed. -/
def srcLiveB (g : Graph) : Bool :=
  let ok := fun k => (g.get k).isSome && !g.isPending k
  (g.nodes.all fun p => (recSources p.2).all ok) && (srcKeys g.outs).all ok

theorem srcLive_of {g : Graph} (h : srcLiveB g = true) : SrcLive g := by
  simp only [srcLiveB, Bool.and_eq_true, List.all_eq_true] at h
  have hl : ∀ k, (g.get k).isSome = true ∧ (!g.isPending k) = true → Live g k := by
    intro k hk; exact ⟨hk.1, by simpa using hk.2⟩
  have hn : ∀ a b, Needs g a b → Live g a := by
    intro a b hab
    rw [← mem_sourcesOf] at hab
    unfold sourcesOf at hab
    cases hb : g.get b with
    | none => simp [hb] at hab
    | some n =>
      simp only [hb] at hab
      exact hl a (h.1 (b, n) (mem_of_get hb) a hab)
  refine ⟨fun k i e a h1 h2 => hn a k (.inl ⟨i, e, h1, h2⟩), ?_, fun k es pe h1 h2 => hn _ k (.inr ⟨es, pe, h1, h2, rfl⟩)⟩
  intro i e a h1 h2
  refine hl a (h.2 a ?_)
  rw [Graph.out] at h1
  have h3 : some e ∈ g.outs := by
    cases hi : g.outs[i]? with
    | none => simp [hi] at h1
    | some o =>
      rw [hi] at h1
      change o = some e at h1
      subst h1
      exact List.mem_of_getElem? hi
  rw [srcKeys, List.mem_filterMap]
  refine ⟨some e, h3, ?_⟩
  obtain ⟨src, c, f⟩ := e
  simp only at h2
  subst h2
  rfl

/-- `Sourced`, computed. -/
def sourcedB (s : LS) : Step → Bool
  | .send => !s.g.recalc || srcLiveB s.g
  | _ => true

theorem sourced_of {s : LS} {st : Step} (h : sourcedB s st = true) : Sourced s st := by
  cases st with
  | send =>
    intro hrec
    simp only [sourcedB, hrec, Bool.not_true, Bool.false_or] at h
    exact srcLive_of h
  | _ => trivial

/-- `runAll` for steps that keep to `Sourced`. -/
def runG (sl : Key → Nat) (bs : Nat) : LS → List Step → R (Option LS)
  | s, [] => .ok (some s)
  | s, st :: sts => do
    if sourcedB s st then
      match ← st.run sl bs s with
      | none => .ok none
      | some s' => runG sl bs s' sts
    else .ok none

theorem reaches_runG {sl bs} : ∀ {sts : List Step} {s s' : LS},
    Reaches sl bs Sourced s → (∀ st ∈ sts, st.legal) → runG sl bs s sts = .ok (some s') →
    Reaches sl bs Sourced s' := by
  intro sts
  induction sts with
  | nil => intro s s' h _ hr; simp only [runG, Except.ok.injEq, Option.some.injEq] at hr; subst hr; exact h
  | cons st sts ih =>
    intro s s' h hl hr
    rw [runG] at hr
    split at hr
    · next hg =>
      obtain ⟨o, h1, hr⟩ := bind_inv hr
      cases o with
      | none => simp at hr
      | some s1 =>
        exact ih (.step st h (hl st (by simp)) (sourced_of hg) h1) (fun x hx => hl x (List.mem_cons_of_mem _ hx)) hr
    · simp at hr

end Verif.Li
