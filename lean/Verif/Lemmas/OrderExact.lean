import Verif.Props.Order

/-!
# Exactly when the processing order is right: lemmas
-/

namespace Verif.G

open Relation

/-- `a` comes before `b` in the list `l`. -/
def Before (l : List Key) (a b : Key) : Prop := ∃ pre post, l = pre ++ b :: post ∧ a ∈ pre

theorem before_sublist {l : List Key} {a b : Key} (h : Before l a b) : [a, b].Sublist l := by
  obtain ⟨pre, post, rfl, h⟩ := h
  have h1 : [a].Sublist pre := List.singleton_sublist.2 h
  have h2 : [b].Sublist (b :: post) := List.singleton_sublist.2 (by simp)
  simpa using h1.append h2

theorem sublist_before {l : List Key} {a b : Key} (h : [a, b].Sublist l) : Before l a b := by
  induction l with
  | nil => simp at h
  | cons x l ih =>
    rw [List.sublist_cons_iff] at h
    rcases h with h | ⟨r, h1, h2⟩
    · obtain ⟨pre, post, rfl, hm⟩ := ih h
      exact ⟨x :: pre, post, by simp, List.mem_cons_of_mem _ hm⟩
    · simp only [List.cons.injEq] at h1
      obtain ⟨rfl, rfl⟩ := h1
      have : b ∈ l := List.singleton_sublist.1 h2
      obtain ⟨p, q, rfl⟩ := List.append_of_mem this
      exact ⟨a :: p, q, by simp, by simp⟩

theorem split_unique {l pre post pre' post' : List Key} {b : Key} (hn : l.Nodup)
    (h : l = pre ++ b :: post) (h' : l = pre' ++ b :: post') : pre = pre' ∧ post = post' := by
  subst h
  rw [List.append_eq_append_iff] at h'
  rcases h' with ⟨m, h1, h2⟩ | ⟨m, h1, h2⟩
  · cases m with
    | nil => simp at h1 h2; exact ⟨h1.symm, h2⟩
    | cons c m =>
      exfalso
      simp only [List.cons_append, List.cons.injEq] at h2
      rw [List.nodup_append, List.nodup_cons] at hn
      exact hn.2.1.1 (by rw [h2.2]; simp)
  · cases m with
    | nil => simp at h1 h2; exact ⟨h1, h2.symm⟩
    | cons c m =>
      exfalso
      simp only [List.cons_append, List.cons.injEq] at h2
      rw [h1, ← h2.1, List.nodup_append] at hn
      exact hn.2.2 b (by simp) b (by simp) rfl

theorem before_pre {l pre post : List Key} {a b : Key} (hn : l.Nodup) (h : Before l a b)
    (e : l = pre ++ b :: post) : a ∈ pre := by
  obtain ⟨p, q, e', h⟩ := h
  rw [(split_unique hn e e').1]
  exact h

theorem before_trans {l : List Key} {a b c : Key} (hn : l.Nodup) (h1 : Before l a b)
    (h2 : Before l b c) : Before l a c := by
  obtain ⟨p, q, rfl, h⟩ := h2
  obtain ⟨x, y, rfl⟩ := List.append_of_mem h
  refine ⟨_, _, rfl, ?_⟩
  have := before_pre (pre := x) (post := y ++ c :: q) hn h1 (by simp)
  simp [this]

theorem before_irrefl {l : List Key} {a : Key} (hn : l.Nodup) (h : Before l a a) : False := by
  obtain ⟨p, q, rfl, h⟩ := h
  rw [List.nodup_append] at hn
  exact hn.2.2 a h a (by simp) rfl

theorem topo_iff_before {g : Graph} {l : List Key} (hn : l.Nodup) :
    Topo g l ↔ ∀ a b, b ∈ l → Dep g a b → Before l a b := by
  constructor
  · intro h a b hb hd
    obtain ⟨pre, post, rfl⟩ := List.append_of_mem hb
    exact ⟨pre, post, rfl, h pre b post rfl a hd⟩
  · intro h pre b post e a hd
    exact before_pre hn (h a b (by rw [e]; simp) hd) e

theorem before_mem {l : List Key} {a b : Key} (h : Before l a b) : a ∈ l ∧ b ∈ l := by
  obtain ⟨p, q, rfl, h⟩ := h
  simp [h]

theorem topo_trans {g : Graph} {l : List Key} (hn : l.Nodup) (h : Topo g l) {a b : Key}
    (hab : TransGen (Dep g) a b) (hb : b ∈ l) : Before l a b := by
  rw [topo_iff_before hn] at h
  induction hab with
  | single h1 => exact h _ _ hb h1
  | tail _ h2 ih =>
    have h3 := h _ _ hb h2
    exact before_trans hn (ih (before_mem h3).1) h3

/-- The search never reorders the roots: the one pushed last comes first. -/
theorem dfsLoop_sublist {g : Graph} {rs : List Key} : ∀ (fuel : Nat) {v st o v' o'},
    rs.Sublist (o ++ st) → dfsLoop g fuel v st o = .ok (v', o') → rs.Sublist o' := by
  intro fuel
  induction fuel with
  | zero =>
    intro v st o v' o' h hd
    cases st with
    | nil =>
      simp only [dfsLoop, Except.ok.injEq, Prod.mk.injEq] at hd
      rw [List.append_nil] at h
      exact hd.2 ▸ h
    | cons k st => simp [dfsLoop] at hd
  | succ fuel ih =>
    intro v st o v' o' h hd
    cases st with
    | nil =>
      simp only [dfsLoop, Except.ok.injEq, Prod.mk.injEq] at hd
      rw [List.append_nil] at h
      exact hd.2 ▸ h
    | cons k st =>
      rw [dfsLoop] at hd
      cases hn : nextSource g v k with
      | error e => simp [hn] at hd
      | ok r =>
        rw [hn] at hd
        simp only [bind_ok] at hd
        cases r with
        | none => exact ih (by simpa using h) hd
        | some s => exact ih (h.trans ((List.Sublist.refl o).append (List.sublist_cons_self _ _))) hd

theorem topo_roots {g : Graph} {o rs : List Key} (hn : o.Nodup) (h : Topo g o) (hs : rs.Sublist o) :
    rs.Pairwise fun a b => ¬ TransGen (Dep g) b a := by
  have h1 : o.Pairwise fun a b => ¬ TransGen (Dep g) b a := by
    rw [List.pairwise_iff_forall_sublist]
    intro a b hab ht
    have h2 := sublist_before hab
    exact before_irrefl hn (before_trans hn h2 (topo_trans hn h ht (before_mem h2).1))
  exact h1.sublist hs

theorem dep_ins {g : Graph} (hg : WF g) {a b : Key} (h : Dep g a b) : Live g b := by
  rcases h with ⟨i, e, h, -⟩ | ⟨es, pe, h, -⟩
  · rw [live_iff_ins hg]
    cases hi : g.ins b with
    | none => rw [edge_eq, hi] at h; simp at h
    | some es => rfl
  · rw [live_iff_pars hg, h]; rfl

theorem topo_acyclic {g : Graph} (hg : WF g) {order rem : List Key}
    (h : calcOrder g = .ok (order, rem)) (ht : Topo g order) : Acyclic (Dep g) := by
  obtain ⟨hn, hm⟩ := order_nodup_mem hg h
  intro a ha
  have hl : Live g a := by
    obtain ⟨c, -, hc⟩ := TransGen.tail'_iff.1 ha
    exact dep_ins hg hc
  exact before_irrefl hn (topo_trans hn ht ha ((hm a).2 hl))

theorem topo_prefix {g : Graph} {o rem : List Key} (h : Topo g (o ++ rem)) : Topo g o := by
  intro pre b post e a ha
  exact h pre b (post ++ rem) (by simp [e]) a ha

theorem before_part {o rem : List Key} {a b : Key} (hn : (o ++ rem).Nodup)
    (h : Before (o ++ rem) a b) (ha : a ∈ rem) (hb : b ∈ rem) : [a, b].Sublist rem := by
  have h1 := (before_sublist h).filter (fun x => decide (x ∈ rem))
  have h2 : (o ++ rem).filter (fun x => decide (x ∈ rem)) = rem := by
    rw [List.filter_append]
    have e1 : o.filter (fun x => decide (x ∈ rem)) = [] := by
      rw [List.filter_eq_nil_iff]
      intro x hx hx'
      exact (List.nodup_append.1 hn).2.2 x hx x (by simpa using hx') rfl
    have e2 : rem.filter (fun x => decide (x ∈ rem)) = rem := by
      rw [List.filter_eq_self]; simp
    rw [e1, e2]; rfl
  rw [h2] at h1
  simpa [ha, hb] using h1

/-- Node `k` is one of the roots of the search or a (transitive) dependency of one. -/
def Reached (g : Graph) (rs : List Key) (k : Key) : Prop := ∃ r ∈ rs, ReflTransGen (Dep g) k r

theorem order_exact {g : Graph} (hg : WF g) {order rem rs : List Key}
    (h : calcOrder g = .ok (order, rem)) (hrs : roots g = .ok rs) :
    Topo g order ↔ Acyclic (Dep g) ∧ (rs.Pairwise fun a b => ¬ TransGen (Dep g) b a) ∧
      ∀ a b, Dep g a b → Reached g rs a ∨ Live g a ∧ Before (g.nodes.map Prod.fst) a b := by
  obtain ⟨hn, hm⟩ := order_nodup_mem hg h
  obtain ⟨rs', v, o, hrs', hd, hi, rfl, hrem⟩ := calcOrder_ok h
  rw [hrs] at hrs'
  simp only [Except.ok.injEq] at hrs'
  subst hrs'
  have hnd := (roots_inv hrs).2
  have hno : o.Nodup := (List.nodup_append.1 hn).1
  have hvo : ∀ k, k ∈ v ↔ k ∈ o := by intro k; rw [hi.vis k]; simp
  have hreach : ∀ k, k ∈ o ↔ Reached g rs k := by
    intro k
    constructor
    · intro hk; exact hi.heard k ((hvo k).2 hk)
    · rintro ⟨r, hr, hp⟩
      have h0 := (hvo r).1 (hi.root r hr)
      clear hr
      induction hp with
      | refl => exact h0
      | tail _ h2 ih => exact ih ((hvo _).1 (hi.closed _ h0 _ h2))
  constructor
  · intro ht
    refine ⟨topo_acyclic hg h ht, topo_roots hno (topo_prefix ht)
      (dfsLoop_sublist _ (by simp) hd), ?_⟩
    intro a b hab
    by_cases ha : a ∈ o
    · exact .inl ((hreach a).1 ha)
    · right
      have hbl := dep_ins hg hab
      have hb := (topo_iff_before hn).1 ht a b ((hm b).2 hbl) hab
      have ha' := (before_mem hb).1
      refine ⟨(hm a).1 ha', ?_⟩
      have har : a ∈ rem := (List.mem_append.1 ha').resolve_left ha
      have hbr : b ∈ rem := by
        refine (List.mem_append.1 (before_mem hb).2).resolve_left ?_
        intro hbo
        exact ha ((hvo a).1 (hi.closed b hbo a hab))
      refine sublist_before ((before_part hn hb har hbr).trans ?_)
      rw [hrem]
      exact List.filter_sublist
  · rintro ⟨hac, hp, hslot⟩
    have hto : Topo g o := dfsLoop_topo hac _ (dinv_start hnd) hp (by intro pre b post e; simp at e) hd
    rw [topo_iff_before hn]
    intro a b hb hab
    by_cases hbo : b ∈ o
    · obtain ⟨pre, post, rfl, hpre⟩ := (topo_iff_before hno).1 hto a b hbo hab
      exact ⟨pre, post ++ rem, by simp, hpre⟩
    · have hbr : b ∈ rem := (List.mem_append.1 hb).resolve_left hbo
      rcases hslot a b hab with ha | ⟨ha, hbe⟩
      · obtain ⟨x, y, e⟩ := List.append_of_mem hbr
        refine ⟨o ++ x, y, by simp [e], ?_⟩
        exact List.mem_append_left _ ((hreach a).2 ha)
      · by_cases hao : a ∈ o
        · obtain ⟨x, y, e⟩ := List.append_of_mem hbr
          exact ⟨o ++ x, y, by simp [e], List.mem_append_left _ hao⟩
        · have har : a ∈ rem := (List.mem_append.1 ((hm a).2 ha)).resolve_left hao
          have h1 := (before_sublist hbe).filter (fun k => k ∉ v && !g.isPending k)
          rw [← hrem] at h1
          have h2 : [a, b].filter (fun k => k ∉ v && !g.isPending k) = [a, b] := by
            rw [List.filter_eq_self]
            intro x hx
            simp only [List.mem_cons, List.not_mem_nil, or_false] at hx
            have : x ∈ rem := by rcases hx with rfl | rfl <;> assumption
            rw [hrem, List.mem_filter] at this
            exact this.2
          rw [h2] at h1
          obtain ⟨x, y, e, hx⟩ := sublist_before h1
          exact ⟨o ++ x, y, by simp [e], List.mem_append_right _ hx⟩

/-- When nodes connected to graph outputs feed nothing else, the roots of the search are exactly these
nodes. -/
theorem reached_of_heard {g : Graph} (hg : WF g) {rs : List Key} (hrs : roots g = .ok rs)
    (he : ∀ a b, OutNode g a → ¬ Needs g a b) {a : Key} (h : Heard g a) : Reached g rs a := by
  obtain ⟨r, hr, hp⟩ := h
  obtain ⟨r', hr', hf⟩ := (rootsLoop_covers hg.nodup _ _ _ hrs).2 r (mem_outs_iff.2 hr)
  rcases ReflTransGen.cases_head hf with rfl | ⟨c, hc, -⟩
  · exact ⟨r, hr', hp⟩
  · exact absurd (.inl hc) (he r c hr)

end Verif.G
