import Verif.Model.Params

/-!
# C37: every value kind sent to every parameter; C55: wrappers pass delays and audio-rate buffers on
-/

namespace Verif.Pa

/-! ## Specification -/

/-- The value is of that kind. -/
def Val.Is : Val → Kind → Prop
  | .float _, .float | .integer _, .integer | .bool _, .bool | .trigger, .trigger => True
  | _, _ => False

/-- The unit generator itself, without wrappers. -/
def Shape.core : Shape → Shape
  | .plain u | .arInput u | .mul u | .done u | .smooth u | .precise _ u | .ar u => u.core
  | s => s

/-- Inside the wrappers there is a smoothing wrapper around parameter `i`. -/
def Shape.Smooths : Shape → Nat → Prop
  | .smooth u, i => i < u.params.length
  | .plain u, i | .arInput u, i | .mul u, i | .done u, i | .precise _ u, i | .ar u, i => u.Smooths i
  | _, _ => False

/-- A change the parameter declares to support: the parameter exists and its declared kind is the kind of the
value, or the value is a smoothing setting and there is a smoothing wrapper for the parameter. -/
def Shape.Supports (s : Shape) (i : Nat) (v : Val) : Prop :=
  (∃ p, s.params[i]? = some p ∧ v.Is p.2) ∨ (v.isSmoothing = true ∧ s.Smooths i)

/-- What the audio thread may do to a node: supported changes, in-block delays for parameters of the unit
generator itself, audio-rate buffers for float parameters of the unit generator itself, blocks. -/
def Shape.Allowed (s : Shape) : Op → Prop
  | .apply i v => s.Supports i v
  | .setDelay i _ => i < s.core.params.length
  | .link i => ∃ n, s.core.params[i]? = some (n, .float)
  | .block _ _ => True

/-! ## Invariant -/

/-- A ramp that is still being sent. -/
def Active : Sm.St → Prop
  | .linear _ _ _ _ _ done => done = false
  | _ => False

/-- The state of the wrappers fits their type. -/
def Unit.Fits : Unit → Prop
  | .ugen _ | .galactic => True
  | .envelope n => 0 < n
  | .plain u | .arInput u | .mul _ u | .done _ u => u.Fits
  | .smooth st u => u.Fits ∧ st.length = u.shape.params.length ∧
      ∀ (i : Nat) (p : Bool × Sm.St), st[i]? = some p → Active p.2 → ∃ n, u.shape.params[i]? = some (n, .float)
  | .precise _ ds w u => u.Fits ∧ ds.length = u.shape.params.length ∧ ∀ c ∈ w, u.shape.Supports c.2.1 c.2.2
  | .ar l u => u.Fits ∧ l.length = u.shape.params.length ∧
      ∀ i : Nat, l[i]? = some true → ∃ n, u.shape.params[i]? = some (n, .float)

theorem smooths_lt (s : Shape) (i : Nat) (h : s.Smooths i) : i < s.params.length := by
  induction s with
  | ugen | envelope | galactic => exact absurd h id
  | smooth u _ => exact h
  | plain u ih | arInput u ih | precise _ u ih | ar u ih => exact ih h
  | mul u ih | done u ih =>
    have := ih h
    simp [Shape.params]
    omega

theorem supports_lt {s : Shape} {i : Nat} {v : Val} (h : s.Supports i v) : i < s.params.length := by
  rcases h with ⟨p, hp, -⟩ | h
  · by_contra hc
    simp [List.getElem?_eq_none (show s.params.length ≤ i by omega)] at hp
  · exact smooths_lt s i h.2

theorem arg_of_is {v : Val} {k : Kind} (h : v.Is k) : ∃ w, v.arg k = some w := by
  cases v <;> cases k <;> simp_all [Val.Is, Val.arg]

theorem core_param (s : Shape) (i : Nat) (h : i < s.core.params.length) : s.params[i]? = s.core.params[i]? := by
  induction s with
  | ugen | envelope | galactic => rfl
  | plain u ih | arInput u ih | smooth u ih | precise _ u ih | ar u ih => exact ih h
  | mul u ih | done u ih =>
    have hu := ih h
    have hl : i < u.params.length := by
      by_contra hc
      rw [List.getElem?_eq_none (show u.params.length ≤ i by omega)] at hu
      have h' : i < u.core.params.length := h
      rw [List.getElem?_eq_getElem h'] at hu
      simp at hu
    show (u.params ++ _)[i]? = u.core.params[i]?
    rw [List.getElem?_append_left hl, hu]

theorem core_le (s : Shape) : s.core.params.length ≤ s.params.length := by
  induction s with
  | ugen | envelope | galactic => exact Nat.le_refl _
  | plain u ih | arInput u ih | smooth u ih | precise _ u ih | ar u ih => exact ih
  | mul u ih | done u ih =>
    have : u.core.params.length ≤ u.params.length := ih
    show u.core.params.length ≤ (u.params ++ _).length
    simp
    omega

/-- What every step keeps: it succeeds, the state still fits and the type is the same. -/
def Keeps (u : Unit) (r : R (Unit × List Call)) : Prop :=
  ∃ u' cs, r = .ok (u', cs) ∧ u'.Fits ∧ u'.shape = u.shape

theorem set_active (s : Sm.St) : ∀ lin rt sr, ¬ Active (setSmoothing sr lin rt s) := by
  intro lin rt sr
  cases lin with
  | none => cases s <;> simp [setSmoothing, Sm.smoothNone, Active]
  | some d =>
    cases s with
    | none v => simp [setSmoothing, Sm.smoothLinear, Active]
    | linear a b dur el r done => cases done <;> simp [setSmoothing, Sm.smoothLinear, Active]

theorem apply_keeps (sr : Nat) (u : Unit) (i : Nat) (v : Val) (hf : u.Fits) (hs : u.shape.Supports i v) :
    Keeps u (u.apply sr i v) := by
  induction u generalizing i v with
  | ugen ps =>
    rcases hs with ⟨p, hp, hk⟩ | ⟨-, h⟩
    · obtain ⟨w, hw⟩ := arg_of_is hk
      have hp' : ps[i]? = some p := hp
      refine ⟨.ugen ps, (if v.isSmoothing then [Call.log] else []) ++ [.param i w], ?_, trivial, rfl⟩
      simp only [Unit.apply, applyUGen, hp', hw]
      rfl
    · exact absurd h id
  | envelope n =>
    have hn : 0 < n := hf
    rcases hs with ⟨p, hp, hk⟩ | ⟨-, h⟩
    · have hi : i < 4 := by
        by_contra hc
        rw [List.getElem?_eq_none (by simp [Unit.shape, Shape.params]; omega)] at hp
        simp at hp
      have : i = 0 ∨ i = 1 ∨ i = 2 ∨ i = 3 := by omega
      rcases this with rfl | rfl | rfl | rfl
      · obtain rfl : ("time_scale", Kind.float) = p := by simpa [Unit.shape, Shape.params] using hp
        cases v <;> simp_all [Val.Is]
        exact ⟨.envelope n, _, rfl, hn, rfl⟩
      · obtain rfl : ("jump_to_segment", Kind.integer) = p := by simpa [Unit.shape, Shape.params] using hp
        cases v <;> simp_all [Val.Is]
        rename_i m
        by_cases hm : m < n
        · exact ⟨.envelope n, [.param 1 (.integer m)], by simp [Unit.apply, applyEnvelope, hm], hn, rfl⟩
        · exact ⟨.envelope n, [.param 1 (.integer (n - 1))],
            by simp [Unit.apply, applyEnvelope, hm, Nat.pos_iff_ne_zero.1 hn], hn, rfl⟩
      · exact ⟨.envelope n, [.param 2 .trigger], by simp [Unit.apply, applyEnvelope], hn, rfl⟩
      · exact ⟨.envelope n, [.param 3 .trigger], by simp [Unit.apply, applyEnvelope], hn, rfl⟩
    · exact absurd h id
  | galactic =>
    rcases hs with ⟨p, hp, hk⟩ | ⟨-, h⟩
    · have hi : i < 5 := by
        by_contra hc
        rw [List.getElem?_eq_none (by simp [Unit.shape, Shape.params]; omega)] at hp
        simp at hp
      have hpk : p.2 = .float := by
        have : i = 0 ∨ i = 1 ∨ i = 2 ∨ i = 3 ∨ i = 4 := by omega
        rcases this with rfl | rfl | rfl | rfl | rfl <;>
          (simp only [Unit.shape, Shape.params] at hp; obtain rfl := Option.some.inj hp; rfl)
      rw [hpk] at hk
      cases v <;> simp_all [Val.Is]
      rename_i x
      exact ⟨.galactic, [.param i (.float x)], by simp [Unit.apply, applyGalactic, hi], trivial, rfl⟩
    · exact absurd h id
  | plain u ih =>
    obtain ⟨u', cs, h, hf', hsh⟩ := ih i v hf hs
    exact ⟨.plain u', cs, by simp [Unit.apply, h], hf', by simp [Unit.shape, hsh]⟩
  | arInput u ih =>
    obtain ⟨u', cs, h, hf', hsh⟩ := ih i v hf hs
    exact ⟨.arInput u', cs, by simp [Unit.apply, h], hf', by simp [Unit.shape, hsh]⟩
  | mul f u ih =>
    by_cases hi : i = u.shape.params.length
    · subst hi
      rcases hs with ⟨p, hp, hk⟩ | ⟨-, h⟩
      · have : p = ("wr_mul", Kind.float) := by
          have : (u.shape.params ++ [("wr_mul", Kind.float)])[u.shape.params.length]? = some p := hp
          simpa using this.symm
        subst this
        cases v <;> simp_all [Val.Is]
        rename_i x
        exact ⟨.mul x u, [.mulValue x], by simp [Unit.apply], hf, rfl⟩
      · have := smooths_lt _ _ (show u.shape.Smooths u.shape.params.length from h)
        omega
    · have hs' : u.shape.Supports i v := by
        have hl := supports_lt hs
        rcases hs with ⟨p, hp, hk⟩ | ⟨h1, h⟩
        · have hp' : (u.shape.params ++ [("wr_mul", Kind.float)])[i]? = some p := hp
          have hl' : i < u.shape.params.length := by
            simp [Unit.shape, Shape.params] at hl
            omega
          rw [List.getElem?_append_left hl'] at hp'
          exact .inl ⟨p, hp', hk⟩
        · exact .inr ⟨h1, h⟩
      obtain ⟨u', cs, h, hf', hsh⟩ := ih i v hf hs'
      exact ⟨.mul f u', cs, by simp [Unit.apply, hi, h], hf', by simp [Unit.shape, hsh]⟩
  | done a u ih =>
    by_cases hi : i = u.shape.params.length
    · subst hi
      rcases hs with ⟨p, hp, hk⟩ | ⟨-, h⟩
      · have : p = ("done_action", Kind.integer) := by
          have : (u.shape.params ++ [("done_action", Kind.integer)])[u.shape.params.length]? = some p := hp
          simpa using this.symm
        subst this
        cases v <;> simp_all [Val.Is]
        rename_i x
        exact ⟨.done x u, [.doneAction x], by simp [Unit.apply], hf, rfl⟩
      · have := smooths_lt _ _ (show u.shape.Smooths u.shape.params.length from h)
        omega
    · have hs' : u.shape.Supports i v := by
        have hl := supports_lt hs
        rcases hs with ⟨p, hp, hk⟩ | ⟨h1, h⟩
        · have hp' : (u.shape.params ++ [("done_action", Kind.integer)])[i]? = some p := hp
          have hl' : i < u.shape.params.length := by
            simp [Unit.shape, Shape.params] at hl
            omega
          rw [List.getElem?_append_left hl'] at hp'
          exact .inl ⟨p, hp', hk⟩
        · exact .inr ⟨h1, h⟩
      obtain ⟨u', cs, h, hf', hsh⟩ := ih i v hf hs'
      exact ⟨.done a u', cs, by simp [Unit.apply, hi, h], hf', by simp [Unit.shape, hsh]⟩
  | smooth st u ih =>
    obtain ⟨hf1, hlen, hact⟩ := hf
    have hl : i < st.length := by
      rw [hlen]
      exact show i < (Unit.smooth st u).shape.params.length from supports_lt hs
    have hst : st[i]? = some st[i] := List.getElem?_eq_getElem hl
    have fits_set : ∀ (s' : Sm.St), (Active s' → ∃ n, u.shape.params[i]? = some (n, .float)) →
        (Unit.smooth (st.set i (st[i].1, s')) u).Fits := by
      intro s' hs'
      refine ⟨hf1, by simpa using hlen, ?_⟩
      intro j p hp ha
      by_cases hj : j = i
      · subst hj
        rw [List.getElem?_set_self hl] at hp
        obtain rfl := Option.some.inj hp
        exact hs' ha
      · rw [List.getElem?_set_ne (Ne.symm hj)] at hp
        exact hact j p hp ha
    have inner : ∀ w : Val, w.isSmoothing = false → u.shape.Supports i w →
        Keeps (.smooth st u) (do let r ← u.apply sr i w; return (Unit.smooth st r.1, r.2)) := by
      intro w _ hw
      obtain ⟨u', cs, h, hf', hsh⟩ := ih i w hf1 hw
      refine ⟨.smooth st u', cs, by simp [h], ⟨hf', by rw [hsh]; exact hlen, ?_⟩, by simp [Unit.shape, hsh]⟩
      rw [hsh]
      exact hact
    cases v with
    | smoothing lin rt =>
      refine ⟨.smooth (st.set i (st[i].1, setSmoothing sr lin rt st[i].2)) u, [], by simp only [Unit.apply, hst],
        fits_set _ ?_, rfl⟩
      intro ha
      exact absurd ha (set_active _ lin rt sr)
    | float x =>
      have hfl : ∃ n, u.shape.params[i]? = some (n, .float) := by
        rcases hs with ⟨p, hp, hk⟩ | ⟨h, -⟩
        · obtain ⟨n, k⟩ := p
          cases k <;> simp_all [Val.Is]
          exact ⟨n, hp⟩
        · simp [Val.isSmoothing] at h
      have hsup : u.shape.Supports i (.float x) := by
        obtain ⟨n, hn⟩ := hfl
        exact .inl ⟨_, hn, trivial⟩
      by_cases har : st[i].1 = true
      · exact ⟨.smooth st u, [], by simp only [Unit.apply, hst, har, if_true], ⟨hf1, hlen, hact⟩, rfl⟩
      · cases hcs : st[i].2 with
        | none c =>
          have := inner (.float x) rfl hsup
          simp only [Unit.apply, hst, har, hcs]
          exact this
        | linear a b dur el r dn =>
          refine ⟨_, [], by simp only [Unit.apply, hst, har, hcs]; rfl, fits_set _ (fun _ => hfl), rfl⟩
    | trigger =>
      have hsup : u.shape.Supports i .trigger := by
        rcases hs with h | ⟨h, -⟩
        · exact .inl h
        · simp [Val.isSmoothing] at h
      simpa only [Unit.apply, hst] using inner _ rfl hsup
    | integer n =>
      have hsup : u.shape.Supports i (.integer n) := by
        rcases hs with h | ⟨h, -⟩
        · exact .inl h
        · simp [Val.isSmoothing] at h
      simpa only [Unit.apply, hst] using inner _ rfl hsup
    | bool b =>
      have hsup : u.shape.Supports i (.bool b) := by
        rcases hs with h | ⟨h, -⟩
        · exact .inl h
        · simp [Val.isSmoothing] at h
      simpa only [Unit.apply, hst] using inner _ rfl hsup
  | precise cap ds w u ih =>
    obtain ⟨hf1, hlen, hw⟩ := hf
    have hs' : u.shape.Supports i v := hs
    have hl : i < ds.length := by
      rw [hlen]
      exact supports_lt hs'
    have hd : ds[i]? = some ds[i] := List.getElem?_eq_getElem hl
    by_cases h0 : ds[i] = 0
    · obtain ⟨u', cs, h, hf', hsh⟩ := ih i v hf1 hs'
      refine ⟨.precise cap ds w u', cs, by simp [Unit.apply, hd, h0, h], ⟨hf', by rw [hsh]; exact hlen, ?_⟩,
        by simp [Unit.shape, hsh]⟩
      rw [hsh]
      exact hw
    · by_cases hc : w.length < cap
      · refine ⟨.precise cap ds (w ++ [(ds[i], i, v)]) u, [], by simp [Unit.apply, hd, h0, hc], ⟨hf1, hlen, ?_⟩, rfl⟩
        intro c hcm
        rcases List.mem_append.1 hcm with h | h
        · exact hw c h
        · obtain rfl := List.mem_singleton.1 h
          exact hs'
      · exact ⟨.precise cap ds w u, [.log], by simp [Unit.apply, hd, h0, hc], ⟨hf1, hlen, hw⟩, rfl⟩
  | ar l u ih =>
    obtain ⟨hf1, hlen, hlk⟩ := hf
    have hs' : u.shape.Supports i v := hs
    have hl : i < l.length := by
      rw [hlen]
      exact supports_lt hs'
    have hd : l[i]? = some l[i] := List.getElem?_eq_getElem hl
    cases hb : l[i] with
    | true =>
      rw [hb] at hd
      exact ⟨.ar l u, [], by simp [Unit.apply, hd], ⟨hf1, hlen, hlk⟩, rfl⟩
    | false =>
      rw [hb] at hd
      obtain ⟨u', cs, h, hf', hsh⟩ := ih i v hf1 hs'
      refine ⟨.ar l u', cs, by simp [Unit.apply, hd, h], ⟨hf', by rw [hsh]; exact hlen, ?_⟩, by simp [Unit.shape, hsh]⟩
      rw [hsh]
      exact hlk

theorem applyAll_keeps (sr : Nat) (cs : List (Nat × Val)) (u : Unit) (hf : u.Fits)
    (hs : ∀ c ∈ cs, u.shape.Supports c.1 c.2) : Keeps u (u.applyAll sr cs) := by
  induction cs generalizing u with
  | nil => exact ⟨u, [], rfl, hf, rfl⟩
  | cons c cs ih =>
    obtain ⟨u', cs', h, hf', hsh⟩ := apply_keeps sr u c.1 c.2 hf (hs c (by simp))
    obtain ⟨u'', cs'', h2, hf2, hsh2⟩ := ih u' hf' (fun d hd => by rw [hsh]; exact hs d (by simp [hd]))
    exact ⟨u'', cs' ++ cs'', by simp [Unit.applyAll, h, h2], hf2, by rw [hsh2, hsh]⟩

theorem setDelay_keeps (u : Unit) (i d : Nat) (hf : u.Fits) (hi : i < u.shape.core.params.length) :
    Keeps u (u.setDelay i d) := by
  induction u with
  | plain u ih =>
    obtain ⟨u', cs, h, hf', hsh⟩ := ih hf hi
    exact ⟨.plain u', cs, by simp [Unit.setDelay, h], hf', by simp [Unit.shape, hsh]⟩
  | mul f u ih =>
    obtain ⟨u', cs, h, hf', hsh⟩ := ih hf hi
    exact ⟨.mul f u', cs, by simp [Unit.setDelay, h], hf', by simp [Unit.shape, hsh]⟩
  | precise cap ds w u ih =>
    obtain ⟨hf1, hlen, hw⟩ := hf
    have hl : i < ds.length := by
      rw [hlen]
      exact Nat.lt_of_lt_of_le hi (core_le u.shape)
    exact ⟨.precise cap (ds.set i d) w u, [], by simp [Unit.setDelay, hl], ⟨hf1, by simpa using hlen, hw⟩, rfl⟩
  | ugen ps => exact ⟨_, _, rfl, hf, rfl⟩
  | envelope n => exact ⟨_, _, rfl, hf, rfl⟩
  | galactic => exact ⟨_, _, rfl, hf, rfl⟩
  | arInput u _ => exact ⟨_, _, rfl, hf, rfl⟩
  | done a u _ => exact ⟨_, _, rfl, hf, rfl⟩
  | smooth st u _ => exact ⟨_, _, rfl, hf, rfl⟩
  | ar l u _ => exact ⟨_, _, rfl, hf, rfl⟩

theorem link_keeps (u : Unit) (i : Nat) (hf : u.Fits) (hi : ∃ n, u.shape.core.params[i]? = some (n, .float)) :
    Keeps u (u.link i) := by
  induction u with
  | plain u ih =>
    obtain ⟨u', cs, h, hf', hsh⟩ := ih hf hi
    exact ⟨.plain u', cs, by simp [Unit.link, h], hf', by simp [Unit.shape, hsh]⟩
  | mul f u ih =>
    obtain ⟨u', cs, h, hf', hsh⟩ := ih hf hi
    exact ⟨.mul f u', cs, by simp [Unit.link, h], hf', by simp [Unit.shape, hsh]⟩
  | precise cap ds w u ih =>
    obtain ⟨hf1, hlen, hw⟩ := hf
    obtain ⟨u', cs, h, hf', hsh⟩ := ih hf1 hi
    refine ⟨.precise cap ds w u', cs, by simp [Unit.link, h], ⟨hf', by rw [hsh]; exact hlen, ?_⟩,
      by simp [Unit.shape, hsh]⟩
    rw [hsh]
    exact hw
  | ar l u _ =>
    obtain ⟨hf1, hlen, hlk⟩ := hf
    obtain ⟨n, hn⟩ := hi
    have hc : i < u.shape.core.params.length := by
      by_contra hc
      have hn' : u.shape.core.params[i]? = some (n, .float) := hn
      rw [List.getElem?_eq_none (by omega)] at hn'
      simp at hn'
    have hp : u.shape.params[i]? = some (n, .float) := by
      rw [core_param _ _ hc]
      exact hn
    have hl : i < l.length := by
      rw [hlen]
      exact Nat.lt_of_lt_of_le hc (core_le u.shape)
    refine ⟨.ar (l.set i true) u, [], by simp [Unit.link, hl], ⟨hf1, by simpa using hlen, ?_⟩, rfl⟩
    intro j hj
    by_cases hji : j = i
    · subst hji
      exact ⟨n, hp⟩
    · rw [List.getElem?_set_ne (Ne.symm hji)] at hj
      exact hlk j hj
  | ugen ps => exact ⟨_, _, rfl, hf, rfl⟩
  | envelope n => exact ⟨_, _, rfl, hf, rfl⟩
  | galactic => exact ⟨_, _, rfl, hf, rfl⟩
  | arInput u _ => exact ⟨_, _, rfl, hf, rfl⟩
  | done a u _ => exact ⟨_, _, rfl, hf, rfl⟩
  | smooth st u _ => exact ⟨_, _, rfl, hf, rfl⟩

theorem next_active (bs : Nat) (s : Sm.St) : (Active (Sm.next bs 0 s).1 → Active s) ∧
    (∀ x, (Sm.next bs 0 s).2 = some x → Active s) := by
  cases s with
  | none v => simp [Sm.next, Active]
  | linear a b dur el ar done =>
    cases done
    · simp [Active]
    · unfold Sm.next
      simp [Active]

theorem block_keeps (sr bs : Nat) (mem : Nat → Sm.F) (s : Shape) (u : Unit) (hsh : u.shape = s) (hf : u.Fits) :
    Keeps u (blockS sr bs mem s u) := by
  induction s generalizing u with
  | ugen ps => cases u <;> simp [Unit.shape] at hsh; exact ⟨_, _, rfl, hf, rfl⟩
  | envelope => cases u <;> simp [Unit.shape] at hsh; exact ⟨_, _, rfl, hf, rfl⟩
  | galactic => cases u <;> simp [Unit.shape] at hsh; exact ⟨_, _, rfl, hf, rfl⟩
  | plain s ih =>
    cases u <;> simp [Unit.shape] at hsh
    rename_i u
    obtain ⟨u', cs, h, hf', hs'⟩ := ih u hsh hf
    exact ⟨.plain u', cs, by simp [blockS, h], hf', by simp [Unit.shape, hs']⟩
  | arInput s ih =>
    cases u <;> simp [Unit.shape] at hsh
    rename_i u
    obtain ⟨u', cs, h, hf', hs'⟩ := ih u hsh hf
    exact ⟨.arInput u', cs, by simp [blockS, h], hf', by simp [Unit.shape, hs']⟩
  | mul s ih =>
    cases u <;> simp [Unit.shape] at hsh
    rename_i f u
    obtain ⟨u', cs, h, hf', hs'⟩ := ih u hsh hf
    exact ⟨.mul f u', cs, by simp [blockS, h], hf', by simp [Unit.shape, hs']⟩
  | done s ih =>
    cases u <;> simp [Unit.shape] at hsh
    rename_i f u
    obtain ⟨u', cs, h, hf', hs'⟩ := ih u hsh hf
    exact ⟨.done f u', cs, by simp [blockS, h], hf', by simp [Unit.shape, hs']⟩
  | smooth s ih =>
    cases u <;> simp [Unit.shape] at hsh
    rename_i st u
    obtain ⟨hf1, hlen, hact⟩ := hf
    have hch : ∀ c ∈ smoothChanges bs st, u.shape.Supports c.1 c.2 := by
      intro c hc
      unfold smoothChanges at hc
      obtain ⟨i, -, hi⟩ := List.mem_filterMap.1 hc
      cases hst : st[i]? with
      | none => simp [hst] at hi
      | some p =>
        simp only [hst, Option.map_eq_some_iff] at hi
        obtain ⟨x, hx, rfl⟩ := hi
        obtain ⟨n, hn⟩ := hact i p hst ((next_active bs p.2).2 x hx)
        exact .inl ⟨_, hn, trivial⟩
    obtain ⟨u1, cs1, h1, hf1', hs1⟩ := applyAll_keeps sr _ u hf1 hch
    obtain ⟨u2, cs2, h2, hf2, hs2⟩ := ih u1 (by rw [hs1, hsh]) hf1'
    refine ⟨.smooth (st.map fun p => (p.1, (Sm.next bs 0 p.2).1)) u2, cs1 ++ cs2, by simp [blockS, h1, h2],
      ⟨hf2, by rw [hs2, hs1]; simpa using hlen, ?_⟩, by simp [Unit.shape, hs2, hs1]⟩
    rw [hs2, hs1]
    intro i p hp ha
    rw [List.getElem?_map] at hp
    cases hst : st[i]? with
    | none => simp [hst] at hp
    | some q =>
      rw [hst] at hp
      obtain rfl := Option.some.inj hp
      exact hact i q hst ((next_active bs q.2).1 ha)
  | precise c s ih =>
    cases u <;> simp [Unit.shape] at hsh
    rename_i cap ds w u
    obtain ⟨hf1, hlen, hw⟩ := hf
    obtain ⟨u1, cs1, h1, hf1', hs1⟩ := applyAll_keeps sr (w.map fun c => c.2) u hf1 (by
      intro c hc
      obtain ⟨a, ha, rfl⟩ := List.mem_map.1 hc
      exact hw a ha)
    obtain ⟨u2, cs2, h2, hf2, hs2⟩ := ih u1 (by rw [hs1, hsh.2]) hf1'
    exact ⟨.precise cap ds [] u2, cs1 ++ cs2, by simp [blockS, h1, h2],
      ⟨hf2, by rw [hs2, hs1]; exact hlen, by simp⟩, by simp [Unit.shape, hs2, hs1]⟩
  | ar s ih =>
    cases u <;> simp [Unit.shape] at hsh
    rename_i l u
    obtain ⟨hf1, hlen, hlk⟩ := hf
    have hch : ∀ c ∈ arChanges mem l, u.shape.Supports c.1 c.2 := by
      intro c hc
      unfold arChanges at hc
      obtain ⟨i, -, hi⟩ := List.mem_filterMap.1 hc
      cases hst : l[i]? with
      | none => simp [hst] at hi
      | some b =>
        cases b with
        | false => simp [hst] at hi
        | true =>
          simp only [hst] at hi
          obtain rfl := Option.some.inj hi
          obtain ⟨n, hn⟩ := hlk i hst
          exact .inl ⟨_, hn, trivial⟩
    obtain ⟨u1, cs1, h1, hf1', hs1⟩ := applyAll_keeps sr _ u hf1 hch
    obtain ⟨u2, cs2, h2, hf2, hs2⟩ := ih u1 (by rw [hs1, hsh]) hf1'
    refine ⟨.ar l u2, cs1 ++ cs2, by simp [blockS, h1, h2], ⟨hf2, by rw [hs2, hs1]; exact hlen, ?_⟩,
      by simp [Unit.shape, hs2, hs1]⟩
    rw [hs2, hs1]
    exact hlk

theorem new_shape (s : Shape) : (Unit.new s).shape = s := by
  induction s <;> simp_all [Unit.new, Unit.shape]

theorem new_fits (s : Shape) : (Unit.new s).Fits := by
  induction s with
  | ugen ps => trivial
  | envelope => exact Nat.one_pos
  | galactic => trivial
  | plain u ih | arInput u ih | mul u ih | done u ih => exact ih
  | smooth u ih =>
    refine ⟨ih, by simp [new_shape], ?_⟩
    intro i p hp ha
    rw [List.getElem?_replicate] at hp
    split at hp
    · obtain rfl := Option.some.inj hp
      simp [Active, Sm.St.init] at ha
    · simp at hp
  | precise cap u ih => exact ⟨ih, by simp [new_shape], by simp⟩
  | ar u ih =>
    refine ⟨ih, by simp [new_shape], ?_⟩
    intro i hi
    rw [List.getElem?_replicate] at hi
    split at hi <;> simp at hi

/-! ## C37 -/

/-- **C37** (supported changes): whatever unit generator, whatever stack of wrappers around it and whatever
history of supported changes, in-block delays, audio-rate buffers and blocks, nothing panics.  Missing: values
of another kind than the parameter declares, see the theorems `…_violated` below. -/
theorem C37_supported_partial (sr : Nat) (s : Shape) (ops : List Op) (h : ∀ o ∈ ops, s.Allowed o) :
    ∃ u cs, (Unit.new s).run sr ops = .ok (u, cs) ∧ u.shape = s := by
  suffices ∀ u : Unit, u.Fits → u.shape = s → ∃ u' cs, u.run sr ops = .ok (u', cs) ∧ u'.shape = s from
    this _ (new_fits s) (new_shape s)
  induction ops with
  | nil => exact fun u _ hs => ⟨u, [], rfl, hs⟩
  | cons o ops ih =>
    intro u hf hs
    have ho := h o (by simp)
    have hk : Keeps u (u.step sr o) := by
      cases o with
      | apply i v => exact apply_keeps sr u i v hf (by rw [hs]; exact ho)
      | setDelay i d => exact setDelay_keeps u i d hf (by rw [hs]; exact ho)
      | link i => exact link_keeps u i hf (by rw [hs]; exact ho)
      | block bs mem => exact block_keeps sr bs mem _ u rfl hf
    obtain ⟨u', cs, h1, hf', hs'⟩ := hk
    obtain ⟨u'', cs', h2, hs''⟩ := ih (fun o ho => h o (by simp [ho])) u' hf' (by rw [hs', hs])
    exact ⟨u'', cs ++ cs', by simp [Unit.run, h1, h2], hs''⟩

/-- **C37** (exactly): a unit generator written with the macro panics on a change exactly when the parameter
exists, takes a value and the value is of another kind. -/
theorem C37_panics_iff (ps : List (String × Kind)) (i : Nat) (v : Val) :
    (∃ e, applyUGen ps i v = .error e) ↔ ∃ p, ps[i]? = some p ∧ p.2 ≠ .trigger ∧ ¬ v.Is p.2 := by
  unfold applyUGen
  cases hp : ps[i]? with
  | none => simp
  | some p =>
    obtain ⟨n, k⟩ := p
    cases k <;> cases v <;> simp [Val.arg, Val.Is]

/-- **C37** (the smoothing wrapper): a smoothing setting never panics at the smoothing wrapper, at any index
and around any unit generator. -/
theorem C37_smoothing_wrapper_partial (sr : Nat) (st : List (Bool × Sm.St)) (u : Unit) (i : Nat) (lin : Option Rat)
    (rt : Bool) : ∃ st', (Unit.smooth st u).apply sr i (.smoothing lin rt) = .ok (.smooth st' u, []) := by
  cases h : st[i]? with
  | none => exact ⟨st, by simp [Unit.apply, h]⟩
  | some p => exact ⟨st.set i (p.1, setSmoothing sr lin rt p.2), by simp [Unit.apply, h]⟩

/-- An oscillator with a float, an integer and a trigger parameter, precise timing around smoothing around
audio-rate parameters, with a `WrMul` outside. -/
def stack : Shape := .mul (.precise 4 (.smooth (.ar (.ugen [("freq", .float), ("waveform", .integer), ("t_reset", .trigger)]))))

example : ∀ o ∈ [Op.setDelay 0 5, .apply 0 (.float (some 440)), .apply 1 (.integer 3), .apply 3 (.float (some 2)),
    .apply 0 (.smoothing (some (1/2)) true), .link 0, .block 64 fun _ => some 0], stack.Allowed o := by
  intro o ho
  simp only [List.mem_cons, List.not_mem_nil, or_false] at ho
  rcases ho with rfl | rfl | rfl | rfl | rfl | rfl | rfl
  · show (0 : Nat) < 3
    omega
  · exact .inl ⟨("freq", .float), rfl, trivial⟩
  · exact .inl ⟨("waveform", .integer), rfl, trivial⟩
  · exact .inl ⟨("wr_mul", .float), rfl, trivial⟩
  · exact .inr ⟨rfl, show (0 : Nat) < 3 by omega⟩
  · exact ⟨"freq", rfl⟩
  · trivial

/-- **C37 violated**: an integer sent to a float parameter, and a smoothing setting for a float parameter of a
unit generator without smoothing wrapper, are accepted by the graph by name and then panic on the audio
thread. -/
theorem C37_kind_violated (x : Val) (hx : x = .integer 1 ∨ x = .smoothing none false ∨ x = .trigger) :
    let osc := Shape.ugen [("freq", .float)]
    graphSet ⟨7, [(3, osc)]⟩ ⟨false, 10, []⟩ 7 3 (.desc "freq") x = (⟨false, 10, [⟨3, 0, x⟩]⟩, .ok ()) ∧
    (Unit.new osc).apply 48000 0 x = .error .unwrap := by
  rcases hx with rfl | rfl | rfl <;> decide +kernel

/-- **C37 violated**: the wrappers' own parameters panic likewise, `Envelope` and `Galactic` too. -/
theorem C37_wrapper_kind_violated (u : Unit) (f : Sm.F) (a n : Nat) (sr : Nat) :
    (Unit.mul f u).apply sr u.shape.params.length .trigger = .error .unwrap ∧
    (Unit.done a u).apply sr u.shape.params.length (.float (some 1)) = .error .unwrap ∧
    (Unit.envelope n).apply sr 0 .trigger = .error .unwrap ∧
    Unit.galactic.apply sr 4 (.bool true) = .error .unwrap := by
  refine ⟨by simp [Unit.apply], by simp [Unit.apply], rfl, rfl⟩

/-- **C37 violated**: an index past the last parameter, which handles accept (`C36_handle_index_violated`), panics
in a unit generator wrapped for precise timing or for audio-rate parameters. -/
theorem C37_index_violated (sr cap i : Nat) (s : Shape) (v : Val) (h : s.params.length ≤ i) :
    (Unit.new (.precise cap s)).apply sr i v = .error .index ∧ (Unit.new (.ar s)).apply sr i v = .error .index := by
  have h1 : (List.replicate s.params.length 0)[i]? = none := List.getElem?_eq_none (by simpa using h)
  have h2 : (List.replicate s.params.length false)[i]? = none := List.getElem?_eq_none (by simpa using h)
  constructor
  · simp only [Unit.new, Unit.apply, h1]
  · simp only [Unit.new, Unit.apply, h2]

/-- **C37 violated**: linking an audio signal to an integer parameter (as `connect_to_parameter` and `link` do
for any parameter) makes the next block panic. -/
theorem C37_link_violated :
    ((Unit.new (.ar (.ugen [("waveform", .integer)]))).run 48000 [.link 0, .block 64 fun _ => some 0]).map
      (fun r => r.2) = .error .unwrap := by
  decide +kernel

/-- **C37 violated**: a float sent to an integer parameter that has a smoothing setting is accepted and panics
only in a later block. -/
theorem C37_smooth_later_violated :
    (((Unit.new (.smooth (.ugen [("waveform", .integer)]))).run 48000
      [.apply 0 (.smoothing (some 1) true), .apply 0 (.float (some 2))]).map fun r => r.2) = .ok [] ∧
    (((Unit.new (.smooth (.ugen [("waveform", .integer)]))).run 48000
      [.apply 0 (.smoothing (some 1) true), .apply 0 (.float (some 2)), .block 64 fun _ => some 0]).map fun r => r.2)
      = .error .unwrap := by
  decide +kernel

/-! ## C55 -/

/-- The in-block delay that the outermost precise-timing wrapper inside `u` holds for parameter `i`. -/
def Unit.delayOf : Unit → Nat → Option Nat
  | .precise _ ds _ _, i => ds[i]?
  | .plain u, i | .arInput u, i | .mul _ u, i | .done _ u, i | .smooth _ u, i | .ar _ u, i => u.delayOf i
  | _, _ => none

/-- Whether the outermost audio-rate wrapper inside `u` has a buffer for parameter `i`. -/
def Unit.linkOf : Unit → Nat → Option Bool
  | .ar l _, i => l[i]?
  | .plain u, i | .arInput u, i | .mul _ u, i | .done _ u, i | .smooth _ u, i | .precise _ _ _ u, i => u.linkOf i
  | _, _ => none

/-- Only wrappers that pass delays on stand outside the precise-timing wrapper. -/
def Shape.DelayReaches : Shape → Prop
  | .precise _ _ => True
  | .plain u | .mul u => u.DelayReaches
  | _ => False

/-- Only wrappers that pass buffers on stand outside the audio-rate wrapper. -/
def Shape.LinkReaches : Shape → Prop
  | .ar _ => True
  | .plain u | .mul u | .precise _ u => u.LinkReaches
  | _ => False

/-- **C55** (arithmetic and closure wrappers): the delay set from outside is the delay the precise-timing wrapper
holds, and nothing else changes.  Missing: the other wrappers (`C55_not_passed_on_violated`) and the own
parameter of `WrMul` (`C55_mul_violated`). -/
theorem C55_delay_partial (u : Unit) (i d : Nat) (hf : u.Fits) (hr : u.shape.DelayReaches)
    (hi : i < u.shape.core.params.length) :
    ∃ u', u.setDelay i d = .ok (u', []) ∧ u'.delayOf i = some d ∧ ∀ j ≠ i, u'.delayOf j = u.delayOf j := by
  induction u with
  | precise cap ds w u _ =>
    obtain ⟨-, hlen, -⟩ := hf
    have hl : i < ds.length := by
      rw [hlen]
      exact Nat.lt_of_lt_of_le hi (core_le u.shape)
    refine ⟨.precise cap (ds.set i d) w u, by simp [Unit.setDelay, hl], by simp [Unit.delayOf, hl], ?_⟩
    intro j hj
    simp only [Unit.delayOf]
    rw [List.getElem?_set_ne (Ne.symm hj)]
  | plain u ih =>
    obtain ⟨u', h, h1, h2⟩ := ih hf hr hi
    exact ⟨.plain u', by simp [Unit.setDelay, h], h1, h2⟩
  | mul f u ih =>
    obtain ⟨u', h, h1, h2⟩ := ih hf hr hi
    exact ⟨.mul f u', by simp [Unit.setDelay, h], h1, h2⟩
  | ugen ps => exact absurd hr id
  | envelope n => exact absurd hr id
  | galactic => exact absurd hr id
  | arInput u _ => exact absurd hr id
  | done a u _ => exact absurd hr id
  | smooth st u _ => exact absurd hr id
  | ar l u _ => exact absurd hr id

/-- **C55** (arithmetic, closure and precise-timing wrappers): the buffer set from outside reaches the audio-rate
wrapper, and no other parameter is linked. -/
theorem C55_link_partial (u : Unit) (i : Nat) (hf : u.Fits) (hr : u.shape.LinkReaches)
    (hi : i < u.shape.core.params.length) :
    ∃ u', u.link i = .ok (u', []) ∧ u'.linkOf i = some true ∧ ∀ j ≠ i, u'.linkOf j = u.linkOf j := by
  induction u with
  | ar l u _ =>
    obtain ⟨-, hlen, -⟩ := hf
    have hl : i < l.length := by
      rw [hlen]
      exact Nat.lt_of_lt_of_le hi (core_le u.shape)
    refine ⟨.ar (l.set i true) u, by simp [Unit.link, hl], by simp [Unit.linkOf, hl], ?_⟩
    intro j hj
    simp only [Unit.linkOf]
    rw [List.getElem?_set_ne (Ne.symm hj)]
  | plain u ih =>
    obtain ⟨u', h, h1, h2⟩ := ih hf hr hi
    exact ⟨.plain u', by simp [Unit.link, h], h1, h2⟩
  | mul f u ih =>
    obtain ⟨u', h, h1, h2⟩ := ih hf hr hi
    exact ⟨.mul f u', by simp [Unit.link, h], h1, h2⟩
  | precise cap ds w u ih =>
    obtain ⟨u', h, h1, h2⟩ := ih hf.1 hr hi
    exact ⟨.precise cap ds w u', by simp [Unit.link, h], h1, h2⟩
  | ugen ps => exact absurd hr id
  | envelope n => exact absurd hr id
  | galactic => exact absurd hr id
  | arInput u _ => exact absurd hr id
  | done a u _ => exact absurd hr id
  | smooth st u _ => exact absurd hr id

example : stack.DelayReaches ∧ ¬ stack.LinkReaches ∧
    (Shape.mul (.precise 4 (.ar (.ugen [("freq", .float)])))).LinkReaches := by
  simp [stack, Shape.DelayReaches, Shape.LinkReaches]

/-- **C55 violated**, for every unit generator: `WrDone`, `WrSmoothParams`, `WrArParams` and `WrArParamToInput` drop
the delay (a warning is logged), and `WrDone`, `WrSmoothParams`, `WrArParamToInput` drop the buffer, although a
wrapper inside would take it. -/
theorem C55_not_passed_on_violated (u : Unit) (a i d : Nat) (st : List (Bool × Sm.St)) (l : List Bool) :
    (Unit.done a u).setDelay i d = .ok (.done a u, [.log]) ∧
    (Unit.smooth st u).setDelay i d = .ok (.smooth st u, [.log]) ∧
    (Unit.ar l u).setDelay i d = .ok (.ar l u, [.log]) ∧
    (Unit.arInput u).setDelay i d = .ok (.arInput u, [.log]) ∧
    (Unit.done a u).link i = .ok (.done a u, [.log]) ∧
    (Unit.smooth st u).link i = .ok (.smooth st u, [.log]) ∧
    (Unit.arInput u).link i = .ok (.arInput u, [.log]) := ⟨rfl, rfl, rfl, rfl, rfl, rfl, rfl⟩

/-- **C55 violated**: so a change scheduled five frames into the block for a node with precise timing inside a
`WrDone` is applied at once. -/
theorem C55_applied_early_violated :
    (((Unit.new (.done (.precise 4 (.ugen [("freq", .float)])))).run 48000
      [.setDelay 0 5, .apply 0 (.float (some 440))]).map fun r => r.2) = .ok [.log, .param 0 (.float (some 440))] ∧
    (((Unit.new (.mul (.precise 4 (.ugen [("freq", .float)])))).run 48000
      [.setDelay 0 5, .apply 0 (.float (some 440))]).map fun r => r.2) = .ok [] := by
  decide +kernel

/-- **C55 violated**: a `WrMul` passes the delay and the buffer of its own parameter on as well, with an index
that does not exist inside: panic, for every unit generator. -/
theorem C55_mul_violated (s : Shape) (cap d : Nat) :
    (Unit.new (.mul (.precise cap s))).setDelay s.params.length d = .error .index ∧
    (Unit.new (.mul (.ar s))).link s.params.length = .error .index := by
  constructor <;> simp [Unit.new, Unit.setDelay, Unit.link]

end Verif.Pa
