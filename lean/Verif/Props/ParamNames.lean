import Verif.Model.Params
import Mathlib.Data.List.Nodup

/-!
# C36: setting a parameter by name or by index, and C52: enum parameters
-/

namespace Verif.Pa

/-- `i` is the index of the description `d`: the first parameter that carries it. -/
def Names (s : Shape) (i : Nat) (d : String) : Prop :=
  (s.params[i]?).map (fun p => p.1) = some d ∧ ∀ j < i, (s.params[j]?).map (fun p => p.1) ≠ some d

/-- No parameter carries the description `d`. -/
def Unnamed (s : Shape) (d : String) : Prop := ∀ i : Nat, (s.params[i]?).map (fun p => p.1) ≠ some d

theorem position_of_names {s : Shape} {i : Nat} {d : String} (h : Names s i d) : s.position d = some i := by
  obtain ⟨h1, h2⟩ := h
  unfold Shape.position
  have hi : i < s.params.length := by
    by_contra hc
    simp [List.getElem?_eq_none (show s.params.length ≤ i by omega)] at h1
  rw [List.findIdx?_eq_some_iff_getElem]
  refine ⟨hi, ?_, ?_⟩
  · rw [List.getElem?_eq_getElem hi] at h1
    simpa using h1
  · intro j hj
    have := h2 j hj
    rw [List.getElem?_eq_getElem (by omega)] at this
    simpa using this

theorem position_of_unnamed {s : Shape} {d : String} (h : Unnamed s d) : s.position d = none := by
  unfold Shape.position
  rw [List.findIdx?_eq_none_iff]
  intro p hp
  obtain ⟨i, hi, rfl⟩ := List.getElem_of_mem hp
  have := h i
  rw [List.getElem?_eq_getElem hi] at this
  simpa using this

theorem names_lt {s : Shape} {i : Nat} {d : String} (h : Names s i d) : i < s.params.length := by
  by_contra hc
  have := h.1
  simp [List.getElem?_eq_none (show s.params.length ≤ i by omega)] at this

/-- Sending: an error leaves the ring as it is, success appends exactly the event. -/
theorem send_spec (s : Sender) (e : Event) :
    (∃ r, s.send e = (s, .error r)) ∨
    (s.send e).2 = .ok () ∧ (s.send e).1.queue = s.queue ++ [e] := by
  unfold Sender.send
  split
  · exact .inl ⟨_, rfl⟩
  · split
    · exact .inr ⟨rfl, rfl⟩
    · exact .inl ⟨_, rfl⟩

/-- **C36**: by description or by the index of that description is the same, for every way of setting a
parameter: on the unit generator, through the graph, through a handle, through the parameter objects of static
and dynamic node handles. (At most 65535 parameters: the count is a `u16`.) -/
theorem C36_desc_eq_index (sr : Nat) (u : Unit) (g : Gr) (s : Sender) (graph key i : Nat) (d : String) (v : Val)
    (hn : Names u.shape i d) (hp : u.shape.params.length < 65536) (hk : g.nodes.lookup key = some u.shape) :
    u.param sr (.desc d) v = u.param sr (.index i) v ∧
    graphSet g s graph key (.desc d) v = graphSet g s graph key (.index i) v ∧
    handleSet u.shape s key (.desc d) v = handleSet u.shape s key (.index i) v ∧
    tryParamStatic u.shape (.desc d) = tryParamStatic u.shape (.index i) ∧
    tryParamDynamic u.shape (.desc d) = tryParamDynamic u.shape (.index i) := by
  have hpos := position_of_names hn
  have hlt := names_lt hn
  have hu : u16 u.shape.params.length = u.shape.params.length := Nat.mod_eq_of_lt hp
  have hui : u16 i = i := Nat.mod_eq_of_lt (by omega)
  refine ⟨?_, ?_, ?_, ?_, ?_⟩
  · simp [Unit.param, hpos, Nat.not_le.2 hlt]
  · simp only [graphSet, hk, hpos, hu, hui, if_neg (Nat.not_le.2 hlt)]
  · simp [handleSet, hpos]
  · simp [tryParamStatic, hpos, hlt]
  · simp [tryParamDynamic, hpos, hu, hui, hlt]

/-- **C36**: an unknown description is refused everywhere and nothing is sent. -/
theorem C36_unknown_desc (sr : Nat) (u : Unit) (g : Gr) (s : Sender) (graph key : Nat) (d : String) (v : Val)
    (hn : Unnamed u.shape d) (hk : g.nodes.lookup key = some u.shape) :
    u.param sr (.desc d) v = .ok (.error .descNotFound) ∧
    (∃ e, graphSet g s graph key (.desc d) v = (s, .error e)) ∧
    handleSet u.shape s key (.desc d) v = (s, .error .descNotFound) ∧
    tryParamStatic u.shape (.desc d) = none ∧ tryParamDynamic u.shape (.desc d) = none := by
  have hpos := position_of_unnamed hn
  refine ⟨by simp [Unit.param, hpos], ?_, by simp [handleSet, hpos], by simp [tryParamStatic, hpos],
    by simp [tryParamDynamic, hpos]⟩
  unfold graphSet
  split
  · exact ⟨_, rfl⟩
  · simp only [hk, hpos]
    exact ⟨_, rfl⟩

/-- **C36**: an index past the last parameter is refused on the unit generator and by the parameter objects of
static handles.  By the graph and by the parameter objects of dynamic handles it is refused if it is below
65536.  Missing: larger indices there, and `Handle::set`; see `C36_truncation_violated` and
`C36_handle_index_violated`. -/
theorem C36_index_past_partial (sr : Nat) (u : Unit) (g : Gr) (s : Sender) (graph key i : Nat) (v : Val)
    (hi : u.shape.params.length ≤ i) (hk : g.nodes.lookup key = some u.shape) :
    u.param sr (.index i) v = .ok (.error .indexOutOfBounds) ∧
    tryParamStatic u.shape (.index i) = none ∧
    (i < 65536 → (∃ e, graphSet g s graph key (.index i) v = (s, .error e)) ∧
      tryParamDynamic u.shape (.index i) = none) := by
  refine ⟨by simp [Unit.param, hi], by simp [tryParamStatic, Nat.not_lt.2 hi], ?_⟩
  intro h
  have hu : u16 u.shape.params.length = u.shape.params.length := Nat.mod_eq_of_lt (by omega)
  have hui : u16 i = i := Nat.mod_eq_of_lt h
  refine ⟨?_, by simp [tryParamDynamic, hu, hui, Nat.not_lt.2 hi]⟩
  unfold graphSet
  split
  · exact ⟨_, rfl⟩
  · simp only [hk, hu, hui, if_pos hi]
    exact ⟨_, rfl⟩

/-- **C36**: whatever way a parameter is set, a refusal sends nothing, and an accepted change sends exactly one
event, to the node that was named and with the value that was given. -/
theorem C36_sent (g : Gr) (n : Shape) (s : Sender) (graph key : Nat) (p : Param) (v : Val) :
    ((∃ e, graphSet g s graph key p v = (s, .error e)) ∨
      ∃ i, (graphSet g s graph key p v).2 = .ok () ∧
        (graphSet g s graph key p v).1.queue = s.queue ++ [⟨key, i, v⟩]) ∧
    ((∃ e, handleSet n s key p v = (s, .error e)) ∨
      ∃ i, (handleSet n s key p v).2 = .ok () ∧ (handleSet n s key p v).1.queue = s.queue ++ [⟨key, i, v⟩]) := by
  constructor
  · unfold graphSet
    split
    · exact .inl ⟨_, rfl⟩
    · split
      · exact .inl ⟨_, rfl⟩
      · split
        · rename_i i
          split
          · exact .inl ⟨_, rfl⟩
          · rcases send_spec s ⟨key, i, v⟩ with h | h
            · exact .inl h
            · exact .inr ⟨i, h⟩
        · split
          · rename_i i _
            rcases send_spec s ⟨key, i, v⟩ with h | h
            · exact .inl h
            · exact .inr ⟨i, h⟩
          · exact .inl ⟨_, rfl⟩
  · unfold handleSet
    split
    · rename_i i
      rcases send_spec s ⟨key, i, v⟩ with h | h
      · exact .inl h
      · exact .inr ⟨i, h⟩
    · split
      · rename_i i _
        rcases send_spec s ⟨key, i, v⟩ with h | h
        · exact .inl h
        · exact .inr ⟨i, h⟩
      · exact .inl ⟨_, rfl⟩

/-- **C36**: what an accepted change sends is the parameter that was named: through a description the first
parameter carrying it, through an index that index. -/
theorem C36_sent_parameter (g : Gr) (n : Shape) (s : Sender) (graph key : Nat) (p : Param) (v : Val) (e : Event)
    (hk : g.nodes.lookup key = some n)
    (h : (graphSet g s graph key p v).1.queue = s.queue ++ [e] ∨ (handleSet n s key p v).1.queue = s.queue ++ [e]) :
    (∀ i, p = .index i → e = ⟨key, i, v⟩) ∧
    (∀ d, p = .desc d → Names n e.parameter d ∧ e.node = key ∧ e.value = v) := by
  have hne : ∀ (l : List Event) (e : Event), l ≠ l ++ [e] := by
    intro l e he
    have := congrArg List.length he
    simp at this
  have key_send : ∀ i, (s.send ⟨key, i, v⟩).1.queue = s.queue ++ [e] → e = ⟨key, i, v⟩ := by
    intro i hi
    rcases send_spec s ⟨key, i, v⟩ with ⟨r, hr⟩ | hr
    · rw [hr] at hi
      exact absurd hi (hne _ _)
    · rw [hr.2] at hi
      have := List.append_cancel_left hi
      simpa using this.symm
  have names_of_pos : ∀ d i, n.position d = some i → Names n i d := by
    intro d i hpos
    unfold Shape.position at hpos
    rw [List.findIdx?_eq_some_iff_getElem] at hpos
    obtain ⟨hi, h1, h2⟩ := hpos
    refine ⟨by rw [List.getElem?_eq_getElem hi]; simpa using h1, ?_⟩
    intro j hj
    rw [List.getElem?_eq_getElem (by omega)]
    simpa using h2 j hj
  cases p with
  | index i =>
    refine ⟨fun j hj => ?_, fun d hd => by simp at hd⟩
    obtain rfl : i = j := by simpa using hj
    rcases h with h | h
    · unfold graphSet at h
      split at h
      · exact absurd h (hne _ _)
      · simp only [hk] at h
        split at h
        · exact absurd h (hne _ _)
        · exact key_send _ h
    · exact key_send _ h
  | desc d =>
    refine ⟨fun j hj => by simp at hj, fun d' hd => ?_⟩
    obtain rfl : d = d' := by simpa using hd
    cases hpos : n.position d with
    | none =>
      rcases h with h | h
      · unfold graphSet at h
        split at h
        · exact absurd h (hne _ _)
        · simp only [hk, hpos] at h
          exact absurd h (hne _ _)
      · simp only [handleSet, hpos] at h
        exact absurd h (hne _ _)
    | some i =>
      have : e = ⟨key, i, v⟩ := by
        rcases h with h | h
        · unfold graphSet at h
          split at h
          · exact absurd h (hne _ _)
          · simp only [hk, hpos] at h
            exact key_send _ h
        · simp only [handleSet, hpos] at h
          exact key_send _ h
      subst this
      exact ⟨names_of_pos d i hpos, rfl, rfl⟩

/-- An oscillator with two parameters, wrapped in a `WrMul`. -/
def demo : Shape := .mul (.ugen [("freq", .float), ("t_reset", .trigger)])

example : Names demo 2 "wr_mul" ∧ Unnamed demo "gain" := by
  refine ⟨⟨by decide, by decide⟩, ?_⟩
  intro i
  by_cases h : i < 3
  · have : i = 0 ∨ i = 1 ∨ i = 2 := by omega
    rcases this with rfl | rfl | rfl <;> decide
  · rw [List.getElem?_eq_none (by simp [demo, Shape.params]; omega)]
    simp

example :
    (graphSet ⟨7, [(3, demo)]⟩ ⟨false, 10, []⟩ 7 3 (.desc "wr_mul") (.bool true)).1.queue
      = [⟨3, 2, .bool true⟩] ∧
    (graphSet ⟨7, [(3, demo)]⟩ ⟨false, 10, []⟩ 7 3 (.index 3) (.bool true)).2 = .error .indexOutOfBounds := by
  decide

/-- **C36 violated**: index 65536 of a node with three parameters is accepted by the graph, which sends the
event for the parameter 65536; the parameter object of a dynamic handle for the index 65537 sets parameter 1. -/
theorem C36_truncation_violated :
    graphSet ⟨7, [(3, demo)]⟩ ⟨false, 10, []⟩ 7 3 (.index 65536) (.bool true)
      = (⟨false, 10, [⟨3, 65536, .bool true⟩]⟩, .ok ()) ∧
    demo.params.length = 3 ∧
    tryParamDynamic demo (.index 65537) = some 1 ∧ tryParamStatic demo (.index 65537) = none := by
  decide

/-- **C36 violated**: a handle accepts every index. -/
theorem C36_handle_index_violated (n : Shape) (key i : Nat) (v : Val) :
    handleSet n ⟨false, 10, []⟩ key (.index i) v = (⟨false, 10, [⟨key, i, v⟩]⟩, .ok ()) := by
  simp [handleSet, Sender.send]

/-! ## C52 -/

/-- Every value of the enum has a discriminant of its own (the Rust compiler demands it). -/
def Enum.Distinct (e : Enum) : Prop := (e.variants.map fun p => p.2).Nodup

/-- **C52**: converting a value to its integer and back is the identity. -/
theorem C52_roundtrip (e : Enum) (h : e.Distinct) (v n : Nat) (hv : e.toInt v = some n) : e.ofInt n = v := by
  unfold Enum.toInt at hv
  have hlt : v < e.variants.length := by
    by_contra hc
    simp [List.getElem?_eq_none (show e.variants.length ≤ v by omega)] at hv
  rw [List.getElem?_eq_getElem hlt] at hv
  simp only [Option.map_some, Option.some.injEq] at hv
  have : (e.variants.findIdx? fun p => p.2 == n) = some v := by
    rw [List.findIdx?_eq_some_iff_getElem]
    refine ⟨hlt, by simpa using hv, ?_⟩
    intro j hj hc
    have hjl : j < e.variants.length := by omega
    have h1 : e.variants[j].2 = e.variants[v].2 := by
      rw [hv]
      simpa using hc
    unfold Enum.Distinct at h
    have := (h.getElem_inj_iff (i := j) (j := v) (hi := by simpa using hjl) (hj := by simpa using hlt)).1
      (by simpa using h1)
    omega
  simp [Enum.ofInt, this]

/-- **C52**: an integer that is no discriminant gives the default. -/
theorem C52_outside (e : Enum) (n : Nat) (h : ∀ v, e.toInt v ≠ some n) : e.ofInt n = e.dflt := by
  have : (e.variants.findIdx? fun p => p.2 == n) = none := by
    rw [List.findIdx?_eq_none_iff]
    intro p hp
    obtain ⟨i, hi, rfl⟩ := List.getElem_of_mem hp
    have := h i
    unfold Enum.toInt at this
    rw [List.getElem?_eq_getElem hi] at this
    simpa using this
  simp [Enum.ofInt, this]

theorem auto_toInt (names : List String) (d v : Nat) (h : v < names.length) :
    (Enum.auto names d).toInt v = some v := by
  simp [Enum.auto, Enum.toInt, h]

theorem auto_distinct (names : List String) (d : Nat) : (Enum.auto names d).Distinct := by
  unfold Enum.Distinct Enum.auto
  have : (names.zipIdx.map fun p => p.2) = List.range names.length := by
    apply List.ext_getElem?
    intro i
    by_cases h : i < names.length
    · simp [h]
    · simp [h]
  simp only [this]
  exact List.nodup_range

/-- **C52**: for an automatically numbered enum, the integers below the number of variants denote exactly the
variants, in order and with their names, the listed descriptions are those of the variants, and everything from
the number of variants on is the default.  Missing: the advertised range is inclusive, so it contains one
integer too many, see `C52_range_violated`. -/
theorem C52_range_partial (names : List String) (d n : Nat) :
    (n < names.length → (Enum.auto names d).ofInt n = n ∧ (Enum.auto names d).description n = names[n]?) ∧
    (names.length ≤ n → (Enum.auto names d).ofInt n = d ∧ (Enum.auto names d).description n = none) ∧
    ((Enum.auto names d).descriptions.map fun p => p.2) = names := by
  refine ⟨fun h => ⟨C52_roundtrip _ (auto_distinct names d) n n (auto_toInt names d n h), ?_⟩,
    fun h => ⟨C52_outside _ n ?_, ?_⟩, ?_⟩
  · simp [Enum.description, Enum.auto, h]
  · intro v hv
    by_cases hvl : v < names.length
    · rw [auto_toInt names d v hvl] at hv
      simp at hv
      omega
    · simp [Enum.toInt, Enum.auto, List.getElem?_eq_none (Nat.not_lt.1 hvl)] at hv
  · simp [Enum.description, Enum.auto, List.getElem?_eq_none h]
  · apply List.ext_getElem?
    intro i
    by_cases h : i < names.length
    · simp [Enum.descriptions, Enum.range, Enum.auto, Enum.description, h]
    · simp [Enum.descriptions, Enum.range, Enum.auto, Enum.description, h]

example : doneEnum.Distinct ∧ svfEnum.ofInt 8 = 8 ∧ waveformEnum.ofInt 13 = 13 ∧ waveformEnum.description 13 = some "TrapezoidVariable" ∧
    doneEnum.ofInt 7 = 0 := ⟨auto_distinct _ _, by decide, by decide, by decide, by decide⟩

/-- **C52 violated**, for every derived enum: the last integer of the advertised inclusive range denotes no
variant and has no description. -/
theorem C52_range_violated (names : List String) (d : Nat) :
    (∀ v, (Enum.auto names d).toInt v ≠ some (Enum.auto names d).range.2) ∧
    (Enum.auto names d).description (Enum.auto names d).range.2 = none := by
  constructor
  · intro v hv
    by_cases hvl : v < names.length
    · rw [auto_toInt names d v hvl] at hv
      simp [Enum.range, Enum.auto] at hv
      omega
    · simp [Enum.toInt, Enum.auto, List.getElem?_eq_none (Nat.not_lt.1 hvl)] at hv
  · simp [Enum.range, Enum.description, Enum.auto]

/-- **C52 violated**: with explicit discriminants the range and the descriptions have nothing to do with the
values: here `B` is 5, outside the range, and the description of 1 is `B` although 1 means the default. -/
theorem C52_discriminants_violated :
    (Enum.mk [("A", 0), ("B", 5)] 0).toInt 1 = some 5 ∧ (Enum.mk [("A", 0), ("B", 5)] 0).range = (0, 2) ∧
    (Enum.mk [("A", 0), ("B", 5)] 0).description 1 = some "B" ∧ (Enum.mk [("A", 0), ("B", 5)] 0).ofInt 1 = 0 := by
  decide

end Verif.Pa
