import Verif.Lemmas.Tables

/-!
# C64: the tables of a wavetable oscillator contain no partials that would sound above 20 kHz
-/

namespace Verif.Wv

open Verif.Os

/-! ### Which table is used -/

theorem maxFreq_ite {f c : Rat} {a b : Nat} [Decidable (f ≤ c)] (ha : f ≤ c → f ≤ maxFreq a) (hb : f ≤ maxFreq b) :
    f ≤ maxFreq (if f ≤ c then a else b) := by
  by_cases h : f ≤ c
  · rw [if_pos h]
    exact ha h
  · rw [if_neg h]
    exact hb

/-- C64, the choice of the table: for every frequency up to 20 kHz, every harmonic that the chosen table may contain
sounds at 20 kHz or below. -/
theorem C64_below (f : Rat) (h0 : 0 ≤ f) (hf : f ≤ 20000) (h : Nat) (hh : h ≤ maxHarmonic (tableIndex f)) :
    (h : Rat) * f ≤ 20000 := by
  have hle : f ≤ maxFreq (tableIndex f) := by
    unfold tableIndex
    iterate 16 refine maxFreq_ite (fun h => le_trans h (by unfold maxFreq; norm_num)) ?_
    refine le_trans hf ?_
    unfold maxFreq
    norm_num
  have hpos : (0 : Rat) < maxFreq (tableIndex f) := by
    unfold maxFreq
    positivity
  have h1 : (h : Rat) ≤ 20000 / maxFreq (tableIndex f) := by
    have h2 : ((maxHarmonic (tableIndex f) : Nat) : Rat) ≤ 20000 / maxFreq (tableIndex f) := by
      unfold maxHarmonic
      have h3 : 0 ≤ ⌊20000 / maxFreq (tableIndex f)⌋ := Int.floor_nonneg.2 (by positivity)
      have h4 : (((⌊20000 / maxFreq (tableIndex f)⌋).toNat : Nat) : Rat) = ((⌊20000 / maxFreq (tableIndex f)⌋ : Int) : Rat) := by
        rw [← Int.cast_natCast, Int.toNat_of_nonneg h3]
      rw [h4]
      exact Int.floor_le _
    exact le_trans (by exact_mod_cast hh) h2
  calc (h : Rat) * f ≤ (20000 / maxFreq (tableIndex f)) * maxFreq (tableIndex f) :=
        mul_le_mul h1 hle h0 (by positivity)
    _ = 20000 := by field_simp

/-! ### What the tables contain -/

/-- The calls for which the claim holds: `add_sine` with a whole number as frequency, `fill_sine` from the fundamental. -/
def Op.Fine : Op ℝ → Prop
  | .fill _ => True
  | .addSine freq _ _ => ∃ m : Nat, freq = m
  | .fillSine _ freq => freq = 1
  | .multiply _ => True
  | .normalize => True
  | _ => False

/-- The tables have the right length and no partials above their limit. -/
def Clean (ts : List (List ℝ)) : Prop :=
  ∀ (i : Nat) t, ts[i]? = some t → t.length = tableSize ∧ BandLimited (maxHarmonic i) t

theorem each_ok (f : Nat → List ℝ → R (List ℝ)) : ∀ (ts ts' : List (List ℝ)) (i : Nat), each f i ts = .ok ts' →
    ts'.length = ts.length ∧ ∀ (j : Nat) t', ts'[j]? = some t' → ∃ t, ts[j]? = some t ∧ f (i + j) t = .ok t'
  | [], ts', i, h => by
    simp only [each, Except.ok.injEq] at h
    subst h
    simp
  | t :: ts, ts', i, h => by
    simp only [each] at h
    cases h1 : f i t with
    | error e => simp [h1] at h
    | ok t1 =>
      simp only [h1, bind_ok] at h
      cases h2 : each f (i + 1) ts with
      | error e => simp [h2] at h
      | ok r =>
        simp only [h2, bind_ok, pure_ok, Except.ok.injEq] at h
        subst h
        obtain ⟨h3, h4⟩ := each_ok f ts r (i + 1) h2
        refine ⟨by simp [h3], fun j t' hj => ?_⟩
        cases j with
        | zero =>
          simp only [List.getElem?_cons_zero, Option.some.injEq] at hj
          subst hj
          exact ⟨t, by simp, h1⟩
        | succ j =>
          obtain ⟨t0, h5, h6⟩ := h4 j t' (by simpa using hj)
          refine ⟨t0, by simpa using h5, ?_⟩
          rw [← h6]
          congr 1
          omega

theorem each_total (f : Nat → List ℝ → R (List ℝ)) : ∀ (ts : List (List ℝ)) (i : Nat),
    (∀ j t, ts[j]? = some t → ∃ t', f (i + j) t = .ok t') → ∃ ts', each f i ts = .ok ts'
  | [], i, h => ⟨[], rfl⟩
  | t :: ts, i, h => by
    obtain ⟨t', h1⟩ := h 0 t (by simp)
    obtain ⟨r, h2⟩ := each_total f ts (i + 1) fun j t hj => by
      obtain ⟨t', h3⟩ := h (j + 1) t (by simpa using hj)
      refine ⟨t', ?_⟩
      rw [← h3]
      congr 1
      omega
    refine ⟨t' :: r, ?_⟩
    simp only [Nat.add_zero] at h1
    simp only [each, h1, h2, bind_ok, pure_ok]

/-- What a fine call does to one table. -/
theorem fine_table (op : Op ℝ) (hop : op.Fine) (i : Nat) (t : List ℝ) (hl : t.length = tableSize)
    (hb : BandLimited (maxHarmonic i) t) :
    ∃ t', op.table realFns i t = .ok t' ∧ t'.length = tableSize ∧ BandLimited (maxHarmonic i) t' := by
  cases op with
  | fill v => exact ⟨_, rfl, by simp [Wv.fill, hl], bandLimited_fill _ _ _⟩
  | addSine freq amp phase =>
    obtain ⟨m, rfl⟩ := hop
    simp only [Op.table]
    split
    · next hm =>
      have ha := adds_addSine m amp phase t hl
      refine ⟨_, rfl, ha.1.trans hl, hb.adds ha ?_⟩
      intro p hp
      simp only [List.mem_singleton] at hp
      subst hp
      simpa using hm
    · exact ⟨t, rfl, hl, hb⟩
  | fillSine num freq =>
    change freq = 1 at hop
    subst hop
    simp only [Op.table, mul_one, Int.floor_natCast, Int.toNat_natCast]
    obtain ⟨b, h1, h2⟩ := adds_fillSine (min num (maxHarmonic i)) 1 (List.range (min num (maxHarmonic i))) t hl
    refine ⟨b, ?_, h2.1.trans hl, hb.adds h2 ?_⟩
    · unfold Wv.fillSine
      simpa using h1
    · intro p hp
      obtain ⟨n, hn, rfl⟩ := List.mem_map.1 hp
      have := List.mem_range.1 hn
      simp only [fillPartial, one_mul]
      omega
  | addAliasingSaw _ _ => exact hop.elim
  | addSaw _ _ _ => exact hop.elim
  | addOdd _ _ => exact hop.elim
  | addNoise _ _ => exact hop.elim
  | multiply m => exact ⟨_, rfl, by simp [Wv.multiply, hl], bandLimited_multiply hb m⟩
  | normalize => exact ⟨t, rfl, hl, hb⟩

theorem fine_run (op : Op ℝ) (hop : op.Fine) (ts ts' : List (List ℝ)) (hc : Clean ts)
    (h : op.run realFns ts = .ok ts') : Clean ts' := by
  by_cases hn : op = .normalize
  · subst hn
    simp only [Op.run, Wv.normalize] at h
    cases ts with
    | nil => simp at h
    | cons t rest =>
      simp only at h
      split at h
      · simp at h
      · simp only [Except.ok.injEq] at h
        subst h
        intro i t' ht'
        rw [List.getElem?_map] at ht'
        cases h1 : (t :: rest)[i]? with
        | none => rw [h1] at ht'; simp at ht'
        | some t0 =>
          rw [h1] at ht'
          simp only [Option.map_some, Option.some.injEq] at ht'
          subst ht'
          obtain ⟨h2, h3⟩ := hc i t0 h1
          exact ⟨by simp [multiply, h2], bandLimited_multiply h3 _⟩
  · have hr : each (Op.table realFns · op) 0 ts = .ok ts' := by
      cases op <;> first | exact h | exact absurd rfl hn
    intro i t' ht'
    obtain ⟨t, h1, h2⟩ := (each_ok _ ts ts' 0 hr).2 i t' ht'
    obtain ⟨h3, h4⟩ := hc i t h1
    obtain ⟨t1, h5, h6, h7⟩ := fine_table op hop i t h3 h4
    rw [Nat.zero_add, h5] at h2
    simp only [Except.ok.injEq] at h2
    subst h2
    exact ⟨h6, h7⟩

theorem clean_new : Clean tablesNew := by
  intro i t ht
  unfold tablesNew at ht
  have := List.mem_of_getElem? ht
  rw [List.mem_replicate] at this
  rw [this.2]
  exact ⟨by unfold zeros; exact List.length_replicate, bandLimited_zeros _⟩

/-- C64, the contents: whatever is built with the fine calls, in any order and number, table `i` contains no partials
above harmonic `maxHarmonic i`; with `C64_below` nothing in a table sounds above 20 kHz at the frequencies it is used for. -/
theorem C64_partial (ops : List (Op ℝ)) (hops : ∀ op ∈ ops, op.Fine) (ts : List (List ℝ))
    (h : build realFns ops tablesNew = .ok ts) : Clean ts := by
  have key : ∀ (ops : List (Op ℝ)) (ts0 ts : List (List ℝ)), (∀ op ∈ ops, op.Fine) → Clean ts0 →
      build realFns ops ts0 = .ok ts → Clean ts := by
    intro ops
    induction ops with
    | nil =>
      intro ts0 ts _ hc h
      cases h
      exact hc
    | cons op ops ih =>
      intro ts0 ts hf hc h
      unfold build at h
      rw [List.foldlM_cons] at h
      cases h1 : op.run realFns ts0 with
      | error e => rw [h1] at h; cases h
      | ok ts1 =>
        rw [h1] at h
        exact ih ts1 ts (fun o ho => hf o (by simp [ho])) (fine_run op (hf op (by simp)) ts0 ts1 hc h1) h
  exact key ops tablesNew ts hops clean_new h

/-- Fine calls other than `normalize` do not panic. -/
theorem C64_total (op : Op ℝ) (hop : op.Fine) (hn : op ≠ .normalize) (ts : List (List ℝ)) (hc : Clean ts) :
    ∃ ts', op.run realFns ts = .ok ts' := by
  have : ∃ ts', each (Op.table realFns · op) 0 ts = .ok ts' := by
    refine each_total _ ts 0 fun j t hj => ?_
    obtain ⟨h3, h4⟩ := hc j t hj
    obtain ⟨t1, h5, -⟩ := fine_table op hop j t h3 h4
    exact ⟨t1, by rw [Nat.zero_add]; exact h5⟩
  cases op <;> first | exact this | exact absurd rfl hn

/-! ### Where the claim is false -/

theorem maxHarmonic_le (i : Nat) : maxHarmonic i ≤ 625 := by
  unfold maxHarmonic maxFreq
  have h1 : (20000 : Rat) / (32 * (3 / 2) ^ i) ≤ 625 := by
    rw [div_le_iff₀ (by positivity)]
    have : (1 : Rat) ≤ (3 / 2) ^ i := one_le_pow₀ (by norm_num)
    linarith
  have h2 : ⌊(20000 : Rat) / (32 * (3 / 2) ^ i)⌋ ≤ 625 := by
    have := Int.floor_le_floor h1
    simpa using this
  omega

/-- C64 violated, saws: with as many harmonics as possible, the saw has one harmonic too many in every table (the
harmonics are counted from 0 to the limit, both included). -/
theorem C64_saw_violated (i num : Nat) (amp : ℝ) (hn : maxHarmonic i ≤ num) (ha : amp ≠ 0) (t : List ℝ)
    (hl : t.length = tableSize) (hb : BandLimited (maxHarmonic i) t) :
    ∃ t', (Op.addAliasingSaw num amp).table realFns i t = .ok t' ∧ ¬ BandLimited (maxHarmonic i) t' := by
  refine ⟨_, rfl, ?_⟩
  have hm : min num (maxHarmonic i) = maxHarmonic i := Nat.min_eq_right hn
  rw [hm]
  have hadds := adds_foldl (sawHarmonic realFns amp) _ (adds_saw amp) (List.range' 0 (maxHarmonic i + 1 - 0)) t
  have hr : List.range' 0 (maxHarmonic i + 1 - 0) = List.range (maxHarmonic i) ++ [maxHarmonic i] := by
    rw [Nat.sub_zero, ← List.range_eq_range', List.range_succ]
  rw [hr, List.map_append, List.map_cons, List.map_nil, ← hr] at hadds
  refine not_bandLimited hb hadds ?_ (by simp) ?_ ?_
  · intro p hp
    obtain ⟨n, hn, rfl⟩ := List.mem_map.1 hp
    have := List.mem_range.1 hn
    change n + 1 < maxHarmonic i + 1
    omega
  · have := maxHarmonic_le i
    rw [hl]
    change 2 * (maxHarmonic i + 1) < 16384
    omega
  · have hpi := Real.pi_pos
    have : (0 : ℝ) < ((maxHarmonic i : ℝ) + 1) * Real.pi := by positivity
    exact mul_ne_zero (one_div_ne_zero this.ne') ha

/-- C64 violated, odd harmonics: the number of harmonics is limited instead of the highest harmonic, so that every table
that may contain more than one harmonic gets harmonics up to almost twice the limit. -/
theorem C64_odd_violated (i num : Nat) (falloff : ℝ) (hn : maxHarmonic i ≤ num) (h2 : 2 ≤ maxHarmonic i) (t : List ℝ)
    (hl : t.length = tableSize) (hb : BandLimited (maxHarmonic i) t) :
    ∃ t', (Op.addOdd num falloff).table realFns i t = .ok t' ∧ ¬ BandLimited (maxHarmonic i) t' := by
  refine ⟨_, rfl, ?_⟩
  have hm : min num (maxHarmonic i) = maxHarmonic i := Nat.min_eq_right hn
  rw [hm]
  obtain ⟨M, hM⟩ : ∃ M, maxHarmonic i = M + 1 := ⟨maxHarmonic i - 1, by omega⟩
  have hadds := adds_foldl (oddHarmonic realFns falloff) _ (adds_odd falloff) (List.range (maxHarmonic i)) t
  have hr : List.range (maxHarmonic i) = List.range M ++ [M] := by rw [hM, List.range_succ]
  rw [hr, List.map_append, List.map_cons, List.map_nil, ← hr] at hadds
  refine not_bandLimited hb hadds ?_ (by simp only; omega) ?_ ?_
  · intro p hp
    obtain ⟨n, hn, rfl⟩ := List.mem_map.1 hp
    have := List.mem_range.1 hn
    simp only
    omega
  · have := maxHarmonic_le i
    rw [hl]
    change 2 * (2 * M + 1) < 16384
    omega
  · have : (0 : ℝ) < ((2 * M + 1 : Nat) : ℝ) ^ falloff := Real.rpow_pos_of_pos (by positivity) _
    exact one_div_ne_zero this.ne'

/-- The limits of the three highest tables. -/
theorem high_limits : maxHarmonic 14 = 2 ∧ maxHarmonic 15 = 1 ∧ maxHarmonic 16 = 0 := by decide +kernel

/-- C64 violated, `fill_sine` from a higher harmonic: the limit is multiplied by the frequency instead of divided by it.
With one harmonic at twice the frequency, table 15 (used up to 14 kHz) gets a partial that sounds up to 28 kHz. -/
theorem C64_fill_sine_violated : ∃ t', (Op.fillSine 1 2).table realFns 15 zeros = .ok t' ∧
    ¬ BandLimited (maxHarmonic 15) t' := by
  have hl : (zeros : List ℝ).length = tableSize := List.length_replicate
  have hmin : min 1 ⌊((maxHarmonic 15 : Nat) : ℝ) * 2⌋.toNat = 1 := by
    rw [high_limits.2.1]
    have : ⌊((1 : Nat) : ℝ) * 2⌋ = 2 := by
      rw [Nat.cast_one, one_mul]
      exact Int.floor_ofNat 2
    rw [this]
    rfl
  obtain ⟨b, h1, h2⟩ := adds_fillSine 1 2 (List.range 1) zeros hl
  refine ⟨b, ?_, ?_⟩
  · simp only [Op.table, hmin, Wv.fillSine]
    simpa using h1
  · refine not_bandLimited (ps := []) (bandLimited_zeros _) h2 (by simp) ?_ ?_ ?_
    · rw [high_limits.2.1]
      simp [fillPartial]
    · rw [hl]
      simp [fillPartial, tableSize]
    · simp [fillPartial]

/-- C64 violated, negative frequencies: `add_sine` rounds the frequency to an unsigned number, which is 0 for every
negative frequency, so a sine of frequency `-2` is added to every table, even to the highest ones. -/
theorem C64_negative_violated : ∃ t', (Op.addSine (-2) 1 0).table realFns 15 zeros = .ok t' ∧
    ¬ BandLimited (maxHarmonic 15) t' := by
  have hl : (zeros : List ℝ).length = tableSize := List.length_replicate
  have hc : (⌈(-2 : ℝ)⌉).toNat ≤ maxHarmonic 15 := by
    have : ⌈(-2 : ℝ)⌉ = -2 := by
      rw [show (-2 : ℝ) = ((-2 : Int) : ℝ) by norm_num, Int.ceil_intCast]
    rw [this]
    exact Nat.zero_le _
  have ha : Adds [⟨2, -1, 0⟩] zeros (Wv.addSine realFns (-2) 1 0 zeros) := by
    obtain ⟨h1, h2⟩ := sineLoop_get 1 (-2 * Real.pi * 2 / (tableSize : Nat)) zeros 0
    refine ⟨h1, fun k hk => ?_⟩
    refine (h2 k hk).trans ?_
    simp only [List.map_cons, List.map_nil, List.sum_cons, List.sum_nil, add_zero, Partial.at, hl, one_mul]
    have : (-2 * Real.pi * 2 / (tableSize : Nat) * k : ℝ) = -(2 * Real.pi * (2 : Nat) * k / (tableSize : Nat)) := by
      push_cast
      ring
    rw [this, Real.sin_neg]
    ring
  refine ⟨Wv.addSine realFns (-2) 1 0 zeros, by simp only [Op.table, if_pos hc], ?_⟩
  refine not_bandLimited (ps := []) (bandLimited_zeros _) ha (by simp) ?_ ?_ (by norm_num)
  · rw [high_limits.2.1]
    simp
  · rw [hl]
    simp [tableSize]

/-- C64 violated the other way round: table 16 is used between 14 kHz and 20 kHz, but its limit is calculated for 21 kHz
and is 0, so that `add_sine` and `fill_sine` leave it silent although the fundamental could sound. -/
theorem C64_silent (amp phase : ℝ) (num : Nat) : tableIndex 15000 = 16 ∧
    (Op.addSine 1 amp phase).table realFns 16 zeros = .ok zeros ∧
    (Op.fillSine num 1).table realFns 16 zeros = .ok zeros := by
  refine ⟨by decide +kernel, ?_, ?_⟩
  · have : ¬ (⌈(1 : ℝ)⌉).toNat ≤ maxHarmonic 16 := by
      rw [high_limits.2.2, Int.ceil_one]
      decide
    simp only [Op.table, if_neg this]
  · simp only [Op.table, high_limits.2.2]
    simp [Wv.fillSine]

/-- The fine calls do something: a sine is added to table 15 and has its harmonic. -/
example : ∃ t, (Op.addSine 1 1 0).table realFns 15 zeros = .ok t ∧ BandLimited (maxHarmonic 15) t ∧ dft t 1 ≠ 0 := by
  have hl : (zeros : List ℝ).length = tableSize := List.length_replicate
  have ha := adds_addSine 1 1 0 zeros hl
  have hm : (⌈((1 : Nat) : ℝ)⌉).toNat ≤ maxHarmonic 15 := by
    rw [high_limits.2.1, Nat.cast_one, Int.ceil_one]
    decide
  refine ⟨Wv.addSine realFns ((1 : Nat) : ℝ) 1 0 zeros, ?_, ?_, ?_⟩
  · simp only [Op.table]
    rw [Nat.cast_one] at hm ⊢
    rw [if_pos hm]
  · refine (bandLimited_zeros _).adds ha ?_
    intro p hp
    simp only [List.mem_singleton] at hp
    subst hp
    rw [high_limits.2.1]
  · rw [dft_adds ha]
    have h0 : dft (zeros : List ℝ) 1 = 0 := bandLimited_zeros 0 1 (by omega) (by rw [hl]; decide)
    rw [h0, zero_add]
    simp only [List.map_cons, List.map_nil, List.sum_cons, List.sum_nil, add_zero]
    exact partial_self ⟨1, 1, 0⟩ (by simp) (by rw [hl]; decide) (by norm_num)

end Verif.Wv
