import Verif.Props.Buffer

/-!
# C53: buffer playback reproduces the stored samples
-/

namespace Verif.Bu

/-! ### Specification -/

/-- A buffer of `F` complete frames. -/
def Complete (b : Buffer) (F : Nat) : Prop := b.frames = F ∧ b.buf.length = F * b.nc ∧ 0 < F ∧ F < U64

/-- All channels at a position. -/
def frameAt (b : Buffer) (F ch : Nat) (p : Rat) : List Rat := (List.range ch).map (specAt b F p)

/-- All channels of a stored frame. -/
def stored (b : Buffer) (ch k : Nat) : List Rat := (List.range ch).map (fun c => b.buf.getD (k * b.nc + c) 0)

/-! ### Reading -/

theorem get_eq {b : Buffer} {F : Nat} (hb : Complete b F) {p : Rat} (h0 : 0 ≤ p) (hp : p < F) {c : Nat} (hc : c < b.nc) :
    b.get p c = .ok (specAt b F p c) := by
  obtain ⟨_, hlen, hF, hU⟩ := hb
  have h1 : ⌊p⌋ < F := Int.floor_lt.mpr (by exact_mod_cast hp)
  have hi : asUsize p = ⌊p⌋.toNat := by unfold asUsize; omega
  have hiF : ⌊p⌋.toNat < F := by omega
  have hfr : fractR p = Int.fract p := by unfold fractR Os.trunc; rw [if_pos h0]; rfl
  generalize hg : ⌊p⌋.toNat = i at *
  have h2 : i * b.nc + c < b.buf.length := by
    rw [hlen]
    calc i * b.nc + c < i * b.nc + b.nc := by omega
      _ = (i + 1) * b.nc := by ring
      _ ≤ F * b.nc := Nat.mul_le_mul_right _ hiF
  have hmod : (i * b.nc + c + b.nc) % b.buf.length = (i + 1) % F * b.nc + c := by
    rw [hlen]
    rcases Nat.lt_or_ge (i + 1) F with h | h
    · rw [Nat.mod_eq_of_lt h, Nat.mod_eq_of_lt]
      · ring
      · calc i * b.nc + c + b.nc < i * b.nc + b.nc + b.nc := by omega
          _ = (i + 1 + 1) * b.nc := by ring
          _ ≤ F * b.nc := Nat.mul_le_mul_right _ h
    · have hF1 : F = i + 1 := by omega
      rw [hF1, Nat.mod_self, Nat.zero_mul, Nat.zero_add]
      have e : i * b.nc + c + b.nc = c + (i + 1) * b.nc := by ring
      rw [e, Nat.add_mod_right, Nat.mod_eq_of_lt]
      calc c < b.nc := hc
        _ ≤ (i + 1) * b.nc := Nat.le_mul_of_pos_left _ (by omega)
  have h3 : (i + 1) % F * b.nc + c < b.buf.length := by
    rw [← hmod]; exact Nat.mod_lt _ (by omega)
  unfold Buffer.get
  rw [hi, List.getElem?_eq_getElem h2]
  simp only [modC]
  rw [if_neg (by omega)]
  simp only [bind_ok, hmod]
  rw [List.getElem?_eq_getElem h3]
  simp only [specAt, hfr, hg, pure_ok]
  rw [List.getD_eq_getElem?_getD, List.getD_eq_getElem?_getD, List.getElem?_eq_getElem h2, List.getElem?_eq_getElem h3]
  simp only [Option.getD_some]
  congr 1; ring

theorem mapM_eq {α β} (f : α → R β) (g : α → β) (l : List α) (h : ∀ a ∈ l, f a = .ok (g a)) : l.mapM f = .ok (l.map g) := by
  induction l with
  | nil => rfl
  | cons a l ih =>
    rw [List.mapM_cons, h a (by simp), bind_ok, ih (fun b hb => h b (by simp [hb]))]; rfl

theorem read_eq {r : Reader} {F : Nat} (hb : Complete r.b F) (h0 : 0 ≤ r.ptr) (hp : r.ptr < F) (hc : r.channels ≤ r.b.nc) :
    r.read = .ok (frameAt r.b F r.channels r.ptr) :=
  mapM_eq _ _ _ (fun _ h => get_eq hb h0 hp (lt_of_lt_of_le (List.mem_range.mp h) hc))

theorem run_append (l1 l2 : List Op) : ∀ {r r1 r2 : Reader} {o1 o2 : List (List Rat)}, r.run l1 = .ok (r1, o1) → r1.run l2 = .ok (r2, o2) →
    r.run (l1 ++ l2) = .ok (r2, o1 ++ o2) := by
  induction l1 with
  | nil =>
    intro r r1 r2 o1 o2 h1 h2
    simp only [Reader.run, Except.ok.injEq, Prod.mk.injEq] at h1
    obtain ⟨rfl, rfl⟩ := h1
    exact h2
  | cons o l1 ih =>
    intro r r1 r2 o1 o2 h1 h2
    simp only [List.cons_append, Reader.run] at h1 ⊢
    cases hx : r.op o with
    | error e => rw [hx] at h1; cases h1
    | ok x =>
      rw [hx, bind_ok] at h1
      cases hy : x.1.run l1 with
      | error e => rw [hy] at h1; cases h1
      | ok y =>
        rw [hy, bind_ok] at h1
        simp only [pure_ok, Except.ok.injEq, Prod.mk.injEq] at h1
        obtain ⟨rfl, rfl⟩ := h1
        rw [bind_ok, ih hy h2]
        simp

theorem frame_eq {r : Reader} {F : Nat} (hb : Complete r.b F) (hf : r.finished = false) (h0 : 0 ≤ r.ptr) (hp : r.ptr < F)
    (hc : r.channels ≤ r.b.nc) : r.op .frame = .ok (r.advance.1, [frameAt r.b F r.channels r.ptr]) := by
  simp only [Reader.op, Reader.process, hf, Bool.false_eq_true, if_false, read_eq hb h0 hp hc, bind_ok, pure_ok]

theorem play_k (k : Nat) : ∀ (r : Reader) (F : Nat), Complete r.b F → r.channels ≤ r.b.nc → r.finished = false → 0 ≤ r.ptr → r.ptr < F →
    0 ≤ r.base * r.rate → r.fin ≤ F → (∀ j : Nat, 1 ≤ j → j ≤ k → r.ptr + j * (r.base * r.rate) < r.fin) →
    r.run (List.replicate k .frame) = .ok ({ r with ptr := r.ptr + k * (r.base * r.rate) },
      (List.range k).map (fun i : Nat => frameAt r.b F r.channels (r.ptr + i * (r.base * r.rate)))) := by
  induction k with
  | zero =>
    intro r F _ _ _ _ _ _ _ _
    simp [Reader.run]
  | succ k ih =>
    intro r F hb hc hf h0 hp hs hfin hj
    have h1 : ¬ (r.ptr + r.base * r.rate ≥ r.fin) := by
      have := hj 1 le_rfl (by omega)
      rw [not_le]
      simpa using this
    have hadv : r.advance.1 = { r with ptr := r.ptr + r.base * r.rate } := by
      unfold Reader.advance; rw [if_neg h1]
    have := ih { r with ptr := r.ptr + r.base * r.rate } F hb hc hf (by simp only; linarith)
      (lt_of_lt_of_le (not_le.mp h1) hfin) hs hfin (by
        intro j hj1 hjk
        have := hj (j + 1) (by omega) (by omega)
        push_cast at this
        simp only; linarith)
    rw [List.replicate_succ]
    simp only [Reader.run, frame_eq hb hf h0 hp hc, bind_ok, hadv, this, pure_ok, Except.ok.injEq, Prod.mk.injEq]
    constructor
    · congr 1; push_cast; ring
    · rw [List.range_succ_eq_map, List.map_cons, List.map_map, List.singleton_append]
      congr 1
      · congr 1; simp
      · apply List.map_congr_left
        intro i _
        simp only [Function.comp]
        congr 1; push_cast; ring

/-- A window of `N` frames: the first position behind the end is reached after `N` steps. -/
def Steps (start step fin : Rat) (N : Nat) : Prop :=
  0 < N ∧ (∀ j : Nat, 1 ≤ j → j < N → start + j * step < fin) ∧ fin ≤ start + N * step

theorem play_N (r : Reader) (F N : Nat) (hb : Complete r.b F) (hc : r.channels ≤ r.b.nc) (hf : r.finished = false) (h0 : 0 ≤ r.ptr)
    (hp : r.ptr < F) (hs : 0 ≤ r.base * r.rate) (hfin : r.fin ≤ F) (hN : Steps r.ptr (r.base * r.rate) r.fin N) :
    r.run (List.replicate N .frame) = .ok
      (if r.looping then { r with ptr := r.start }
        else { r with ptr := r.ptr + N * (r.base * r.rate), finished := true },
      (List.range N).map (fun i : Nat => frameAt r.b F r.channels (r.ptr + i * (r.base * r.rate)))) := by
  obtain ⟨hpos, hlt, hge⟩ := hN
  obtain ⟨k, rfl⟩ : ∃ k, N = k + 1 := ⟨N - 1, by omega⟩
  have h1 := play_k k r F hb hc hf h0 hp hs hfin (fun j a b => hlt j a (by omega))
  have hkp : r.ptr + k * (r.base * r.rate) < F := by
    rcases Nat.eq_zero_or_pos k with rfl | hk
    · simpa using hp
    · exact lt_of_lt_of_le (hlt k hk (by omega)) hfin
  have h2 := frame_eq (r := { r with ptr := r.ptr + k * (r.base * r.rate) }) hb hf
    (by simp only; exact add_nonneg h0 (mul_nonneg (Nat.cast_nonneg _) hs)) hkp hc
  have h3 : ({ r with ptr := r.ptr + k * (r.base * r.rate) } : Reader).advance.1 =
      if r.looping then { r with ptr := r.start } else { r with ptr := r.ptr + (k + 1 : Nat) * (r.base * r.rate), finished := true } := by
    have hge' : r.ptr + k * (r.base * r.rate) + r.base * r.rate ≥ r.fin := by
      push_cast at hge
      have : r.ptr + (k + 1) * (r.base * r.rate) = r.ptr + k * (r.base * r.rate) + r.base * r.rate := by ring
      rw [this] at hge; exact hge
    unfold Reader.advance Reader.restart
    simp only
    rw [if_pos hge']
    by_cases hl : r.looping = true
    · rw [if_pos hl, if_pos hl, ← hf]
    · rw [if_neg hl, if_neg hl]
      simp only
      congr 1
      push_cast; ring
  rw [List.replicate_succ', run_append _ _ h1 (r2 := ({ r with ptr := r.ptr + k * (r.base * r.rate) } : Reader).advance.1)
    (o2 := [frameAt r.b F r.channels (r.ptr + k * (r.base * r.rate))]) (by
      simp only [Reader.run, h2, bind_ok, pure_ok]; rfl), h3]
  rw [List.range_succ, List.map_append]; rfl

theorem silent (m : Nat) (r : Reader) (hf : r.finished = true) :
    r.run (List.replicate m .frame) = .ok (r, List.replicate m (List.replicate r.channels 0)) := by
  induction m with
  | zero => rfl
  | succ m ih =>
    rw [List.replicate_succ]
    simp only [Reader.run, Reader.op, Reader.process, hf, if_true, bind_ok, pure_ok, ih]
    rfl

/-! ### Properties -/

/-- C53 without looping: frame `k` is the interpolation at `k` steps from the start, until the end is reached; then there is
silence. -/
theorem C53_once (r : Reader) (F N m : Nat) (hb : Complete r.b F) (hc : r.channels ≤ r.b.nc) (hf : r.finished = false) (h0 : 0 ≤ r.ptr)
    (hp : r.ptr < F) (hs : 0 ≤ r.base * r.rate) (hfin : r.fin ≤ F) (hN : Steps r.ptr (r.base * r.rate) r.fin N)
    (hl : r.looping = false) : ∃ r', r.run (List.replicate (N + m) .frame) = .ok (r',
      (List.range N).map (fun i : Nat => frameAt r.b F r.channels (r.ptr + i * (r.base * r.rate))) ++
        List.replicate m (List.replicate r.channels 0)) := by
  have h1 := play_N r F N hb hc hf h0 hp hs hfin hN
  rw [hl] at h1
  rw [List.replicate_add]
  exact ⟨_, run_append _ _ h1 (silent m _ rfl)⟩

/-- C53 with looping: after `N` frames the player starts again, so that frame `k` is the interpolation at `k % N` steps. -/
theorem C53_looping (r : Reader) (F N n : Nat) (hb : Complete r.b F) (hc : r.channels ≤ r.b.nc) (hf : r.finished = false)
    (hst : r.ptr = r.start) (h0 : 0 ≤ r.ptr) (hp : r.ptr < F) (hs : 0 ≤ r.base * r.rate) (hfin : r.fin ≤ F)
    (hN : Steps r.ptr (r.base * r.rate) r.fin N) (hl : r.looping = true) :
    ∃ r', r.run (List.replicate n .frame) = .ok (r',
      (List.range n).map (fun i : Nat => frameAt r.b F r.channels (r.ptr + (i % N : Nat) * (r.base * r.rate)))) := by
  have hNpos := hN.1
  have h1 := play_N r F N hb hc hf h0 hp hs hfin hN
  have hst' : (if r.looping = true then { r with ptr := r.start }
      else { r with ptr := r.ptr + N * (r.base * r.rate), finished := true } : Reader) = r := by
    rw [if_pos hl]
    cases r
    simp only at hst
    rw [hst]
  rw [hst'] at h1
  have hq : ∀ q : Nat, r.run (List.replicate (N * q) .frame) = .ok (r,
      (List.range (N * q)).map (fun i : Nat => frameAt r.b F r.channels (r.ptr + (i % N : Nat) * (r.base * r.rate)))) := by
    intro q
    induction q with
    | zero => rfl
    | succ q ih =>
      rw [Nat.mul_succ, List.replicate_add, run_append _ _ ih h1, List.range_add, List.map_append, List.map_map]
      congr 3
      apply List.map_congr_left
      intro i hi
      simp only [Function.comp]
      rw [Nat.mul_add_mod, Nat.mod_eq_of_lt (List.mem_range.mp hi)]
  have hk : n % N < N := Nat.mod_lt _ hNpos
  have h2 := play_k (n % N) r F hb hc hf h0 hp hs hfin (fun j a b => hN.2.1 j a (by omega))
  have hn : n = N * (n / N) + n % N := (Nat.div_add_mod n N).symm
  have h3 := run_append _ _ (hq (n / N)) h2
  rw [← List.replicate_add, ← hn] at h3
  refine ⟨{ r with ptr := r.ptr + (n % N : Nat) * (r.base * r.rate) }, h3.trans ?_⟩
  congr 2
  conv_rhs => rw [hn, List.range_add, List.map_append, List.map_map]
  congr 1
  apply List.map_congr_left
  intro i hi
  simp only [Function.comp]
  rw [Nat.mul_add_mod, Nat.mod_eq_of_lt (lt_trans (List.mem_range.mp hi) hk)]

/-! ### Normal speed -/

theorem toFrames_gt (s sr : Rat) (h0 : 0 ≤ s) (hlt : s < U32) (hsr : 0 < sr) : s * sr - sr / 282240000 < toFrames s sr := by
  have hfl : 0 ≤ ⌊s⌋ := Int.floor_nonneg.mpr h0
  have h1 : (Os.asU32 ((⌊s⌋ : Int) : Rat) : Rat) = ⌊s⌋ := by
    unfold Os.asU32
    rw [Int.floor_intCast]
    have : ⌊s⌋ < 4294967296 := Int.floor_lt.mpr (by exact_mod_cast hlt)
    have e : ((min ⌊s⌋.toNat (4294967296 - 1) : Nat) : Int) = ⌊s⌋ := by omega
    exact_mod_cast e
  have hf : fractR s = Int.fract s := by unfold fractR Os.trunc; rw [if_pos h0]; rfl
  have h2 : Int.fract s * 282240000 < (Os.asU32 (Int.fract s * 282240000) : Rat) + 1 := by
    unfold Os.asU32
    have hx : 0 ≤ Int.fract s * 282240000 := mul_nonneg (Int.fract_nonneg s) (by norm_num)
    have hx2 : Int.fract s * 282240000 < 282240000 := by have := Int.fract_lt_one s; linarith
    generalize Int.fract s * 282240000 = x at *
    have g1 : 0 ≤ ⌊x⌋ := Int.floor_nonneg.mpr hx
    have g2 : ⌊x⌋ < 282240000 := Int.floor_lt.mpr (by exact_mod_cast hx2)
    have e : ((min ⌊x⌋.toNat (4294967296 - 1) : Nat) : Int) = ⌊x⌋ := by omega
    have e2 : ((min ⌊x⌋.toNat (4294967296 - 1) : Nat) : Rat) = ⌊x⌋ := by exact_mod_cast e
    rw [e2]
    exact Int.lt_floor_add_one x
  unfold toFrames
  rw [h1, hf]
  have h3 := Int.floor_add_fract s
  have h4 : (Int.fract s - 1 / 282240000) < (Os.asU32 (Int.fract s * 282240000) : Rat) / 282240000 := by
    rw [lt_div_iff₀ (by norm_num)]; linarith
  have e1 : (⌊s⌋ : Rat) * sr + (Os.asU32 (Int.fract s * 282240000) : Rat) * sr / 282240000
      = ((⌊s⌋ : Rat) + (Os.asU32 (Int.fract s * 282240000) : Rat) / 282240000) * sr := by ring
  have e2 : s * sr - sr / 282240000 = (s - 1 / 282240000) * sr := by ring
  rw [e1, e2]
  apply mul_lt_mul_of_pos_right _ hsr
  linarith

theorem frameAt_whole (b : Buffer) (F ch k : Nat) : frameAt b F ch k = stored b ch k := by
  unfold frameAt stored
  apply List.map_congr_left
  intro c _
  unfold specAt
  rw [Int.fract_natCast, Int.floor_natCast]
  simp

/-- C53 for reading whole frames: `get_interleaved` gives every frame of a complete buffer and refuses all others. -/
theorem C53_interleaved (b : Buffer) (F k : Nat) (hb : Complete b F) (hn : 0 < b.nc) :
    b.getInterleaved k = if k < F then .ok (stored b b.nc k) else .error .index := by
  unfold Buffer.getInterleaved
  have hl := hb.2.1
  by_cases h : k < F
  · have h1 : k * b.nc + b.nc ≤ b.buf.length := by
      rw [hl, ← Nat.succ_mul]
      exact Nat.mul_le_mul_right _ h
    rw [if_pos h1, if_pos h]
    congr 1
    apply List.ext_getElem
    · simp only [List.length_take, List.length_drop, stored, List.length_map, List.length_range]
      omega
    · intro i h2 h3
      simp only [stored, List.length_map, List.length_range] at h3
      have h4 : k * b.nc + i < b.buf.length := by omega
      simp [stored, List.getElem?_eq_getElem h4]
  · have h1 : ¬ k * b.nc + b.nc ≤ b.buf.length := by
      rw [hl, ← Nat.succ_mul, not_le]
      exact Nat.mul_lt_mul_of_pos_right (by omega) hn
    rw [if_neg h1, if_neg h]

-- Two channels and two frames: the second frame, and no third one.
example : Complete ⟨[1, 2, 3, 4], 2, 2, 48000⟩ 2 ∧ Buffer.getInterleaved ⟨[1, 2, 3, 4], 2, 2, 48000⟩ 1 = .ok [3, 4] ∧
    Buffer.getInterleaved ⟨[1, 2, 3, 4], 2, 2, 48000⟩ 2 = .error .index := by
  refine ⟨⟨by norm_num, by norm_num, by norm_num, by norm_num⟩, by decide +kernel, by decide +kernel⟩

/-- C53 at normal speed: a buffer with the sample rate of the graph, at rate 1, is played exactly once without looping, followed by
silence, and again and again with looping. -/
theorem C53_normal_speed (b : Buffer) (F sr ch n m : Nat) (hb : Complete b F) (hc : ch ≤ b.nc) (hsr : b.sr = sr) (h0 : 0 < sr)
    (hT : sr ≤ 282240000) (hlen : (F : Rat) / sr < U32) :
    (∃ r', ((Reader.new b ch 1 false).init sr).run (List.replicate (F + m) .frame) =
      .ok (r', (List.range F).map (stored b ch) ++ List.replicate m (List.replicate ch 0))) ∧
    ∃ r', ((Reader.new b ch 1 true).init sr).run (List.replicate n .frame) =
      .ok (r', (List.range n).map (fun i : Nat => stored b ch (i % F))) := by
  have hsr0 : (0 : Rat) < sr := by exact_mod_cast h0
  have hT' : (sr : Rat) ≤ 282240000 := by exact_mod_cast hT
  have hFpos : (0 : Rat) < F := by exact_mod_cast hb.2.2.1
  have hstart : ∀ loop, ((Reader.new b ch 1 loop).init sr).ptr = 0 := fun _ => toFrames_zero b.sr
  have hstart' : ∀ loop, ((Reader.new b ch 1 loop).init sr).start = 0 := fun _ => toFrames_zero b.sr
  have hbase : ∀ loop, ((Reader.new b ch 1 loop).init sr).base * ((Reader.new b ch 1 loop).init sr).rate = 1 := by
    intro loop
    change b.sr / sr * 1 = 1
    rw [hsr, div_self hsr0.ne', mul_one]
  have hfin : ∀ loop, ((Reader.new b ch 1 loop).init sr).fin = toFrames (F / sr) sr := by
    intro loop
    change toFrames 0 b.sr + toFrames b.lengthSeconds b.sr = _
    rw [toFrames_zero, zero_add, Buffer.lengthSeconds, hb.1, hsr]
  have hle : toFrames (F / sr) sr ≤ F := by
    refine le_trans (toFrames_le _ _ hsr0.le).2 (max_le hFpos.le ?_)
    rw [div_mul_cancel₀ _ hsr0.ne']
  have hgt : (F : Rat) - 1 < toFrames (F / sr) sr := by
    have := toFrames_gt (F / sr) sr (div_nonneg hFpos.le hsr0.le) hlen hsr0
    rw [div_mul_cancel₀ _ hsr0.ne'] at this
    have h1 : (sr : Rat) / 282240000 ≤ 1 := by rw [div_le_iff₀ (by norm_num)]; linarith
    linarith
  have hsteps : ∀ loop, Steps ((Reader.new b ch 1 loop).init sr).ptr
      (((Reader.new b ch 1 loop).init sr).base * ((Reader.new b ch 1 loop).init sr).rate)
      ((Reader.new b ch 1 loop).init sr).fin F := by
    intro loop
    rw [hstart, hbase, hfin]
    refine ⟨hb.2.2.1, ?_, ?_⟩
    · intro j _ hj
      have : (j : Rat) + 1 ≤ F := by exact_mod_cast hj
      rw [mul_one, zero_add]; linarith
    · rw [mul_one, zero_add]; exact hle
  constructor
  · obtain ⟨r', h⟩ := C53_once ((Reader.new b ch 1 false).init sr) F F m hb hc rfl (by rw [hstart]) (by rw [hstart]; exact hFpos)
      (by rw [hbase]; norm_num) (by rw [hfin]; exact hle) (hsteps false) rfl
    refine ⟨r', h.trans ?_⟩
    rw [hstart, hbase]
    congr 3
    apply List.map_congr_left
    intro i _
    rw [zero_add, mul_one]
    exact frameAt_whole b F ch i
  · obtain ⟨r', h⟩ := C53_looping ((Reader.new b ch 1 true).init sr) F F n hb hc rfl (by rw [hstart, hstart'])
      (by rw [hstart]) (by rw [hstart]; exact hFpos) (by rw [hbase]; norm_num) (by rw [hfin]; exact hle) (hsteps true) rfl
    refine ⟨r', h.trans ?_⟩
    rw [hstart, hbase]
    congr 2
    apply List.map_congr_left
    intro i _
    rw [zero_add, mul_one]
    exact frameAt_whole b F ch (i % F)

example : Complete (.fromVec [1, 2, 3, 4] 44100) 4 ∧ Complete ⟨[1, 2, 3, 4], 2, 2, 4⟩ 2 :=
  ⟨⟨rfl, rfl, by decide, by decide⟩, rfl, rfl, by decide, by decide⟩

/-! ### Blocks -/

theorem loop_eq (n : Nat) : ∀ (i : Nat) (r r' : Reader) (ws : List (List Rat)) (s d : Option Nat), r.finished = false →
    Reader.loop i n r = .ok (r', ws, s, d) →
    match s with
    | none => ws.length = n ∧ r.run (List.replicate n .frame) = .ok (r', ws) ∧ d = none
    | some k => i < k ∧ k ≤ i + n ∧ ws.length = k - i ∧ r'.finished = true ∧ r'.channels = r.channels ∧
        r.run (List.replicate (k - i) .frame) = .ok (r', ws) ∧ (d = some k) := by
  induction n with
  | zero =>
    intro i r r' ws s d _ h
    simp only [Reader.loop, Except.ok.injEq, Prod.mk.injEq] at h
    obtain ⟨rfl, rfl, rfl, rfl⟩ := h
    exact ⟨rfl, rfl, rfl⟩
  | succ n ih =>
    intro i r r' ws s d hf h
    simp only [Reader.loop] at h
    cases ho : r.read with
    | error e => rw [ho] at h; cases h
    | ok o =>
      rw [ho, bind_ok] at h
      have hop : r.op .frame = .ok (r.advance.1, [o]) := by
        simp only [Reader.op, Reader.process, hf, Bool.false_eq_true, if_false, ho, bind_ok, pure_ok]
      have hch : r.advance.1.channels = r.channels := by
        unfold Reader.advance Reader.restart
        repeat' split
        all_goals rfl
      by_cases hfin : r.advance.1.finished = true
      · rw [if_pos hfin] at h
        have hd : r.advance.2 = true := by
          unfold Reader.advance Reader.restart at hfin ⊢
          by_cases h1 : r.ptr + r.base * r.rate ≥ r.fin
          · rw [if_pos h1] at hfin ⊢
            by_cases h2 : r.looping = true
            · rw [if_pos h2] at hfin; simp at hfin
            · rw [if_neg h2]
          · rw [if_neg h1] at hfin
            rw [hf] at hfin; cases hfin
        rw [hd] at h
        simp only [if_true, pure_ok, Except.ok.injEq, Prod.mk.injEq] at h
        obtain ⟨rfl, rfl, rfl, rfl⟩ := h
        refine ⟨by omega, by omega, by simp, hfin, hch, ?_, rfl⟩
        rw [Nat.add_sub_cancel_left]
        simp only [List.replicate_one, Reader.run, hop, bind_ok, pure_ok]
        rfl
      · rw [if_neg hfin] at h
        have hff : r.advance.1.finished = false := by simpa using hfin
        cases hx : Reader.loop (i + 1) n r.advance.1 with
        | error e => rw [hx] at h; cases h
        | ok x =>
          obtain ⟨x1, x2, x3, x4⟩ := x
          rw [hx, bind_ok] at h
          simp only [pure_ok, Except.ok.injEq, Prod.mk.injEq] at h
          obtain ⟨rfl, rfl, rfl, rfl⟩ := h
          have := ih (i + 1) r.advance.1 x1 x2 x3 x4 hff hx
          cases x3 with
          | none =>
            obtain ⟨a, b, c⟩ := this
            refine ⟨by simp [a], ?_, c⟩
            rw [List.replicate_succ]
            simp only [Reader.run, hop, bind_ok, b, pure_ok]
            rfl
          | some k =>
            obtain ⟨a1, a2, a3, a4, a5, a6, a7⟩ := this
            refine ⟨by omega, by omega, by simp [a3]; omega, a4, by rw [a5, hch], ?_, a7⟩
            have e : k - i = (k - (i + 1)) + 1 := by omega
            rw [e, List.replicate_succ]
            simp only [Reader.run, hop, bind_ok, a6, pure_ok]
            rfl

/-- C53 and C34, blocks: processing a whole block gives the same frames and the same state as processing its frames one by one,
whenever it succeeds. -/
theorem C53_block (r r' : Reader) (n : Nat) (ws : List (List Rat)) (d : Option Nat) (h : r.block n n = .ok (r', ws, d)) :
    r.run (List.replicate n .frame) = .ok (r', ws) := by
  unfold Reader.block at h
  by_cases hf : r.finished = true
  · rw [if_pos hf] at h
    simp only [Except.ok.injEq, Prod.mk.injEq] at h
    obtain ⟨rfl, rfl, _⟩ := h
    exact silent n r hf
  · rw [if_neg hf] at h
    have hff : r.finished = false := by simpa using hf
    cases hx : Reader.loop 0 n r with
    | error e => rw [hx] at h; cases h
    | ok x =>
      obtain ⟨x1, x2, x3, x4⟩ := x
      rw [hx, bind_ok] at h
      have := loop_eq n 0 r x1 x2 x3 x4 hff hx
      cases x3 with
      | none =>
        simp only [pure_ok, Except.ok.injEq, Prod.mk.injEq] at h
        obtain ⟨rfl, rfl, rfl⟩ := h
        exact this.2.1
      | some k =>
        obtain ⟨_, a2, _, a4, a5, a6, _⟩ := this
        simp only at h
        rw [if_pos (by omega)] at h
        simp only [pure_ok, Except.ok.injEq, Prod.mk.injEq] at h
        obtain ⟨rfl, rfl, rfl⟩ := h
        have e : n = (k - 0) + (n - k) := by omega
        conv_lhs => rw [e, List.replicate_add]
        rw [run_append _ _ a6 (silent (n - k) x1 a4), a5]

/-- C53, when it is over: if a whole block reports the end, it reports the number of frames of the block that have been played,
and what follows is silent. -/
theorem C53_done (r r' : Reader) (n k : Nat) (ws : List (List Rat)) (hf : r.finished = false) (h : r.block n n = .ok (r', ws, some k)) :
    0 < k ∧ k ≤ n ∧ r'.finished = true ∧ ws.drop k = List.replicate (n - k) (List.replicate r.channels 0) := by
  unfold Reader.block at h
  rw [hf] at h
  simp only [Bool.false_eq_true, if_false] at h
  cases hx : Reader.loop 0 n r with
  | error e => rw [hx] at h; cases h
  | ok x =>
    obtain ⟨x1, x2, x3, x4⟩ := x
    rw [hx, bind_ok] at h
    have := loop_eq n 0 r x1 x2 x3 x4 hf hx
    cases x3 with
    | none =>
      simp only [pure_ok, Except.ok.injEq, Prod.mk.injEq] at h
      obtain ⟨rfl, rfl, rfl⟩ := h
      simp at this
    | some j =>
      obtain ⟨a1, a2, a3, a4, _, _, a7⟩ := this
      simp only at h
      rw [if_pos (by omega)] at h
      simp only [pure_ok, Except.ok.injEq, Prod.mk.injEq] at h
      obtain ⟨rfl, rfl, rfl⟩ := h
      simp only [Option.some.injEq] at a7
      subst a7
      refine ⟨by omega, by omega, a4, ?_⟩
      have : x2.length = k := by omega
      rw [List.drop_append_of_le_length (by omega), List.drop_eq_nil_of_le (by omega), List.nil_append]

/-! ### Violations -/

/-- C34 is false for a buffer player in a part of a block: it writes behind the part and moves on by a whole block. -/
theorem C34_buffer_violated :
    let r := (Reader.new (.fromVec [1, 2, 3, 4, 5, 6, 7, 8] 4) 1 1 true).init 4
    (r.block 4 2).map (fun x => (x.2.1, x.1.ptr)) = .ok ([[1], [2], [3], [4]], 4) ∧
      (r.run [.frame, .frame]).map (fun x => (x.2, x.1.ptr)) = .ok ([[1], [2]], 2) := by decide +kernel

/-- It even crashes when playing ends in the other part. -/
theorem C34_buffer_crash :
    ((Reader.new (.fromVec [1, 2, 3] 4) 1 1 false).init 4).block 4 2 = .error .index := by decide +kernel

/-- C53 is false for a negative duration, which is documented to mean the length of the buffer: a single frame is played. -/
theorem C53_duration_violated :
    (((Reader.new (.fromVec [1, 2, 3, 4] 4) 1 1 false).init 4).run [.durS (-1), .frame, .frame, .frame]).map (fun x => x.2) =
      .ok [[1], [0], [0]] := by decide +kernel

/-- C53 is false for the single-frame `process`, which reports the end at frame 0 instead of behind the frame that has been
played. -/
theorem C53_done_violated :
    ((Reader.new (.fromVec [1] 4) 1 1 false).init 4).process.map (fun x => x.2) = .ok ([1], some 0) := by decide +kernel

end Verif.Bu
