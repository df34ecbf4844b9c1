import Verif.Model.Buffer
import Mathlib.Tactic.Ring
import Mathlib.Tactic.Linarith
import Mathlib.Tactic.FieldSimp

/-!
# C47: buffer playback stays inside the buffer
-/

namespace Verif.Bu

/-! ### Specification -/

/-- The samples of a buffer really contain `F` frames, and `F` is what it reports. -/
def Stored (b : Buffer) (F : Nat) : Prop := b.frames = F ∧ F * b.nc ≤ b.buf.length

/-- The value between two frames: a mixture of the frame before a position and of the next one, where the last frame is followed
by the first one. -/
def specAt (b : Buffer) (F : Nat) (p : Rat) (c : Nat) : Rat :=
  (1 - Int.fract p) * b.buf.getD (⌊p⌋.toNat * b.nc + c) 0 + Int.fract p * b.buf.getD ((⌊p⌋.toNat + 1) % F * b.nc + c) 0

/-- The part of the buffer that is played, in frames. -/
structure Win where
  start : Rat
  dur : Rat
  fin : Rat

/-- The window is inside `F` frames whenever it is used. -/
def safe (F : Nat) (sr : Rat) : Win → List Op → Prop
  | _, [] => True
  | w, .frame :: os => w.start < F ∧ w.fin ≤ F ∧ safe F sr w os
  | w, .restart :: os => w.start < F ∧ safe F sr w os
  | w, .startS v :: os => safe F sr ⟨toFrames v sr, w.dur, toFrames v sr + w.dur⟩ os
  | w, .durS v :: os => safe F sr ⟨w.start, toFrames v sr, w.start + toFrames v sr⟩ os
  | w, .endS v :: os => safe F sr ⟨w.start, w.dur, toFrames v sr⟩ os
  | w, .rate _ :: os => safe F sr w os
  | w, .looping _ :: os => safe F sr w os

/-! ### Times -/

theorem asU32_nonneg_le {x : Rat} (h : 0 ≤ x) : (Os.asU32 x : Rat) ≤ x := by
  unfold Os.asU32
  have h1 : (min ⌊x⌋.toNat (4294967296 - 1) : Nat) ≤ ⌊x⌋.toNat := Nat.min_le_left _ _
  have h2 : ((⌊x⌋.toNat : Nat) : Int) = ⌊x⌋ := Int.toNat_of_nonneg (Int.floor_nonneg.mpr h)
  have h3 : ((min ⌊x⌋.toNat (4294967296 - 1) : Nat) : Int) ≤ ⌊x⌋ := by omega
  calc ((min ⌊x⌋.toNat (4294967296 - 1) : Nat) : Rat) ≤ (⌊x⌋ : Rat) := by exact_mod_cast h3
    _ ≤ x := Int.floor_le x

theorem asU32_neg {x : Rat} (h : x ≤ 0) : Os.asU32 x = 0 := by
  unfold Os.asU32
  have : ⌊x⌋ ≤ 0 := by
    have := Int.floor_mono h
    simpa using this
  omega

/-- Converting seconds to frames never gives more frames than there are in the time, and none for negative times. -/
theorem toFrames_le (s sr : Rat) (hsr : 0 ≤ sr) : 0 ≤ toFrames s sr ∧ toFrames s sr ≤ max 0 (s * sr) := by
  constructor
  · unfold toFrames
    exact add_nonneg (mul_nonneg (Nat.cast_nonneg _) hsr)
      (div_nonneg (mul_nonneg (Nat.cast_nonneg _) hsr) (by norm_num))
  · rcases le_total s 0 with h | h
    · have h1 : Os.asU32 ((⌊s⌋ : Int) : Rat) = 0 := asU32_neg (by
        have : ⌊s⌋ ≤ 0 := by have := Int.floor_mono h; simpa using this
        exact_mod_cast this)
      have h2 : Os.asU32 (fractR s * 282240000) = 0 := asU32_neg (by
        have : fractR s ≤ 0 := by
          unfold fractR Os.trunc
          split
          · have : s = 0 := le_antisymm h (by assumption)
            rw [this]; simp
          · have := Int.le_ceil s; linarith
        linarith)
      unfold toFrames
      rw [h1, h2]; simp
    · apply le_trans _ (le_max_right _ _)
      have h1 : (Os.asU32 ((⌊s⌋ : Int) : Rat) : Rat) ≤ ⌊s⌋ := asU32_nonneg_le (by
        have := Int.floor_nonneg.mpr h
        exact_mod_cast this)
      have hf : fractR s = Int.fract s := by unfold fractR Os.trunc; rw [if_pos h]; rfl
      have h2 : (Os.asU32 (fractR s * 282240000) : Rat) ≤ fractR s * 282240000 := asU32_nonneg_le (by
        rw [hf]; exact mul_nonneg (Int.fract_nonneg s) (by norm_num))
      rw [hf] at h2
      unfold toFrames
      rw [hf]
      have h3 : (Os.asU32 (Int.fract s * 282240000) : Rat) / 282240000 ≤ Int.fract s := by
        rw [div_le_iff₀ (by norm_num)]; exact h2
      have e : (Os.asU32 ((⌊s⌋ : Int) : Rat) : Rat) * sr + (Os.asU32 (Int.fract s * 282240000) : Rat) * sr / 282240000
          = ((Os.asU32 ((⌊s⌋ : Int) : Rat) : Rat) + (Os.asU32 (Int.fract s * 282240000) : Rat) / 282240000) * sr := by ring
      rw [e]
      apply mul_le_mul_of_nonneg_right _ hsr
      have := Int.floor_add_fract s
      linarith

/-! ### Reading -/

theorem asUsize_lt {p : Rat} {F : Nat} (hp : p < F) (hF : 0 < F) : asUsize p < F := by
  unfold asUsize
  have h1 : ⌊p⌋ < F := Int.floor_lt.mpr (by exact_mod_cast hp)
  omega

theorem get_ok {b : Buffer} {F : Nat} (hb : F * b.nc ≤ b.buf.length) {p : Rat} (hp : p < F) (hF : 0 < F) {c : Nat} (hc : c < b.nc) :
    ∃ v, b.get p c = .ok v := by
  have h1 := asUsize_lt hp hF
  have h2 : asUsize p * b.nc + c < b.buf.length := by
    calc asUsize p * b.nc + c < asUsize p * b.nc + b.nc := by omega
      _ = (asUsize p + 1) * b.nc := by ring
      _ ≤ F * b.nc := Nat.mul_le_mul_right _ h1
      _ ≤ _ := hb
  have h3 : (asUsize p * b.nc + c + b.nc) % b.buf.length < b.buf.length := Nat.mod_lt _ (by omega)
  unfold Buffer.get
  rw [List.getElem?_eq_getElem h2]
  simp only [modC]
  rw [if_neg (by omega)]
  simp only [bind_ok]
  rw [List.getElem?_eq_getElem h3]
  exact ⟨_, rfl⟩

theorem mapM_ok {α β} (f : α → R β) (l : List α) (h : ∀ a ∈ l, ∃ v, f a = .ok v) : ∃ vs, l.mapM f = .ok vs ∧ vs.length = l.length := by
  induction l with
  | nil => exact ⟨[], rfl, rfl⟩
  | cons a l ih =>
    obtain ⟨v, hv⟩ := h a (by simp)
    obtain ⟨vs, hvs, hl⟩ := ih (fun b hb => h b (by simp [hb]))
    refine ⟨v :: vs, ?_, by simp [hl]⟩
    rw [List.mapM_cons, hv, bind_ok, hvs]; rfl

theorem read_ok {r : Reader} {F : Nat} (hb : F * r.b.nc ≤ r.b.buf.length) (hp : r.ptr < F) (hF : 0 < F) (hc : r.channels ≤ r.b.nc) :
    ∃ o, r.read = .ok o ∧ o.length = r.channels := by
  obtain ⟨vs, h1, h2⟩ := mapM_ok (r.b.get r.ptr) (List.range r.channels) (by
    intro c hcm
    exact get_ok hb hp hF (lt_of_lt_of_le (List.mem_range.mp hcm) hc))
  exact ⟨vs, h1, by simpa using h2⟩

theorem run_ok (ops : List Op) (F : Nat) (hF : 0 < F) : ∀ (r : Reader), F * r.b.nc ≤ r.b.buf.length → r.channels ≤ r.b.nc →
    (r.finished = false → r.ptr < F) → safe F r.b.sr ⟨r.start, r.dur, r.fin⟩ ops →
    ∃ r' out, r.run ops = .ok (r', out) ∧ ∀ o ∈ out, o.length = r.channels := by
  induction ops with
  | nil => intro r _ _ _ _; exact ⟨r, [], rfl, by simp⟩
  | cons o ops ih =>
    intro r hb hc hp hs
    cases o with
    | frame =>
      obtain ⟨hst, hfin, hs'⟩ := hs
      by_cases hf : r.finished = true
      · obtain ⟨r', out, h1, h2⟩ := ih r hb hc hp hs'
        refine ⟨r', List.replicate r.channels 0 :: out, ?_, ?_⟩
        · simp only [Reader.run, Reader.op, Reader.process, hf, if_true, bind_ok, pure_ok, h1]; rfl
        · intro o ho
          rcases List.mem_cons.mp ho with rfl | ho
          · simp
          · exact h2 o ho
      · have hff : r.finished = false := by simpa using hf
        obtain ⟨o, ho, hlen⟩ := read_ok hb (hp hff) hF hc
        have hadv : r.advance.1.b = r.b ∧ r.advance.1.channels = r.channels ∧ r.advance.1.start = r.start ∧
            r.advance.1.dur = r.dur ∧ r.advance.1.fin = r.fin ∧ (r.advance.1.finished = false → r.advance.1.ptr < F) := by
          unfold Reader.advance Reader.restart
          by_cases h1 : r.ptr + r.base * r.rate ≥ r.fin
          · rw [if_pos h1]
            by_cases h2 : r.looping = true
            · rw [if_pos h2]; exact ⟨rfl, rfl, rfl, rfl, rfl, fun _ => hst⟩
            · rw [if_neg h2]; exact ⟨rfl, rfl, rfl, rfl, rfl, fun h => by simp at h⟩
          · rw [if_neg h1]; exact ⟨rfl, rfl, rfl, rfl, rfl, fun _ => lt_of_lt_of_le (not_le.mp h1) hfin⟩
        obtain ⟨a1, a2, a3, a4, a5, a6⟩ := hadv
        obtain ⟨r', out, h1, h2⟩ := ih r.advance.1 (by rw [a1]; exact hb) (by rw [a1, a2]; exact hc) a6
          (by rw [a1, a3, a4, a5]; exact hs')
        refine ⟨r', o :: out, ?_, ?_⟩
        · simp only [Reader.run, Reader.op, Reader.process, hff, Bool.false_eq_true, if_false, ho, bind_ok, pure_ok, h1]; rfl
        · intro x hx
          rcases List.mem_cons.mp hx with rfl | hx
          · exact hlen
          · rw [h2 x hx, a2]
    | rate v =>
      obtain ⟨r', out, h1, h2⟩ := ih { r with rate := v } hb hc hp hs
      exact ⟨r', out, by simp only [Reader.run, Reader.op, bind_ok, pure_ok, h1]; rfl, h2⟩
    | looping v =>
      obtain ⟨r', out, h1, h2⟩ := ih { r with looping := v } hb hc hp hs
      exact ⟨r', out, by simp only [Reader.run, Reader.op, bind_ok, pure_ok, h1]; rfl, h2⟩
    | startS v =>
      obtain ⟨r', out, h1, h2⟩ := ih (r.startS v) hb hc hp hs
      exact ⟨r', out, by simp only [Reader.run, Reader.op, bind_ok, pure_ok, h1]; rfl, h2⟩
    | durS v =>
      obtain ⟨r', out, h1, h2⟩ := ih (r.durS v) hb hc hp hs
      exact ⟨r', out, by simp only [Reader.run, Reader.op, bind_ok, pure_ok, h1]; rfl, h2⟩
    | endS v =>
      obtain ⟨r', out, h1, h2⟩ := ih (r.endS v) hb hc hp hs
      exact ⟨r', out, by simp only [Reader.run, Reader.op, bind_ok, pure_ok, h1]; rfl, h2⟩
    | restart =>
      obtain ⟨r', out, h1, h2⟩ := ih r.restart hb hc (fun _ => hs.1) hs.2
      exact ⟨r', out, by simp only [Reader.run, Reader.op, bind_ok, pure_ok, h1]; rfl, h2⟩

theorem toFrames_zero (sr : Rat) : toFrames 0 sr = 0 := by
  have h1 : Os.asU32 ((⌊(0 : Rat)⌋ : Int) : Rat) = 0 := asU32_neg (by simp)
  have h2 : Os.asU32 (fractR 0 * 282240000) = 0 := asU32_neg (by unfold fractR Os.trunc; simp)
  unfold toFrames
  rw [h1, h2]; simp

/-! ### Properties -/

/-- C47, the number of frames: buffers made from samples report the number of frames that they contain, as long as there are
channels. -/
theorem C47_frames (buf : List Rat) (nc : Nat) (sr : Rat) (hnc : 0 < nc) :
    Stored (Buffer.fromVec buf sr) buf.length ∧
      ∃ b, Buffer.fromVecInterleaved buf nc sr = .ok b ∧ Stored b (buf.length / nc) ∧ buf.length < (buf.length / nc + 1) * b.nc := by
  refine ⟨⟨rfl, by simp [Buffer.fromVec]⟩, ⟨buf, nc, ((buf.length / nc : Nat) : Rat), sr⟩, ?_, ⟨rfl, Nat.div_mul_le_self _ _⟩, ?_⟩
  · unfold Buffer.fromVecInterleaved divC
    rw [if_neg (by omega)]; rfl
  · simp only
    rw [Nat.mul_comm]
    exact Nat.lt_mul_div_succ _ hnc

/-- C47, as far as it holds: a reader of a buffer with at least as many channels as are read never reads outside the samples, for
every rate, including negative ones, every looping setting and every sequence of operations in which the part that is played is
inside the buffer when it is used.  Missing: the other settings, for which it is false. -/
theorem C47_window_partial (b : Buffer) (F : Nat) (hb : Stored b F) (hF : 0 < F) (ch : Nat) (hc : ch ≤ b.nc) (rate : Rat)
    (loop : Bool) (sr : Nat) (ops : List Op) (hs : safe F b.sr ⟨0, toFrames (F / b.sr) b.sr, toFrames (F / b.sr) b.sr⟩ ops) :
    ∃ r' out, ((Reader.new b ch rate loop).init sr).run ops = .ok (r', out) ∧ ∀ o ∈ out, o.length = ch := by
  apply run_ok ops F hF
  · exact hb.2
  · exact hc
  · intro _
    change toFrames 0 b.sr < F
    rw [toFrames_zero]; exact_mod_cast hF
  · change safe F b.sr ⟨toFrames 0 b.sr, toFrames b.lengthSeconds b.sr, toFrames 0 b.sr + toFrames b.lengthSeconds b.sr⟩ ops
    have : b.lengthSeconds = F / b.sr := by unfold Buffer.lengthSeconds; rw [hb.1]
    rw [this, toFrames_zero, zero_add]
    exact hs

/-- The start is never changed, and durations and ends are at most the length of the buffer. -/
def simpleOps (len : Rat) (ops : List Op) : Prop :=
  (∀ v, .startS v ∉ ops) ∧ (∀ v, .durS v ∈ ops → v ≤ len) ∧ ∀ v, .endS v ∈ ops → v ≤ len

theorem safe_simple (F : Nat) (hF : 0 < F) (sr : Rat) (hsr : 0 < sr) (ops : List Op) : ∀ w : Win, w.start = 0 → w.fin ≤ F →
    simpleOps (F / sr) ops → safe F sr w ops := by
  have hle : ∀ v, v ≤ F / sr → toFrames v sr ≤ F := by
    intro v hv
    refine le_trans (toFrames_le v sr hsr.le).2 (max_le (Nat.cast_nonneg _) ?_)
    rwa [← le_div_iff₀ hsr]
  have hF' : (0 : Rat) < F := by exact_mod_cast hF
  induction ops with
  | nil => intro w _ _ _; trivial
  | cons o ops ih =>
    intro w h0 h1 hs
    have hs' : simpleOps (F / sr) ops :=
      ⟨fun v h => hs.1 v (by simp [h]), fun v h => hs.2.1 v (by simp [h]), fun v h => hs.2.2 v (by simp [h])⟩
    cases o with
    | frame => exact ⟨by rw [h0]; exact hF', h1, ih w h0 h1 hs'⟩
    | rate v => exact ih w h0 h1 hs'
    | looping v => exact ih w h0 h1 hs'
    | restart => exact ⟨by rw [h0]; exact hF', ih w h0 h1 hs'⟩
    | startS v => exact absurd (by simp) (hs.1 v)
    | durS v =>
      refine ih _ h0 ?_ hs'
      simp only
      rw [h0, zero_add]
      exact hle v (hs.2.1 v (by simp))
    | endS v => exact ih _ h0 (hle v (hs.2.2 v (by simp))) hs'

/-- C47 without changing the start: durations and ends up to the length of the buffer, all rates and looping settings at any time
never read outside the samples. -/
theorem C47_simple_partial (b : Buffer) (F : Nat) (hb : Stored b F) (hF : 0 < F) (hsr : 0 < b.sr) (ch : Nat) (hc : ch ≤ b.nc)
    (rate : Rat) (loop : Bool) (sr : Nat) (ops : List Op) (hs : simpleOps (F / b.sr) ops) :
    ∃ r' out, ((Reader.new b ch rate loop).init sr).run ops = .ok (r', out) ∧ ∀ o ∈ out, o.length = ch := by
  apply C47_window_partial b F hb hF ch hc rate loop sr ops
  apply safe_simple F hF b.sr hsr ops _ rfl _ hs
  refine le_trans (toFrames_le _ _ hsr.le).2 (max_le (Nat.cast_nonneg _) ?_)
  rw [div_mul_cancel₀ _ hsr.ne']

example : Stored ⟨[1, 2, 3, 4], 2, 2, 4⟩ 2 ∧ simpleOps (2 / 4) [.frame, .rate (-3), .frame, .durS (1 / 4), .restart, .frame] :=
  ⟨⟨rfl, by decide⟩, by simp, by simp; norm_num, by simp⟩

/-- A start given in seconds is kept to the resolution of `Seconds`: the latest multiple of 1/282240000 s that is not after
it. -/
theorem C47_start_at (r : Reader) {s : Rat} (h0 : 0 ≤ s) (h1 : s < 4294967296) :
    ∃ n : Nat, (r.startAt s).start = n / 282240000 ∧ (r.startAt s).start ≤ s ∧ s < (r.startAt s).start + 1 / 282240000 := by
  have hn : ∀ x : Rat, 0 ≤ x → x < 4294967296 → (Os.asU32 x : Rat) = ⌊x⌋ := by
    intro x hx hx1
    have a : (0 : Int) ≤ ⌊x⌋ := Int.floor_nonneg.2 hx
    have b : ⌊x⌋ < 4294967296 := Int.floor_lt.2 (by exact_mod_cast hx1)
    have c : Os.asU32 x = ⌊x⌋.toNat := by
      simp only [Os.asU32]
      omega
    rw [c]
    have : ((⌊x⌋.toNat : Int) : Rat) = ⌊x⌋ := by rw [Int.toNat_of_nonneg a]
    exact_mod_cast this
  have hf0 := Int.floor_le s
  have hf1 := Int.lt_floor_add_one s
  have hfn : (0 : Rat) ≤ ⌊s⌋ := by exact_mod_cast Int.floor_nonneg.2 h0
  have hfr : fractR s = s - ⌊s⌋ := by simp [fractR, Os.trunc, h0]
  have e1 : (Os.asU32 ((⌊s⌋ : Int) : Rat) : Rat) = ⌊s⌋ := by
    rw [hn _ hfn (by linarith), Int.floor_intCast]
  have e2 := hn (fractR s * 282240000) (by rw [hfr]; nlinarith) (by rw [hfr]; nlinarith)
  have g0 := Int.floor_le (fractR s * 282240000)
  have g1 := Int.lt_floor_add_one (fractR s * 282240000)
  rw [hfr] at g0 g1 e2
  have hstart : (r.startAt s).start = (Os.asU32 ((⌊s⌋ : Int) : Rat) : Rat) + (Os.asU32 (fractR s * 282240000) : Rat) / 282240000 := rfl
  refine ⟨Os.asU32 ((⌊s⌋ : Int) : Rat) * 282240000 + Os.asU32 (fractR s * 282240000), ?_, ?_, ?_⟩
  · rw [hstart]; push_cast; ring
  · rw [hstart, e1, hfr, e2]; linarith
  · rw [hstart, e1, hfr, e2]; linarith

/-- A third of a second is not a multiple of the resolution of the floats, but one of `Seconds`. -/
example : ((Reader.new (.fromVec [1, 2, 3, 4] 4) 1 1 false).startAt (1 / 3)).start = 94080000 / 282240000 ∧
    ((Reader.new (.fromVec [1, 2, 3, 4] 4) 1 1 false).startAt (1 / 11)).start = 25658181 / 282240000 := by decide +kernel

/-! ### Violations -/

/-- C47 is false for a new empty buffer of several channels: it reports more frames than it has, and playing it reads outside
the samples. -/
theorem C47_new_violated : ¬ (∃ F : Nat, Stored (Buffer.new 4 2 4) F) ∧
    ((Reader.new (Buffer.new 4 2 4) 2 1 false).init 4).run [.frame, .frame, .frame] = .error .index := by
  refine ⟨?_, by decide +kernel⟩
  rintro ⟨F, h1, h2⟩
  have h3 : (F : Rat) = 4 := h1.symm
  have h4 : F = 4 := by exact_mod_cast h3
  subst h4
  simp [Buffer.new] at h2

/-- C47 is false for `start_at`: the duration stays the length of the buffer, so that playing goes on behind its end. -/
theorem C47_start_at_violated :
    (((Reader.new (.fromVec [1, 2, 3, 4] 4) 1 1 false).startAt (1 / 2)).init 4).run [.frame, .frame, .frame] = .error .index := by
  decide +kernel

/-- C47 is false for the parameter `start_s`, in the same way. -/
theorem C47_start_violated :
    ((Reader.new (.fromVec [1, 2, 3, 4] 4) 1 1 false).init 4).run [.startS (1 / 2), .restart, .frame, .frame, .frame] =
      .error .index := by decide +kernel

/-- C47 is false for a duration that is longer than the buffer. -/
theorem C47_duration_violated :
    ((Reader.new (.fromVec [1, 2] 4) 1 1 true).init 4).run [.durS 1, .frame, .frame, .frame] = .error .index := by decide +kernel

/-- C47 is false for an end behind the end of the buffer. -/
theorem C47_end_violated :
    ((Reader.new (.fromVec [1, 2] 4) 1 1 true).init 4).run [.endS 1, .frame, .frame, .frame] = .error .index := by decide +kernel

/-- C47 is false when more channels are read than the buffer has. -/
theorem C47_channels_violated :
    ((Reader.new (.fromVec [1, 2] 4) 2 1 true).init 4).run [.frame, .frame] = .error .index := by decide +kernel

/-- C47 is false for a buffer without samples. -/
theorem C47_empty_violated : ((Reader.new (.fromVec [] 4) 1 1 true).init 4).run [.frame] = .error .index := by decide +kernel

/-- A buffer with no channels cannot even be made. -/
theorem C47_no_channels_violated : Buffer.fromVecInterleaved [1, 2] 0 4 = .error .divByZero := by decide +kernel

end Verif.Bu
