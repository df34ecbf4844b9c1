import Verif.Model.Backend
import Verif.Props.Block

/-!
# C49: the size of the backend's callbacks does not matter; C57: rejected calls change nothing; C58: what JACK is given
-/

namespace Verif.Be

variable {St S T : Type}

/-! ## Specification: the blocks the processor produces without inputs -/

/-- The state after `k` blocks. -/
def after (P : Proc St S) (st : St) : Nat → St
  | 0 => st
  | k + 1 => (P.step (after P st k) []).1

/-- Block number `k`. -/
def block (P : Proc St S) (st : St) (k : Nat) : List S := (P.step (after P st k) []).2

/-- Frame number `f` of a block: the samples of all channels. -/
def frameOf (P : Proc St S) (m : List S) (f : Nat) : List (Option S) :=
  (List.range P.outs).map fun c : Nat => m[c * P.bs + f]?

/-- Block number `k`, frame by frame. -/
def interleaved (P : Proc St S) (st : St) (k : Nat) : List (Option S) :=
  (List.range P.bs).flatMap fun f : Nat => frameOf P (block P st k) f

/-- The first `k` blocks. -/
def concat (P : Proc St S) (st : St) (k : Nat) : List (Option S) :=
  (List.range k).flatMap fun i : Nat => interleaved P st i

/-- The first `n` frames. -/
def stream (P : Proc St S) (st : St) (n : Nat) : List (Option S) :=
  (List.range n).flatMap fun t : Nat => frameOf P (block P st (t / P.bs)) (t % P.bs)

/-- Every block fills the output memory. -/
def Proc.Fills (P : Proc St S) : Prop := ∀ st ins, (P.step st ins).2.length = P.outs * P.bs

theorem flatMap_range_add {α : Type} (f : Nat → List α) (a b : Nat) :
    (List.range (a + b)).flatMap f = (List.range a).flatMap f ++ (List.range b).flatMap fun i : Nat => f (a + i) := by
  rw [List.range_add, List.flatMap_append, List.flatMap_map]

/-- The two readings of "the concatenation of the blocks" agree. -/
theorem stream_concat (P : Proc St S) (st : St) (h : 0 < P.bs) (k : Nat) : stream P st (k * P.bs) = concat P st k := by
  induction k with
  | zero => simp [stream, concat]
  | succ k ih =>
    rw [Nat.succ_mul, stream, flatMap_range_add, concat, flatMap_range_add]
    congr 1
    simp only [List.range_succ, List.range_zero, List.nil_append, List.flatMap_cons, List.flatMap_nil, List.append_nil,
      Nat.add_zero, interleaved]
    rw [List.flatMap_def, List.flatMap_def]
    congr 1
    apply List.map_congr_left
    intro f hf
    have hf := List.mem_range.1 hf
    have h1 : (k * P.bs + f) / P.bs = k := by
      rw [Nat.mul_comm, Nat.mul_add_div h, Nat.div_eq_of_lt hf, Nat.add_zero]
    have h2 : (k * P.bs + f) % P.bs = f := by
      rw [Nat.mul_comm, Nat.mul_add_mod, Nat.mod_eq_of_lt hf]
    rw [h1, h2]

/-- Where the closure is after `t` frames. -/
def Inv (P : Proc St S) (st : St) (t : Nat) (s : Cp St S) : Prop :=
  ∃ k, (s.cnt = P.bs ∧ s.st = after P st k ∧ t = k * P.bs) ∨
    (s.cnt < P.bs ∧ s.st = after P st (k + 1) ∧ s.mem = block P st k ∧ t = k * P.bs + s.cnt)

theorem mapM_read (P : Proc St S) (m : List S) (hm : m.length = P.outs * P.bs) (conv : S → T) (f : Nat) (hf : f < P.bs)
    (cs : List Nat) (hcs : ∀ c ∈ cs, c < P.outs) :
    ∃ out : List T, (cs.mapM fun c : Nat => (do
        let x ← P.blk.read m c f
        return conv x : R T)) = .ok out ∧
      out.map some = (cs.map fun c : Nat => m[c * P.bs + f]?).map (Option.map conv) := by
  induction cs with
  | nil => exact ⟨[], rfl, rfl⟩
  | cons c cs ih =>
    obtain ⟨out, h1, h2⟩ := ih (fun c hc => hcs c (List.mem_cons_of_mem _ hc))
    have hc := hcs c List.mem_cons_self
    have hlt : c * P.bs + f < m.length := by rw [hm]; exact Bk.cell_lt hc hf
    have hr : P.blk.read m c f = .ok m[c * P.bs + f] := by
      simp [Bk.Blk.read, Proc.blk, Bk.Blk.addr, hc, hf, List.getElem?_eq_getElem hlt]
    refine ⟨conv m[c * P.bs + f] :: out, ?_, ?_⟩
    · rw [List.mapM_cons, hr, h1]
      rfl
    · simp [h2, List.getElem?_eq_getElem hlt]

/-- One frame. -/
theorem frame_spec (P : Proc St S) (conv : S → T) (st : St) (hb : 0 < P.bs) (hi : P.ins = 0) (hP : P.Fills) (t : Nat)
    (s : Cp St S) (h : Inv P st t s) :
    ∃ s' out, s.frame P conv P.outs = .ok (s', out) ∧ Inv P st (t + 1) s' ∧
      out.map some = (frameOf P (block P st (t / P.bs)) (t % P.bs)).map (Option.map conv) := by
  obtain ⟨k, ⟨hc, hst, ht⟩ | ⟨hc, hst, hm, ht⟩⟩ := h
  · have hr : s.refill P = .ok { st := after P st (k + 1), mem := block P st k, cnt := 0 } := by
      simp [Cp.refill, hc, hi, hst, after, block]
    obtain ⟨out, h1, h2⟩ := mapM_read P (block P st k) (hP _ _) conv 0 hb (List.range P.outs)
      (fun c hc => List.mem_range.1 hc)
    refine ⟨{ st := after P st (k + 1), mem := block P st k, cnt := 0 + 1 }, out, ?_, ?_, ?_⟩
    · rw [Cp.frame, hr, bind_ok, h1]
      rfl
    · by_cases h3 : P.bs = 1
      · exact ⟨k + 1, .inl ⟨by simp [h3], rfl, by rw [ht, h3]; omega⟩⟩
      · exact ⟨k, .inr ⟨by show 0 + 1 < P.bs; omega, rfl, rfl, by rw [ht]⟩⟩
    · have e1 : t / P.bs = k := by rw [ht]; exact Nat.mul_div_cancel k hb
      have e2 : t % P.bs = 0 := by rw [ht]; exact Nat.mul_mod_left k P.bs
      rw [h2, e1, e2]
      rfl
  · have hr : s.refill P = .ok s := by
      simp [Cp.refill, Nat.not_le.2 hc]
    obtain ⟨out, h1, h2⟩ := mapM_read P s.mem (by rw [hm]; exact hP _ _) conv s.cnt hc (List.range P.outs)
      (fun c hc => List.mem_range.1 hc)
    refine ⟨{ s with cnt := s.cnt + 1 }, out, ?_, ?_, ?_⟩
    · rw [Cp.frame, hr, bind_ok, h1]
      rfl
    · by_cases h3 : s.cnt + 1 = P.bs
      · exact ⟨k + 1, .inl ⟨h3, hst, by rw [ht, Nat.succ_mul]; omega⟩⟩
      · exact ⟨k, .inr ⟨by show s.cnt + 1 < P.bs; omega, hst, hm, by rw [ht]; rfl⟩⟩
    · have e1 : t / P.bs = k := by
        rw [ht, Nat.mul_comm, Nat.mul_add_div hb, Nat.div_eq_of_lt hc, Nat.add_zero]
      have e2 : t % P.bs = s.cnt := by
        rw [ht, Nat.mul_comm, Nat.mul_add_mod, Nat.mod_eq_of_lt hc]
      rw [h2, e1, e2, hm]
      rfl

/-- The frames `t`, `t + 1`, …, `t + n - 1`. -/
def window (P : Proc St S) (st : St) (t n : Nat) : List (Option S) :=
  (List.range n).flatMap fun i : Nat => frameOf P (block P st ((t + i) / P.bs)) ((t + i) % P.bs)

theorem window_add (P : Proc St S) (st : St) (t a b : Nat) :
    window P st t (a + b) = window P st t a ++ window P st (t + a) b := by
  rw [window, flatMap_range_add, window, window]
  simp only [Nat.add_assoc]

theorem frames_spec (P : Proc St S) (conv : S → T) (st : St) (hb : 0 < P.bs) (hi : P.ins = 0) (hP : P.Fills) (n t : Nat)
    (s : Cp St S) (h : Inv P st t s) :
    ∃ s' out, s.frames P conv (List.replicate n P.outs) = .ok (s', out) ∧ Inv P st (t + n) s' ∧
      out.map some = (window P st t n).map (Option.map conv) := by
  induction n generalizing t s with
  | zero => exact ⟨s, [], rfl, h, rfl⟩
  | succ n ih =>
    obtain ⟨s1, o1, h1, i1, e1⟩ := frame_spec P conv st hb hi hP t s h
    obtain ⟨s2, o2, h2, i2, e2⟩ := ih (t + 1) s1 i1
    refine ⟨s2, o1 ++ o2, ?_, ?_, ?_⟩
    · rw [List.replicate_succ, Cp.frames, h1, bind_ok, h2]
      rfl
    · have : t + (n + 1) = t + 1 + n := by omega
      rw [this]; exact i2
    · rw [Nat.add_comm n 1, window_add, List.map_append, List.map_append, e1, e2]
      simp [window]

theorem run_spec (P : Proc St S) (conv : S → T) (st : St) (hb : 0 < P.bs) (hi : P.ins = 0) (ho : 0 < P.outs)
    (hP : P.Fills) (ns : List Nat) (t : Nat) (s : Cp St S) (h : Inv P st t s) :
    ∃ s' outs, s.run P conv P.outs (ns.map (· * P.outs)) = .ok (s', outs) ∧ Inv P st (t + ns.sum) s' ∧
      outs.flatten.map some = (window P st t ns.sum).map (Option.map conv) := by
  induction ns generalizing t s with
  | nil => exact ⟨s, [], rfl, h, rfl⟩
  | cons n ns ih =>
    obtain ⟨s1, o1, h1, i1, e1⟩ := frames_spec P conv st hb hi hP n t s h
    obtain ⟨s2, o2, h2, i2, e2⟩ := ih (t + n) s1 i1
    have hc : chunks P.outs (n * P.outs) = .ok (List.replicate n P.outs) := by
      simp [chunks, Nat.ne_of_gt ho, Nat.mul_div_cancel n ho]
    refine ⟨s2, o1 :: o2, ?_, ?_, ?_⟩
    · rw [List.map_cons, Cp.run, Cp.callback, hc, bind_ok, h1, bind_ok, h2]
      rfl
    · rw [List.sum_cons, ← Nat.add_assoc]; exact i2
    · rw [List.sum_cons, window_add, List.flatten_cons, List.map_append, List.map_append, e1, e2]

/-- **C49** (cpal): for a processor without inputs and with as many outputs as the device has channels, whatever the
sizes of the callbacks (whole frames), no callback panics and the samples delivered are the concatenation of the
processed blocks, converted, cut at the number of frames asked for. -/
theorem C49_cpal (P : Proc St S) (conv : S → T) (zero : S) (st : St) (hb : 0 < P.bs) (hi : P.ins = 0) (ho : 0 < P.outs)
    (hP : P.Fills) (ns : List Nat) (k : Nat) (hk : ns.sum ≤ k * P.bs) :
    ∃ outs, cpalPlay P conv P.outs zero st (ns.map (· * P.outs)) = .ok outs ∧
      outs.flatten.map some = ((concat P st k).map (Option.map conv)).take (ns.sum * P.outs) := by
  obtain ⟨s', outs, h1, -, h2⟩ := run_spec P conv st hb hi ho hP ns 0 (Cp.start P st zero)
    ⟨0, .inl ⟨rfl, rfl, by simp⟩⟩
  refine ⟨outs, ?_, ?_⟩
  · simp [cpalPlay, h1]
  · have hw : ∀ n, window P st 0 n = stream P st n := by
      intro n; simp only [window, stream, Nat.zero_add]
    have hlen : ∀ n, (window P st 0 n).length = n * P.outs := by
      intro n
      induction n with
      | zero => simp [window]
      | succ n ih =>
        rw [window_add, List.length_append, ih, Nat.succ_mul]
        simp [window, frameOf]
    rw [h2, ← stream_concat P st hb k, ← hw, ← List.map_take]
    obtain ⟨d, hd⟩ := Nat.exists_eq_add_of_le hk
    rw [hd, window_add, ← hlen ns.sum, List.take_left]

/-- Two sequences of callbacks with the same number of frames get the same samples. -/
theorem C49_independent (P : Proc St S) (conv : S → T) (zero : S) (st : St) (hb : 0 < P.bs) (hi : P.ins = 0)
    (ho : 0 < P.outs) (hP : P.Fills) (ns ns' : List Nat) (h : ns.sum = ns'.sum) :
    ∃ outs outs', cpalPlay P conv P.outs zero st (ns.map (· * P.outs)) = .ok outs ∧
      cpalPlay P conv P.outs zero st (ns'.map (· * P.outs)) = .ok outs' ∧ outs.flatten = outs'.flatten := by
  have hk : ns.sum ≤ ns.sum * P.bs := Nat.le_mul_of_pos_right _ hb
  obtain ⟨o, h1, e1⟩ := C49_cpal P conv zero st hb hi ho hP ns ns.sum hk
  obtain ⟨o', h2, e2⟩ := C49_cpal P conv zero st hb hi ho hP ns' ns.sum (h ▸ hk)
  refine ⟨o, o', h1, h2, ?_⟩
  rw [← h, ← e1] at e2
  exact ((List.map_inj_right (fun _ _ h => Option.some.inj h)).1 e2).symm

/-- A counter as processor: two channels, blocks of three frames. -/
def counter (bs ins outs : Nat) : Proc Nat Nat where
  bs := bs
  ins := ins
  outs := outs
  step := fun n _ => (n + 1, (List.range (outs * bs)).map fun i : Nat => 100 * n + i)

theorem counter_fills (bs ins outs : Nat) : (counter bs ins outs).Fills := fun _ _ => by simp [counter]

example : (cpalPlay (counter 3 0 2) id 2 0 0 [4, 2, 0, 8]).map List.flatten
    = .ok [0, 3, 1, 4, 2, 5, 100, 103, 101, 104, 102, 105, 200, 203] := by decide

example : (cpalPlay (counter 3 0 2) id 2 0 0 [14]).map List.flatten
    = (cpalPlay (counter 3 0 2) id 2 0 0 [4, 2, 0, 8]).map List.flatten := by decide

/-- A graph with inputs is accepted with the warning "Top level graph inputs will have no data" (cpal.rs 96–100), but
the first callback panics. -/
theorem C49_inputs_violated : cpalPlay (counter 3 1 2) id 2 0 0 [4] = .error .assert := by decide

/-- For every graph with inputs, every callback that asks for at least one sample panics. -/
theorem C49_inputs_panic (P : Proc St S) (conv : S → T) (zero : S) (st : St) (hi : P.ins ≠ 0) (ho : 0 < P.outs)
    (len : Nat) (hl : 0 < len) (lens : List Nat) : cpalPlay P conv P.outs zero st (len :: lens) = .error .assert := by
  have hf : ∀ n, (Cp.start P st zero).frame P conv n = .error .assert := by
    intro n
    simp [Cp.frame, Cp.refill, Cp.start, hi]
  have hc : ∃ n ns, chunks P.outs len = .ok (n :: ns) := by
    by_cases h : len / P.outs = 0
    · have h2 : len % P.outs ≠ 0 := by
        have := Nat.div_add_mod len P.outs
        rw [h] at this
        omega
      exact ⟨len % P.outs, [], by simp [chunks, Nat.ne_of_gt ho, h, h2]⟩
    · obtain ⟨m, hm⟩ := Nat.exists_eq_succ_of_ne_zero h
      exact ⟨P.outs, _, by rw [chunks, if_neg (Nat.ne_of_gt ho), hm, List.replicate_succ, List.cons_append]⟩
  obtain ⟨n, ns, hc⟩ := hc
  simp [cpalPlay, Cp.run, Cp.callback, hc, Cp.frames, hf]

/-- Callbacks have to ask for whole frames: with single samples every callback gets the first channel of a new
frame. -/
theorem C49_split_frame_violated :
    (cpalPlay (counter 3 0 2) id 2 0 0 [1, 1]).map List.flatten = .ok [0, 1] ∧
    (cpalPlay (counter 3 0 2) id 2 0 0 [2]).map List.flatten = .ok [0, 3] := by decide

/-! ## JACK -/

/-- **C58**: whatever the graph produces, what JACK is given is finite and within [-1, 1]. -/
theorem C58_sane (x : Fl) : ∃ q : Rat, x.sane = .fin q ∧ -1 ≤ q ∧ q ≤ 1 := by
  cases x with
  | nan => exact ⟨0, rfl, by decide, by decide⟩
  | inf => exact ⟨1, rfl, by decide, by decide⟩
  | ninf => exact ⟨-1, rfl, by decide, by decide⟩
  | fin q =>
    by_cases h1 : q < -1
    · exact ⟨-1, by simp [Fl.sane, Fl.lt, h1], by decide, by decide⟩
    · by_cases h2 : q > 1
      · exact ⟨1, by simp [Fl.sane, Fl.lt, Fl.gt, h1, h2], by decide, by decide⟩
      · exact ⟨q, by simp [Fl.sane, Fl.lt, Fl.gt, h1, h2], not_lt.1 h1, not_lt.1 h2⟩

/-- Samples within the range are passed on unchanged. -/
theorem C58_exact (q : Rat) (h : -1 ≤ q) (h' : q ≤ 1) : (Fl.fin q).sane = .fin q := by
  simp [Fl.sane, Fl.lt, Fl.gt, not_lt.2 h, not_lt.2 h']

example : [Fl.nan, .inf, .ninf, .fin (1/2), .fin 2, .fin (-7)].map Fl.sane
    = [.fin 0, .fin 1, .fin (-1), .fin (1/2), .fin 1, .fin (-1)] := by decide +kernel

theorem zipCopy_eq {α : Type} (a b : List α) (h : a.length = b.length) : zipCopy a b = a := by
  rw [zipCopy, ← h, List.take_length, h, List.drop_length, List.append_nil]

theorem zipCopy_length {α : Type} (a b : List α) : (zipCopy a b).length = b.length := by
  rw [zipCopy, List.length_append, List.length_take, List.length_drop]
  omega

/-- Specification: channel `i` of block memory `m`. -/
def channel (P : Proc St S) (m : List S) (i : Nat) : List S := (m.drop (i * P.bs)).take P.bs

theorem port_ok (P : Proc St Fl) (mem port : List Fl) (i : Nat) (hm : mem.length = P.outs * P.bs) (hi : i < P.outs) :
    Jk.port P mem port i = .ok (zipCopy ((channel P mem i).map Fl.sane) port) := by
  have h : i * P.bs + P.bs ≤ mem.length := by
    rw [hm, ← Nat.succ_mul]
    exact Nat.mul_le_mul_right _ hi
  simp [Jk.port, Proc.blk, Bk.Blk.slice, hi, h, channel]

theorem mapM_ok {α β : Type} (f : α → R β) (g : α → β) (l : List α) (h : ∀ x ∈ l, f x = .ok (g x)) :
    l.mapM f = .ok (l.map g) := by
  induction l with
  | nil => rfl
  | cons x l ih =>
    rw [List.mapM_cons, h x List.mem_cons_self, ih (fun y hy => h y (List.mem_cons_of_mem _ hy))]
    rfl

/-- One callback of any size, as long as the input buffers are large enough for the processor: output port `i` gets
the beginning of the (limited) channel `i` of the block. -/
theorem process_spec (P : Proc St Fl) (hP : P.Fills) (s : Jk St) (ins outs : List (List Fl))
    (hin : ∀ ch ∈ s.input, P.bs ≤ ch.length) (ho : outs.length = P.outs) :
    ∃ x : List (List Fl), x = (List.zipWith zipCopy ins s.input).map (List.take P.bs) ∧
      s.process P ins outs = .ok ({ st := (P.step s.st x).1, input := List.zipWith zipCopy ins s.input },
        (List.range P.outs).map fun i : Nat =>
          zipCopy ((channel P (P.step s.st x).2 i).map Fl.sane) (outs.getD i [])) := by
  refine ⟨_, rfl, ?_⟩
  have h1 : readInputs P.bs (List.zipWith zipCopy ins s.input)
      = .ok ((List.zipWith zipCopy ins s.input).map (List.take P.bs)) := by
    apply mapM_ok
    intro ch hch
    have : P.bs ≤ ch.length := by
      rw [List.mem_iff_getElem] at hch
      obtain ⟨i, hi, rfl⟩ := hch
      rw [List.getElem_zipWith, zipCopy_length]
      exact hin _ (List.getElem_mem _)
    rw [if_pos this]
  rw [Jk.process, h1, bind_ok]
  dsimp only
  rw [mapM_ok _ (fun i : Nat =>
    zipCopy ((channel P (P.step s.st ((List.zipWith zipCopy ins s.input).map (List.take P.bs))).2 i).map Fl.sane)
      (outs.getD i [])), bind_ok, ho]
  · rfl
  · intro i hi
    exact port_ok P _ _ _ (hP _ _) (by rw [← ho]; exact List.mem_range.1 hi)

/-- What the processor makes of a sequence of input blocks: the outputs, channel by channel. -/
def spec (P : Proc St Fl) : St → List (List (List Fl)) → List (List (List Fl))
  | _, [] => []
  | st, x :: xs =>
    ((List.range P.outs).map fun i : Nat => (channel P (P.step st x).2 i).map Fl.sane) :: spec P (P.step st x).1 xs

/-- **C49** (JACK), when every callback has the block size of the processor and the client was created with that
buffer size: the inputs reach the processor and its (limited) blocks are delivered, without loss.  *Partial*: the
property asks for it for all callback sizes. -/
theorem C49_jack_partial (P : Proc St Fl) (hP : P.Fills) (cs : List (List (List Fl) × List (List Fl)))
    (hcs : ∀ c ∈ cs, c.1.length = P.ins ∧ c.2.length = P.outs ∧ (∀ ch ∈ c.1, ch.length = P.bs) ∧
      ∀ ch ∈ c.2, ch.length = P.bs) (s : Jk St) (hs : s.input.length = P.ins)
    (hin : ∀ ch ∈ s.input, ch.length = P.bs) :
    ∃ s', s.run P cs = .ok (s', spec P s.st (cs.map Prod.fst)) := by
  induction cs generalizing s with
  | nil => exact ⟨s, rfl⟩
  | cons c cs ih =>
    obtain ⟨hc1, hc2, hc3, hc4⟩ := hcs c List.mem_cons_self
    obtain ⟨x, hx, hp⟩ := process_spec P hP s c.1 c.2 (fun ch h => Nat.le_of_eq (hin ch h).symm) hc2
    have hz : List.zipWith zipCopy c.1 s.input = c.1 := by
      apply List.ext_getElem
      · rw [List.length_zipWith, hs, hc1, Nat.min_self]
      · intro i h1 h2
        rw [List.getElem_zipWith]
        exact zipCopy_eq _ _ (by rw [hc3 _ (List.getElem_mem _), hin _ (List.getElem_mem _)])
    have hx' : x = c.1 := by
      rw [hx, hz]
      apply List.ext_getElem
      · simp
      · intro i h1 h2
        rw [List.getElem_map, List.take_of_length_le]
        exact Nat.le_of_eq (hc3 _ (List.getElem_mem _))
    rw [hz, hx'] at hp
    obtain ⟨s', h'⟩ := ih (fun c h => hcs c (List.mem_cons_of_mem _ h)) { st := (P.step s.st c.1).1, input := c.1 } hc1 hc3
    refine ⟨s', ?_⟩
    rw [Jk.run, hp, bind_ok, h', bind_ok, List.map_cons, spec]
    show Except.ok _ = Except.ok _
    congr 3
    apply List.map_congr_left
    intro i hi
    have hi := List.mem_range.1 hi
    apply zipCopy_eq
    have hi' : i < c.2.length := by rw [hc2]; exact hi
    rw [List.getD_eq_getElem?_getD, List.getElem?_eq_getElem hi', Option.getD_some, hc4 _ (List.getElem_mem _),
      List.length_map, channel, List.length_take, List.length_drop, hP]
    have : (i + 1) * P.bs ≤ P.outs * P.bs := Nat.mul_le_mul_right _ hi
    rw [Nat.succ_mul] at this
    omega

/-- A processor that passes its only input on. -/
def thru (bs : Nat) : Proc Unit Fl where
  bs := bs
  ins := 1
  outs := 1
  step := fun _ x => ((), zipCopy (x.getD 0 []) (List.replicate (1 * bs) (.fin 0)))

theorem thru_fills (bs : Nat) : (thru bs).Fills := fun _ _ => by
  simp only [thru, zipCopy_length, List.length_replicate]

example : ((Jk.start (thru 2) 2 ()).run (thru 2)
    [([[.fin 1, .nan]], [[.nan, .nan]]), ([[.fin (-3), .fin 0]], [[.fin 9, .fin 9]])]).map (fun x => x.2)
    = .ok [[[.fin 1, .fin 0]], [[.fin (-1), .fin 0]]] := by decide +kernel

/-- **C49, violated** (JACK): the callback size matters.  A graph with blocks of four frames and a callback of
two: the processor gets two frames of the callback and two old ones; a callback of six: the last two frames are not
written. -/
theorem C49_jack_violated :
    (((Jk.start (thru 4) 4 ()).run (thru 4) [([[.fin (1/4), .fin (1/2)]], [[.nan, .nan]])]).map (fun x => x.1.input)
      = .ok [[.fin (1/4), .fin (1/2), .fin 0, .fin 0]]) ∧
    ((Jk.start (thru 4) 6 ()).run (thru 4)
        [([[.fin 1, .fin 1, .fin 1, .fin 1, .fin (1/4), .fin (1/2)]], [List.replicate 6 .nan])]).map (fun x => x.2)
      = .ok [[[.fin 1, .fin 1, .fin 1, .fin 1, .nan, .nan]]] := by decide +kernel

/-- The ramp 0, 1/8, 2/8, … as processor with blocks of two frames. -/
def ramp : Proc Nat Fl where
  bs := 2
  ins := 0
  outs := 1
  step := fun n _ => (n + 2, [.fin ((n : Rat) / 8), .fin ((n + 1 : Rat) / 8)])

/-- Two callbacks of one frame deliver other samples than one callback of two frames. -/
theorem C49_jack_sizes_violated :
    ((Jk.start ramp 2 0).run ramp [([], [[.nan, .nan]])]).map (fun x => x.2) = .ok [[[.fin 0, .fin (1/8)]]] ∧
    ((Jk.start ramp 2 0).run ramp [([], [[.nan]]), ([], [[.nan]])]).map (fun x => x.2)
      = .ok [[[.fin 0]], [[.fin (1/4)]]] := by decide +kernel

/-- A graph with larger blocks than the JACK buffer reads past the end of the input buffers, in every callback. -/
theorem C49_jack_input_overrun (P : Proc St Fl) (jackBs : Nat) (st : St) (hi : 0 < P.ins) (hb : jackBs < P.bs)
    (ins outs : List (List Fl)) (hin : ins.length = P.ins) :
    (Jk.start P jackBs st).process P ins outs = .error .index := by
  have h : readInputs P.bs (List.zipWith zipCopy ins (Jk.start P jackBs st).input) = .error .index := by
    obtain ⟨k, hk⟩ := Nat.exists_eq_succ_of_ne_zero (Nat.ne_of_gt hi)
    cases ins with
    | nil => simp [hk] at hin
    | cons a ins =>
      have : ¬ P.bs ≤ (zipCopy a (List.replicate jackBs (.fin 0))).length := by
        rw [zipCopy_length, List.length_replicate]; omega
      rw [Jk.start, hk, List.replicate_succ, List.zipWith_cons_cons, readInputs, List.mapM_cons, if_neg this]
      rfl
  rw [Jk.process, h]
  rfl

example : (Jk.start (thru 4) 2 ()).process (thru 4) [[.fin 1, .fin 1]] [[.nan, .nan]] = .error .index :=
  C49_jack_input_overrun (thru 4) 2 () (by decide) (by decide) _ _ rfl

/-! ## C57 -/

/-- **C57** (cpal): a rejected start leaves the backend as it was. -/
theorem C57_cpal (b b' : Cpal) (m lib : Bool) (e : Err) (h : b.start m lib = .ok (b', .error e)) : b' = b := by
  unfold Cpal.start at h
  split at h
  · injection h with h; injection h with h; exact h.symm
  · split at h
    · cases h
    · split at h
      · injection h with h; injection h with _ h; cases h
      · injection h with h; injection h with h; exact h.symm

example : Cpal.start { stream := true } true true = .ok ({ stream := true }, .error .alreadyRunning) := rfl

/-- **C57, violated** (JACK): starting a running backend returns an error *and* drops the running client. -/
theorem C57_jack_violated :
    Jack.start { client := some .active } true true = .ok ({ client := none }, .error .alreadyRunning) := rfl

/-- **C57, violated**: stopping a backend that was never started returns an error and drops the client, so that it
can never be started: from then on every start says "already running" and every stop "not running". -/
theorem C57_jack_stop_violated :
    Jack.stop { client := some .passive } true = .ok ({ client := none }, .error .notRunning) ∧
    ∀ p a d, Jack.start { client := none } p a = .ok ({ client := none }, .error .alreadyRunning) ∧
      Jack.stop { client := none } d = .ok ({ client := none }, .error .notRunning) :=
  ⟨rfl, fun _ _ _ => ⟨rfl, rfl⟩⟩

/-- A rejected call of the JACK backend always drops the client. -/
theorem C57_jack_drops (b b' : Jack) (p a : Bool) (e : Err) (h : b.start p a = .ok (b', .error e)) :
    b'.client = none := by
  unfold Jack.start at h
  split at h
  · split at h
    · injection h with h; injection h with h; rw [← h]
    · split at h
      · cases h
      · injection h with h; injection h with _ h; cases h
  · injection h with h; injection h with h; rw [← h]

/-- cpal can be started again after a stop; JACK cannot. -/
theorem C57_restart (b : Cpal) (d p a : Bool) (j j' : Jack) (r : Except Err Unit) (h : j.stop d = .ok (j', r)) :
    (b.stop.1.start true true = .ok ({ stream := true }, .ok ())) ∧
    j'.start p a = .ok ({ client := none }, .error .alreadyRunning) := by
  refine ⟨rfl, ?_⟩
  have : j'.client = none := by
    unfold Jack.stop at h
    split at h
    · split at h
      · injection h with h; injection h with h; rw [← h]
      · cases h
    · injection h with h; injection h with h; rw [← h]
  simp [Jack.start, this]

example : Jack.stop { client := some .active } true = .ok ({ client := none }, .ok ()) := rfl

end Verif.Be
