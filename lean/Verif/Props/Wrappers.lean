import Verif.Model.Wrappers

/-!
# C30, C31, C33, C34: wrappers and block processing
-/

namespace Verif.W

variable {I S V : Type} {outs : Nat}

/-! ### C34 -/

/-- Block processing is frame-by-frame processing. -/
def Lawful (u : UGen I S V outs) : Prop :=
  ∀ s xs, u.block s xs = ((frames u.frame s xs).1, toBlock (frames u.frame s xs).2)

theorem frames_append {σ : Type} (f : σ → I → σ × Frame S outs) : ∀ (xs ys : List I) (s : σ),
    frames f s (xs ++ ys) = ((frames f (frames f s xs).1 ys).1,
      (frames f s xs).2 ++ (frames f (frames f s xs).1 ys).2) := by
  intro xs
  induction xs with
  | nil => intro ys s; rfl
  | cons x xs ih =>
    intro ys s
    simp only [List.cons_append, frames]
    rw [ih]

theorem toBlock_append (a b : List (Frame S outs)) :
    toBlock (a ++ b) = joinBlock (toBlock a) (toBlock b) := by
  funext c
  simp [toBlock, joinBlock]

theorem frames_length {σ : Type} (f : σ → I → σ × Frame S outs) : ∀ (xs : List I) (s : σ),
    (frames f s xs).2.length = xs.length := by
  intro xs
  induction xs with
  | nil => intro s; rfl
  | cons x xs ih => intro s; simp [frames, ih]

/-- C34: splitting a block into two consecutive partial blocks changes nothing. -/
theorem C34_split {u : UGen I S V outs} (h : Lawful u) (s : u.St) (xs ys : List I) :
    u.block s (xs ++ ys) = ((u.block (u.block s xs).1 ys).1,
      joinBlock (u.block s xs).2 (u.block (u.block s xs).1 ys).2) := by
  rw [h s xs, h s (xs ++ ys), h, frames_append, toBlock_append]

/-- Processing consecutive partial blocks. -/
def runParts (u : UGen I S V outs) : u.St → List (List I) → u.St × Block S outs
  | s, [] => (s, fun _ => [])
  | s, p :: ps =>
    let r := u.block s p
    let r' := runParts u r.1 ps
    (r'.1, joinBlock r.2 r'.2)

/-- C34: processing a block in any partition into partial blocks is processing its frames one by one. -/
theorem C34_parts {u : UGen I S V outs} (h : Lawful u) : ∀ (ps : List (List I)) (s : u.St),
    runParts u s ps = ((frames u.frame s ps.flatten).1, toBlock (frames u.frame s ps.flatten).2) := by
  intro ps
  induction ps with
  | nil => intro s; rfl
  | cons p ps ih =>
    intro s
    simp only [runParts, List.flatten_cons]
    rw [ih, h, frames_append, toBlock_append]

/-- C34: the default block processing. -/
theorem C34_default (u : UGen I S V outs) (h : u.block = defaultBlock u.frame) : Lawful u := by
  intro s xs
  rw [h]
  rfl

/-- C34: the arithmetic wrappers around any unit generator for which it holds. -/
theorem C34_math {u : UGen I S V outs} (h : Lawful u) (f : S → S) : Lawful (wrMap u f) := by
  have key : ∀ (xs : List I) (s : u.St), frames (wrMap u f).frame s xs =
      ((frames u.frame s xs).1, (frames u.frame s xs).2.map fun fr c => f (fr c)) := by
    intro xs
    induction xs with
    | nil => intro s; rfl
    | cons x xs ih =>
      intro s
      simp only [frames, List.map_cons]
      have hs : ((wrMap u f).frame s x).1 = (u.frame s x).1 := rfl
      rw [hs, ih]
      rfl
  intro s xs
  have hb := h s xs
  have hk := key xs s
  have e : (wrMap u f).block s xs = ((u.block s xs).1, fun c => ((u.block s xs).2 c).map f) := rfl
  rw [e]
  refine Eq.trans ?_ (congrArg (fun r : u.St × List (Frame S outs) => (r.1, toBlock r.2)) hk).symm
  rw [hb]
  refine Prod.ext rfl (funext fun c => ?_)
  simp [toBlock]

/-- C34: the wrapper that adds an input for a parameter. -/
theorem C34_arInput (u : UGen I S V outs) (param : Nat) : Lawful (arInput u param) :=
  C34_default _ rfl

theorem mapAcc_pure {τ : Type} (f : S → S) : ∀ (xs : List S) (t : τ),
    mapAcc (fun t x => (t, f x)) t xs = (t, xs.map f) := by
  intro xs
  induction xs with
  | nil => intro t; rfl
  | cons x xs ih => intro t; simp [mapAcc, ih]

theorem accChannels_pure {τ : Type} (f : S → S) : ∀ (n : Nat) (t : τ) (b : Fin n → List S),
    accChannels (fun t x => (t, f x)) n t b = (t, fun c => (b c).map f) := by
  intro n
  induction n with
  | zero => intro t b; exact Prod.ext rfl (funext fun c => c.elim0)
  | succ n ih =>
    intro t b
    simp only [accChannels, mapAcc_pure, ih]
    refine Prod.ext rfl (funext fun c => ?_)
    simp only
    split
    · rename_i h; rw [h]
    · simp

theorem accFrame_pure {τ : Type} (f : S → S) : ∀ (n : Nat) (t : τ) (b : Fin n → S),
    accFrame (fun t x => (t, f x)) n t b = (t, fun c => f (b c)) := by
  intro n
  induction n with
  | zero => intro t b; exact Prod.ext rfl (funext fun c => c.elim0)
  | succ n ih =>
    intro t b
    simp only [accFrame, ih]
    refine Prod.ext rfl (funext fun c => ?_)
    simp only
    split
    · rename_i h; rw [h]
    · simp

/-- C34 for closures without state.

Missing: closures with a state.  For one output channel see `C34_closure_mono`; for more channels it is
false (`C34_closure_violated`). -/
theorem C34_closure_partial {τ : Type} {u : UGen I S V outs} (h : Lawful u) (f : S → S) :
    Lawful (wrClosure u (fun (t : τ) x => (t, f x))) := by
  have key : ∀ (xs : List I) (s : u.St) (t : τ), frames (wrClosure u (fun (t : τ) x => (t, f x))).frame (s, t) xs =
      (((frames u.frame s xs).1, t), (frames u.frame s xs).2.map fun fr c => f (fr c)) := by
    intro xs
    induction xs with
    | nil => intro s t; rfl
    | cons x xs ih =>
      intro s t
      simp only [frames, List.map_cons]
      have hs : (wrClosure u (fun (t : τ) x => (t, f x))).frame (s, t) x =
          (((u.frame s x).1, t), fun c => f ((u.frame s x).2 c)) := by
        simp only [wrClosure, accFrame_pure]
      rw [hs]
      simp only [ih]
      rfl
  intro s xs
  obtain ⟨s, t⟩ := s
  rw [key]
  have hb := h s xs
  simp only [wrClosure, accChannels_pure]
  rw [hb]
  refine Prod.ext rfl ?_
  funext c
  simp [toBlock]

/-- C34 for closures with a state around a unit generator with one output channel. -/
theorem C34_closure_mono {τ : Type} {u : UGen I S V 1} (h : Lawful u) (cl : τ → S → τ × S) :
    Lawful (wrClosure u cl) := by
  have key : ∀ (xs : List I) (s : u.St) (t : τ),
      frames (wrClosure u cl).frame (s, t) xs =
      (((frames u.frame s xs).1, (mapAcc cl t ((frames u.frame s xs).2.map fun fr => fr 0)).1),
        (mapAcc cl t ((frames u.frame s xs).2.map fun fr => fr 0)).2.map fun v _ => v) := by
    intro xs
    induction xs with
    | nil => intro s t; rfl
    | cons x xs ih =>
      intro s t
      simp only [frames, List.map_cons, mapAcc]
      have hs : (wrClosure u cl).frame (s, t) x =
          (((u.frame s x).1, (cl t ((u.frame s x).2 0)).1), fun _ => (cl t ((u.frame s x).2 0)).2) := by
        simp only [wrClosure, accFrame]
        refine Prod.ext rfl (funext fun c => ?_)
        have : c = 0 := Fin.fin_one_eq_zero c
        simp [this]
      rw [hs]
      simp only [ih]
      rfl
  intro s xs
  obtain ⟨s, t⟩ := s
  rw [key]
  have hb := h s xs
  simp only [wrClosure, accChannels]
  rw [hb]
  refine Prod.ext rfl (funext fun c => ?_)
  have : c = 0 := Fin.fin_one_eq_zero c
  subst this
  simp [toBlock, Function.comp_def]

/-- A unit generator with two output channels that puts out its input on both. -/
def twice : UGen Nat Nat Nat 2 where
  St := Unit
  frame := fun _ x => ((), fun _ => x)
  block := defaultBlock fun _ x => ((), fun _ => x)
  apply := fun s _ _ => s

/-- A closure that adds the number of earlier calls. -/
def counting : Nat → Nat → Nat × Nat := fun t x => (t + 1, x + t)

/-- C34 is violated by `WrClosure` with a closure that has a state: a block visits the samples channel by
channel, single frames visit them frame by frame. -/
theorem C34_closure_violated : Lawful twice ∧ ¬ Lawful (wrClosure twice counting) := by
  refine ⟨C34_default _ rfl, ?_⟩
  intro h
  have := congrArg (fun r => r.2 1) (h ((), 0) [10, 20])
  revert this
  decide

-- the hypothesis of `C34_math` is met by a unit generator with a state
example : Lawful (wrMap twice (· * 3)) ∧
    (wrMap twice (· * 3)).block () [1, 2] = ((), fun _ => [3, 6]) :=
  ⟨C34_math (C34_default _ rfl) _, Prod.ext rfl (funext fun c => by match c with | 0 => rfl | 1 => rfl)⟩

/-! ### C30 -/

/-- The changes with an in-block delay as they are meant: processing frame by frame, each change applied
just before its frame (of the whole block; `pos` is the number of the next frame). -/
def refRun (u : UGen I S V outs) (chs : List (Delayed V)) : Nat → u.St → List I → u.St × List (Frame S outs)
  | _, s, [] => (s, [])
  | pos, s, x :: xs =>
    let s1 := (chs.filter fun c => c.1 = pos).foldl (fun s c => u.apply s c.2.1 c.2.2) s
    let r := u.frame s1 x
    let r' := refRun u chs (pos + 1) r.1 xs
    (r'.1, r.2 :: r'.2)

theorem ref_congr {u : UGen I S V outs} {chs chs' : List (Delayed V)} : ∀ (xs : List I) (pos : Nat) (s : u.St),
    (∀ i, pos ≤ i → (chs.filter fun c => c.1 = i) = chs'.filter fun c => c.1 = i) →
    refRun u chs pos s xs = refRun u chs' pos s xs := by
  intro xs
  induction xs with
  | nil => intro pos s _; rfl
  | cons x xs ih =>
    intro pos s h
    simp only [refRun]
    rw [h pos (Nat.le_refl _), ih (pos + 1) _ fun i hi => h i (by omega)]

/-- Frames without a change in front of them. -/
theorem ref_chunk {u : UGen I S V outs} {chs : List (Delayed V)} : ∀ (ys zs : List I) (pos : Nat) (s : u.St),
    (∀ c ∈ chs, pos + ys.length ≤ c.1) →
    refRun u chs pos s (ys ++ zs) = ((refRun u chs (pos + ys.length) (frames u.frame s ys).1 zs).1,
      (frames u.frame s ys).2 ++ (refRun u chs (pos + ys.length) (frames u.frame s ys).1 zs).2) := by
  intro ys
  induction ys with
  | nil => intro zs pos s _; rfl
  | cons y ys ih =>
    intro zs pos s h
    have hf : (chs.filter fun c => c.1 = pos) = [] := by
      rw [List.filter_eq_nil_iff]
      intro c hc
      have := h c hc
      simp only [List.length_cons] at this
      simp only [decide_eq_true_eq]
      omega
    simp only [List.cons_append, refRun, hf, List.foldl_nil, frames, List.length_cons]
    have e : pos + (ys.length + 1) = pos + 1 + ys.length := by omega
    rw [ih zs (pos + 1) _ (fun c hc => by have := h c hc; simp only [List.length_cons] at this; omega), e]

theorem due_spec {u : UGen I S V outs} {pos : Nat} : ∀ (chs : List (Delayed V)) (s : u.St),
    chs.Pairwise (fun a b => a.1 ≤ b.1) → (∀ c ∈ chs, pos ≤ c.1) →
    due u pos s (chs.map some) =
      ((chs.filter fun c => c.1 = pos).foldl (fun s c => u.apply s c.2.1 c.2.2) s,
        (chs.filter fun c => pos < c.1).map some) := by
  intro chs
  induction chs with
  | nil => intro s _ _; rfl
  | cons c chs ih =>
    intro s hp hge
    obtain ⟨d, i, v⟩ := c
    rw [List.pairwise_cons] at hp
    have hge' : ∀ c ∈ chs, pos ≤ c.1 := fun c hc => hge c (List.mem_cons_of_mem _ hc)
    simp only [List.map_cons, due]
    have hd : pos ≤ d := hge (d, i, v) (by simp)
    by_cases h : d ≤ pos
    · have hdp : d = pos := by omega
      rw [if_pos h, ih _ hp.2 hge', List.filter_cons_of_pos (by simp [hdp]), List.filter_cons_of_neg (by simp [hdp])]
      rfl
    · have hall : ∀ c ∈ (d, i, v) :: chs, pos < c.1 := by
        intro c hc
        rcases List.mem_cons.1 hc with rfl | hc
        · simp only; omega
        · have := hp.1 c hc
          simp only at this
          omega
      rw [if_neg h]
      have h1 : (((d, i, v) :: chs).filter fun c => c.1 = pos) = [] := by
        rw [List.filter_eq_nil_iff]
        intro c hc
        have := hall c hc
        simp only [decide_eq_true_eq]
        omega
      have h2 : (((d, i, v) :: chs).filter fun c => pos < c.1) = (d, i, v) :: chs := by
        rw [List.filter_eq_self]
        intro c hc
        simpa using hall c hc
      rw [h1, h2]
      rfl

theorem ptLoop_spec {u : UGen I S V outs} (hu : Lawful u) (off : Nat) : ∀ (fuel i : Nat) (s : u.St)
    (chs : List (Delayed V)) (xs : List I), xs.length < fuel → chs.Pairwise (fun a b => a.1 ≤ b.1) →
    (∀ c ∈ chs, i + off ≤ c.1 ∧ c.1 < i + off + xs.length) →
    ptLoop u off fuel i s (chs.map some) xs = .ok ((refRun u chs (i + off) s xs).1, [],
      toBlock (refRun u chs (i + off) s xs).2) := by
  intro fuel
  induction fuel with
  | zero => intro i s chs xs h; omega
  | succ fuel ih =>
    intro i s chs xs hf hp hb
    rw [ptLoop, due_spec chs s hp fun c hc => (hb c hc).1]
    cases xs with
    | nil =>
      cases chs with
      | nil => rfl
      | cons c chs =>
        have := hb c (by simp)
        simp only [List.length_nil] at this
        omega
    | cons x xs =>
      simp only
      generalize hs1 : (chs.filter fun c => c.1 = i + off).foldl (fun s c => u.apply s c.2.1 c.2.2) s = s1
      generalize hrest : (chs.filter fun c => i + off < c.1) = rest
      have hprest : rest.Pairwise (fun a b => a.1 ≤ b.1) := by rw [← hrest]; exact hp.filter _
      have hbrest : ∀ c ∈ rest, i + off < c.1 ∧ c.1 < i + off + (x :: xs).length := by
        intro c hc
        rw [← hrest] at hc
        obtain ⟨h1, h2⟩ := List.mem_filter.1 hc
        exact ⟨by simpa using h2, (hb c h1).2⟩
      -- the reference run only sees the remaining changes from here on
      have href : refRun u chs (i + off) s (x :: xs) = refRun u rest (i + off) s1 (x :: xs) := by
        have hnone : (rest.filter fun c => c.1 = i + off) = [] := by
          rw [List.filter_eq_nil_iff]
          intro c hc
          have := (hbrest c hc).1
          simp only [decide_eq_true_eq]
          omega
        simp only [refRun, hnone, List.foldl_nil, hs1]
        rw [ref_congr (chs' := rest)]
        intro j hj
        rw [← hrest, List.filter_filter]
        congr 1
        funext c
        by_cases hc : c.1 = j
        · have : i + off < c.1 := by omega
          simp [hc]
          omega
        · simp [hc]
      rw [href]
      -- the length of the next part
      generalize hn : partLen off i (x :: xs).length (rest.map some) = n
      have hn1 : 1 ≤ n ∧ n ≤ (x :: xs).length ∧ ∀ c ∈ rest, i + off + n ≤ c.1 := by
        rw [← hn]
        cases rest with
        | nil => simp [partLen]
        | cons c rest =>
          obtain ⟨d, j, v⟩ := c
          have h1 := hbrest (d, j, v) (by simp)
          simp only [List.map_cons, partLen]
          refine ⟨?_, Nat.min_le_left _ _, ?_⟩
          · refine Nat.le_min.2 ⟨by simp, ?_⟩
            have := h1.1
            simp only at this
            omega
          · intro c hc
            rw [List.pairwise_cons] at hprest
            have h2 : d ≤ c.1 := by
              rcases List.mem_cons.1 hc with rfl | hc
              · exact Nat.le_refl _
              · exact hprest.1 c hc
            have := Nat.min_le_right (x :: xs).length (d - off - i)
            have h3 := h1.1
            simp only at h3
            generalize min (x :: xs).length (d - off - i) = m at *
            omega
      obtain ⟨hn1, hn2, hn3⟩ := hn1
      have hlen : ((x :: xs).take n).length = n := by rw [List.length_take]; omega
      have hih := ih (i + n) (frames u.frame s1 ((x :: xs).take n)).1 rest ((x :: xs).drop n)
        (by rw [List.length_drop]; omega) hprest (by
          intro c hc
          have h1 := hn3 c hc
          have h2 := (hbrest c hc).2
          rw [List.length_drop]
          omega)
      have hsplit := ref_chunk (u := u) (chs := rest) ((x :: xs).take n) ((x :: xs).drop n) (i + off) s1
        (by rw [hlen]; exact hn3)
      rw [List.take_append_drop, hlen] at hsplit
      have he : i + n + off = i + off + n := by omega
      rw [he] at hih
      rw [hsplit]
      have hb := hu s1 ((x :: xs).take n)
      rw [if_neg (by simp), hb]
      simp only [hih, toBlock_append]

/-- Sending changes with delays to the wrapper, one after the other. -/
def sendAll (u : UGen I S V outs) (params : Nat) : PT u.St V → List (Delayed V) → R (PT u.St V)
  | p, [] => .ok p
  | p, (d, i, v) :: chs =>
    match p.setDelay params i d with
    | .error e => .error e
    | .ok p => match p.apply u params i v with
      | .error e => .error e
      | .ok p => sendAll u params p chs

theorem sendAll_spec {u : UGen I S V outs} {params : Nat} : ∀ (chs : List (Delayed V)) (p : PT u.St V)
    (pre : List (Delayed V)), (∀ c ∈ chs, 0 < c.1 ∧ c.2.1 < params) →
    p.waiting.take p.cnt = pre.map some → p.cnt = pre.length → p.cnt + chs.length ≤ p.waiting.length →
    ∃ p', sendAll u params p chs = .ok p' ∧ p'.inner = p.inner ∧ p'.cnt = p.cnt + chs.length ∧
      p'.waiting.take p'.cnt = (pre ++ chs).map some ∧ p'.waiting.length = p.waiting.length := by
  intro chs
  induction chs with
  | nil => intro p pre _ h1 h2 _; exact ⟨p, rfl, rfl, rfl, by simpa using h1, rfl⟩
  | cons c chs ih =>
    intro p pre hc h1 h2 h3
    obtain ⟨d, i, v⟩ := c
    obtain ⟨hd, hi⟩ := hc (d, i, v) (by simp)
    simp only at hd hi
    simp only [List.length_cons] at h3
    have hlt : p.cnt < p.waiting.length := by omega
    have hsend : sendAll u params p ((d, i, v) :: chs) = sendAll u params
        { p with nextDelay := fun j => if j = i then d else p.nextDelay j
                 waiting := p.waiting.set p.cnt (some (d, i, v)), cnt := p.cnt + 1 } chs := by
      rw [sendAll, PT.setDelay, if_pos hi]
      simp only [PT.apply, if_pos hi]
      rw [if_neg (by simp only [if_true]; omega), if_pos hlt]
      simp
    rw [hsend]
    have hset : (p.waiting.set p.cnt (some (d, i, v))).take (p.cnt + 1) = (pre ++ [(d, i, v)]).map some := by
      rw [List.take_add_one, List.take_set_of_le (Nat.le_refl _), h1, List.getElem?_set_self hlt]
      simp
    obtain ⟨p', e1, e2, e3, e4, e5⟩ := ih
      { p with nextDelay := fun j => if j = i then d else p.nextDelay j
               waiting := p.waiting.set p.cnt (some (d, i, v)), cnt := p.cnt + 1 } (pre ++ [(d, i, v)])
      (fun c hc' => hc c (List.mem_cons_of_mem _ hc')) hset (by simp [h2]) (by simp; omega)
    refine ⟨p', e1, e2, ?_, ?_, ?_⟩
    · rw [e3]; simp; omega
    · rw [e4]; simp
    · rw [e5]; simp

/-- C30: changes with delays inside the block are sent in order of their frames, not more than there is
room for; then the block is processed.  The output and the state are those of frame-by-frame processing
with each change applied just before its frame, and the wrapper is ready for the next block.

Missing: more changes than there is room for (the surplus is dropped with a log message), changes not in
order (`C30_unordered_violated`), changes at or after the end of the block, and single-frame processing
(`C30_frame_violated`). -/
theorem C30_precise_partial {u : UGen I S V outs} (hu : Lawful u) {params : Nat} (p : PT u.St V)
    (h0 : p.cnt = 0) (chs : List (Delayed V)) (xs : List I)
    (hs : chs.Pairwise (fun a b => a.1 ≤ b.1))
    (hb : ∀ c ∈ chs, 0 < c.1 ∧ c.1 < xs.length ∧ c.2.1 < params)
    (hroom : chs.length ≤ p.waiting.length) :
    ∃ p1 p2, sendAll u params p chs = .ok p1 ∧
      p1.block u 0 xs = .ok (p2, toBlock (refRun u chs 0 p.inner xs).2) ∧
      p2.inner = (refRun u chs 0 p.inner xs).1 ∧ p2.cnt = 0 ∧ p2.waiting.length = p.waiting.length := by
  obtain ⟨p1, e1, e2, e3, e4, e5⟩ := sendAll_spec (u := u) (params := params) chs p []
    (fun c hc => ⟨(hb c hc).1, (hb c hc).2.2⟩) (by simp [h0]) (by simp [h0]) (by omega)
  have hl := ptLoop_spec hu 0 (xs.length + 1) 0 p1.inner chs xs (by omega) hs (fun c hc => by
    have := hb c hc
    omega)
  simp only [List.nil_append] at e4
  refine ⟨p1, { p1 with
      inner := (refRun u chs 0 p.inner xs).1
      waiting := List.replicate (p1.cnt - ([] : List (Option (Delayed V))).length) none ++ [] ++ p1.waiting.drop p1.cnt
      cnt := 0 }, e1, ?_, rfl, rfl, ?_⟩
  · rw [PT.block, e4, hl, e2]
  · simp only [List.length_append, List.length_replicate, List.length_nil, List.length_drop]
    rw [← e5]
    have : p1.cnt ≤ p1.waiting.length := by rw [e3, e5]; omega
    omega

/-- A unit generator that puts out its parameter. -/
def hold : UGen Unit Nat Nat 1 where
  St := Nat
  frame := fun s _ => (s, fun _ => s)
  block := defaultBlock fun s _ => (s, fun _ => s)
  apply := fun _ _ v => v

/-- The output of two changes followed by a block of four frames. -/
def holdOut (cap : Nat) (chs : List (Delayed Nat)) : R (List Nat) :=
  match sendAll hold 1 (.init (0 : Nat) cap) chs with
  | .error e => .error e
  | .ok p => match p.block hold 0 [(), (), (), ()] with
    | .error e => .error e
    | .ok (_, o) => .ok (o 0)

-- the hypotheses of `C30_precise_partial` are met
example : holdOut 2 [(1, 0, 5), (3, 0, 7)] = .ok [0, 5, 5, 7] := by decide
example : Lawful hold := C34_default _ rfl

/-- C30 is violated when the changes are not sent in the order of their frames: the second one should take
effect at frame 1. -/
theorem C30_unordered_violated : holdOut 2 [(3, 0, 7), (1, 0, 5)] = .ok [0, 0, 0, 5] ∧
    (refRun hold [(3, 0, 7), (1, 0, 5)] 0 (0 : Nat) [(), (), (), ()]).2.map (fun f => f 0) = [0, 5, 5, 7] := by
  decide

/-- C30 is violated by frame-by-frame processing: the number of waiting changes is never reset, so after
as many delayed changes as there is room for, all further ones are dropped. -/
theorem C30_frame_violated :
    (match sendAll hold 1 (.init (0 : Nat) 1) [(1, 0, 5)] with
     | .error _ => none
     | .ok p =>
       let r := p.frame hold ()
       match sendAll hold 1 r.1 [(1, 0, 6)] with
       | .error _ => none
       | .ok p => some (r.2 0, (p.frame hold ()).2 0)) = some (5, 5) := by decide

/-! ### C31 -/

/-- C31 is violated: after a change of the parameter that was delayed to frame 2 of the first block, a change
sent without a delay before the second block takes effect at frame 2 as well
(`apply_parameter_change` only sets delays that are not zero). -/
theorem C31_immediate_violated :
    (match sendAll hold 1 (.init (0 : Nat) 4) [(2, 0, 5)] with
     | .error _ => none
     | .ok p => match p.block hold 0 [(), (), ()] with
       | .error _ => none
       | .ok (p, _) => match p.apply hold 1 0 9 with
         | .error _ => none
         | .ok p => match p.block hold 0 [(), (), ()] with
           | .error _ => none
           | .ok (_, o) => some (o 0)) = some [5, 5, 9] := by decide

/-- What happens to a wrapped unit generator. -/
inductive PtOp (I V : Type) where
  | setDelay (i d : Nat)
  | apply (i : Nat) (v : V)
  | frame (x : I)
  | block (xs : List I)

/-- One call. -/
def PtOp.run (u : UGen I S V outs) (params : Nat) (p : PT u.St V) : PtOp I V → R (PT u.St V)
  | .setDelay i d => p.setDelay params i d
  | .apply i v => p.apply u params i v
  | .frame x => .ok (p.frame u x).1
  | .block xs => match p.block u 0 xs with
    | .error e => .error e
    | .ok r => .ok r.1

/-- Several calls. -/
def runOps (u : UGen I S V outs) (params : Nat) : PT u.St V → List (PtOp I V) → R (PT u.St V)
  | p, [] => .ok p
  | p, op :: ops => match op.run u params p with
    | .error e => .error e
    | .ok p => runOps u params p ops

/-- C31 for parameters that were never changed with a delay before: the change reaches the unit generator
at once, so it is in effect from the first frame on.

Missing: parameters with an earlier delayed change (`C31_immediate_violated`). -/
theorem C31_immediate_partial {u : UGen I S V outs} {params cap : Nat} (s : u.St) (ops : List (PtOp I V))
    (i : Nat) (hi : i < params) (hno : ∀ d, .setDelay i d ∈ ops → d = 0) {p : PT u.St V}
    (hr : runOps u params (.init s cap) ops = .ok p) (v : V) :
    p.apply u params i v = .ok { p with inner := u.apply p.inner i v } := by
  have key : ∀ (ops : List (PtOp I V)) (p0 p : PT u.St V), (∀ d, .setDelay i d ∈ ops → d = 0) →
      p0.nextDelay i = 0 → runOps u params p0 ops = .ok p → p.nextDelay i = 0 := by
    intro ops
    induction ops with
    | nil =>
      intro p0 p _ h0 h
      simp only [runOps, Except.ok.injEq] at h
      rw [← h]; exact h0
    | cons op ops ih =>
      intro p0 p hno h0 h
      rw [runOps] at h
      cases hop : op.run u params p0 with
      | error e => rw [hop] at h; simp at h
      | ok p1 =>
        rw [hop] at h
        refine ih p1 p (fun d hd => hno d (List.mem_cons_of_mem _ hd)) ?_ h
        cases op with
        | setDelay j d =>
          simp only [PtOp.run, PT.setDelay] at hop
          split at hop
          · simp only [Except.ok.injEq] at hop
            rw [← hop]
            simp only
            split
            · rename_i e
              subst e
              exact hno d (by simp)
            · exact h0
          · simp at hop
        | apply j w =>
          simp only [PtOp.run, PT.apply] at hop
          split at hop
          · split at hop
            · simp only [Except.ok.injEq] at hop
              rw [← hop]; exact h0
            · split at hop
              · simp only [Except.ok.injEq] at hop
                rw [← hop]; exact h0
              · simp only [Except.ok.injEq] at hop
                rw [← hop]; exact h0
          · simp at hop
        | frame x =>
          simp only [PtOp.run, PT.frame, Except.ok.injEq] at hop
          rw [← hop]; exact h0
        | block xs =>
          simp only [PtOp.run, PT.block] at hop
          cases hl : ptLoop u 0 (xs.length + 1) 0 p0.inner (p0.waiting.take p0.cnt) xs with
          | error e => rw [hl] at hop; simp at hop
          | ok r =>
            rw [hl] at hop
            simp only [Except.ok.injEq] at hop
            rw [← hop]; exact h0
  have := key ops _ p hno rfl hr
  rw [PT.apply, if_pos hi, if_pos this]

-- a history as in `C31_immediate_partial`: parameter 1 was delayed, parameter 0 was not
example : (match runOps hold 2 (.init (0 : Nat) 4) [.setDelay 1 3, .apply 1 8, .block [(), ()]] with
    | .ok p => p.nextDelay 0
    | .error _ => 17) = 0 := by decide

/-! ### C33 -/

/-- Audio-rate parameters as they are meant: before frame `i` every linked parameter gets sample `i` of its
buffer. -/
def arRef (u : UGen I S V outs) (params : Nat) (bufs : Nat → Option Nat) (mem : Nat → Nat → V) :
    Nat → u.St → List I → u.St × List (Frame S outs)
  | _, s, [] => (s, [])
  | i, s, x :: xs =>
    let s1 := (List.range params).foldl (fun s j => match bufs j with
      | some b => u.apply s j (mem b i)
      | none => s) s
    let r := u.frame s1 x
    let r' := arRef u params bufs mem (i + 1) r.1 xs
    (r'.1, r.2 :: r'.2)

theorem ar_frames {u : UGen I S V outs} {params bs : Nat} {mem : Nat → Nat → V} : ∀ (xs : List I)
    (a : Ar u.St), a.idx + xs.length ≤ bs → (a.idx < bs) →
    frames (Ar.frame u params bs mem) a xs =
      (⟨(arRef u params a.bufs mem a.idx a.inner xs).1, a.bufs,
          if a.idx + xs.length = bs then 0 else a.idx + xs.length⟩,
        (arRef u params a.bufs mem a.idx a.inner xs).2) := by
  intro xs
  induction xs with
  | nil =>
    intro a h1 h2
    simp only [frames, arRef, List.length_nil, Nat.add_zero]
    rw [if_neg (by omega)]
  | cons x xs ih =>
    intro a h1 h2
    simp only [List.length_cons] at h1 ⊢
    simp only [frames, arRef, Ar.frame]
    by_cases hl : a.idx + 1 = bs
    · have hx : xs = [] := List.length_eq_zero_iff.1 (by omega)
      subst hx
      simp [frames, arRef, hl]
      exact ⟨rfl, rfl⟩
    · have hm : (a.idx + 1) % bs = a.idx + 1 := Nat.mod_eq_of_lt (by omega)
      simp only [hm]
      rw [ih _ (by simp only; omega) (by simp only; omega)]
      simp only [show a.idx + 1 + xs.length = a.idx + (xs.length + 1) by omega]
      rfl

/-- Processing consecutive partial blocks. -/
def arParts (u : UGen I S V outs) (params bs : Nat) (mem : Nat → Nat → V) :
    Ar u.St → List (List I) → Ar u.St × Block S outs
  | a, [] => (a, fun _ => [])
  | a, p :: ps =>
    let r := Ar.block u params bs mem a p
    let r' := arParts u params bs mem r.1 ps
    (r'.1, joinBlock r.2 r'.2)

/-- C33: in a block of the full size, however it is split into partial blocks, every linked parameter gets
sample `i` of its buffer before frame `i`; afterwards the wrapper is ready for the next block. -/
theorem C33_frames {u : UGen I S V outs} {params bs : Nat} {mem : Nat → Nat → V} (a : Ar u.St)
    (h0 : a.idx = 0) (ps : List (List I)) (hlen : ps.flatten.length = bs) :
    arParts u params bs mem a ps =
      (⟨(arRef u params a.bufs mem 0 a.inner ps.flatten).1, a.bufs, 0⟩,
        toBlock (arRef u params a.bufs mem 0 a.inner ps.flatten).2) := by
  have hparts : ∀ (ps : List (List I)) (a : Ar u.St), arParts u params bs mem a ps =
      ((frames (Ar.frame u params bs mem) a ps.flatten).1,
        toBlock (frames (Ar.frame u params bs mem) a ps.flatten).2) := by
    intro ps
    induction ps with
    | nil => intro a; rfl
    | cons p ps ih =>
      intro a
      simp only [arParts, List.flatten_cons, Ar.block, defaultBlock]
      rw [ih, frames_append, toBlock_append]
  rw [hparts]
  by_cases hbs : bs = 0
  · have : ps.flatten = [] := List.length_eq_zero_iff.1 (by omega)
    rw [this]
    obtain ⟨i, b, x⟩ := a
    simp only at h0
    subst h0
    rfl
  · rw [ar_frames ps.flatten a (by omega) (by omega)]
    rw [h0]
    simp [hlen]

/-- C33: a parameter that is not linked keeps receiving changes, and a linked one ignores them. -/
theorem C33_unlinked {u : UGen I S V outs} {params : Nat} (a : Ar u.St) (i : Nat) (hi : i < params) (v : V) :
    (a.bufs i = none → a.apply u params i v = .ok { a with inner := u.apply a.inner i v }) ∧
    (∀ b, a.bufs i = some b → a.apply u params i v = .ok a) := by
  constructor
  · intro h
    rw [Ar.apply, if_pos hi, h]
  · intro b h
    rw [Ar.apply, if_pos hi, h]

/-- Linking several parameters, one after the other. -/
def linkAll {σ : Type} (params : Nat) : Ar σ → List (Nat × Nat) → R (Ar σ)
  | a, [] => .ok a
  | a, l :: ls => do
    let a ← a.link params l.1 l.2
    linkAll params a ls

/-- C33: after linking parameters in any order, some of them several times, each is linked to the buffer it was linked to last, the
others as before, and the unit is untouched. -/
theorem C33_link {σ : Type} (params : Nat) (ls : List (Nat × Nat)) (hl : ∀ l ∈ ls, l.1 < params) : ∀ a : Ar σ, ∃ bufs,
    linkAll params a ls = .ok ⟨a.inner, bufs, a.idx⟩ ∧
      ∀ j, bufs j = (((ls.filter fun l => l.1 == j).getLast?).map fun l => l.2).or (a.bufs j) := by
  induction ls with
  | nil => intro a; exact ⟨a.bufs, rfl, fun _ => rfl⟩
  | cons l ls ih =>
    intro a
    have h0 : l.1 < params := hl l List.mem_cons_self
    obtain ⟨bufs, e, hb⟩ := ih (fun l hm => hl l (List.mem_cons_of_mem _ hm))
      { a with bufs := fun j => if j = l.1 then some l.2 else a.bufs j }
    refine ⟨bufs, ?_, fun j => ?_⟩
    · rw [linkAll, Ar.link, if_pos h0, bind_ok, e]
    · rw [hb j]
      simp only
      by_cases hj : l.1 = j
      · rw [List.filter_cons_of_pos (by simpa using hj), List.getLast?_cons, if_pos hj.symm]
        cases (ls.filter fun l => l.1 == j).getLast? with
        | none => rfl
        | some y => rfl
      · rw [List.filter_cons_of_neg (by simpa using hj), if_neg fun h => hj (Eq.symm h)]

example : ∀ l ∈ [(0, 7), (1, 8), (0, 9)], (l : Nat × Nat).1 < 2 := by decide

/-- C33: linking a parameter that does not exist panics. -/
theorem C33_link_index {σ : Type} (params : Nat) (a : Ar σ) (i buf : Nat) (hi : params ≤ i) : a.link params i buf = .error .assert := by
  rw [Ar.link, if_neg (by omega)]

/-- C33 over several blocks: the buffers hold `mem n` in block `n`. -/
theorem C33_blocks {u : UGen I S V outs} {params bs : Nat} (mem : Nat → Nat → Nat → V) (s : u.St)
    (bufs : Nat → Option Nat) (parts : Nat → List (List I)) (hlen : ∀ n, (parts n).flatten.length = bs) (n : Nat) :
    (Nat.rec (motive := fun _ => Ar u.St) ⟨s, bufs, 0⟩
        (fun k a => (arParts u params bs (mem k) a (parts k)).1) n) =
      ⟨Nat.rec (motive := fun _ => u.St) s
        (fun k s => (arRef u params bufs (mem k) 0 s (parts k).flatten).1) n, bufs, 0⟩ := by
  induction n with
  | zero => rfl
  | succ n ih =>
    simp only
    rw [ih, C33_frames _ rfl _ (hlen n)]

-- parameter 0 linked to buffer 2, a block of three frames in two parts
example : (arParts hold 1 3 (fun b i => 10 * b + i) ⟨(7 : Nat), fun i => if i = 0 then some 2 else none, 0⟩
    [[()], [(), ()]]).2 0 = [20, 21, 22] := by decide

end Verif.W
