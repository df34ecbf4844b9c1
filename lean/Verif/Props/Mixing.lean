import Verif.Props.Handles
import Verif.Lemmas.Ieee

/-!
# C102: the order in which sources are connected to one input

Several connections to one input are summed by a chain of inserted math nodes, in the order of the connections
(graph.rs 768–880).  With exact addition the order has no influence; with floats it has one, within a bound.
-/

namespace Verif.Mx

open Verif.G Verif.H Verif.Ar Verif.Fl

/-! ### What is computed, for any addition -/

/-- C102, the mix: whatever the samples are and however they are added (only zero has to be neutral), every sink
channel afterwards receives what it received before, plus the source of the first accepted connection to it, plus the
source of the second, and so on, added from left to right. -/
theorem C102_fold {S : Type} [AddZeroClass S] {sl} : ∀ (ps : List (Chan × Chan)) {g g' : Graph} {rs}, Reach sl g →
    (∀ p ∈ ps, SinkOk g p.2.1) → logged sl true false g ps = .ok (g', rs) → ∀ s : Signals S, SumsOk g' s →
    ∀ sink i, OldSink g sink →
      s.at (g'.dst sink i) = (brought s ps rs sink i).foldl (· + ·) (s.at (g.dst sink i))
  | [], g, g', rs, hr, hu, h, s, hs, sink, i, ho => by
    simp only [logged, Except.ok.injEq, Prod.mk.injEq] at h
    obtain ⟨rfl, rfl⟩ := h
    simp [brought]
  | p :: ps, g, g', rs, hr, hu, h, s, hs, sink, i, ho => by
    obtain ⟨g1, r, rs1, h1, h2, rfl⟩ := logged_cons h
    have hr1 : Reach sl g1 := hr.step (.connect p.1.1 p.1.2 p.2.2 p.2.1 true false) h1
    have hk := keeps_connect2 hr.wf h1
    have hu1 : ∀ q ∈ ps, SinkOk g1 q.2.1 := fun q hq => (hu q (by simp [hq])).keeps hk
    have hs1 := logged_back s ps hr1 hu1 h2 hs
    rw [C102_fold ps hr1 hu1 h2 s hs sink i (fun n hn => Nat.lt_of_lt_of_le (ho n hn) hk.next),
      at_connect hr h1 s hs1 sink i ho]
    by_cases hc : r = .ok () ∧ hits sink i p.2 = true
    · rw [if_pos hc]
      simp only [brought, List.zip_cons_cons, List.filter_cons, hc.1, hc.2, decide_true, Bool.and_self, if_true,
        List.map_cons, List.foldl_cons]
    · rw [if_neg hc]
      have : (decide (r = .ok ()) && hits sink i p.2) = false := by
        rw [Bool.and_eq_false_iff]
        by_cases hr : r = .ok ()
        · right
          exact Bool.eq_false_iff.2 fun hh => hc ⟨hr, hh⟩
        · left
          exact decide_eq_false hr
      simp only [brought, List.zip_cons_cons, List.filter_cons, this, Bool.false_eq_true, if_false]

/-! ### Two orders -/

/-- The sources of a list of connections that name a sink channel, in the order of the list. -/
def sources {S : Type} (s : Signals S) (ps : List (Chan × Chan)) (sink : NG) (i : Nat) : List S :=
  (ps.filter fun p => hits sink i p.2).map fun p => s.src p.1.1.toSrc p.1.2

/-- All connections of the list are between existing channels and close no loop. -/
structure Plain (g : Graph) (ps : List (Chan × Chan)) : Prop where
  source : ∀ p ∈ ps, Valid g p.1
  sink : ∀ p ∈ ps, SinkLive g p.2
  loop : NoLoop g ps

theorem Plain.perm {g : Graph} {ps qs : List (Chan × Chan)} (h : Plain g ps) (hp : ps.Perm qs) : Plain g qs :=
  ⟨fun p m => h.source p (hp.mem_iff.2 m), fun p m => h.sink p (hp.mem_iff.2 m),
    fun p m q n => h.loop p (hp.mem_iff.2 m) q (hp.mem_iff.2 n)⟩

theorem brought_all {S : Type} (s : Signals S) (sink : NG) (i : Nat) : ∀ ps : List (Chan × Chan),
    brought s ps (List.replicate ps.length (.ok ())) sink i = sources s ps sink i
  | [] => rfl
  | p :: ps => by
    have ih := brought_all s sink i ps
    unfold brought sources at ih ⊢
    rw [List.length_cons, List.replicate_succ, List.zip_cons_cons, List.filter_cons, List.filter_cons]
    simp only [decide_true, Bool.true_and]
    split
    · rw [List.map_cons, List.map_cons, ih]
    · exact ih

/-- The signals of two graphs agree on the nodes that existed in `g` and on the graph inputs. -/
def Agree {S : Type} (g : Graph) (s t : Signals S) : Prop := (∀ k, k < g.nextKey → s.v k = t.v k) ∧ s.gin = t.gin

theorem Agree.at {S : Type} [AddZeroClass S] {g : Graph} {s t : Signals S} (ha : Agree g s t) (hw : WF g) (sink : NG) (i : Nat) :
    s.at (g.dst sink i) = t.at (g.dst sink i) := by
  have hlt : ∀ e a, g.dst sink i = some e → e.source = .node a → a < g.nextKey := by
    intro e a he hs
    cases sink with
    | node n => exact hw.srcLt _ _ _ _ he hs
    | graph => exact hw.outLt _ _ _ he hs
  cases he : g.dst sink i with
  | none => rfl
  | some e =>
    simp only [Signals.at]
    cases hs : e.source with
    | node k => simp only [Signals.src]; rw [ha.1 k (hlt e k he hs)]
    | graph => simp only [Signals.src]; rw [ha.2]

theorem Agree.sources {S : Type} {g : Graph} {s t : Signals S} (ha : Agree g s t) (hw : WF g)
    {ps : List (Chan × Chan)} (hv : ∀ p ∈ ps, Valid g p.1) (sink : NG) (i : Nat) :
    sources s ps sink i = sources t ps sink i := by
  unfold Mx.sources
  refine List.map_congr_left fun p hp => ?_
  have hp' := (List.mem_filter.1 hp).1
  cases hs : p.1.1.toSrc with
  | node k => simp only [Signals.src]; rw [ha.1 k ((hv p hp').src_lt hw hs)]
  | graph => simp only [Signals.src]; rw [ha.2]

/-- Every plain list of connections is accepted as a whole, the graph has signals that keep those of the existing
nodes, and each sink channel gets the sources that name it, added from left to right. -/
theorem C102_mix {S : Type} [AddZeroClass S] {sl} {g : Graph} (hr : Reach sl g) {ps : List (Chan × Chan)}
    (hp : Plain g ps) : ∃ g', logged sl true false g ps = .ok (g', List.replicate ps.length (.ok ())) ∧
      (∀ s : Signals S, SumsOk g s → ∃ s', SumsOk g' s' ∧ Agree g s' s) ∧
      ∀ s s' : Signals S, SumsOk g' s' → Agree g s' s → ∀ sink i, OldSink g sink →
        s'.at (g'.dst sink i) = (sources s ps sink i).foldl (· + ·) (s.at (g.dst sink i)) := by
  obtain ⟨g', h1, -, -⟩ := C63_accepted (add := true) ps hr hp.source hp.sink hp.loop
  have hu : ∀ p ∈ ps, SinkOk g p.2.1 := fun p h => (hp.sink p h).ok
  refine ⟨g', h1, fun s hs => ?_, fun s s' hs' ha sink i ho => ?_⟩
  · obtain ⟨s', a, b, c⟩ := C63_extend ps hr hu h1 s hs
    exact ⟨s', a, b, c⟩
  · rw [C102_fold ps hr hu h1 s' hs' sink i ho, brought_all, ha.sources hr.wf hp.source, ha.at hr.wf]

theorem foldl_sum {S : Type} [AddCommMonoid S] : ∀ (l : List S) (x : S), l.foldl (· + ·) x = x + l.sum
  | [], x => by simp
  | a :: l, x => by rw [List.foldl_cons, foldl_sum l, List.sum_cons, add_assoc]

/-- C102, exact addition: two orders of the same connections give every existing input and every graph output the
same signal. -/
theorem C102_order_partial {S : Type} [AddCommMonoid S] {sl} {g : Graph} (hr : Reach sl g) {ps qs : List (Chan × Chan)}
    (hp : Plain g ps) (hq : ps.Perm qs) :
    ∃ g₁ g₂, logged sl true false g ps = .ok (g₁, List.replicate ps.length (.ok ())) ∧
      logged sl true false g qs = .ok (g₂, List.replicate qs.length (.ok ())) ∧
      ∀ s₁ s₂ : Signals S, SumsOk g₁ s₁ → SumsOk g₂ s₂ → Agree g s₁ s₂ → ∀ sink i, OldSink g sink →
        s₁.at (g₁.dst sink i) = s₂.at (g₂.dst sink i) := by
  obtain ⟨g₁, a1, -, c1⟩ := C102_mix (S := S) hr hp
  obtain ⟨g₂, a2, -, c2⟩ := C102_mix (S := S) hr (hp.perm hq)
  refine ⟨g₁, g₂, a1, a2, fun s₁ s₂ h1 h2 ha sink i ho => ?_⟩
  rw [c1 s₂ s₁ h1 ha sink i ho, c2 s₂ s₂ h2 ⟨fun _ _ => rfl, rfl⟩ sink i ho, foldl_sum, foldl_sum]
  congr 1
  exact ((hq.filter _).map _).sum_eq

/-! ### Floats -/

/-- The finite floats with `p + 1` significant bits (no largest one). -/
def Flt (p : Nat) (emin : Int) : Type := { x : ℚ // Rep (p + 1) emin x }

/-- Addition rounds the exact sum. -/
instance (p : Nat) (emin : Int) : AddZeroClass (Flt p emin) where
  zero := ⟨0, 0, emin, by simp, by simp, le_refl _⟩
  add a b := ⟨rnd (p + 1) emin (a.1 + b.1), rep_rnd (by omega) _⟩
  zero_add a := Subtype.ext (by
    show rnd (p + 1) emin (0 + a.1) = a.1
    rw [zero_add, rnd_rep a.2])
  add_zero a := Subtype.ext (by
    show rnd (p + 1) emin (a.1 + 0) = a.1
    rw [add_zero, rnd_rep a.2])

theorem add_val {p : Nat} {emin : Int} (a b : Flt p emin) : (a + b).1 = rnd (p + 1) emin (a.1 + b.1) := rfl

/-- Addition of two floats never underflows: the error is relative to the sum. -/
theorem add_rel {p : Nat} {emin : Int} (a b : Flt p emin) :
    |(a + b).1 - (a.1 + b.1)| ≤ pow2 (-(p + 1 : Nat)) * |a.1 + b.1| := by
  rw [add_val]
  set x := a.1 + b.1 with hx
  have h0 := pow2_pos (-((p + 1 : Nat) : Int))
  by_cases hz : x = 0
  · rw [hz, rnd_zero]
    simp
  rcases max_choice (elog x - (((p + 1 : Nat) : Int) - 1)) emin with hh | hh
  · have hn := rnd_near (p := p + 1) (emin := emin) hz
    have hs := (elog_spec hz).1
    have : pow2 (ulpExp (p + 1) emin x) / 2 = pow2 (-((p + 1 : Nat) : Int)) * pow2 (elog x) := by
      rw [ulpExp, hh, ← pow2_add]
      have := pow2_add (-((p + 1 : Nat) : Int) + elog x) 1
      rw [show -((p + 1 : Nat) : Int) + elog x + 1 = elog x - (((p + 1 : Nat) : Int) - 1) by ring] at this
      rw [this]
      norm_num [pow2_eq]
    rw [this] at hn
    exact hn.trans (mul_le_mul_of_nonneg_left hs h0.le)
  · -- close to zero the sum is representable
    have hr : Rep (p + 1) emin x := by
      obtain ⟨m, e, h1, -, h3⟩ := a.2
      obtain ⟨m', e', h1', -, h3'⟩ := b.2
      obtain ⟨n, -, hn⟩ := pow2_div h3
      obtain ⟨n', -, hn'⟩ := pow2_div h3'
      have hxe : x = ((m * n + m' * n' : Int) : ℚ) * pow2 emin := by
        rw [hx, h1, h1', hn, hn']
        push_cast
        ring
      refine ⟨m * n + m' * n', emin, hxe, ?_, le_refl _⟩
      have h4 := (elog_spec hz).2
      have h5 : elog x + 1 ≤ (p + 1 : Nat) + emin := by
        have := max_eq_right_iff.1 hh
        push_cast at this ⊢
        omega
      have h6 := lt_of_lt_of_le h4 (pow2_le h5)
      rw [pow2_add, hxe, abs_mul, abs_of_pos (pow2_pos emin)] at h6
      have h7 := lt_of_mul_lt_mul_right h6 (pow2_pos emin).le
      rw [pow2_nat] at h7
      exact_mod_cast h7
    rw [rnd_rep hr, sub_self, abs_zero]
    exact mul_nonneg h0.le (abs_nonneg _)

/-- The exact sum of floats. -/
def exact {p emin} (l : List (Flt p emin)) : ℚ := (l.map (·.1)).sum

/-- The sum of the absolute values. -/
def size {p emin} (l : List (Flt p emin)) : ℚ := (l.map fun x => |x.1|).sum

theorem size_nonneg {p emin} : ∀ l : List (Flt p emin), 0 ≤ size l
  | [] => le_refl _
  | x :: l => by
    have := size_nonneg l
    simp only [size, List.map_cons, List.sum_cons] at this ⊢
    exact add_nonneg (abs_nonneg _) this

/-- C102, the error of a mix of `n` connections: at most `(1 + u)^n - 1` times the sum of the absolute values, with `u`
half the distance of one to the next float. -/
theorem C102_error {p emin} : ∀ (l : List (Flt p emin)) (x : Flt p emin),
    |(l.foldl (· + ·) x).1 - (x.1 + exact l)| ≤ ((1 + pow2 (-(p + 1 : Nat))) ^ l.length - 1) * (|x.1| + size l)
  | [], x => by simp [exact, size]
  | a :: l, x => by
    have ih := C102_error l (x + a)
    have hr := add_rel x a
    have h0 := pow2_pos (-((p + 1 : Nat) : Int))
    have hs := size_nonneg l
    set u := pow2 (-((p + 1 : Nat) : Int)) with hu
    set K := (1 + u) ^ l.length with hK
    have hK1 : 1 ≤ K := one_le_pow₀ (by linarith)
    have ha : |x.1 + a.1| ≤ |x.1| + |a.1| := abs_add_le _ _
    have hb : |(x + a).1| ≤ (1 + u) * (|x.1| + |a.1|) := by
      have h1 : |(x + a).1| ≤ |(x + a).1 - (x.1 + a.1)| + |x.1 + a.1| := by
        have := abs_add_le ((x + a).1 - (x.1 + a.1)) (x.1 + a.1)
        rwa [sub_add_cancel] at this
      have := mul_le_mul_of_nonneg_left ha h0.le
      linarith
    have e1 : exact (a :: l) = a.1 + exact l := by simp [exact]
    have e2 : size (a :: l) = |a.1| + size l := by simp [size]
    rw [List.foldl_cons, e1, e2, List.length_cons, pow_succ, ← hK]
    have h2 : |(l.foldl (· + ·) (x + a)).1 - (x.1 + (a.1 + exact l))| ≤
        |(l.foldl (· + ·) (x + a)).1 - ((x + a).1 + exact l)| + |(x + a).1 - (x.1 + a.1)| := by
      have := abs_add_le ((l.foldl (· + ·) (x + a)).1 - ((x + a).1 + exact l)) ((x + a).1 - (x.1 + a.1))
      refine le_trans (le_of_eq ?_) this
      congr 1
      ring
    have h3 := mul_le_mul_of_nonneg_left hb (sub_nonneg.2 hK1)
    have h4 := mul_le_mul_of_nonneg_left ha h0.le
    have h5 : 0 ≤ K * u * size l := mul_nonneg (mul_nonneg (by linarith) h0.le) hs
    nlinarith

/-- C102, floats: two orders of the same connections give every existing input and every graph output signals that
differ by at most `2 ((1 + u)^n - 1)` times the sum of the absolute values of what is mixed there, where `n` is the
number of connections to it.  Missing: in general they are not the same. -/
theorem C102_partial {p : Nat} {emin : Int} {sl} {g : Graph} (hr : Reach sl g) {ps qs : List (Chan × Chan)}
    (hp : Plain g ps) (hq : ps.Perm qs) :
    ∃ g₁ g₂, logged sl true false g ps = .ok (g₁, List.replicate ps.length (.ok ())) ∧
      logged sl true false g qs = .ok (g₂, List.replicate qs.length (.ok ())) ∧
      ∀ s₁ s₂ : Signals (Flt p emin), SumsOk g₁ s₁ → SumsOk g₂ s₂ → Agree g s₁ s₂ → ∀ sink i, OldSink g sink →
        |(s₁.at (g₁.dst sink i)).1 - (s₂.at (g₂.dst sink i)).1| ≤
          2 * ((1 + pow2 (-(p + 1 : Nat))) ^ (sources s₂ ps sink i).length - 1) *
            (|(s₂.at (g.dst sink i)).1| + size (sources s₂ ps sink i)) := by
  obtain ⟨g₁, a1, -, c1⟩ := C102_mix (S := Flt p emin) hr hp
  obtain ⟨g₂, a2, -, c2⟩ := C102_mix (S := Flt p emin) hr (hp.perm hq)
  refine ⟨g₁, g₂, a1, a2, fun s₁ s₂ h1 h2 ha sink i ho => ?_⟩
  rw [c1 s₂ s₁ h1 ha sink i ho, c2 s₂ s₂ h2 ⟨fun _ _ => rfl, rfl⟩ sink i ho]
  have hl : (sources s₂ ps sink i).Perm (sources s₂ qs sink i) := (hq.filter _).map _
  have k1 := C102_error (sources s₂ ps sink i) (s₂.at (g.dst sink i))
  have k2 := C102_error (sources s₂ qs sink i) (s₂.at (g.dst sink i))
  have e1 : exact (sources s₂ qs sink i) = exact (sources s₂ ps sink i) := ((hl.map _).sum_eq).symm
  have e2 : size (sources s₂ qs sink i) = size (sources s₂ ps sink i) := ((hl.map _).sum_eq).symm
  rw [e1, e2, ← hl.length_eq] at k2
  rw [abs_le] at k1 k2 ⊢
  constructor <;> linarith [k1.1, k1.2, k2.1, k2.2]

/-- C102, two sources: the order of two connections to an input that had none has no influence at all. -/
theorem C102_two {p : Nat} {emin : Int} (a b : Flt p emin) :
    [a, b].foldl (· + ·) 0 = [b, a].foldl (· + ·) 0 := by
  simp only [List.foldl_cons, List.foldl_nil, zero_add]
  exact Subtype.ext (congrArg (rnd (p + 1) emin) (add_comm a.1 b.1))

/-! ### A witness -/

/-- Three generators and a mixer. -/
def bus : Graph :=
  pushNode id (pushNode id (pushNode id (pushNode id (Graph.init 7 0 1) (userNode 0 1 [])) (userNode 0 1 []))
    (userNode 0 1 [])) (userNode 1 1 [])

theorem bus_reach : Reach id bus :=
  .step (.push 1 1 []) (.step (.push 0 1 []) (.step (.push 0 1 []) (.step (.push 0 1 []) (.init 7 0 1) rfl) rfl) rfl) rfl

/-- The connection of one generator to the mixer. -/
def wire (k : Nat) : Chan × Chan := ((.node ⟨k, 7⟩, 0), (.node ⟨3, 7⟩, 0))

theorem bus_plain : Plain bus [wire 0, wire 1, wire 2] := by
  refine ⟨?_, ?_, ?_⟩
  · intro p hp
    simp only [List.mem_cons, List.not_mem_nil, or_false] at hp
    rcases hp with rfl | rfl | rfl <;> exact ⟨by decide, _, rfl, by decide⟩
  · intro p hp
    simp only [List.mem_cons, List.not_mem_nil, or_false] at hp
    rcases hp with rfl | rfl | rfl <;> exact ⟨by decide, _, rfl, by decide, by decide, by decide⟩
  · intro p hp q hq k s hk hs
    have e : ∀ p ∈ [wire 0, wire 1, wire 2], p.2.1 = .node ⟨3, 7⟩ ∧
        (p.1.1 = .node ⟨0, 7⟩ ∨ p.1.1 = .node ⟨1, 7⟩ ∨ p.1.1 = .node ⟨2, 7⟩) := by decide
    have h1 := (e p hp).1
    rw [hk] at h1
    cases h1
    rw [← hasPath_iff]
    have h2 := (e q hq).2
    rw [hs] at h2
    rcases h2 with h | h | h <;> cases h <;> decide

/-- C102 violated for `f32`: three generators that play 2^24, 1 and 1.  Connected in this order the mixer gets 2^24;
connected with the loud one last it gets 2^24 + 2. -/
theorem C102_violated : ∃ g₁ g₂, logged id true false bus [wire 0, wire 1, wire 2] = .ok (g₁, [.ok (), .ok (), .ok ()]) ∧
    logged id true false bus [wire 1, wire 2, wire 0] = .ok (g₂, [.ok (), .ok (), .ok ()]) ∧
    ∃ s₁ s₂ : Signals (Flt 23 (-149)), SumsOk g₁ s₁ ∧ SumsOk g₂ s₂ ∧ Agree bus s₁ s₂ ∧
      (s₁.at (g₁.dst (.node ⟨3, 7⟩) 0)).1 = 2 ^ 24 ∧ (s₂.at (g₂.dst (.node ⟨3, 7⟩) 0)).1 = 2 ^ 24 + 2 := by
  have hq : [wire 0, wire 1, wire 2].Perm [wire 1, wire 2, wire 0] := by decide
  obtain ⟨g₁, a1, b1, c1⟩ := C102_mix (S := Flt 23 (-149)) bus_reach bus_plain
  obtain ⟨g₂, a2, b2, c2⟩ := C102_mix (S := Flt 23 (-149)) bus_reach (bus_plain.perm hq)
  let one : Flt 23 (-149) := ⟨1, 1, 0, by decide +kernel, by decide, by decide⟩
  let big : Flt 23 (-149) := ⟨2 ^ 24, 1, 24, by decide +kernel, by decide, by decide⟩
  let s : Signals (Flt 23 (-149)) := ⟨fun k _ => if k = 0 then big else one, fun _ => one⟩
  have hs : SumsOk bus s := by
    intro k n hn hm
    exfalso
    rcases k with _ | _ | _ | _ | k
    · revert hm; cases hn; decide
    · revert hm; cases hn; decide
    · revert hm; cases hn; decide
    · revert hm; cases hn; decide
    · revert hn; simp [get_eq, bus, pushNode, Graph.init]
  obtain ⟨s₁, d1, e1⟩ := b1 s hs
  obtain ⟨s₂, d2, e2⟩ := b2 s hs
  have ho : OldSink bus (.node ⟨3, 7⟩) := by
    intro n hn
    cases hn
    decide
  refine ⟨g₁, g₂, a1, a2, s₁, s₂, d1, d2,
    ⟨fun k hk => (e1.1 k hk).trans (e2.1 k hk).symm, e1.2.trans e2.2.symm⟩, ?_, ?_⟩
  · rw [c1 s s₁ d1 e1 _ 0 ho]
    show rnd 24 (-149) (rnd 24 (-149) (rnd 24 (-149) (0 + 2 ^ 24) + 1) + 1) = 2 ^ 24
    decide +kernel
  · rw [c2 s s₂ d2 e2 _ 0 ho]
    show rnd 24 (-149) (rnd 24 (-149) (rnd 24 (-149) (0 + 1) + 1) + 2 ^ 24) = 2 ^ 24 + 2
    decide +kernel

/-- The hypotheses of `C102_mix`, `C102_order_partial` and `C102_partial` hold for the three generators, in exact and in
rounded arithmetic. -/
example : Reach id bus ∧ Plain bus [wire 0, wire 1, wire 2] ∧
    [wire 0, wire 1, wire 2].Perm [wire 1, wire 2, wire 0] ∧ OldSink bus (.node ⟨3, 7⟩) :=
  ⟨bus_reach, bus_plain, by decide, by intro n hn; cases hn; decide⟩

end Verif.Mx
