import Verif.Model.Chain
import Mathlib.Data.List.Basic
import Mathlib.Data.List.Induction
import Mathlib.Algebra.Order.Field.Rat

/-!
# C98: a chain of arithmetic wrappers computes what is written
-/

namespace Verif.Ch

variable {σ I S V : Type}

/-! ### What is written -/

/-- One method call of the chain. -/
inductive Step (S : Type) where
  | times (v : S)
  | plus (v : S)
  | minus (v : S)
  | minusFrom (v : S)
  | over (v : S)
  | under (v : S)
  | power (v : S)
  | powerInt (n : Int)
  deriving DecidableEq

/-- What the documentation (wrappers_core.rs 29–44) says a call does to a sample. -/
def Step.act (A : Arith S V) : Step S → S → S
  | .times v, y => A.mul y v
  | .plus v, y => A.add y v
  | .minus v, y => A.sub y v
  | .minusFrom v, y => A.sub v y
  | .over v, y => A.div y v
  | .under v, y => A.div v y
  | .power v, y => A.powf y v
  | .powerInt n, y => A.powi y n

/-- The calls one after the other. -/
def meaning (A : Arith S V) (ws : List (Step S)) (y : S) : S := ws.foldl (fun y w => w.act A y) y

def Step.isTimes : Step S → Bool
  | .times _ => true
  | _ => false

/-- The number of factors. -/
def factors (ws : List (Step S)) : Nat := ws.countP Step.isTimes

/-- Another value for factor `k`, counted in the order of the calls. -/
def setFactor : Nat → S → List (Step S) → List (Step S)
  | _, _, [] => []
  | 0, v, .times _ :: ws => .times v :: ws
  | k + 1, v, .times a :: ws => .times a :: setFactor k v ws
  | k, v, .plus a :: ws => .plus a :: setFactor k v ws
  | k, v, .minus a :: ws => .minus a :: setFactor k v ws
  | k, v, .minusFrom a :: ws => .minusFrom a :: setFactor k v ws
  | k, v, .over a :: ws => .over a :: setFactor k v ws
  | k, v, .under a :: ws => .under a :: setFactor k v ws
  | k, v, .power a :: ws => .power a :: setFactor k v ws
  | k, v, .powerInt a :: ws => .powerInt a :: setFactor k v ws

/-- A factor is given a parameter value. -/
def specFactor (A : Arith S V) (s : σ) (ws : List (Step S)) (k : Nat) : PVal V → R ((σ × List (Step S)) × Out S)
  | .float x => .ok ((s, setFactor k (A.new x) ws), .param true)
  | .other _ => .error .unwrap

/-- The wrapped unit generator is given a parameter value. -/
def specInner (B : Inner σ I S V) (s : σ) (ws : List (Step S)) (i : Nat) (p : PVal V) : R ((σ × List (Step S)) × Out S) := do
  let s' ← B.apply s i p
  return ((s', ws), .param true)

/-- What an operation on the written chain should do: the unit generator runs and the expression is applied to each sample; its
parameters come first, then the factors in the order they were written; a name that the unit generator has is its own, and `wr_mul`
is the first factor. -/
def specOp (A : Arith S V) (B : Inner σ I S V) (s : σ) (ws : List (Step S)) : Op I V → R ((σ × List (Step S)) × Out S)
  | .frame x => .ok (((B.frame s x).1, ws), .frame ((B.frame s x).2.map (meaning A ws)))
  | .block xs => .ok (((B.block s xs).1, ws), .block ((B.block s xs).2.map (List.map (meaning A ws))))
  | .param (.index i) p =>
    if i < B.params.length then specInner B s ws i p
    else if i < B.params.length + factors ws then specFactor A s ws (i - B.params.length) p
    else .ok ((s, ws), .param false)
  | .param (.desc d) p =>
    if d ∈ B.params then specInner B s ws (B.params.idxOf d) p
    else if d = "wr_mul" ∧ 0 < factors ws then specFactor A s ws 0 p
    else .ok ((s, ws), .param false)

/-- A history on the written chain. -/
def specRun (A : Arith S V) (B : Inner σ I S V) : σ × List (Step S) → List (Op I V) → R ((σ × List (Step S)) × List (Out S))
  | q, [] => .ok (q, [])
  | q, o :: os => do
    let r ← specOp A B q.1 q.2 o
    let r' ← specRun A B r.1 os
    return (r'.1, r.2 :: r'.2)

/-! ### The value that the calls make -/

/-- The methods of `UGenWrapperCoreExt` (wrappers_core.rs 58–105). -/
def wrapWith (u : U σ S) : Step S → U σ S
  | .times v => .mul u v
  | .plus v => .add u v
  | .minus v => .sub u v
  | .minusFrom v => .vsub u v
  | .over v => .div u v
  | .under v => .vdiv u v
  | .power v => .powf u v
  | .powerInt n => .powi u n

/-- `s.wr_…(…).wr_…(…)…`. -/
def build (s : σ) (ws : List (Step S)) : U σ S := ws.foldl wrapWith (.inner s)

theorem build_append (s : σ) (ws : List (Step S)) (w : Step S) : build s (ws ++ [w]) = wrapWith (build s ws) w := by
  simp [build, List.foldl_append]

theorem meaning_append (A : Arith S V) (ws : List (Step S)) (w : Step S) (y : S) :
    meaning A (ws ++ [w]) y = w.act A (meaning A ws y) := by simp [meaning, List.foldl_append]

theorem factors_append (ws : List (Step S)) (w : Step S) : factors (ws ++ [w]) = factors ws + if w.isTimes then 1 else 0 := by
  simp only [factors, List.countP_append, List.countP_cons, List.countP_nil, Nat.zero_add]

theorem frame_build (A : Arith S V) (B : Inner σ I S V) (s : σ) (x : I) (ws : List (Step S)) :
    (build s ws).frame A B x = (build (B.frame s x).1 ws, (B.frame s x).2.map (meaning A ws)) := by
  induction ws using List.reverseRecOn with
  | nil =>
    have : meaning A ([] : List (Step S)) = id := rfl
    simp [build, U.frame, this]
  | append_singleton ws w ih =>
    rw [build_append, build_append]
    cases w <;> simp only [wrapWith, U.frame, ih, List.map_map, Prod.mk.injEq, true_and] <;>
      (apply List.map_congr_left; intro y _; simp [meaning_append, Step.act])

theorem block_build (A : Arith S V) (B : Inner σ I S V) (s : σ) (xs : List I) (ws : List (Step S)) :
    (build s ws).block A B xs = (build (B.block s xs).1 ws, (B.block s xs).2.map (List.map (meaning A ws))) := by
  induction ws using List.reverseRecOn with
  | nil =>
    have : meaning A ([] : List (Step S)) = id := rfl
    simp [build, U.block, this]
  | append_singleton ws w ih =>
    rw [build_append, build_append]
    cases w <;> simp only [wrapWith, U.block, ih, List.map_map, Prod.mk.injEq, true_and] <;>
      (apply List.map_congr_left; intro ch _; simp only [Function.comp_apply, List.map_map]; apply List.map_congr_left; intro y _
       simp [meaning_append, Step.act])

theorem params_build (B : Inner σ I S V) (s : σ) (ws : List (Step S)) :
    (build s ws).params B = B.params ++ List.replicate (factors ws) "wr_mul" := by
  induction ws using List.reverseRecOn with
  | nil => simp [build, U.params, factors]
  | append_singleton ws w ih =>
    rw [build_append, factors_append]
    cases w <;> simp [wrapWith, U.params, ih, Step.isTimes, List.replicate_succ']

theorem setFactor_append_lt (v : S) (w : Step S) : ∀ (ws : List (Step S)) (k : Nat), k < factors ws →
    setFactor k v (ws ++ [w]) = setFactor k v ws ++ [w] := by
  intro ws
  induction ws with
  | nil => intro k h; simp [factors] at h
  | cons a ws ih =>
    intro k h
    cases a with
    | times a =>
      cases k with
      | zero => rfl
      | succ k =>
        have : k < factors ws := by simpa [factors, List.countP_cons, Step.isTimes] using h
        simp only [List.cons_append, setFactor, ih k this]
    | plus a => simp only [List.cons_append, setFactor, ih k (by simpa [factors, List.countP_cons, Step.isTimes] using h)]
    | minus a => simp only [List.cons_append, setFactor, ih k (by simpa [factors, List.countP_cons, Step.isTimes] using h)]
    | minusFrom a => simp only [List.cons_append, setFactor, ih k (by simpa [factors, List.countP_cons, Step.isTimes] using h)]
    | over a => simp only [List.cons_append, setFactor, ih k (by simpa [factors, List.countP_cons, Step.isTimes] using h)]
    | under a => simp only [List.cons_append, setFactor, ih k (by simpa [factors, List.countP_cons, Step.isTimes] using h)]
    | power a => simp only [List.cons_append, setFactor, ih k (by simpa [factors, List.countP_cons, Step.isTimes] using h)]
    | powerInt a => simp only [List.cons_append, setFactor, ih k (by simpa [factors, List.countP_cons, Step.isTimes] using h)]

theorem setFactor_append_last (v a : S) : ∀ (ws : List (Step S)), setFactor (factors ws) v (ws ++ [.times a]) = ws ++ [.times v] := by
  intro ws
  induction ws with
  | nil => rfl
  | cons b ws ih =>
    cases b with
    | times b =>
      rw [show factors (.times b :: ws) = factors ws + 1 by simp [factors, List.countP_cons, Step.isTimes]]
      simp only [List.cons_append, setFactor, ih]
    | plus b =>
      rw [show factors (.plus b :: ws) = factors ws by simp [factors, Step.isTimes]]
      simp only [List.cons_append, setFactor, ih]
    | minus b =>
      rw [show factors (.minus b :: ws) = factors ws by simp [factors, Step.isTimes]]
      simp only [List.cons_append, setFactor, ih]
    | minusFrom b =>
      rw [show factors (.minusFrom b :: ws) = factors ws by simp [factors, Step.isTimes]]
      simp only [List.cons_append, setFactor, ih]
    | over b =>
      rw [show factors (.over b :: ws) = factors ws by simp [factors, Step.isTimes]]
      simp only [List.cons_append, setFactor, ih]
    | under b =>
      rw [show factors (.under b :: ws) = factors ws by simp [factors, Step.isTimes]]
      simp only [List.cons_append, setFactor, ih]
    | power b =>
      rw [show factors (.power b :: ws) = factors ws by simp [factors, Step.isTimes]]
      simp only [List.cons_append, setFactor, ih]
    | powerInt b =>
      rw [show factors (.powerInt b :: ws) = factors ws by simp [factors, Step.isTimes]]
      simp only [List.cons_append, setFactor, ih]

theorem apply_inner (A : Arith S V) (B : Inner σ I S V) (s : σ) (i : Nat) (p : PVal V) (hi : i < B.params.length) (ws : List (Step S)) :
    (build s ws).apply A B i p = (B.apply s i p >>= fun s' => .ok (build s' ws)) := by
  induction ws using List.reverseRecOn with
  | nil => simp only [build, List.foldl_nil, U.apply]; cases B.apply s i p <;> rfl
  | append_singleton ws w ih =>
    rw [build_append]
    have hl : i ≠ ((build s ws).params B).length := by rw [params_build, List.length_append]; omega
    cases w <;> simp only [wrapWith, U.apply, hl, if_false, ih] <;> cases B.apply s i p <;>
      first
        | rfl
        | (simp only [bind_ok, pure_ok, build_append]; rfl)

theorem apply_factor (A : Arith S V) (B : Inner σ I S V) (s : σ) (k : Nat) (p : PVal V) (ws : List (Step S)) (hk : k < factors ws) :
    (build s ws).apply A B (B.params.length + k) p =
      match p with
      | .float x => .ok (build s (setFactor k (A.new x) ws))
      | .other _ => .error .unwrap := by
  induction ws using List.reverseRecOn with
  | nil => simp [factors] at hk
  | append_singleton ws w ih =>
    rw [build_append]
    by_cases hlt : k < factors ws
    · have hl : B.params.length + k ≠ ((build s ws).params B).length := by
        rw [params_build, List.length_append, List.length_replicate]; omega
      cases p with
      | float x =>
        simp only [setFactor_append_lt (A.new x) w ws k hlt, build_append]
        cases w <;> simp only [wrapWith, U.apply, hl, if_false, ih hlt] <;> rfl
      | other n => cases w <;> simp only [wrapWith, U.apply, hl, if_false, ih hlt] <;> rfl
    · rw [factors_append] at hk
      cases w with
      | times a =>
        have hk' : k = factors ws := by simp [Step.isTimes] at hk; omega
        subst hk'
        have hl : B.params.length + factors ws = ((build s ws).params B).length := by
          rw [params_build, List.length_append, List.length_replicate]
        simp only [wrapWith, U.apply, hl, if_true]
        cases p with
        | float x => simp only [setFactor_append_last, build_append, wrapWith]
        | other n => rfl
      | plus a => simp [Step.isTimes] at hk; omega
      | minus a => simp [Step.isTimes] at hk; omega
      | minusFrom a => simp [Step.isTimes] at hk; omega
      | over a => simp [Step.isTimes] at hk; omega
      | under a => simp [Step.isTimes] at hk; omega
      | power a => simp [Step.isTimes] at hk; omega
      | powerInt a => simp [Step.isTimes] at hk; omega

theorem firstIdx_mem (d : String) : ∀ (l : List String) (i : Nat), d ∈ l → firstIdx d l i = some (i + l.idxOf d) := by
  intro l
  induction l with
  | nil => intro i h; simp at h
  | cons e es ih =>
    intro i h
    unfold firstIdx
    by_cases he : e = d
    · rw [if_pos he, he, List.idxOf_cons_self, Nat.add_zero]
    · rw [if_neg he, ih (i + 1) (by simpa [Ne.symm he] using h), List.idxOf_cons_ne _ he]
      congr 1; omega

theorem firstIdx_notMem (d : String) : ∀ (l : List String) (i : Nat), d ∉ l → firstIdx d l i = none := by
  intro l
  induction l with
  | nil => intro i _; rfl
  | cons e es ih =>
    intro i h
    rw [List.mem_cons, not_or] at h
    unfold firstIdx
    rw [if_neg (Ne.symm h.1), ih (i + 1) h.2]

theorem op_build (A : Arith S V) (B : Inner σ I S V) (s : σ) (ws : List (Step S)) (o : Op I V) :
    (build s ws).op A B o = (specOp A B s ws o >>= fun r => .ok (build r.1.1 r.1.2, r.2)) := by
  have byFactor : ∀ k p, k < factors ws → ((build s ws).apply A B (B.params.length + k) p >>= fun u' => Except.ok (u', Out.param true)) =
      (specFactor A s ws k p >>= fun r => .ok (build r.1.1 r.1.2, r.2)) := by
    intro k p hk
    rw [apply_factor A B s k p ws hk]
    cases p <;> rfl
  have byInner : ∀ i p, i < B.params.length → ((build s ws).apply A B i p >>= fun u' => Except.ok (u', Out.param true)) =
      (specInner B s ws i p >>= fun r => .ok (build r.1.1 r.1.2, r.2)) := by
    intro i p hi
    rw [apply_inner A B s i p hi ws]
    unfold specInner
    cases B.apply s i p <;> rfl
  cases o with
  | frame x => simp only [U.op, frame_build, specOp, bind_ok]
  | block xs => simp only [U.op, block_build, specOp, bind_ok]
  | param w p =>
    cases w with
    | index i =>
      simp only [U.op, U.param, params_build, List.length_append, List.length_replicate, specOp]
      by_cases h1 : i < B.params.length
      · rw [if_neg (by omega), if_pos h1, ← byInner i p h1]
        cases (build s ws).apply A B i p <;> rfl
      · rw [if_neg h1]
        by_cases h2 : i < B.params.length + factors ws
        · rw [if_neg (by omega), if_pos h2, ← byFactor _ p (by omega), Nat.add_sub_cancel' (by omega)]
          cases (build s ws).apply A B i p <;> rfl
        · rw [if_pos (by omega), if_neg h2]
          rfl
    | desc d =>
      simp only [U.op, U.param, params_build, specOp]
      by_cases h1 : d ∈ B.params
      · rw [firstIdx_mem d _ 0 (List.mem_append_left _ h1), if_pos h1, ← byInner _ p (List.idxOf_lt_length_of_mem h1),
          List.idxOf_append_of_mem h1, Nat.zero_add]
        simp only
        cases (build s ws).apply A B (B.params.idxOf d) p <;> rfl
      · rw [if_neg h1]
        by_cases h2 : d = "wr_mul" ∧ 0 < factors ws
        · have hm : d ∈ B.params ++ List.replicate (factors ws) "wr_mul" := by
            rw [List.mem_append, List.mem_replicate]; exact .inr ⟨by omega, h2.1⟩
          have hix : (B.params ++ List.replicate (factors ws) "wr_mul").idxOf d = B.params.length + 0 := by
            rw [List.idxOf_append_of_notMem h1]
            obtain ⟨n, hn⟩ : ∃ n, factors ws = n + 1 := ⟨factors ws - 1, by omega⟩
            rw [hn, List.replicate_succ, h2.1, List.idxOf_cons_self]
          rw [if_pos h2, firstIdx_mem d _ 0 hm, hix, Nat.zero_add, ← byFactor 0 p h2.2]
          simp only
          cases (build s ws).apply A B (B.params.length + 0) p <;> rfl
        · have hm : d ∉ B.params ++ List.replicate (factors ws) "wr_mul" := by
            rw [List.mem_append, List.mem_replicate]
            rintro (h | ⟨h, h'⟩)
            · exact h1 h
            · exact h2 ⟨h', by omega⟩
          rw [if_neg h2, firstIdx_notMem d _ 0 hm]
          rfl

/-- **C98**: for every unit generator, every chain of calls and every history of frames, blocks and parameter changes, the value that the
calls make behaves like the written expression applied to each sample of the unit generator. -/
theorem C98_history (A : Arith S V) (B : Inner σ I S V) (ops : List (Op I V)) : ∀ (s : σ) (ws : List (Step S)),
    (build s ws).run A B ops = (specRun A B (s, ws) ops >>= fun r => .ok (build r.1.1 r.1.2, r.2)) := by
  induction ops with
  | nil => intro s ws; rfl
  | cons o os ih =>
    intro s ws
    simp only [U.run, specRun, op_build]
    cases e : specOp A B s ws o with
    | error x => rfl
    | ok r =>
      simp only [bind_ok]
      rw [ih r.1.1 r.1.2]
      cases specRun A B (r.1.1, r.1.2) os with
      | error x => rfl
      | ok r' => rfl

/-- **C98**: a chain never fails by itself: a history fails only where the unit generator fails or a factor gets a value that is not a
number. -/
theorem C98_no_panic (A : Arith S V) (B : Inner σ I S V) (hB : ∀ s i x, ∃ s', B.apply s i (.float x) = .ok s') (ops : List (Op I V))
    (hops : ∀ w p, Op.param w p ∈ ops → ∃ x, p = .float x) : ∀ (s : σ) (ws : List (Step S)), ∃ r, (build s ws).run A B ops = .ok r := by
  intro s ws
  rw [C98_history]
  suffices h : ∃ r, specRun A B (s, ws) ops = .ok r by
    obtain ⟨r, h⟩ := h
    exact ⟨_, by rw [h]; rfl⟩
  induction ops generalizing s ws with
  | nil => exact ⟨_, rfl⟩
  | cons o os ih =>
    have hone : ∃ r, specOp A B s ws o = .ok r := by
      cases o with
      | frame x => exact ⟨_, rfl⟩
      | block xs => exact ⟨_, rfl⟩
      | param w p =>
        obtain ⟨x, rfl⟩ := hops w p (by simp)
        have hin : ∀ i, ∃ r, specInner B s ws i (.float x) = .ok r := by
          intro i
          obtain ⟨s', h⟩ := hB s i x
          exact ⟨_, by unfold specInner; rw [h]; rfl⟩
        cases w with
        | index i =>
          simp only [specOp]
          split
          · exact hin i
          · split
            · exact ⟨_, rfl⟩
            · exact ⟨_, rfl⟩
        | desc d =>
          simp only [specOp]
          split
          · exact hin _
          · split
            · exact ⟨_, rfl⟩
            · exact ⟨_, rfl⟩
    obtain ⟨r, h⟩ := hone
    obtain ⟨r', h'⟩ := ih (fun w p h => hops w p (List.mem_cons_of_mem _ h)) r.1.1 r.1.2
    exact ⟨(r'.1, r.2 :: r'.2), by simp only [specRun, h, bind_ok, h', pure_ok]⟩

/-- Parameter changes of the history name the parameter. -/
def ByName (ops : List (Op I V)) : Prop := ∀ i p, Op.param (.index i) p ∉ ops

/-- **C98 is violated** for names: all factors have the same description `wr_mul`, and no history of changes by name reaches the second. -/
theorem C98_name_violated (A : Arith S V) (B : Inner σ I S V) (a b : S) (ops : List (Op I V)) (hn : ByName ops) (s : σ) (u : U σ S)
    (o : List (Out S)) (h : (build s [.times a, .times b]).run A B ops = .ok (u, o)) :
    (build s [.times a, .times b]).params B = B.params ++ ["wr_mul", "wr_mul"] ∧ ∃ s' a', u = build s' [.times a', .times b] := by
  refine ⟨params_build B s [.times a, .times b], ?_⟩
  rw [C98_history] at h
  induction ops generalizing s a u o with
  | nil =>
    simp only [specRun, bind_ok, Except.ok.injEq, Prod.mk.injEq] at h
    exact ⟨s, a, h.1.symm⟩
  | cons op os ih =>
    have hstep : ∀ r, specOp A B s [.times a, .times b] op = .ok r → ∃ s' a', r.1 = (s', [.times a', .times b]) := by
      intro r hr
      cases op with
      | frame x => simp only [specOp, Except.ok.injEq] at hr; rw [← hr]; exact ⟨_, _, rfl⟩
      | block xs => simp only [specOp, Except.ok.injEq] at hr; rw [← hr]; exact ⟨_, _, rfl⟩
      | param w p =>
        cases w with
        | index i => exact absurd (List.mem_cons_self) (hn i p)
        | desc d =>
          simp only [specOp] at hr
          split at hr
          · unfold specInner at hr
            cases e : B.apply s (B.params.idxOf d) p with
            | error x => rw [e] at hr; simp at hr
            | ok s' =>
              rw [e] at hr
              simp only [bind_ok, pure_ok, Except.ok.injEq] at hr
              rw [← hr]
              exact ⟨_, _, rfl⟩
          · split at hr
            · cases p with
              | float x =>
                simp only [specFactor, setFactor, Except.ok.injEq] at hr
                rw [← hr]
                exact ⟨_, _, rfl⟩
              | other n => simp [specFactor] at hr
            · simp only [Except.ok.injEq] at hr
              rw [← hr]
              exact ⟨_, _, rfl⟩
    cases e : specOp A B s [.times a, .times b] op with
    | error x => simp only [specRun, e, bind_error] at h; simp at h
    | ok r =>
      obtain ⟨s', a', hr⟩ := hstep r e
      simp only [specRun, e, bind_ok, hr] at h
      cases e' : specRun A B (s', [.times a', .times b]) os with
      | error x => rw [e'] at h; simp at h
      | ok r' =>
        rw [e'] at h
        simp only [bind_ok, pure_ok, Except.ok.injEq, Prod.mk.injEq] at h
        exact ih a' (fun i p hm => hn i p (List.mem_cons_of_mem _ hm)) s' u r'.2 (by rw [e']; simp only [bind_ok]; rw [h.1])

/-! ### A concrete chain -/

/-- Exact arithmetic, without powers. -/
def ratArith : Arith ℚ ℚ := ⟨(· * ·), (· + ·), (· - ·), (· / ·), fun a _ => a, fun a n => a ^ n, id⟩

/-- A unit generator that puts out its input and a parameter. -/
def holder : Inner ℚ ℚ ℚ ℚ where
  frame := fun s x => (s, [x, s])
  block := fun s xs => (s, [xs, xs.map fun _ => s])
  params := ["hold"]
  apply := fun _ _ p => match p with
    | .float x => .ok x
    | .other _ => .error .unwrap

/-- `holder.wr_mul(2).wr_v_sub_gen(7).wr_powi(2).wr_mul(3)`: a frame, all three parameters, a block. -/
example : (build (1 : ℚ) [.times 2, .minusFrom 7, .powerInt 2, .times 3]).run ratArith holder
    [.frame 5, .param (.desc "hold") (.float 2), .param (.desc "wr_mul") (.float 1), .param (.index 2) (.float 10),
      .param (.index 3) (.float 0), .block [5, 6]] =
    .ok (build 2 [.times 1, .minusFrom 7, .powerInt 2, .times 10],
      [.frame [27, 75], .param true, .param true, .param true, .param false, .block [[40, 10], [250, 250]]]) := by decide +kernel

example : (∀ s i x, ∃ s', holder.apply s i (.float x) = .ok s') := fun _ _ x => ⟨x, rfl⟩

example : ByName [(.param (.desc "wr_mul") (.float (4 : ℚ)) : Op ℚ ℚ), .frame 1] ∧
    (build (1 : ℚ) [.times 2, .times 3]).run ratArith holder [.param (.desc "wr_mul") (.float 4), .frame 1] =
      .ok (build 1 [.times 4, .times 3], [.param true, .frame [12, 12]]) := by
  refine ⟨by intro i p; simp, by decide +kernel⟩

end Verif.Ch
