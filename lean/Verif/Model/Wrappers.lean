import Verif.Basic

/-!
# Unit generators and the wrappers around them

* `UGen` with its default `process_block` (`knaster_core/src/ugen.rs` 228–286)
* `WrPreciseTiming` (`knaster_core_dsp/src/wrappers_core/precise_timing.rs`)
* `WrArParams`, `WrArParamToInput` (`wrappers_core/audio_rate.rs`)
* `WrClosure` (`wrappers_core/closure.rs`) and the arithmetic wrappers (`wrappers_core/math.rs`)

Conventions and simplifications

* An input frame is a value of a type `I`, an output frame a function from the output channels, an
  output block a list of samples for each channel.  A (partial) block is given by its list of input
  frames, so `frames_to_process` is the length of that list, and views into a block (`PartialBlock`)
  are parts of the list; `C50` is about the addresses.
* Flags, the logger and `init` are left out.
* The wrapped unit generator is arbitrary.  Its parameters take values of a type `V`.
-/

namespace Verif.W

/-- An output frame with `outs` channels. -/
abbrev Frame (S : Type) (outs : Nat) := Fin outs → S

/-- An output block: the samples of each channel. -/
abbrev Block (S : Type) (outs : Nat) := Fin outs → List S

/-- `trait UGen` (ugen.rs 228–310). -/
structure UGen (I S V : Type) (outs : Nat) where
  St : Type
  /-- `process` -/
  frame : St → I → St × Frame S outs
  /-- `process_block` -/
  block : St → List I → St × Block S outs
  /-- `param_apply` -/
  apply : St → Nat → V → St

section
variable {I S V σ : Type} {outs : Nat}

/-- Processing frame by frame. -/
def frames (f : σ → I → σ × Frame S outs) : σ → List I → σ × List (Frame S outs)
  | s, [] => (s, [])
  | s, x :: xs =>
    let r := f s x
    let r' := frames f r.1 xs
    (r'.1, r.2 :: r'.2)

/-- Writing the frames to the output block. -/
def toBlock (fs : List (Frame S outs)) : Block S outs := fun c => fs.map fun f => f c

/-- The default `process_block` (ugen.rs 263–286). -/
def defaultBlock (f : σ → I → σ × Frame S outs) (s : σ) (xs : List I) : σ × Block S outs :=
  let r := frames f s xs
  (r.1, toBlock r.2)

/-! ### Precise timing -/

/-- A waiting change: frame in the block, parameter index, value. -/
abbrev Delayed (V : Type) := Nat × Nat × V

/-- `WrPreciseTiming` (precise_timing.rs 14–23); `waiting` has `DELAYED_CHANGES_PER_BLOCK` entries,
`cnt` is `next_delay_i`. -/
structure PT (σ V : Type) where
  inner : σ
  waiting : List (Option (Delayed V))
  nextDelay : Nat → Nat
  cnt : Nat

/-- `new` (precise_timing.rs 28–35). -/
def PT.init (s : σ) (cap : Nat) : PT σ V := ⟨s, List.replicate cap none, fun _ => 0, 0⟩

/-- `set_delay_within_block_for_param` (precise_timing.rs 146–148); `params` is the number of
parameters. -/
def PT.setDelay (params : Nat) (p : PT σ V) (idx delay : Nat) : R (PT σ V) :=
  if idx < params then .ok { p with nextDelay := fun i => if i = idx then delay else p.nextDelay i }
  else .error .index

/-- `param_apply` (precise_timing.rs 126–135). -/
def PT.apply (u : UGen I S V outs) (params : Nat) (p : PT u.St V) (idx : Nat) (v : V) : R (PT u.St V) :=
  if idx < params then
    if p.nextDelay idx = 0 then .ok { p with inner := u.apply p.inner idx v }
    else if p.cnt < p.waiting.length then
      .ok { p with waiting := p.waiting.set p.cnt (some (p.nextDelay idx, idx, v)), cnt := p.cnt + 1 }
    else .ok p
  else .error .index

/-- `process` (precise_timing.rs 51–64): every waiting change is applied; `next_delay_i` is kept. -/
def PT.frame (u : UGen I S V outs) (p : PT u.St V) (x : I) : PT u.St V × Frame S outs :=
  let s := p.waiting.foldl (fun s c => match c with
    | some (_, idx, v) => u.apply s idx v
    | none => s) p.inner
  let r := u.frame s x
  ({ p with inner := r.1, waiting := p.waiting.map fun _ => none }, r.2)

/-- The inner loop of `process_block` (precise_timing.rs 82–95): apply the changes that are due at
`pos`, stop at the first one that is not. -/
def due (u : UGen I S V outs) (pos : Nat) : u.St → List (Option (Delayed V)) →
    u.St × List (Option (Delayed V))
  | s, [] => (s, [])
  | s, none :: cs => due u pos s cs
  | s, some (d, idx, v) :: cs =>
    if d ≤ pos then due u pos (u.apply s idx v) cs else (s, some (d, idx, v) :: cs)

/-- Joining the output of two consecutive partial blocks. -/
def joinBlock (a b : Block S outs) : Block S outs := fun c => a c ++ b c

/-- The length of the next part (precise_timing.rs 81–95): up to the first waiting change or the end. -/
def partLen (off i len : Nat) : List (Option (Delayed V)) → Nat
  | some (d, _, _) :: _ => min len (d - off - i)
  | _ => len

/-- The loop of `process_block` (precise_timing.rs 79–110) from frame `i` on; `off` is
`block_start_offset`.  Result: state, changes left over, output. -/
def ptLoop (u : UGen I S V outs) (off : Nat) : Nat → Nat → u.St → List (Option (Delayed V)) → List I →
    R (u.St × List (Option (Delayed V)) × Block S outs)
  | 0, _, _, _, _ => .error .unreachable
  | fuel + 1, i, s, cs, xs =>
    let r := due u (i + off) s cs
    if xs.length = 0 then .ok (r.1, r.2, fun _ => [])
    else
      let n := partLen off i xs.length r.2
      let b := u.block r.1 (xs.take n)
      match ptLoop u off fuel (i + n) b.1 r.2 (xs.drop n) with
      | .error e => .error e
      | .ok r' => .ok (r'.1, r'.2.1, joinBlock b.2 r'.2.2)

/-- `process_block` (precise_timing.rs 65–114). -/
def PT.block (u : UGen I S V outs) (off : Nat) (p : PT u.St V) (xs : List I) :
    R (PT u.St V × Block S outs) :=
  match ptLoop u off (xs.length + 1) 0 p.inner (p.waiting.take p.cnt) xs with
  | .error e => .error e
  | .ok (s, cs, o) => .ok ({ p with
      inner := s
      waiting := List.replicate (p.cnt - cs.length) none ++ cs ++ p.waiting.drop p.cnt
      cnt := 0 }, o)

/-! ### Audio-rate parameters -/

/-- `WrArParams` (audio_rate.rs 9–30): the linked buffers by parameter and the frame in the block. -/
structure Ar (σ : Type) where
  inner : σ
  bufs : Nat → Option Nat
  idx : Nat

/-- `new` (audio_rate.rs 22–29). -/
def Ar.init (s : σ) : Ar σ := ⟨s, fun _ => none, 0⟩

/-- `set_ar_param_buffer` (audio_rate.rs 75–84). -/
def Ar.link (params : Nat) (a : Ar σ) (i buf : Nat) : R (Ar σ) :=
  if i < params then .ok { a with bufs := fun j => if j = i then some buf else a.bufs j }
  else .error .assert

/-- `param_apply` (audio_rate.rs 69–73). -/
def Ar.apply (u : UGen I S V outs) (params : Nat) (a : Ar u.St) (i : Nat) (v : V) : R (Ar u.St) :=
  if i < params then
    match a.bufs i with
    | none => .ok { a with inner := u.apply a.inner i v }
    | some _ => .ok a
  else .error .index

/-- `process` (audio_rate.rs 42–57); `mem` is what the buffers hold, as parameter values. -/
def Ar.frame (u : UGen I S V outs) (params bs : Nat) (mem : Nat → Nat → V) (a : Ar u.St) (x : I) :
    Ar u.St × Frame S outs :=
  let s := (List.range params).foldl (fun s i => match a.bufs i with
    | some b => u.apply s i (mem b a.idx)
    | none => s) a.inner
  let r := u.frame s x
  ({ a with inner := r.1, idx := (a.idx + 1) % bs }, r.2)

/-- `process_block` is the default one. -/
def Ar.block (u : UGen I S V outs) (params bs : Nat) (mem : Nat → Nat → V) (a : Ar u.St) (xs : List I) :
    Ar u.St × Block S outs := defaultBlock (Ar.frame u params bs mem) a xs

/-- `WrArParamToInput` (audio_rate.rs 87–171): the last input channel is the parameter value. -/
def arInput (u : UGen I S V outs) (param : Nat) : UGen (I × V) S V outs where
  St := u.St
  frame := fun s x => u.frame (u.apply s param x.2) x.1
  block := defaultBlock fun s x => u.frame (u.apply s param x.2) x.1
  apply := u.apply

/-! ### Arithmetic and closures -/

/-- The arithmetic wrappers (math.rs): a function of each output sample, in `process` and in
`process_block`.  `f` is `(· * value)`, `(· + value)`, `(· - value)`, `(value - ·)`, `(· / value)`,
`(value / ·)`, `powf` or `powi`. -/
def wrMap (u : UGen I S V outs) (f : S → S) : UGen I S V outs where
  St := u.St
  frame := fun s x => let r := u.frame s x; (r.1, fun c => f (r.2 c))
  block := fun s xs => let r := u.block s xs; (r.1, fun c => (r.2 c).map f)
  apply := u.apply

/-- Running a closure over samples one after the other. -/
def mapAcc {τ : Type} (cl : τ → S → τ × S) : τ → List S → τ × List S
  | t, [] => (t, [])
  | t, x :: xs =>
    let r := cl t x
    let r' := mapAcc cl r.1 xs
    (r'.1, r.2 :: r'.2)

/-- Running a closure over all samples of the first `n` channels, channel by channel. -/
def accChannels {τ : Type} (cl : τ → S → τ × S) : (n : Nat) → τ → (Fin n → List S) → τ × (Fin n → List S)
  | 0, t, b => (t, b)
  | n + 1, t, b =>
    let r := mapAcc cl t (b 0)
    let r' := accChannels cl n r.1 (fun c => b c.succ)
    (r'.1, fun c => if h : c = 0 then r.2 else r'.2 (c.pred h))

/-- Running a closure over the samples of a frame. -/
def accFrame {τ : Type} (cl : τ → S → τ × S) : (n : Nat) → τ → (Fin n → S) → τ × (Fin n → S)
  | 0, t, b => (t, b)
  | n + 1, t, b =>
    let r := cl t (b 0)
    let r' := accFrame cl n r.1 (fun c => b c.succ)
    (r'.1, fun c => if h : c = 0 then r.2 else r'.2 (c.pred h))

/-- `WrClosure` (closure.rs 7–55): the closure may have a state (`FnMut`). -/
def wrClosure {τ : Type} (u : UGen I S V outs) (cl : τ → S → τ × S) : UGen I S V outs where
  St := u.St × τ
  frame := fun s x =>
    let r := u.frame s.1 x
    let r' := accFrame cl outs s.2 r.2
    ((r.1, r'.1), r'.2)
  block := fun s xs =>
    let r := u.block s.1 xs
    let r' := accChannels cl outs s.2 r.2
    ((r.1, r'.1), r'.2)
  apply := fun s i v => (u.apply s.1 i v, s.2)

end

end Verif.W
