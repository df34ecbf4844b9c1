import Verif.Basic

/-!
# Blocks of samples (knaster_primitives/src/block.rs, knaster_graph/src/block.rs)

A block is a way of looking at a memory of samples.  For `VecBlock` and `StaticBlock` the memory is the
buffer the block owns; for the raw blocks it is the memory the pointers point into, a pointer being an index.

Simplifications: an access outside of the memory through a raw pointer (undefined behaviour) is the error
`Panic.index`; address arithmetic does not overflow.
-/

namespace Verif.Bk

variable {α : Type}

/-- The block types. -/
inductive Blk where
  /-- `VecBlock` (block.rs 423–427) -/
  | vec (channels bs : Nat)
  /-- `StaticBlock` (block.rs 480–486) -/
  | static (channels bs : Nat)
  /-- `EmptyBlock` (block.rs 367) -/
  | empty
  /-- `RawContiguousBlock` (graph block.rs 19–23) -/
  | raw (buffer channels bs : Nat)
  /-- `RawAggregateBlock`, `RawAggregateBlockRead` (graph block.rs 93–96, 158–161) -/
  | agg (buffers : List Nat) (bs : Nat)
  /-- `PartialBlock`, `PartialBlockMut` (block.rs 269–273, 307–311) -/
  | part (b : Blk) (start len : Nat)
  deriving DecidableEq, Repr

/-- `channels` (block.rs 295, 332, 399, 466, 535; graph block.rs 71, 138, 190). -/
def Blk.channels : Blk → Nat
  | .vec c _ | .static c _ => c
  | .empty => 0
  | .raw _ c _ => c
  | .agg bs _ => bs.length
  | .part b _ _ => b.channels

/-- `block_size` (block.rs 299, 336, 403, 470, 539; graph block.rs 75, 142, 194). -/
def Blk.blockSize : Blk → Nat
  | .vec _ n | .static _ n => n
  | .empty => 0
  | .raw _ _ n => n
  | .agg _ n => n
  | .part _ _ len => len

/-- The sample that `read` and `write` access (block.rs 291–293, 324–330, 391–397, 458–464, 527–533;
graph block.rs 57–69, 124–136, 184–188), before the bounds check of the memory itself. -/
def Blk.addr : Blk → Nat → Nat → R Nat
  | .vec _ n, c, f | .static _ n, c, f => .ok (c * n + f)
  | .empty, _, _ => .error .unreachable
  | .raw p cs n, c, f => if c < cs then if f < n then .ok (p + (c * n + f)) else .error .assert else .error .assert
  | .agg bufs n, c, f =>
    if c < bufs.length then if f < n then .ok (bufs.getD c 0 + f) else .error .assert else .error .assert
  | .part b s _, c, f => b.addr c (f + s)

/-- `read`. -/
def Blk.read (b : Blk) (m : List α) (c f : Nat) : R α := do
  let a ← b.addr c f
  match m[a]? with
  | some x => return x
  | none => throw .index

/-- `write`. -/
def Blk.write (b : Blk) (m : List α) (v : α) (c f : Nat) : R (List α) := do
  let a ← b.addr c f
  if a < m.length then return m.set a v else throw .index

/-- `&buffer[a..b]` of a slice that starts at `base` and has `len` elements: position and length. -/
def subslice (base len a b : Nat) : R (Nat × Nat) :=
  if a ≤ b ∧ b ≤ len then .ok (base + a, b - a) else .error .index

/-- `channel_as_slice` and `channel_as_slice_mut` (block.rs 287–289, 315–322, 383–389, 449–456, 519–525;
graph block.rs 43–55, 116–122, 180–182): position and length in the memory of `size` samples.  (Only
`channel_as_slice` of `VecBlock` has the assertion; without it the range is out of bounds all the same unless the
block size is zero.) -/
def Blk.slice (size : Nat) : Blk → Nat → R (Nat × Nat)
  | .vec cs n, c => if c < cs then subslice 0 size (c * n) ((c + 1) * n) else .error .assert
  | .static _ n, c => subslice 0 size (c * n) ((c + 1) * n)
  | .empty, _ => .error .unreachable
  | .raw p cs n, c => if c < cs then .ok (p + c * n, n) else .error .assert
  | .agg bufs n, c => if c < bufs.length then .ok (bufs.getD c 0, n) else .error .index
  | .part b s l, c => do
    let r ← b.slice size c
    subslice r.1 r.2 s (s + l)

/-- `BlockIterMut` (block.rs 199–225): the slices of all channels, one after the other. -/
def Blk.iterMut (size : Nat) (b : Blk) : R (List (Nat × Nat)) :=
  (List.range b.channels).mapM fun c : Nat => b.slice size c

end Verif.Bk
