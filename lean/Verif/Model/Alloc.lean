import Verif.Model.Order

/-!
# Buffer assignment and running a block

`knaster_graph/src/buffer_allocator.rs`, `allocate_node_buffers`, `generate_*` in
`knaster_graph/src/graph.rs` (1486–1705), `make_task` in `node.rs`, `Task::run` in `task.rs` and the
task loop of `GraphGen::process_block` in `graph_gen.rs`.

Conventions and simplifications

* Sizes and offsets (`usize`) are natural numbers; only the subtraction in `return_block` is checked.
* `return_order` is kept with the most recently returned block first (the code scans it from the
  back).
* A pointer is the number of the allocation and an offset into it.
* Reading a null input pointer as the silent channel and overwriting it with the graph input at the
  start of `process_block` is one step: the task input is `In.graph`.
* A unit generator is a function of its state, its input channels and its linked parameter buffers as
  they are when its task starts.  `C12_no_alias` shows that the output region is disjoint from all of
  them, so that reading them while writing makes no difference.
-/

namespace Verif.G

/-- `AllocatedBlock` (buffer_allocator.rs 41–48). -/
structure Blk where
  start : Nat
  len : Nat
  borrows : Nat
  deriving DecidableEq, Repr

/-- `BufferAllocator` (buffer_allocator.rs 50–57); `buf` numbers the allocations, `bufLen` is the
length of the current one. -/
structure Alloc where
  next : Nat := 0
  blocks : List Blk := []
  ret : List Nat := []
  vsize : Nat := 0
  bufLen : Nat
  buf : Nat := 0
  deriving DecidableEq, Repr

/-- `BufferAllocator::new(block_size * 4)` (graph.rs 223). -/
def Alloc.init (bs : Nat) : Alloc := { bufLen := bs * 4 }

/-- `assign_new_block` (buffer_allocator.rs 72–89). -/
def newBlock (a : Alloc) (len borrows : Nat) : Alloc × Nat :=
  ({ a with
     vsize := max a.vsize (a.next + len)
     blocks := a.blocks ++ [⟨a.next, len, borrows⟩]
     next := a.next + len }, a.next)

/-- The test in the loop of `get_block` (buffer_allocator.rs 116–119).  `return_order` only contains
valid indices (`AOk.ret`), so indexing does not panic. -/
def fits (a : Alloc) (len idx : Nat) : Bool :=
  match a.blocks[idx]? with
  | some b => b.borrows == 0 && b.len ≥ len
  | none => false

/-- `get_block` (buffer_allocator.rs 106–135): the offset of a returned block that is large enough,
else of a new one. -/
def getBlock (a : Alloc) (chans bs borrows : Nat) : Alloc × Nat :=
  match a.ret.find? (fits a (chans * bs)) with
  | some idx => match a.blocks[idx]? with
    | some b => ({ a with
        blocks := a.blocks.set idx { b with borrows := borrows }
        ret := a.ret.erase idx }, b.start)
    | none => newBlock a (chans * bs) borrows
  | none => newBlock a (chans * bs) borrows

/-- The loop of `return_block` (buffer_allocator.rs 91–101): only the first block with that start
offset is looked at; taking one from a borrow count of zero overflows. -/
def returnLoop (off : Nat) : Nat → List Blk → R (List Blk × Option Nat)
  | _, [] => .ok ([], none)
  | i, b :: bs =>
    if b.start = off then do
      let n ← subC b.borrows 1
      .ok ({ b with borrows := n } :: bs, if n = 0 then some i else none)
    else do
      let (bs', r) ← returnLoop off (i + 1) bs
      .ok (b :: bs', r)

/-- `return_block` (buffer_allocator.rs 91–101). -/
def returnBlock (a : Alloc) (off : Nat) : R Alloc := do
  let (bs, r) ← returnLoop off 0 a.blocks
  .ok { a with blocks := bs, ret := match r with | some i => i :: a.ret | none => a.ret }

/-- `reset` (buffer_allocator.rs 136–145): everything is forgotten and the silent channel is put at
offset 0 with `usize::MAX` borrows. -/
def Alloc.reset (a : Alloc) (bs : Nat) : Alloc :=
  (getBlock { a with next := 0, vsize := 0, blocks := [], ret := [] } 1 bs (U64 - 1)).1

/-- `finished_assigning_make_allocation` (buffer_allocator.rs 149–158): a new zeroed allocation if the
old one is too small. -/
def Alloc.finish (a : Alloc) : Alloc :=
  if a.vsize ≤ a.bufLen then a else { a with bufLen := a.vsize, buf := a.buf + 1 }

/-- `NodeOutput` (node.rs 183–187). -/
inductive Out where
  | ptr (buf off : Nat)
  | off (n : Nat)
  deriving DecidableEq, Repr

/-- The allocator and the `node_output` fields of the nodes. -/
structure AState where
  alloc : Alloc
  outm : Key → Out

/-- A new graph: every node starts with `NodeOutput::Offset(0)` (node.rs 101). -/
def AState.init (bs : Nat) : AState := { alloc := .init bs, outm := fun _ => .off 0 }

/-- The nodes the inputs and parameters of a node record refer to, one entry per connection. -/
def recSources (n : NodeRec) : List Key := srcKeys (n.ins.getD []) ++ (n.pars.getD []).map PEdge.source

/-- `num_output_dependents` of node `k` (graph.rs 1592–1616). -/
def depCount (g : Graph) (k : Key) : Nat := (g.nodes.map fun p => (recSources p.2).count k).sum

/-- The counting loops index `self.nodes` with every source (graph.rs 1606, 1614). -/
def sourcesExist (g : Graph) : Bool := g.nodes.all fun p => (recSources p.2).all fun k => (g.get k).isSome

/-- Returning the output block of one source (graph.rs 1637–1642 and 1657–1661); pointers left over
from an earlier commit are ignored. -/
def returnKey (g : Graph) (s : AState) (k : Key) : R AState :=
  match g.get k with
  | none => .error .index
  | some _ => match s.outm k with
    | .off b => do
      let a ← returnBlock s.alloc b
      .ok { s with alloc := a }
    | .ptr _ _ => .ok s

/-- Returning the blocks of all inputs and parameters of a node (graph.rs 1629–1662). -/
def returnAll (g : Graph) (s : AState) : List Key → R AState
  | [] => .ok s
  | k :: ks => do returnAll g (← returnKey g s k) ks

/-- One iteration of the assignment loop (graph.rs 1622–1666). -/
def assignNode (g : Graph) (bs : Nat) (s : AState) (k : Key) : R AState :=
  match g.get k with
  | none => .error .index
  | some n =>
    let (a, off) := getBlock s.alloc n.outputs bs (depCount g k)
    let s : AState := { alloc := a, outm := fun j => if j = k then .off off else s.outm j }
    match n.ins, n.pars with
    | some es, some ps => returnAll g s (srcKeys es ++ ps.map PEdge.source)
    | _, _ => .error .index

/-- The assignment loop (graph.rs 1622–1666). -/
def assignAll (g : Graph) (bs : Nat) : AState → List Key → R AState
  | s, [] => .ok s
  | s, k :: ks => do assignAll g bs (← assignNode g bs s k) ks

/-- `swap_offset_to_ptr` for all nodes of the order (node.rs 156–167, graph.rs 1673–1675): an offset
outside the allocation is only logged. -/
def swapAll (s : AState) (order : List Key) : AState :=
  { s with outm := fun k => if k ∈ order then
      match s.outm k with
      | .off o => if o < s.alloc.bufLen then .ptr s.alloc.buf o else .off o
      | .ptr b o => .ptr b o
    else s.outm k }

/-- Where a task input or a graph output is read from. -/
inductive In where
  | mem (buf off : Nat)
  | graph (ch : Nat)
  deriving DecidableEq, Repr

/-- The pointer to channel `c` of node `k`; `expect` on `node_output_ptr`. -/
def outPtr (g : Graph) (bs : Nat) (s : AState) (k : Key) (c : Nat) : R In :=
  match g.get k with
  | none => .error .index
  | some _ => match s.outm k with
    | .ptr b o => .ok (.mem b (o + c * bs))
    | .off _ => .error .unwrap

/-- One input pointer (graph.rs 1682–1702); `empty_channel` unwraps the address of offset 0. -/
def makeIn (g : Graph) (bs : Nat) (s : AState) : Option Edge → R In
  | some ⟨.node k, c, _⟩ => outPtr g bs s k c
  | some ⟨.graph, c, _⟩ => .ok (.graph c)
  | none => if s.alloc.bufLen = 0 then .error .unwrap else .ok (.mem s.alloc.buf 0)

/-- `?` over a list. -/
def mapR {α β} (f : α → R β) : List α → R (List β)
  | [] => .ok []
  | x :: xs => do
    let y ← f x
    let ys ← mapR f xs
    .ok (y :: ys)

/-- `Task` (task.rs 18–24). -/
structure Task where
  key : Key
  ins : List In
  out : Nat × Nat
  outputs : Nat
  deriving DecidableEq, Repr

/-- `make_task` for one node of the order with the inputs assigned just before (node.rs 132–150,
graph.rs 1676–1703 and 1486–1495). -/
def makeTask (g : Graph) (bs : Nat) (s : AState) (k : Key) : R Task :=
  match g.get k with
  | none => .error .index
  | some n => match n.ins with
    | none => .error .index
    | some es => do
      let ins ← mapR (makeIn g bs s) es
      match s.outm k with
      | .ptr b o => .ok ⟨k, ins, (b, o), n.outputs⟩
      | .off _ => .error .unwrap

/-- One entry of the output task (graph.rs 1496–1533). -/
def makeOut (g : Graph) (bs : Nat) (s : AState) : Option Edge → R (Option In)
  | none => .ok none
  | some ⟨.graph, c, _⟩ => .ok (some (.graph c))
  | some ⟨.node k, c, _⟩ => match g.get k with
    | none => .error .index
    | some n => do
      let p ← outPtr g bs s k c
      if c < n.outputs then .ok (some p) else .error .assert

/-- `ArParameterChange` (task.rs 139–146). -/
structure ArChange where
  node : Key
  param : Nat
  buffer : In
  deriving DecidableEq, Repr

/-- One entry of `ar_parameter_changes` (graph.rs 1540–1563). -/
def makeAr (g : Graph) (bs : Nat) (s : AState) (k : Key) (pe : PEdge) : R ArChange :=
  match g.get pe.source with
  | none => .error .index
  | some n => do
    let p ← outPtr g bs s pe.source pe.chan
    if pe.chan < n.outputs then .ok ⟨k, pe.param, p⟩ else .error .assert

/-- The parts of `TaskData` (task.rs 71–97) that determine what a block computes. -/
structure Schedule where
  tasks : List Task
  ar : List ArChange
  outs : List (Option In)
  deriving DecidableEq, Repr

/-- `calculate_node_order`, `allocate_node_buffers` and `generate_task_data` as called by
`commit_changes` (graph.rs 1712–1723).  Nodes outside the order have no input entries in a reachable
graph, so computing inputs only for the order is the same as for all entries. -/
def makeSchedule (g : Graph) (bs : Nat) (s : AState) : R (AState × Schedule) := do
  let (order, _) ← calcOrder g
  if !sourcesExist g then .error .index
  else
    let s ← assignAll g bs { s with alloc := s.alloc.reset bs } order
    let s := swapAll { s with alloc := s.alloc.finish } order
    let tasks ← mapR (makeTask g bs s) order
    let outs ← mapR (makeOut g bs s) g.outs
    let ar ← mapR (fun kp => makeAr g bs s kp.1 kp.2)
      ((g.nodes.map Prod.fst).filter (· ∈ order) |>.flatMap fun k =>
        ((g.pars k).getD []).map fun pe => (k, pe))
    .ok (s, ⟨tasks, ar, outs⟩)

/-- `commit_changes` as called by `GraphEdit::drop`, which unwraps the result (graph.rs 1707–1727,
graph_edit.rs 258–262).  `room`: whether the ring buffer for new task data has a free slot
(`send_updated_tasks`, graph.rs 2213–2218). -/
def commitFull (removeMe : Key → Bool) (flagSet : Nat → Bool) (room : Bool) (bs : Nat) (g : Graph)
    (s : AState) : R (Graph × AState × Option Schedule) := do
  let g ← freeOld removeMe flagSet g
  if g.recalc then
    let (s, sch) ← makeSchedule g bs s
    if room then .ok ({ g with flag := g.flag + 1, recalc := false }, s, some sch)
    else .error .unwrap
  else .ok (g, s, none)

/-! ### Running a block -/

section run
variable {S St : Type}

/-- The samples in the allocations. -/
abbrev Mem (S : Type) := Nat → Nat → S

/-- What the unit generators do: from the state, the input channels and the linked parameter buffers
(each the list of the frames of the block) to the new state and the output samples by channel and
frame. -/
abbrev Proc (S St : Type) := Key → St → List (List S) → List (Nat × List S) → St × (Nat → Nat → S)

/-- Reading a channel; `inp` are the graph input channels of the block. -/
def readIn (bs : Nat) (inp : Nat → Nat → S) (m : Mem S) : In → List S
  | .mem b o => (List.range bs).map fun i => m b (o + i)
  | .graph c => (List.range bs).map (inp c)

/-- Writing the output channels of a task: channel `c`, frame `i` lives at `out + c * bs + i`
(block.rs `RawContiguousBlock`). -/
def writeOut (bs : Nat) (m : Mem S) (out : Nat × Nat) (chans : Nat) (v : Nat → Nat → S) : Mem S :=
  fun b o => if b = out.1 ∧ out.2 ≤ o ∧ o < out.2 + chans * bs then
    v ((o - out.2) / bs) ((o - out.2) % bs) else m b o

/-- The linked parameter buffers of a node. -/
def readAr (bs : Nat) (inp : Nat → Nat → S) (m : Mem S) (ar : List ArChange) (k : Key) :
    List (Nat × List S) :=
  (ar.filter fun a => a.node = k).map fun a => (a.param, readIn bs inp m a.buffer)

/-- `Task::run` for every task in turn (task.rs 25–33, graph_gen.rs 190–194). -/
def runTasks (proc : Proc S St) (bs : Nat) (inp : Nat → Nat → S) (ar : List ArChange) :
    Mem S → (Key → St) → List Task → Mem S × (Key → St)
  | m, st, [] => (m, st)
  | m, st, t :: ts =>
    let r := proc t.key (st t.key) (t.ins.map (readIn bs inp m)) (readAr bs inp m ar t.key)
    runTasks proc bs inp ar (writeOut bs m t.out t.outputs r.2)
      (fun k => if k = t.key then r.1 else st k) ts

/-- The graph outputs at the end of the block (graph_gen.rs 196–219). -/
def readOuts [Zero S] (bs : Nat) (inp : Nat → Nat → S) (m : Mem S) (outs : List (Option In)) :
    List (List S) :=
  outs.map fun o => match o with
    | some i => readIn bs inp m i
    | none => List.replicate bs 0

end run

end Verif.G
