import Verif.Basic

/-!
# The editable graph (`knaster_graph/src/graph.rs`, `knaster_graph/src/edge.rs`)

The control-thread side of a `Graph`: nodes, audio edges, graph output edges, parameter edges and
the list of nodes waiting to be dropped.

Conventions and simplifications

* A `NodeKey` is a natural number handed out by `nextKey` and never reused (SlotMap keys carry a
  version, so a stale key never equals a live one).
* `nodes` lists the SlotMap content in slot order.  A slot freed earlier may be reused by a later
  node, so the position at which a new node appears is arbitrary: `sl k` is the position given to
  the node with key `k`.  All theorems quantify over `sl`.
* `node_input_edges`, `node_parameter_edges` are secondary maps over the same keys; they are the
  fields `ins` and `pars` of a node record, `none` when the entry was removed.
* A `u16` channel is a natural number.  The only place where the conversion to `u16` loses
  information is modelled (`Param::Index` in `connect_node_to_parameter`).
* `next_change_flag` (an `Arc<AtomicBool>`) is identified by a number; whether a flag is set is an
  argument of `freeOld`.  The same holds for the `remove_me` flags of nodes.
* `log` output, names and the error payloads are left out.
-/

namespace Verif.G

/-- `NodeKey` (graph.rs 52–55). -/
abbrev Key := Nat

/-- `NodeKeyOrGraph` (edge.rs 11–15). -/
inductive Src where
  | node (k : Key)
  | graph
  deriving DecidableEq, Repr

/-- `Edge` (edge.rs 4–9). -/
structure Edge where
  source : Src
  chan : Nat
  fb : Bool := false
  deriving DecidableEq, Repr

/-- `ParameterEdge` (edge.rs 49–55). -/
structure PEdge where
  source : Key
  chan : Nat
  param : Nat
  deriving DecidableEq, Repr

/-- The parts of `Node` (node.rs 20–60) the graph edits look at, with the node's entries in the
secondary maps `node_input_edges`, `node_parameter_edges` and `node_mortality` (graph.rs 130–190).
`descs` are the parameter descriptions (as abstract names). -/
structure NodeRec where
  inputs : Nat
  outputs : Nat
  descs : List Nat := []
  autoMath : Bool := false
  autoFree : Bool := false
  dep : Option Key := none
  mortal : Bool := true
  ins : Option (List (Option Edge)) := none
  pars : Option (List PEdge) := none
  deriving DecidableEq, Repr

/-- `Graph` (graph.rs 128–190) restricted to the fields that editing reads or writes.
`pending` is `node_keys_to_free_when_safe`, `flag` identifies `next_change_flag`. -/
structure Graph where
  id : Nat
  nodes : List (Key × NodeRec) := []
  nextKey : Key := 0
  outs : List (Option Edge)
  numIn : Nat
  pending : List (Key × Nat) := []
  flag : Nat := 0
  recalc : Bool := false
  deriving DecidableEq, Repr

/-- `NodeId` (graph.rs 57–63). -/
structure NodeId where
  key : Key
  graph : Nat
  deriving DecidableEq, Repr

/-- `NodeOrGraph` (graph.rs). -/
inductive NG where
  | node (n : NodeId)
  | graph
  deriving DecidableEq, Repr

/-- `GraphError`/`FreeError` without payloads (graph.rs 2223–2287). -/
inductive GErr where
  | circular
  | nodeNotFound
  | wrongSourceGraph
  | wrongSinkGraph
  | inputOOB
  | outputOOB
  | graphInputOOB
  | graphOutputOOB
  | paramDescNotFound
  | freeNotFound
  | immortal
  deriving DecidableEq, Repr

/-- Result of an edit call: the new graph and what the call returned; or a panic. -/
abbrev Res := R (Graph × Except GErr Unit)

/-- `nodes.get(key)` -/
def Graph.get (g : Graph) (k : Key) : Option NodeRec :=
  (g.nodes.find? (fun p => p.1 == k)).map Prod.snd

/-- Mutation through `nodes.get_mut(key)` or a secondary map. -/
def Graph.modify (g : Graph) (k : Key) (f : NodeRec → NodeRec) : Graph :=
  { g with nodes := g.nodes.map fun p => if p.1 = k then (p.1, f p.2) else p }

/-- Mutation of the entries of all nodes. -/
def Graph.mapNodes (g : Graph) (f : NodeRec → NodeRec) : Graph :=
  { g with nodes := g.nodes.map fun p => (p.1, f p.2) }

/-- `node_input_edges.get(key)` -/
def Graph.ins (g : Graph) (k : Key) : Option (List (Option Edge)) := (g.get k).bind (·.ins)

/-- `node_parameter_edges.get(key)` -/
def Graph.pars (g : Graph) (k : Key) : Option (List PEdge) := (g.get k).bind (·.pars)

/-- `node_keys_to_free_when_safe.iter().any(|(key, _)| *key == k)` -/
def Graph.isPending (g : Graph) (k : Key) : Bool := g.pending.any (fun p => p.1 == k)

/-- `Graph::new` (graph.rs 200–262): `numOut` unconnected outputs and no nodes. -/
def Graph.init (id numIn numOut : Nat) : Graph :=
  { id := id, outs := List.replicate numOut none, numIn := numIn }

/-- `push_node` (graph.rs 455–475); the position of the new node in slot order is `sl`. -/
def pushNode (sl : Key → Nat) (g : Graph) (n : NodeRec) : Graph :=
  let k := g.nextKey
  let n := { n with ins := some (List.replicate n.inputs none), pars := some [], mortal := true }
  { g with
    nodes := g.nodes.take (sl k) ++ (k, n) :: g.nodes.drop (sl k)
    nextKey := k + 1
    recalc := true }

/-- The node created by `push_internal`/`push_with_done_action` for a unit generator with the given
channel counts and parameters (graph.rs 366–420, node.rs `Node::new`). -/
def userNode (inputs outputs : Nat) (descs : List Nat) : NodeRec :=
  { inputs := inputs, outputs := outputs, descs := descs }

/-- `node_input_edges[k][i]` -/
def getEdge (g : Graph) (k : Key) (i : Nat) : R (Option Edge) :=
  match g.ins k with
  | none => .error .index
  | some es => match es[i]? with
    | none => .error .index
    | some e => .ok e

/-- `node_input_edges[k][i] = e` -/
def setEdge (g : Graph) (k : Key) (i : Nat) (e : Option Edge) : R Graph :=
  match g.ins k with
  | none => .error .index
  | some es =>
    if i < es.length then .ok (g.modify k fun n => { n with ins := some (es.set i e) })
    else .error .index

/-- `output_edges[i]` -/
def getOut (g : Graph) (i : Nat) : R (Option Edge) :=
  match g.outs[i]? with
  | none => .error .index
  | some e => .ok e

/-- `output_edges[i] = e` -/
def setOut (g : Graph) (i : Nat) (e : Option Edge) : R Graph :=
  if i < g.outs.length then .ok { g with outs := g.outs.set i e } else .error .index

/-- `new_additive_node` (graph.rs 873–880): `MathUGen<F, U1, Add>` has two inputs, one output and no
parameters.  Its key is `g.nextKey`. -/
def newAdd (sl : Key → Nat) (g : Graph) : Graph :=
  pushNode sl g { inputs := 2, outputs := 1, autoMath := true }

/-- `new_feedback_nodes` (graph.rs 882–910).  Both nodes are built from `FeedbackSink`, which has one
input and no output (graph.rs 2380–2420).  The sink gets the key `g.nextKey`, the source the key
`g.nextKey + 1`. -/
def newFeedback (sl : Key → Nat) (g : Graph) : Graph :=
  let sink := g.nextKey
  let source := g.nextKey + 1
  pushNode sl
    (pushNode sl g { inputs := 1, outputs := 0, autoFree := true, dep := some source })
    { inputs := 1, outputs := 0, autoFree := true, dep := some sink }

/-- The keys of the nodes feeding a list of input edges. -/
def srcKeys (es : List (Option Edge)) : List Key :=
  es.filterMap fun e => match e with
    | some ⟨.node k, _, _⟩ => some k
    | _ => none

/-- The loop of `has_path` (graph.rs 1463–1481); the head of the list is the top of the stack. -/
def hasPathLoop (g : Graph) (src : Key) : Nat → List Key → List Key → Bool
  | 0, _, _ => false
  | _ + 1, _, [] => false
  | fuel + 1, visited, n :: stack =>
    if n = src then true
    else if n ∈ visited then hasPathLoop g src fuel visited stack
    else match g.ins n with
      | some es => hasPathLoop g src fuel (n :: visited) ((srcKeys es).reverse ++ stack)
      | none => hasPathLoop g src fuel (n :: visited) stack

/-- All sources of all input edges, used only to bound the number of loop iterations. -/
def Graph.edgeCount (g : Graph) : Nat :=
  (g.nodes.map fun p => ((p.2.ins.getD []).length)).sum

/-- `has_path` (graph.rs 1462–1481).  The loop runs at most `edgeCount + 1` times; the correctness
theorem shows that the bound never cuts it short. -/
def hasPath (g : Graph) (src dst : Key) : Bool :=
  hasPathLoop g src (g.edgeCount + 2) [] [dst]

/-- The second part of `connect_to_node_internal` (graph.rs 787–822): setting the edge of the sink,
through a new math node when a connection is added to an existing one. -/
def connectTail (sl : Key → Nat) (g : Graph) (source : Src) (sink : Key) (so si : Nat)
    (additive feedback : Bool) : R Graph :=
  if !additive then
    setEdge g sink si (some ⟨source, so, false⟩)
  else do
    match ← getEdge g sink si with
    | some existing =>
      let add := g.nextKey
      let g ← setEdge (newAdd sl g) add 0 (some existing)
      let g ← setEdge g add 1 (some ⟨source, so, false⟩)
      setEdge g sink si (some ⟨.node add, 0, false⟩)
    | none => setEdge g sink si (some ⟨source, so, feedback⟩)

/-- `connect_to_node_internal` (graph.rs 768–822). -/
def connectToNode (sl : Key → Nat) (g : Graph) (source : Src) (sink : Key) (so si : Nat)
    (additive feedback : Bool) : R Graph :=
  let g := { g with recalc := true }
  if feedback then do
    let fbSink := g.nextKey
    let fbSource := g.nextKey + 1
    let g ← setEdge (newFeedback sl g) fbSink 0 (some ⟨source, so, true⟩)
    connectTail sl g (.node fbSource) sink so si additive true
  else connectTail sl g source sink so si additive false

/-- `connect_to_output_internal` (graph.rs 827–871). -/
def connectToOut (sl : Key → Nat) (g : Graph) (source : Src) (so si : Nat)
    (additive : Bool) : R Graph :=
  let g := { g with recalc := true }
  if !additive then
    setOut g si (some ⟨source, so, false⟩)
  else do
    match ← getOut g si with
    | some existing =>
      let add := g.nextKey
      let g ← setEdge (newAdd sl g) add 0 (some existing)
      let g ← setEdge g add 1 (some ⟨source, so, false⟩)
      setOut g si (some ⟨.node add, 0, false⟩)
    | none => setOut g si (some ⟨source, so, false⟩)

/-- The test `!x == self.graph_id` used by most calls to recognise a foreign node id: in Rust the
unary `!` binds tighter than `==`, so this is a bitwise complement (graph.rs 507, 513, 574, 637, 644,
736, 1356; graph_edit.rs 163). -/
def foreign (x id : Nat) : Bool := U64 - 1 - x == id

/-- `connect_nodes_internal` (graph.rs 496–545). -/
def connectNodes (sl : Key → Nat) (g : Graph) (source sink : NodeId) (so si : Nat)
    (additive feedback : Bool) : Res :=
  if foreign source.graph g.id then .ok (g, .error .wrongSourceGraph)
  else if foreign sink.graph g.id then .ok (g, .error .wrongSinkGraph)
  else match g.get source.key with
  | none => .ok (g, .error .nodeNotFound)
  | some ns =>
    if so ≥ ns.outputs then .ok (g, .error .outputOOB)
    else match g.get sink.key with
    | none => .ok (g, .error .nodeNotFound)
    | some nk =>
      if si ≥ nk.inputs then .ok (g, .error .inputOOB)
      else if !feedback && hasPath g sink.key source.key then .ok (g, .error .circular)
      else do
        let g' ← connectToNode sl g (.node source.key) sink.key so si additive feedback
        .ok (g', .ok ())

/-- `connect_input_to_output` (graph.rs 547–565). -/
def connectInputToOutput (sl : Key → Nat) (g : Graph) (so si : Nat) (additive : Bool) : Res :=
  if so ≥ g.numIn then .ok (g, .error .graphInputOOB)
  else if si ≥ g.outs.length then .ok (g, .error .graphOutputOOB)
  else do
    let g' ← connectToOut sl g .graph so si additive
    .ok (g', .ok ())

/-- `connect_node_to_output` (graph.rs 566–598). -/
def connectNodeToOutput (sl : Key → Nat) (g : Graph) (source : NodeId) (so si : Nat)
    (additive : Bool) : Res :=
  if foreign source.graph g.id then .ok (g, .error .wrongSourceGraph)
  else if si ≥ g.outs.length then .ok (g, .error .graphOutputOOB)
  else match g.get source.key with
  | none => .ok (g, .error .nodeNotFound)
  | some ns =>
    if so ≥ ns.outputs then .ok (g, .error .outputOOB)
    else do
      let g' ← connectToOut sl g (.node source.key) so si additive
      .ok (g', .ok ())

/-- `connect_input_to_node` (graph.rs 727–761); a bad sink channel is reported as
`OutputOutOfBounds`. -/
def connectInputToNode (sl : Key → Nat) (g : Graph) (sink : NodeId) (so si : Nat)
    (additive : Bool) : Res :=
  if foreign sink.graph g.id then .ok (g, .error .wrongSinkGraph)
  else if so ≥ g.numIn then .ok (g, .error .graphInputOOB)
  else match g.get sink.key with
  | none => .ok (g, .error .nodeNotFound)
  | some nk =>
    if si ≥ nk.inputs then .ok (g, .error .outputOOB)
    else do
      let g' ← connectToNode sl g .graph sink.key so si additive false
      .ok (g', .ok ())

/-- `connect2`, `connect2_replace`, `connect2_feedback`, `connect2_feedback_replace`
(graph.rs 1160–1290).  Feedback is ignored unless both ends are nodes. -/
def connect2 (sl : Key → Nat) (g : Graph) (source : NG) (so si : Nat) (sink : NG)
    (additive feedback : Bool) : Res :=
  match source, sink with
  | .graph, .node k => connectInputToNode sl g k so si additive
  | .node s, .node k => connectNodes sl g s k so si additive feedback
  | .node s, .graph => connectNodeToOutput sl g s so si additive
  | .graph, .graph => connectInputToOutput sl g so si additive

/-- `Param` (knaster_core parameters): an index or a description. -/
inductive Param where
  | index (i : Nat)
  | desc (d : Nat)
  deriving DecidableEq, Repr

/-- `iter().position(..)` -/
def position {α} (p : α → Bool) : List α → Option Nat
  | [] => none
  | a :: l => if p a then some 0 else (position p l).map (· + 1)

/-- `Vec::swap_remove` -/
def swapRemove {α} (l : List α) (i : Nat) : List α :=
  match l.getLast? with
  | none => l
  | some x => (l.set i x).dropLast

/-- `connect_node_to_parameter` (graph.rs 629–726). -/
def connectParam (sl : Key → Nat) (g : Graph) (source : NodeId) (so : Nat) (param : Param)
    (sink : NodeId) (additive : Bool) : Res :=
  if foreign source.graph g.id then .ok (g, .error .wrongSourceGraph)
  else if foreign sink.graph g.id then .ok (g, .error .wrongSinkGraph)
  else match g.get sink.key with
  | none => .error .index
  | some nk =>
    let idx : Option Nat := match param with
      | .index i => some (i % 65536)
      | .desc d => (position (· == d) nk.descs).map (· % 65536)
    match idx with
    | none => .ok (g, .error .paramDescNotFound)
    | some idx => match g.get source.key with
      | none => .ok (g, .error .nodeNotFound)
      | some ns =>
        if so ≥ ns.outputs then .ok (g, .error .outputOOB)
        else match g.pars sink.key with
        | none => .error .unwrap
        | some es =>
          if additive then
            match position (fun pe => pe.param == idx) es with
            | some pos => match es[pos]? with
              | none => .error .index
              | some existing => do
                let g := g.modify sink.key fun n => { n with pars := some (swapRemove es pos) }
                let add := g.nextKey
                let g ← setEdge (newAdd sl g) add 0 (some ⟨.node existing.source, existing.chan, false⟩)
                let g ← setEdge g add 1 (some ⟨.node source.key, so, false⟩)
                .ok (g.modify sink.key fun n =>
                  { n with pars := n.pars.map (· ++ [⟨add, 0, idx⟩]) }, .ok ())
            | none =>
              .ok (g.modify sink.key fun n =>
                { n with pars := some (es ++ [⟨source.key, so, idx⟩]) }, .ok ())
          else
            let kept := es.filter (fun pe => pe.param != idx)
            .ok (g.modify sink.key fun n =>
              { n with pars := some (kept ++ [⟨source.key, so, idx⟩]) }, .ok ())

/-- Clearing an edge when its source is `k` (graph.rs 1757–1799). -/
def dropFrom (k : Key) (e : Option Edge) : Option Edge :=
  match e with
  | some ed => if ed.source = .node k then none else some ed
  | none => none

/-- `free_node_from_key` (graph.rs 1732–1808).  The recursion through `strong_dependent` marks one
more node as pending every time, so `fuel` larger than the number of nodes is never used up. -/
def freeLoop : Nat → Graph → Key → Graph × Except GErr Unit
  | 0, g, _ => (g, .ok ())
  | fuel + 1, g, k =>
    match g.get k with
    | none => (g, .error .freeNotFound)
    | some n =>
      if !n.mortal then (g, .error .immortal)
      else if g.isPending k then (g, .ok ())
      else
        let g := { g with recalc := true }
        let g := g.modify k fun n => { n with ins := none, pars := none }
        let g := g.mapNodes fun n => { n with ins := n.ins.map (·.map (dropFrom k)) }
        let g := { g with outs := g.outs.map (dropFrom k) }
        let g := { g with pending := g.pending ++ [(k, g.flag)] }
        match n.dep with
        | some d => ((freeLoop fuel g d).1, .ok ())
        | none => (g, .ok ())

/-- `free_node_from_key`. -/
def freeNode (g : Graph) (k : Key) : Graph × Except GErr Unit := freeLoop (g.nodes.length + 1) g k

/-- `GraphEdit::free_node` (graph_edit.rs 160–171). -/
def editFree (g : Graph) (n : NodeId) : Res :=
  if foreign n.graph g.id then .ok (g, .error .wrongSinkGraph) else .ok (freeNode g n.key)

/-- Redirecting an edge that starts at node `k` to `by` (graph.rs 1111–1129). -/
def redirect (k : Key) (new : Edge) (e : Option Edge) : Option Edge :=
  match e with
  | some ed => if ed.source = .node k then some new else some ed
  | none => none

/-- First half of `evaluate_if_node_should_be_removed` (graph.rs 1098–1140): a math node inserted by
the graph that has lost an input is bypassed and freed. -/
def evalMath (g : Graph) (k : Key) : R Graph :=
  match g.get k with
  | none => .error .index
  | some n =>
    if n.autoMath then
      if n.inputs ≠ 2 then .error .assert
      else if n.outputs ≠ 1 then .error .assert
      else match n.ins with
      | none => .ok g
      | some es => match es[0]?, es[1]? with
        | some e0, some e1 => match e0, e1 with
          | some _, some _ => .ok g
          | none, some e | some e, none =>
            let g := g.mapNodes fun n => { n with ins := n.ins.map (·.map (redirect k e)) }
            if g.outs.any (·.isNone) then .error .unwrap
            else
              let g := { g with outs := g.outs.map (redirect k e) }
              .ok (freeNode g k).1
          | none, none => .ok (freeNode g k).1
        | _, _ => .error .index
    else .ok g

/-- `true` if some edge in the list starts at node `k`. -/
def anyFrom (k : Key) (es : List (Option Edge)) : Bool :=
  es.any fun e => match e with
    | some ed => ed.source == .node k
    | none => false

/-- Second half of `evaluate_if_node_should_be_removed` (graph.rs 1141–1170): feedback nodes with no
edge left are freed. -/
def evalFree (g : Graph) (k : Key) : R Graph :=
  match g.get k with
  | none => .error .index
  | some n =>
    if n.autoFree then
      if ((n.ins.getD []).any (·.isSome)) then .ok g
      else if g.nodes.any (fun p => anyFrom k (p.2.ins.getD [])) then .ok g
      else .ok (freeNode g k).1
    else .ok g

/-- `evaluate_if_node_should_be_removed` (graph.rs 1098–1170). -/
def evalNode (g : Graph) (k : Key) : R Graph := do evalFree (← evalMath g k) k

/-- Removing an edge that names `source`, channel `ch` (graph.rs 1034–1049). -/
def dropExact (source : Src) (ch : Nat) (e : Option Edge) : Option Edge :=
  match e with
  | some ed => if ed.chan = ch ∧ source = ed.source then none else some ed
  | none => none

/-- `NodeOrGraph → NodeKeyOrGraph` (edge.rs 21–28). -/
def NG.toSrc : NG → Src
  | .node n => .node n.key
  | .graph => .graph

/-- The loops of `disconnect_output_from_source` over all edges (graph.rs 1031–1051). -/
def dropAll (g : Graph) (source : Src) (ch : Nat) : Graph :=
  let g := g.mapNodes fun n => { n with ins := n.ins.map (·.map (dropExact source ch)) }
  { g with outs := g.outs.map (dropExact source ch), recalc := true }

/-- Removing the connection at graph output `ch` and evaluating the node it came from
(graph.rs 1025–1029 and 1088–1092). -/
def takeOut (g : Graph) (ch : Nat) (e : Option Edge) : R Graph :=
  match e with
  | some ed => do
    let g ← setOut g ch none
    match ed.source with
    | .node k => evalNode g k
    | .graph => pure g
  | none => pure g

/-- `disconnect_output_from_source` (graph.rs 997–1053). -/
def disconnectSource (g : Graph) (source : NG) (ch : Nat) : Res :=
  match source with
  | .node n =>
    if n.graph ≠ g.id then .ok (g, .error .wrongSinkGraph)
    else match g.get n.key with
    | none => .ok (g, .error .nodeNotFound)
    | some r =>
      if ch ≥ r.outputs then .ok (g, .error .outputOOB)
      else .ok (dropAll g source.toSrc ch, .ok ())
  | .graph =>
    if ch ≥ g.numIn then .ok (g, .error .graphInputOOB)
    else do
      let e ← getOut g ch
      let g ← takeOut g ch e
      .ok (dropAll g source.toSrc ch, .ok ())

/-- Removing the connection at input `ch` of `k` and evaluating the two nodes it connected
(graph.rs 1075–1080). -/
def takeIn (g : Graph) (k : Key) (ch : Nat) (e : Option Edge) : R Graph :=
  match e with
  | some ed => do
    let g ← setEdge g k ch none
    let g ← evalNode g k
    match ed.source with
    | .node s => evalNode g s
    | .graph => pure g
  | none => pure g

/-- `disconnect_input_to_sink` (graph.rs 1055–1096). -/
def disconnectSink (g : Graph) (ch : Nat) (sink : NG) : Res :=
  match sink with
  | .node n =>
    if n.graph ≠ g.id then .ok (g, .error .wrongSinkGraph)
    else match g.get n.key with
    | none => .ok (g, .error .nodeNotFound)
    | some r => match r.ins with
      | none => .error .index
      | some es =>
        match es[ch]? with
        | none => .ok (g, .error .inputOOB)
        | some e => do
          let g ← takeIn g n.key ch e
          .ok ({ g with recalc := true }, .ok ())
  | .graph =>
    if ch ≥ g.outs.length then .ok (g, .error .graphOutputOOB)
    else do
      let e ← getOut g ch
      let g ← takeOut g ch e
      .ok (g, .ok ())

/-- `set_mortality` (graph.rs 2082–2095).  The mortality entry of a dropped node stays in the
secondary map until its slot is reused; `stale` says whether it is still there. -/
def setMortality (g : Graph) (n : NodeId) (mortal stale : Bool) : Graph × Except GErr Unit :=
  match g.get n.key with
  | none => (g, if stale then .ok () else .error .nodeNotFound)
  | some _ => (g.modify n.key fun r => { r with mortal := mortal }, .ok ())

/-- Freeing a list of nodes, ignoring the results (graph.rs 1889–1891). -/
def freeMany (g : Graph) (ks : List Key) : Graph := ks.foldl (fun g k => (freeNode g k).1) g

/-- Evaluating a list of nodes (graph.rs 1903–1906). -/
def evalMany (g : Graph) : List Key → R Graph
  | [] => .ok g
  | k :: ks => do evalMany (← evalNode g k) ks

/-- The loop over `node_keys_to_free_when_safe` (graph.rs 1908–1920): nodes whose flag has been set
by the audio thread are dropped. -/
def dropFlagged (flagSet : Nat → Bool) (g : Graph) : Graph :=
  let gone := (g.pending.filter (fun p => flagSet p.2)).map Prod.fst
  { g with
    nodes := g.nodes.filter (fun p => p.1 ∉ gone)
    pending := g.pending.filter (fun p => !flagSet p.2) }

/-- `free_old` (graph.rs 1879–1935) without the buffers (see the allocator model).  `removeMe`: the
nodes whose `remove_me` flag is set; `flagSet`: the change flags set by the audio thread. -/
def freeOld (removeMe : Key → Bool) (flagSet : Nat → Bool) (g : Graph) : R Graph := do
  let g := freeMany g ((g.nodes.map Prod.fst).filter removeMe)
  let g ← evalMany g (g.nodes.map Prod.fst)
  pure (dropFlagged flagSet g)

/-- The effect of a completed `commit_changes` on the fields modelled here (graph.rs 1707–1727):
`free_old`, then, if a recalculation was required, a fresh `next_change_flag`. -/
def commitEdits (removeMe : Key → Bool) (flagSet : Nat → Bool) (g : Graph) : R Graph := do
  let g ← freeOld removeMe flagSet g
  pure (if g.recalc then { g with flag := g.flag + 1, recalc := false } else g)

/-- The calls that change a graph. -/
inductive Op where
  | push (inputs outputs : Nat) (descs : List Nat)
  | connect (source : NG) (so si : Nat) (sink : NG) (additive feedback : Bool)
  | param (source : NodeId) (so : Nat) (p : Param) (sink : NodeId) (additive : Bool)
  | disconnectSource (source : NG) (ch : Nat)
  | disconnectSink (ch : Nat) (sink : NG)
  | free (n : NodeId)
  | mortality (n : NodeId) (mortal stale : Bool)
  | commit (removeMe : Key → Bool) (flagSet : Nat → Bool)

/-- One call. -/
def Op.run (sl : Key → Nat) (g : Graph) : Op → Res
  | .push i o d => .ok (pushNode sl g (userNode i o d), .ok ())
  | .connect s so si k a f => connect2 sl g s so si k a f
  | .param s so p k a => connectParam sl g s so p k a
  | .disconnectSource s c => Verif.G.disconnectSource g s c
  | .disconnectSink c k => Verif.G.disconnectSink g c k
  | .free n => editFree g n
  | .mortality n m st => .ok (setMortality g n m st)
  | .commit r f => do let g ← commitEdits r f g; .ok (g, .ok ())

/-- Graphs reachable from a new graph by calls that did not panic. -/
inductive Reach (sl : Key → Nat) : Graph → Prop
  | init (id numIn numOut : Nat) : Reach sl (Graph.init id numIn numOut)
  | step {g g' : Graph} {r : Except GErr Unit} (op : Op) :
      Reach sl g → op.run sl g = .ok (g', r) → Reach sl g'

end Verif.G
