import Verif.Model.Graph

/-!
# The processing order (`knaster_graph/src/graph.rs` 1936–2073)

The stack `nodes_to_process` is a list whose head is the top (`Vec::last`).  The two loops carry a
fuel argument; running out of fuel gives the error `unreachable`, and the lemmas show that this never
happens for a reachable graph.
-/

namespace Verif.G

/-- The sources `depth_first_search` follows through audio inputs: non-feedback edges that start at a
node (graph.rs 1952–1963). -/
def directKeys (es : List (Option Edge)) : List Key :=
  es.filterMap fun e => match e with
    | some ⟨.node k, _, false⟩ => some k
    | _ => none

/-- Looking for the first unvisited source of `k`: audio inputs first, then parameters
(graph.rs 1947–1976).  Both secondary maps are indexed with `[node_key]`, which panics when the entry
is missing. -/
def nextSource (g : Graph) (visited : List Key) (k : Key) : R (Option Key) :=
  match g.ins k with
  | none => .error .index
  | some es => match (directKeys es).find? (fun s => s ∉ visited) with
    | some s => .ok (some s)
    | none => match g.pars k with
      | none => .error .index
      | some ps => .ok ((ps.map PEdge.source).find? (fun s => s ∉ visited))

/-- `depth_first_search` (graph.rs 1938–1981).  Result: the set of visited nodes and the order. -/
def dfsLoop (g : Graph) : Nat → List Key → List Key → List Key → R (List Key × List Key)
  | _, visited, [], order => .ok (visited, order)
  | 0, _, _ :: _, _ => .error .unreachable
  | fuel + 1, visited, k :: stack, order => do
    match ← nextSource g visited k with
    | some s => dfsLoop g fuel (s :: visited) (s :: k :: stack) order
    | none => dfsLoop g fuel visited stack (order ++ [k])

/-- Some graph output is connected to node `k` (graph.rs 1998–2006). -/
def isOutNode (g : Graph) (k : Key) : Bool := anyFrom k g.outs

/-- The loop of `get_deepest_output_node` (graph.rs 1984–2018): move on to the first node in slot order
that has an input connected to `last`, as long as `last` has not been visited. -/
def deepestLoop (g : Graph) (visited : List Key) : Nat → Key → Key → R Key
  | 0, _, _ => .error .unreachable
  | fuel + 1, last, lastOut =>
    if last ∈ visited then .ok lastOut
    else match g.nodes.find? (fun p => anyFrom last (p.2.ins.getD [])) with
      | none => .ok lastOut
      | some p => deepestLoop g visited fuel p.1 (if isOutNode g p.1 then p.1 else lastOut)

/-- `get_deepest_output_node` (graph.rs 1984–2018). -/
def deepest (g : Graph) (visited : List Key) (start : Key) : R Key :=
  deepestLoop g visited (g.nodes.length + 2) start start

/-- The first loop of `calculate_node_order` (graph.rs 2028–2043): the roots pushed on the stack; they
are the visited nodes as well. -/
def rootsLoop (g : Graph) : List Key → List Key → R (List Key)
  | roots, [] => .ok roots
  | roots, s :: rest => do
    let d ← deepest g roots s
    rootsLoop g (if d ∈ roots then roots else d :: roots) rest

/-- The roots of the search, last pushed first. -/
def roots (g : Graph) : R (List Key) := rootsLoop g [] (srcKeys g.outs)

/-- `calculate_node_order` (graph.rs 2022–2073): `node_order` and `disconnected_nodes`. -/
def calcOrder (g : Graph) : R (List Key × List Key) := do
  let rs ← roots g
  let (visited, order) ← dfsLoop g (2 * g.nodes.length + rs.length + 2) rs rs []
  let remaining := (g.nodes.map Prod.fst).filter fun k => k ∉ visited && !g.isPending k
  .ok (order ++ remaining, remaining)

end Verif.G
