import Verif.Basic

/-!
# Names of nodes

`shorten_name`, `set_name`, `node_id_with_name` and `node_data_from_name` (knaster_graph/src/graph.rs 350–365, 373–375,
433–451, 2150–2166) and the identifiers in `GraphInspection::to_dot_string` (inspection.rs 107–196).

Strings are lists of characters.  The slot map is a list of slots; a new node goes to any free slot or behind the last one.
-/

namespace Verif.Nm

/-- The separators of `shorten_name` (graph.rs 2152). -/
def delim (c : Char) : Bool := c ∈ ['<', '>', ';', '(', ')', '[', ']']

/-- `str::split_inclusive`. -/
def splitInclusive (p : Char → Bool) : List Char → List (List Char)
  | [] => []
  | c :: cs =>
    if p c then [c] :: splitInclusive p cs
    else match splitInclusive p cs with
      | [] => [[c]]
      | x :: xs => (c :: x) :: xs

/-- `path.rsplit_once(':')`, the second part, or all of it (graph.rs 2154–2158). -/
def afterColon (cs : List Char) : List Char := (cs.reverse.takeWhile (· ≠ ':')).reverse

/-- One round of the loop of `shorten_name` (graph.rs 2153–2162). -/
def shortenStep (short path : List Char) : List Char :=
  match (short ++ afterColon path).getLast? with
  | some ',' => short ++ afterColon path ++ [' ']
  | some ';' => short ++ afterColon path ++ [' ']
  | _ => short ++ afterColon path

/-- `shorten_name` (graph.rs 2150–2166). -/
def shorten (name : List Char) : List Char := (splitInclusive delim name).foldl shortenStep []

/-- The slots of `nodes`, with the key and name of the node in them. -/
abbrev Slots := List (Option (Nat × List Char))

/-- `node_id_with_name` and `node_data_from_name` (graph.rs 352–365, 440–451): the first node in slot order. -/
def lookup (s : Slots) (name : List Char) : Option Nat :=
  match s with
  | [] => none
  | none :: s => lookup s name
  | some (k, n) :: s => if n = name then some k else lookup s name

/-- Replace the name of the node with the given key. -/
def rename (s : Slots) (k : Nat) (name : List Char) : Slots :=
  s.map fun x => match x with
    | some (k', n) => if k' = k then some (k', name) else some (k', n)
    | none => none

/-- `set_name` (graph.rs 435–437): indexing with the key of a node that is gone panics. -/
def setName (s : Slots) (k : Nat) (name : List Char) : R Slots :=
  if s.any (fun x => match x with | some (k', _) => k' = k | none => false) then .ok (rename s k name)
  else .error .index

/-- `set_name` with the identifier of a node (graph.rs 435–437; graph_edit.rs 730–733, 824–827): of the pair of graph and key
only the key is used. -/
def setNameId (s : Slots) (id : Nat × Nat) (name : List Char) : R Slots := setName s id.2 name

/-- `node_data` (graph.rs 343–350): whether there is a node with this identifier; here the graph is compared. -/
def hasNode (graph : Nat) (s : Slots) (id : Nat × Nat) : Bool :=
  decide (id.1 = graph) && s.any (fun x => match x with | some (k', _) => k' = id.2 | none => false)

/-- `push_internal`, `push_with_done_action` (graph.rs 373–377, 408–411): the name of a new node is the short name of its
type; slot `i` must be free or the first one behind the others. -/
def push (s : Slots) (i k : Nat) (typeName : List Char) : Option Slots :=
  if i = s.length then some (s ++ [some (k, shorten typeName)])
  else match s[i]? with
    | some none => some (s.set i (some (k, shorten typeName)))
    | _ => none

/-- Removing a node. -/
def remove (s : Slots) (k : Nat) : Slots :=
  s.map fun x => match x with
    | some (k', n) => if k' = k then none else some (k', n)
    | none => none

/-- `format!("{i}")` -/
def dec (n : Nat) : List Char :=
  if h : n < 10 then [Char.ofNat (48 + n)] else dec (n / 10) ++ [Char.ofNat (48 + n % 10)]
decreasing_by omega

/-- The identifier of a node in the dot string, without the quotes (inspection.rs 108–114, 159, 170, 184). -/
def dotId (i : Nat) (name : List Char) : List Char := dec i ++ '_' :: name

/-- The identifier as it is written. -/
def quoted (s : List Char) : List Char := '"' :: s ++ ['"']

/-- How dot reads a quoted identifier: up to the next quote that does not follow a backslash; `\"` stands for a quote. -/
def readQuoted : List Char → Option (List Char × List Char)
  | [] => none
  | '"' :: cs => some ([], cs)
  | '\\' :: '"' :: cs => (readQuoted cs).map fun p => ('"' :: p.1, p.2)
  | c :: cs => (readQuoted cs).map fun p => (c :: p.1, p.2)

/-- The name inside the label (inspection.rs 127–129). -/
def labelName (name : List Char) : List Char :=
  name.flatMap fun c => if c = '<' then ['&', '#', '6', '0', ';'] else if c = '>' then ['&', '#', '6', '2', ';'] else [c]

end Verif.Nm
