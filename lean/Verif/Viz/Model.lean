import Verif.Flow.Model

/-!
# Model of the pictures of flows (`/repo/include/flow/viz_builder.hpp`, `debug_builder.hpp`,
`graph_common.hpp`)

A flow whose renderer is `viz_builder` is not run: calling it gives a text, in the language of
graphviz or of mermaid. A flow whose renderer is `debug_builder` shows the part of the graph between
two actions as a compilation error.

Fragments, leaves and nodes are those of `Verif.Flow.Model`; there, names are numbers. `Names` says
which text a number stands for. Text is a list of characters.

Outside `/repo`: `stdx::ct_format`, `stdx::to_sorted_set`, `stdx::to_unsorted_set`, `boost::mp11`. The
order in which the sets give back their elements is left open (`Order`). `mp_any_of_q` evaluates its
predicate for every element of the list (it is defined by counting).

Left out: sequencer steps in pictures; the limit of compilers on the depth of templates.
-/
namespace Verif.Viz
open Verif.Flow

/-- Text. -/
abbrev Str := List Char

/-- The texts behind the numbers of `Verif.Flow.Model`: names of nodes (`ct_node::ct_name`,
`flow/step.hpp` 14-25), and names of conditions (`runtime_condition::ct_name`,
`nexus/detail/runtime_conditional.hpp` 54-58; without predicates it is `always`, 74-89). `milestone f`
says that `f` is the function of milestones (`flow/step.hpp` 44-47, 64-66). -/
structure Names where
  text : Nat → Str
  inj : ∀ a b, text a = text b → a = b
  start : Nat
  start_text : text start = "start".toList
  stop : Nat
  stop_text : text stop = "end".toList
  cond : List Nat → Str
  always : cond [] = "always".toList
  empty : Nat
  milestone : Nat → Bool
  empty_milestone : milestone empty = true

/-- `edge`: `flow/dsl/walk.hpp` 22-26. The ends are types of nodes. -/
structure VEdge where
  src : Leaf
  dst : Leaf
  cond : List Nat
deriving DecidableEq, Repr

/-- `mp_product_q<make_edge_q<C>, …>`: `flow/dsl/seq.hpp` 60-61. -/
def vcross (c : List Nat) (as bs : List Leaf) : List VEdge :=
  as.flatMap fun a => bs.map fun b => ⟨a, b, c⟩

/-- `edges_of`: `flow/dsl/walk.hpp` 70-74, `par.hpp` 55-58, `seq.hpp` 58-63. -/
def vedges : Sub → List VEdge
  | .leaf _ => []
  | .par _ l r => vedges l ++ vedges r
  | .seq _ c l r => vedges l ++ vedges r ++ vcross c l.finals r.initials

/-- How `to_sorted_set` gives back nodes and edges: without duplicates, in some order. -/
structure Order where
  nodes : List Leaf → List Leaf
  nodes_perm : ∀ l, (nodes l).Perm (unique l)
  edges : List VEdge → List VEdge
  edges_perm : ∀ l, (edges l).Perm (unique l)

/-! ## Rendering -/

/-- A renderer: `graphviz` or `mermaid`. -/
structure Renderer where
  prologue : Str → Str
  epilogue : Str → Str
  node : Leaf → Str
  edge : VEdge → Str

/-- `graphviz`: `viz_builder.hpp` 18-33. -/
def graphviz (N : Names) : Renderer where
  prologue n := "digraph ".toList ++ n ++ " {".toList
  epilogue _ := "}".toList
  node l := "  ".toList ++ N.text l.name
  edge e := "  ".toList ++ N.text e.src.name ++ " -> ".toList ++ N.text e.dst.name

/-- `mermaid::to_id`: `viz_builder.hpp` 36-43. -/
def toId (s : Str) : Str := '_' :: s.map fun c => if c = ' ' then '_' else c

/-- `is_milestone`: `flow/step.hpp` 46-47. -/
def isMilestone (N : Names) (l : Leaf) : Bool := (l.func.map N.milestone).getD false

/-- `mermaid::to_box`: `viz_builder.hpp` 45-52. -/
def toBox (N : Names) (l : Leaf) : Str :=
  if isMilestone N l then '[' :: N.text l.name ++ [']'] else '(' :: N.text l.name ++ [')']

/-- `mermaid`: `viz_builder.hpp` 54-91. -/
def mermaid (N : Names) : Renderer where
  prologue n := "---\ntitle: ".toList ++ n ++ "\n---\nflowchart TD".toList
  epilogue _ := []
  node l :=
    if N.text l.name = "start".toList ∨ N.text l.name = "end".toList then
      "  ".toList ++ toId (N.text l.name) ++ "((".toList ++ N.text l.name ++ "))".toList
    else "  ".toList ++ toId (N.text l.name) ++ toBox N l
  edge e :=
    if N.cond e.cond = "always".toList then
      "  ".toList ++ toId (N.text e.src.name) ++ " --> ".toList ++ toId (N.text e.dst.name)
    else
      "  ".toList ++ toId (N.text e.src.name) ++ " --".toList ++ N.cond e.cond ++ "--> ".toList ++
        toId (N.text e.dst.name)

/-- `join` with the empty text for no elements: `viz_builder.hpp` 107-117. -/
def joinLines : List Str → Str
  | [] => []
  | [a] => a
  | a :: b :: rest => a ++ '\n' :: joinLines (b :: rest)

/-- `visualize`: `viz_builder.hpp` 96-119. -/
def visualize (R : Renderer) (name : Str) (nodes : List Leaf) (edges : List VEdge) : Str :=
  R.prologue name ++ '\n' :: joinLines (nodes.map R.node) ++ '\n' :: joinLines (edges.map R.edge) ++
    '\n' :: R.epilogue name

/-! ## `viz_builder` -/

/-- `has_no_edge_q<matching_dest, …>`: `graph_common.hpp` 43-46, 61-66. -/
def isSource (es : List VEdge) (l : Leaf) : Bool := !es.any fun e => decide (e.dst.name = l.name)

/-- `has_no_edge_q<matching_source, …>`: `graph_common.hpp` 38-41, 61-66. -/
def isSink (es : List VEdge) (l : Leaf) : Bool := !es.any fun e => decide (e.src.name = l.name)

/-- `"start"_milestone`: `viz_builder.hpp` 136, `flow/step.hpp` 64-66. -/
def startNode (N : Names) : Leaf := ⟨.action, N.start, false, [], some N.empty⟩

/-- `"end"_milestone`: `viz_builder.hpp` 137. -/
def stopNode (N : Names) : Leaf := ⟨.action, N.stop, false, [], some N.empty⟩

/-- The nodes to render: `viz_builder.hpp` 125, 148-149. -/
def vizNodes (O : Order) (N : Names) (ts : List Leaf) : List Leaf :=
  startNode N :: stopNode N :: O.nodes ts

/-- The edges to render: `viz_builder.hpp` 126-146, 150-152. -/
def vizEdges (O : Order) (N : Names) (ts : List Leaf) (es : List VEdge) : List VEdge :=
  O.edges es ++
    ((O.nodes ts).filter (isSource (O.edges es))).map (fun n => ⟨startNode N, n, n.cond⟩) ++
    ((O.nodes ts).filter (isSink (O.edges es))).map (fun n => ⟨n, stopNode N, n.cond⟩)

/-- `get_nodes`: `flow/dsl/walk.hpp` 137-141. `none`: does not compile. -/
def getNodes (ss : List Sub) : Option (List Leaf) :=
  (allNodes ss).map fun ts => ts.map (pickNode (ss.flatMap Sub.values))

/-- `viz_builder::build`: `viz_builder.hpp` 121-159. -/
def vizBuild (O : Order) (N : Names) (R : Renderer) (name : Str) (ss : List Sub) : Option Str :=
  (getNodes ss).map fun ts =>
    visualize R name (vizNodes O N ts) (vizEdges O N ts (ss.flatMap vedges))

/-- What a flow service with `viz_builder` gives when called: `viz_builder.hpp` 164-186. -/
def viz (O : Order) (N : Names) (R : Renderer) (name : Str) (fs : List Frag) : Option Str :=
  (evalAll fs).bind (vizBuild O N R name)

/-! ## `debug_builder` -/

/-- `parents_of`: `graph_common.hpp` 71-73. Only the names of nodes matter below. -/
def parentsOf (es : List VEdge) (n : Nat) : List Nat :=
  (es.filter fun e => decide (e.dst.name = n)).map (·.src.name)

/-- `children_of`: `graph_common.hpp` 75-77. -/
def childrenOf (es : List VEdge) (n : Nat) : List Nat :=
  (es.filter fun e => decide (e.src.name = n)).map (·.dst.name)

/-- `mp_any_of_q` of a predicate that may not be defined. -/
def anyOf (p : Nat → Option Bool) : List Nat → Option Bool
  | [] => some false
  | a :: as => do
    let b ← p a
    let c ← anyOf p as
    return b || c

/-- `descendant_of_q` and `ancestor_of_q`: `graph_common.hpp` 79-102, with `next` the parents or the
children. `none`: the recursion has not ended after `fuel` rounds. -/
def reaches (next : Nat → List Nat) (target : Nat) : Nat → Nat → Option Bool
  | fuel, n =>
    if n = target then some true
    else match fuel with
      | 0 => none
      | fuel + 1 => anyOf (reaches next target fuel) (next n)

/-- `mp_copy_if_q` with such a predicate: it has to be defined for all nodes. -/
def copyIf (p : Nat → Option Bool) : List Leaf → Option (List Leaf)
  | [] => some []
  | l :: ls => do
    let b ← p l.name
    let rest ← copyIf p ls
    return if b then l :: rest else rest

/-- `contained_edge_q`: `graph_common.hpp` 52-59. -/
def contained (ns : List Leaf) (e : VEdge) : Bool :=
  (ns.any fun l => decide (l.name = e.src.name)) && ns.any fun l => decide (l.name = e.dst.name)

/-- The subgraph that `debug_builder::build` shows: `debug_builder.hpp` 20-44. `get` of a name that no
node or more than one node has does not compile (29-33). Without a cycle no path has more nodes than
there are edges and one; a longer recursion does not end. -/
def debugParts (first last : Nat) (ss : List Sub) : Option (List Leaf × List VEdge) := do
  let ts ← getNodes ss
  let ns := unique ts
  let es := unique (ss.flatMap vedges)
  if (ns.filter fun l => decide (l.name = first)).length ≠ 1 then none
  if (ns.filter fun l => decide (l.name = last)).length ≠ 1 then none
  let down ← copyIf (reaches (parentsOf es) first (es.length + 1)) ns
  let up ← copyIf (reaches (childrenOf es) last (es.length + 1)) ns
  let both := down.filter fun l => decide (l ∈ up)
  return (both, es.filter (contained both))

/-- The name of the picture: `debug_builder.hpp` 52. -/
def debugName (N : Names) (first last : Nat) : Str := N.text first ++ " -> ".toList ++ N.text last

/-- The text in the compilation error: `debug_builder.hpp` 46-49. -/
def debug (N : Names) (R : Renderer) (first last : Nat) (fs : List Frag) : Option Str := do
  let ss ← evalAll fs
  let p ← debugParts first last ss
  return visualize R (debugName N first last) p.1 p.2

end Verif.Viz
