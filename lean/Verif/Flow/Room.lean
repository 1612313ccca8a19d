import Verif.Flow.Model
/-!
# Building with containers of fixed size

`graph_builder::build` (`/repo/include/flow/graph_builder.hpp` 215-240) computes the sizes of its
containers from the nodes and the edges. `Verif.Flow.Model` has containers that are always large enough;
here an insertion into a full container is `none`.

Outside `/repo`: `stdx::cx_multimap<K, V, N, E>` has room for `N` keys, and for `E` values of each key;
`stdx::cx_set<K, N>` and `stdx::cx_vector<K, N>` have room for `N` elements.

Simplified: edges with the same names and predicates count once; in `/repo` they count for each type, so
that `E` may be larger there.
-/
namespace Verif.Flow

/-- The lambda of `edge_size`: how many edges have the node as an end, `flow/graph_common.hpp` 14-29. -/
def edgeCount (edges : List Edge) (l : Leaf) : Nat :=
  (edges.filter fun e => decide (e.src = l.name) || decide (e.dst = l.name)).length

/-- `edge_size`: `flow/graph_common.hpp` 12-34. -/
def edgeSize (nodes : List Leaf) (edges : List Edge) : Nat :=
  nodes.foldl (fun acc l => max acc (edgeCount edges l)) 1

/-- The multimap after an insertion for key `k`. -/
def fit (N E : Nat) (g : Graph Leaf) (k : Leaf) : Option (Graph Leaf) :=
  if g.keys.length ≤ N ∧ (g.get k).length ≤ E then some g else none

/-- `make_graph`: `flow/graph_builder.hpp` 71-116. -/
def makeGraphIn (N E : Nat) (nodes : List Leaf) (edges : List Edge) : Option (Graph Leaf) :=
  (nodes.foldlM (fun g n => fit N E (g.put (createNode n)) (createNode n)) ⟨[], []⟩).bind fun g =>
    edges.foldlM (fun g e =>
      match namedNode nodes e.src, namedNode nodes e.dst with
      | some l, some r => fit N E (g.putEdge (createNode l) (createNode r)) (createNode l)
      | _, _ => some g) g

section
variable {K : Type} [DecidableEq K]

/-- The loop over the successors of `n`: 158-163. -/
def relaxIn (N : Nat) (n : K) : List K → List K × Graph K → Option (List K × Graph K)
  | [], sg => some sg
  | m :: ms, sg =>
    let g' := sg.2.eraseEdge n m
    let s' := if isSourceOf m g' then setInsert m sg.1 else sg.1
    if s'.length ≤ N then relaxIn N n ms (s', g') else none

/-- The body of the loop: 153-165. -/
def visitIn (N : Nat) (n : K) (s : List K) (g : Graph K) : Option (List K × Graph K) :=
  if g.contains n then
    let ms := g.get n
    if ms.isEmpty then some (s, g.erase n) else relaxIn N n ms (s, g)
  else some (s, g)

/-- The loop of `topo_sort`: 149-166. -/
def topoLoopIn (N : Nat) (picks : Nat → Nat) :
    Nat → Nat → List K → Graph K → List K → Option (List K × Graph K)
  | fuel, round, s, g, out =>
    match s with
    | [] => some (out, g)
    | x :: xs =>
      match fuel with
      | 0 => none
      | fuel + 1 =>
        let n := ((x :: xs)[picks round % (x :: xs).length]?).getD x
        (visitIn N n (setErase n (x :: xs)) g).bind fun sg =>
          topoLoopIn N picks fuel (round + 1) sg.1 sg.2 (out ++ [n])

/-- `topo_sort`: 142-171; `get_sources` (127-140) first inserts all keys into the set. -/
def topoSortIn (N : Nat) (picks : Nat → Nat) (g : Graph K) : Option (List K × Graph K) :=
  if (g.keys.foldl (fun s k => setInsert k s) []).length ≤ N then
    topoLoopIn N picks N 0 (getSources g) g []
  else none

end

/-- `graph_builder::build`: 215-240. `none`: a container is full. -/
def buildIn (picks : Nat → Nat) (fs : List Sub) : Option Built :=
  match allNodes fs with
  | none => some .illFormed
  | some ts =>
    let nodes := ts.map (pickNode (fs.flatMap Sub.values))
    let mentioned := fs.flatMap Sub.mentioned
    if !sameNames (nodes.map (·.name)) (mentioned.map (·.name)) then some .missing
    else if hasDuplicates (nodes.map (·.name)) then some .duplicate
    else
      let nodeSet := unique nodes
      let edges := unique (fs.flatMap Sub.edges)
      let N := nodeSet.length
      let E := edgeSize nodeSet edges
      if !edges.all (conditionsOk nodeSet) then some .conditions
      else (makeGraphIn N E nodeSet edges).bind fun g =>
        (topoSortIn N picks g).map fun og => .sorted og.1 og.2

/-- The whole way, as `program`. -/
def programIn (picks : Nat → Nat) (fs : List Frag) : Option Built :=
  match evalAll fs with
  | none => some .illFormed
  | some ss => buildIn picks ss

end Verif.Flow
