/-!
# Model of flows (`/repo/include/flow/**`) and of the sequencer builder (`/repo/include/seq`)

Actions, references and sequencer steps are leaves of a small expression language (`*`, `&&`, `>>`).
A builder is a list of fragments. Building checks the mentioned names, makes a graph and sorts it.

Names, functions and runtime predicates are numbers. A C++ type and a value of that type are both
written as a `Leaf`; `Leaf.ty` forgets what is not part of the type.

Outside `/repo`: `stdx::cx_multimap`, `stdx::cx_set`, `stdx::cx_vector`, `stdx::to_sorted_set`,
`stdx::to_unsorted_set`, `boost::mp11`. They are modelled by their documented meaning: maps and sets,
where erasing the last value of a key erases the key. The order in which a set gives back its
elements is left open (`picks`).

Left out: logging, the text of error messages, the capacity of the containers (see `Verif.Flow.Room`).
-/
namespace Verif.Flow

/-- What a leaf is made by: `flow::action` / `flow::milestone` (`flow/step.hpp` 38-66), the `_ref`
literal (`flow/dsl/walk.hpp` 28-38), or `seq::step` (`seq/step.hpp` 30-60). -/
inductive Kind where
  | action
  | ref
  | step
deriving DecidableEq, Repr

/-- A leaf: `ct_node` (`flow/step.hpp` 14-35), `node_reference` (`flow/dsl/walk.hpp` 28-32) or
`ct_step` (`seq/step.hpp` 30-44). `starred` is identity `VALUE` of a `ct_node`, and `not IsReference`
of a `ct_step`. `cond` is the list of predicates of the runtime condition. `func` is the function
type of an action, or the function pointers of a step; `none` is a null pointer. -/
structure Leaf where
  kind : Kind
  name : Nat
  starred : Bool
  cond : List Nat
  func : Option Nat
deriving DecidableEq, Repr

/-- The type of a leaf: the function pointers of a step are not part of its type
(`seq/step.hpp` 17-44), the function of an action is (`flow/step.hpp` 14-19). Also `N{}`, the
value-initialised object of that type. -/
def Leaf.ty (l : Leaf) : Leaf :=
  match l.kind with
  | .step => { l with func := none }
  | _ => l

/-- `operator*` of a leaf: `flow/step.hpp` 27-34, `seq/step.hpp` 41-43. A reference has none. -/
def Leaf.star (l : Leaf) : Option Leaf :=
  match l.kind with
  | .ref => none
  | _ => some { l with starred := true }

/-- `identity == VALUE`: `flow/step.hpp` 24, `flow/dsl/walk.hpp` 30, `seq/step.hpp` 35 (a step has
identity `VALUE` with and without `*`). -/
def Leaf.isValue (l : Leaf) : Bool :=
  match l.kind with
  | .action => l.starred
  | .ref => false
  | .step => true

/-- Values of the expression language. `starred` of a composite is identity `VALUE`:
`flow/dsl/par.hpp` 10-22, `flow/dsl/seq.hpp` 11-24. -/
inductive Sub where
  | leaf (l : Leaf)
  | par (starred : Bool) (lhs rhs : Sub)
  | seq (starred : Bool) (cond : List Nat) (lhs rhs : Sub)
deriving DecidableEq, Repr

/-- `Lhs{}` of a type: every leaf is value-initialised. -/
def Sub.init : Sub → Sub
  | .leaf l => .leaf l.ty
  | .par s l r => .par s l.init r.init
  | .seq s c l r => .seq s c l.init r.init

/-- `operator*`: leaves as above; `flow/dsl/par.hpp` 19-21 and `flow/dsl/seq.hpp` 21-23 make a new
composite from value-initialised parts. -/
def Sub.star : Sub → Option Sub
  | .leaf l => l.star.map .leaf
  | .par _ l r => some (.par true l.init r.init)
  | .seq _ c l r => some (.seq true c l.init r.init)

/-- `initials_of`: `flow/dsl/walk.hpp` 43-47, `par.hpp` 27-30, `seq.hpp` 29-32. -/
def Sub.initials : Sub → List Leaf
  | .leaf l => [l.ty]
  | .par _ l r => l.initials ++ r.initials
  | .seq _ _ l _ => l.initials

/-- `finals_of`: `flow/dsl/walk.hpp` 49-53, `par.hpp` 32-35, `seq.hpp` 34-37. -/
def Sub.finals : Sub → List Leaf
  | .leaf l => [l.ty]
  | .par _ l r => l.finals ++ r.finals
  | .seq _ _ _ r => r.finals

/-- `all_mentioned_of`: `flow/dsl/walk.hpp` 55-60, `par.hpp` 37-41, `seq.hpp` 39-43. -/
def Sub.mentioned : Sub → List Leaf
  | .leaf l => [l.ty]
  | .par _ l r => l.mentioned ++ r.mentioned
  | .seq _ _ l r => l.mentioned ++ r.mentioned

/-- `mp_unique`: keeps the first of equal types. -/
def unique {α : Type} [DecidableEq α] : List α → List α
  | [] => []
  | a :: as => a :: (unique as).filter (fun b => decide (b ≠ a))

/-- `mp_transform<star_t, …>`: `flow/dsl/walk.hpp` 76-77. Does not compile for a `_ref`. -/
def starAll : List Leaf → Option (List Leaf)
  | [] => some []
  | l :: ls => do
    let l' ← l.star
    let ls' ← starAll ls
    return l'.ty :: ls'

/-- `nodes_of`: `flow/dsl/walk.hpp` 62-68, `par.hpp` 43-53, `seq.hpp` 45-56. -/
def Sub.nodes : Sub → Option (List Leaf)
  | .leaf l => some (if l.isValue then [l.ty] else [])
  | .par s l r =>
    if s then starAll (unique (l.mentioned ++ r.mentioned))
    else do
      let a ← l.nodes
      let b ← r.nodes
      return a ++ b
  | .seq s _ l r =>
    if s then starAll (unique (l.mentioned ++ r.mentioned))
    else do
      let a ← l.nodes
      let b ← r.nodes
      return a ++ b

/-- `edge`: `flow/dsl/walk.hpp` 22-26. Only the names of the ends are used later
(`graph_builder.hpp` 85-86). -/
structure Edge where
  src : Nat
  dst : Nat
  cond : List Nat
deriving DecidableEq, Repr

/-- `mp_product_q<make_edge_q<C>, …>`: `flow/dsl/seq.hpp` 60-61. -/
def cross (c : List Nat) (as bs : List Leaf) : List Edge :=
  as.flatMap fun a => bs.map fun b => ⟨a.name, b.name, c⟩

/-- `edges_of`: `flow/dsl/walk.hpp` 70-74, `par.hpp` 55-58, `seq.hpp` 58-63. -/
def Sub.edges : Sub → List Edge
  | .leaf _ => []
  | .par _ l r => l.edges ++ r.edges
  | .seq _ c l r => l.edges ++ r.edges ++ cross c l.finals r.initials

/-- `collect_node_values`: `flow/dsl/walk.hpp` 102-114. -/
def Sub.values : Sub → List Leaf
  | .leaf l => match l.kind with
    | .ref => []
    | _ => [l]
  | .par _ l r => l.values ++ r.values
  | .seq _ _ l r => l.values ++ r.values

/-- `operator and` of conditions: `nexus/detail/runtime_conditional.hpp` 69-87. -/
def condAnd (l r : List Nat) : List Nat := l ++ r

/-- `make_runtime_conditional` of a leaf: `flow/step.hpp` 83-93. There is none for a reference or a
step (`nexus/detail/runtime_conditional.hpp` 13-16). -/
def Leaf.conditional (c : List Nat) (l : Leaf) : Option Leaf :=
  match l.kind with
  | .action => some (if l.starred then { l with cond := condAnd l.cond c } else l)
  | _ => none

/-- `make_runtime_conditional`: `flow/dsl/par.hpp` 68-79, `flow/dsl/seq.hpp` 73-85. The parts are
value-initialised there; that changes steps only, and for steps it does not compile. -/
def Sub.conditional (c : List Nat) : Sub → Option Sub
  | .leaf l => (l.conditional c).map .leaf
  | .par s l r => do
    let l' ← l.conditional c
    let r' ← r.conditional c
    return .par s l' r'
  | .seq s ec l r => do
    let l' ← l.conditional c
    let r' ← r.conditional c
    return .seq s (condAnd ec c) l' r'

/-! ## What a user writes -/

/-- Expressions as written: `action<n>(f)` or `milestone<n>()`, `"n"_ref`, `seq::step<n>(f, b)`,
`*e`, `a && b`, `a >> b`. -/
inductive Expr where
  | action (n f : Nat)
  | ref (n : Nat)
  | step (n f : Nat)
  | star (e : Expr)
  | par (a b : Expr)
  | seq (a b : Expr)
deriving DecidableEq, Repr

/-- The value of an expression: `make_node` (`flow/step.hpp` 38-42, identity `REFERENCE`, condition
`always`), `operator""_ref` (`walk.hpp` 35-37), `seq::step` (`seq/step.hpp` 55-60),
`operator&&` (`par.hpp` 63-66), `operator>>` (`seq.hpp` 68-71). -/
def Expr.eval : Expr → Option Sub
  | .action n f => some (.leaf ⟨.action, n, false, [], some f⟩)
  | .ref n => some (.leaf ⟨.ref, n, false, [], none⟩)
  | .step n f => some (.leaf ⟨.step, n, false, [], some f⟩)
  | .star e => do (← e.eval).star
  | .par a b => do return .par false (← a.eval) (← b.eval)
  | .seq a b => do return .seq false [] (← a.eval) (← b.eval)

/-- One argument of `extend<flow>(…)` or of `add(…)`, with the runtime conditions around it, the
innermost first; a condition is its list of predicates. -/
structure Frag where
  whens : List (List Nat)
  expr : Expr
deriving DecidableEq, Repr

/-- `runtime_conditional::extends_tuple` (`nexus/detail/runtime_conditional.hpp` 25-42), applied from
the inside out. -/
def applyWhens : List (List Nat) → Sub → Option Sub
  | [], e => some e
  | c :: cs, e => do applyWhens cs (← e.conditional c)

/-- The fragment that reaches the builder. -/
def Frag.eval (f : Frag) : Option Sub := do applyWhens f.whens (← f.expr.eval)

/-! ## Graphs: `stdx::cx_multimap<K, K>` and `stdx::cx_set<K>` -/

/-- The keys of the multimap, and its (key, value) pairs. -/
structure Graph (K : Type) where
  keys : List K
  pairs : List (K × K)
deriving DecidableEq, Repr

section
variable {K : Type} [DecidableEq K]

/-- Insertion into a set. -/
def setInsert (a : K) (s : List K) : List K := if a ∈ s then s else s ++ [a]

/-- Removal from a set. -/
def setErase (a : K) (s : List K) : List K := s.filter fun b => decide (b ≠ a)

/-- `put(k)`. -/
def Graph.put (g : Graph K) (n : K) : Graph K := { g with keys := setInsert n g.keys }

/-- `put(k, v)`. -/
def Graph.putEdge (g : Graph K) (n m : K) : Graph K :=
  { keys := setInsert n g.keys, pairs := if (n, m) ∈ g.pairs then g.pairs else g.pairs ++ [(n, m)] }

/-- `contains(k)`. -/
def Graph.contains (g : Graph K) (n : K) : Bool := decide (n ∈ g.keys)

/-- `get(k)`. -/
def Graph.get (g : Graph K) (n : K) : List K :=
  (g.pairs.filter fun p => decide (p.1 = n)).map (·.2)

/-- `erase(k)`. -/
def Graph.erase (g : Graph K) (n : K) : Graph K :=
  { keys := setErase n g.keys, pairs := g.pairs.filter fun p => decide (p.1 ≠ n) }

/-- `erase(k, v)`; the key goes with its last value. -/
def Graph.eraseEdge (g : Graph K) (n m : K) : Graph K :=
  let pairs := g.pairs.filter fun p => decide (p ≠ (n, m))
  { keys := if pairs.any fun p => decide (p.1 = n) then g.keys else setErase n g.keys, pairs }

/-- `empty()`. -/
def Graph.empty (g : Graph K) : Bool := g.keys.isEmpty

/-- `is_source_of`: `graph_builder.hpp` 119-125. -/
def isSourceOf (n : K) (g : Graph K) : Bool := !g.pairs.any fun p => decide (p.2 = n)

/-- `get_sources`: `graph_builder.hpp` 127-140. -/
def getSources (g : Graph K) : List K :=
  g.pairs.foldl (fun s p => setErase p.2 s) (g.keys.foldl (fun s k => setInsert k s) [])

/-- The loop over the successors of `n`: `graph_builder.hpp` 158-163. -/
def relax (n : K) : List K → List K × Graph K → List K × Graph K
  | [], sg => sg
  | m :: ms, sg =>
    let g' := sg.2.eraseEdge n m
    relax n ms (if isSourceOf m g' then setInsert m sg.1 else sg.1, g')

/-- The body of the loop for the popped `n`: `graph_builder.hpp` 153-165. -/
def visit (n : K) (s : List K) (g : Graph K) : List K × Graph K :=
  if g.contains n then
    let ms := g.get n
    if ms.isEmpty then (s, g.erase n) else relax n ms (s, g)
  else (s, g)

/-- The loop of `topo_sort`: `graph_builder.hpp` 149-166. `picks` says which element `pop_back` takes
in which round. `none`: more rounds than there is room in the list. -/
def topoLoop (picks : Nat → Nat) : Nat → Nat → List K → Graph K → List K → Option (List K × Graph K)
  | fuel, round, s, g, out =>
    match s with
    | [] => some (out, g)
    | x :: xs =>
      match fuel with
      | 0 => none
      | fuel + 1 =>
        let n := ((x :: xs)[picks round % (x :: xs).length]?).getD x
        let sg := visit n (setErase n (x :: xs)) g
        topoLoop picks fuel (round + 1) sg.1 sg.2 (out ++ [n])

/-- `topo_sort`: `graph_builder.hpp` 142-171. The list has room for as many elements as the graph has
keys. -/
def topoSort (picks : Nat → Nat) (g : Graph K) : Option (List K × Graph K) :=
  topoLoop picks g.keys.length 0 (getSources g) g []

end

/-! ## Building -/

/-- `create_node`: `func_list.hpp` 62-67 (a pair of the function made for the node's type and its
name) and `seq/impl.hpp` 28-31 (the function pointers; two steps without functions are equal). -/
def createNode (l : Leaf) : Leaf :=
  match l.kind, l.func with
  | .step, none => ⟨.step, 0, false, [], none⟩
  | _, _ => l

/-- `pick_node`: `flow/dsl/walk.hpp` 116-127. -/
def pickNode (values : List Leaf) (t : Leaf) : Leaf :=
  match values.find? fun v => decide (v.star.map Leaf.ty = some t) with
  | some v => { v with starred := true }
  | none => t

/-- What building gives: an error of `check_for_missing_nodes` (`graph_builder.hpp` 184-213), the
error about conditions (93-109), or the result of `build` (239): the sorted list and what is left of
the graph. `illFormed` is any other compilation error. -/
inductive Built where
  | illFormed
  | missing
  | duplicate
  | conditions
  | overflow
  | sorted (out : List Leaf) (leftover : Graph Leaf)
deriving DecidableEq, Repr

/-- The names of the nodes and the mentioned names are the same set: `graph_builder.hpp` 188-199. -/
def sameNames (nodes mentioned : List Nat) : Bool :=
  nodes.all (fun n => decide (n ∈ mentioned)) && mentioned.all (fun n => decide (n ∈ nodes))

/-- No name occurs twice: `graph_builder.hpp` 204-209. -/
def hasDuplicates : List Nat → Bool
  | [] => false
  | a :: as => decide (a ∈ as) || hasDuplicates as

/-- `get<name_for<…>>(named_nodes)`: `graph_builder.hpp` 81-86. -/
def namedNode (nodes : List Leaf) (n : Nat) : Option Leaf := nodes.find? fun l => decide (l.name = n)

/-- The assertion on the predicates: `graph_builder.hpp` 93-109. -/
def conditionsOk (nodes : List Leaf) (e : Edge) : Bool :=
  match namedNode nodes e.src, namedNode nodes e.dst with
  | some l, some r => (l.cond ++ r.cond).all fun p => decide (p ∈ e.cond)
  | _, _ => false

/-- `make_graph`: `graph_builder.hpp` 71-116, without the assertion. -/
def makeGraph (nodes : List Leaf) (edges : List Edge) : Graph Leaf :=
  edges.foldl (fun g e =>
    match namedNode nodes e.src, namedNode nodes e.dst with
    | some l, some r => g.putEdge (createNode l) (createNode r)
    | _, _ => g)
  (nodes.foldl (fun g n => g.put (createNode n)) ⟨[], []⟩)

/-- `nodes_of` of a builder: `flow/builder.hpp` 60-64. -/
def allNodes : List Sub → Option (List Leaf)
  | [] => some []
  | f :: fs => do
    let a ← f.nodes
    let b ← allNodes fs
    return a ++ b

/-- `graph_builder::build`: `graph_builder.hpp` 215-240, on the fragments of a builder
(`flow/builder.hpp` 45-71). -/
def build (picks : Nat → Nat) (fs : List Sub) : Built :=
  match allNodes fs with
  | none => .illFormed
  | some ts =>
    let nodes := ts.map (pickNode (fs.flatMap Sub.values))
    let mentioned := fs.flatMap Sub.mentioned
    if !sameNames (nodes.map (·.name)) (mentioned.map (·.name)) then .missing
    else if hasDuplicates (nodes.map (·.name)) then .duplicate
    else
      let nodeSet := unique nodes
      let edges := unique (fs.flatMap Sub.edges)
      if !edges.all (conditionsOk nodeSet) then .conditions
      else
        match topoSort picks (makeGraph nodeSet edges) with
        | none => .overflow
        | some (out, g) => .sorted out g

/-- All fragments of a program. -/
def evalAll : List Frag → Option (List Sub)
  | [] => some []
  | f :: fs => do
    let a ← f.eval
    let b ← evalAll fs
    return a :: b

/-- The whole way from what is written to what is built. -/
def program (picks : Nat → Nat) (fs : List Frag) : Built :=
  match evalAll fs with
  | none => .illFormed
  | some ss => build picks ss

/-- A flow service: `built_flow::built` (`graph_builder.hpp` 246-280). `none` is a compilation error;
the graph must be used up (250-272). -/
def flow (picks : Nat → Nat) (fs : List Frag) : Option (List Leaf) :=
  match program picks fs with
  | .sorted out g => if g.empty then some out else none
  | _ => none

/-- `diagnose_cycle`: the edges that are listed, `graph_builder.hpp` 250-271. -/
def reported (picks : Nat → Nat) (fs : List Frag) : List (Nat × Nat) :=
  match program picks fs with
  | .sorted _ g => if g.empty then [] else g.pairs.map fun p => (p.1.name, p.2.name)
  | _ => []

/-- Running a flow: `inlined_func_list::operator()` (`func_list.hpp` 42-52) calls `run_func`
(21-35) of every node in order; the condition is true when all predicates are
(`nexus/detail/runtime_conditional.hpp` 66). `ρ k p` is what predicate `p` answers when the node at
position `k` is reached. The result lists the calls of actions with their positions. -/
def runFrom (ρ : Nat → Nat → Bool) : Nat → List Leaf → List (Nat × Leaf)
  | _, [] => []
  | k, l :: ls => (if l.cond.all (ρ k) then [(k, l)] else []) ++ runFrom ρ (k + 1) ls

/-- One run of a built flow. -/
def run (ρ : Nat → Nat → Bool) (out : List Leaf) : List (Nat × Leaf) := runFrom ρ 0 out

end Verif.Flow
