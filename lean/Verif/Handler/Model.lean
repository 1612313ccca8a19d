import Verif.Match.Rel
/-!
# Model of message callbacks, the plain handler and the indexed handler

`/repo/include/msg/{callback,handler,handler_builder}.hpp`,
`/repo/include/msg/{indexed_builder,indexed_handler}.hpp`,
`/repo/include/msg/detail/{indexed_builder_common,indexed_handler_common,separate_sum_terms}.hpp`.

A message is `Verif.Match.Msg`: the values of its fields and the answers of opaque predicates.
A callable is its identity; calling it is recorded in the outcome.

Left out: log texts, extra callback arguments, `call_with_message` (the choice between passing the
storage, a view or an owning message; in `Verif.Call`), and the capacities of `temp_index` (512 keys, 256 callbacks;
in `RoomModel`). Tables made by `lookup::make` are taken to answer like
the map they are built from (that is property C27, `Verif.Lookup`).
-/
namespace Verif.Handler
open Verif.Match

/-- `detail::callback`: `msg/callback.hpp` 22-72. `id` stands for the callable. -/
structure Callback where
  id : Nat
  matcher : M RLeaf
deriving DecidableEq, Repr

/-- `callback::is_match`: 26-28. -/
def Callback.isMatch (c : Callback) (e : Msg) : Bool := eval revalLeaf c.matcher e

/-- `callback_construct_t::operator()(M, F)`: 75-82. `fields` are the matchers of the message's
fields; `Msg::matcher_t` is `match::all` of them (`msg/message.hpp` 620). -/
def construct (id : Nat) (m : M RLeaf) (fields : List (M RLeaf)) : Callback :=
  ⟨id, sop relOps (opAnd relOps m (all relOps fields))⟩

/-- `callback_construct_t::operator()(F)`: 90-95. -/
def constructPlain (id : Nat) (fields : List (M RLeaf)) : Callback :=
  ⟨id, all relOps fields⟩

/-- `make_runtime_conditional`: 104-119. `p` is the predicate that reads the condition. -/
def makeConditional (p : Nat) (c : Callback) : Callback :=
  ⟨c.id, sop relOps (opAnd relOps c.matcher (.leaf (.pred p)))⟩

/-- What an observer sees of one `handle`: the callables called, in order, the returned value,
and whether the error "None of the registered callbacks …" is logged. -/
structure Outcome where
  called : List Nat
  handled : Bool
  error : Bool
deriving DecidableEq, Repr

/-- `callback::handle` as one operand of the fold in `handler::handle`: `msg/callback.hpp` 30-46. -/
def step (e : Msg) (o : List Nat × Bool) (c : Callback) : List Nat × Bool :=
  if c.isMatch e then (o.1 ++ [c.id], o.2 || true) else (o.1, o.2 || false)

/-- `handler::handle`, evaluating the operands of `|` in the order given: `msg/handler.hpp` 25-40.
C++ does not specify the order in which the operands are evaluated. -/
def handleIn (order : List Callback) (e : Msg) : Outcome :=
  let o := order.foldl (step e) ([], false)
  ⟨o.1, o.2, !o.2⟩

/-- `handler::handle` with operands evaluated left to right, as compilers do. -/
def handle (cbs : List Callback) (e : Msg) : Outcome := handleIn cbs e

/-- `handler::is_match`: `msg/handler.hpp` 20-23. -/
def isMatch (cbs : List Callback) (e : Msg) : Bool := cbs.any (·.isMatch e)

/-! ### Indexed service -/

/-- `detail::separate_sum_terms`: `detail/separate_sum_terms.hpp` 16-34. -/
def splitOr : M RLeaf → List (M RLeaf)
  | .or l r => splitOr l ++ splitOr r
  | m => [m]

/-- `separate_sum_terms`: 37-43. -/
def separate (c : Callback) : List Callback :=
  (splitOr (sop relOps (all relOps [c.matcher]))).map (⟨c.id, ·⟩)

/-- `indexed_builder_base::add` for the callbacks in order: `indexed_builder_common.hpp` 135-141. -/
def build (cbs : List Callback) : List Callback := cbs.flatMap separate

/-- `index_terms`: `msg/field_matchers.hpp` 22-43, 261-266. -/
def indexTerms : M RLeaf → List (Field × Int)
  | .or l r => indexTerms l ++ indexTerms r
  | .and l r => indexTerms l ++ indexTerms r
  | .leaf (.rel .eq f v) => [(f, v)]
  | _ => []

/-- `index_not_terms`: 45-68, 273-278 (the flag `negated` is not used by any overload). -/
def indexNotTerms : M RLeaf → List (Field × Int)
  | .or l r => indexNotTerms l ++ indexNotTerms r
  | .and l r => indexNotTerms l ++ indexNotTerms r
  | .not m => indexNotTerms m
  | .leaf (.rel .ne f v) => [(f, v)]
  | _ => []

/-- `remove_terms`: 70-98, 280-302. -/
def removeTerms (fields : List Field) : M RLeaf → M RLeaf
  | .or l r => opOr relOps (removeTerms fields l) (removeTerms fields r)
  | .and l r => opAnd relOps (removeTerms fields l) (removeTerms fields r)
  | .not m => removeTerms fields m
  | .leaf (.rel .eq f v) => if f ∈ fields then .always else .leaf (.rel .eq f v)
  | .leaf (.rel .ne f v) => if f ∈ fields then .always else .leaf (.rel .ne f v)
  | m => m

/-- A `stdx::bitset` of callback indices. -/
abbrev Bits := Nat → Bool

/-- `value.set(idx)`. -/
def Bits.set (b : Bits) (i : Nat) : Bits := fun j => if j = i then true else b j
/-- `value.reset(idx)`. -/
def Bits.reset (b : Bits) (i : Nat) : Bits := fun j => if j = i then false else b j
/-- `|`. -/
def Bits.or (a b : Bits) : Bits := fun j => a j || b j
/-- The empty set `value_t{}`. -/
def Bits.empty : Bits := fun _ => false

/-- `temp_index`: `indexed_builder_common.hpp` 64-73. `entries` is the `cx_map`, in insertion
order. -/
structure TempIndex where
  entries : List (Int × Bits)
  dflt : Bits
  neg : Bits

/-- `entries.contains(key)`. -/
def TempIndex.contains (t : TempIndex) (k : Int) : Bool := t.entries.any (fun p => p.1 == k)

/-- `if (not entries.contains(key)) entries.put(key, value_t{})`. -/
def TempIndex.ensure (t : TempIndex) (k : Int) : TempIndex :=
  if t.contains k then t else { t with entries := t.entries ++ [(k, Bits.empty)] }

/-- Apply `f` to every entry value, knowing its key. -/
def TempIndex.mapEntries (t : TempIndex) (f : Int → Bits → Bits) : TempIndex :=
  { t with entries := t.entries.map (fun p => (p.1, f p.1 p.2)) }

/-- `add_positive`: 75-81. -/
def addPositive (t : TempIndex) (m : Nat × Int) : TempIndex :=
  (t.ensure m.2).mapEntries fun k b => if k = m.2 then b.set m.1 else b

/-- `collect_defaults`: 83-93. -/
def collectDefaults (n : Nat) (t : TempIndex) : TempIndex :=
  { t with dflt := fun i => t.dflt i || (decide (i < n) && t.entries.all (fun p => !p.2 i)) }

/-- `add_negative`: 95-111. -/
def addNegative (t : TempIndex) (m : Nat × Int) : TempIndex :=
  { (t.ensure m.2).mapEntries fun k b =>
      if k = m.2 then (b.or t.dflt).reset m.1 else b.set m.1
    with neg := t.neg.set m.1 }

/-- `propagate_positive_defaults`: 113-120. -/
def propagate (t : TempIndex) : TempIndex :=
  t.mapEntries fun _ b => b.or (fun i => t.dflt i && !t.neg i)

/-- The calls which `walk_matcher` (174-179) makes for one index field: callback number and
value, callbacks in order. -/
def walk (tag : M RLeaf → List (Field × Int)) (f : Field) (start : Nat) :
    List Callback → List (Nat × Int)
  | [] => []
  | c :: cs => ((tag c.matcher).filterMap fun p => if p.1 = f then some (start, p.2) else none)
      ++ walk tag f (start + 1) cs

/-- `create_temp_indices` for one field: 181-205. (The indices of different fields do not
interact.) -/
def createIndex (f : Field) (cbs : List Callback) : TempIndex :=
  let t := (walk indexTerms f 0 cbs).foldl addPositive ⟨[], Bits.empty, Bits.empty⟩
  let t := collectDefaults cbs.length t
  let t := (walk indexNotTerms f 0 cbs).foldl addNegative t
  propagate t

/-- The lookup table made from an index (`msg/indexed_builder.hpp` 22-46, `lookup::make` with
`default_value`): the entry of the key, otherwise the default. -/
def TempIndex.lookup (t : TempIndex) (v : Int) : Bits :=
  match t.entries.find? (fun p => p.1 == v) with
  | some p => p.2
  | none => t.dflt

/-- `indices::operator()`: `msg/indexed_handler.hpp` 9-26 with `index` (`indexed_handler_common.hpp`
17-30). Without index fields the result is the empty set. -/
def candidates (fields : List Field) (cbs : List Callback) (e : Msg) : Bits :=
  match fields with
  | [] => Bits.empty
  | fs => fun i => fs.all fun f => (createIndex f cbs).lookup (e.val f) i

/-- `indexed_builder_base::invoke_callback`: 146-166, as a step of `transform_reduce`. -/
def invoke (fields : List Field) (e : Msg) (o : List Nat × Bool) (c : Callback) :
    List Nat × Bool :=
  step e o ⟨c.id, removeTerms fields c.matcher⟩

/-- The candidates in ascending order: iteration over a `stdx::bitset`. -/
def candidateList (fields : List Field) (cbs : List Callback) (e : Msg) : List Callback :=
  (cbs.zipIdx.filter fun p => candidates fields cbs e p.2).map (·.1)

/-- `indexed_handler::handle`: `indexed_handler_common.hpp` 49-64, on the service built from
`cbs` (`indexed_builder::build`). -/
def handleIndexed (fields : List Field) (cbs : List Callback) (e : Msg) : Outcome :=
  let ts := build cbs
  let o := (candidateList fields ts e).foldl (invoke fields e) ([], false)
  ⟨o.1, o.2, !o.2⟩

/-- `indexed_handler::is_match`: 45-47. -/
def isMatchIndexed (fields : List Field) (cbs : List Callback) (e : Msg) : Bool :=
  let ts := build cbs
  (List.range ts.length).any (candidates fields ts e)

end Verif.Handler
