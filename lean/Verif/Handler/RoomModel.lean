import Verif.Handler.Model
/-!
# Model of building indexed services with containers of a given size

`/repo/include/msg/detail/indexed_builder_common.hpp` 61-127, 181-205, with `temp_index<Field, 512, 256>`: a map with
room for 512 keys, and sets of numbers below 256. `none` is a program that does not compile: everything is evaluated
by the compiler, and writing or reading beyond the end of an array is not a constant expression. That `stdx::cx_map`
and `stdx::bitset` keep their elements in arrays of the given size is taken from their documentation.
-/
namespace Verif.Handler
open Verif.Match

/-- `EntryCapacity`: 124. -/
def entryRoom : Nat := 512
/-- `CallbackCapacity`: 124. -/
def callbackRoom : Nat := 256

/-- `value[idx]`. -/
def Bits.readIn (b : Bits) (i : Nat) : Option Bool := if i < callbackRoom then some (b i) else none
/-- `value.set(idx)`. -/
def Bits.setIn (b : Bits) (i : Nat) : Option Bits := if i < callbackRoom then some (b.set i) else none
/-- `value.reset(idx)`. -/
def Bits.resetIn (b : Bits) (i : Nat) : Option Bits := if i < callbackRoom then some (b.reset i) else none

/-- `if (not entries.contains(key)) entries.put(key, value_t{})`: 77-79, 97-99. -/
def TempIndex.ensureIn (t : TempIndex) (k : Int) : Option TempIndex :=
  if t.contains k then some t
  else if t.entries.length < entryRoom then some { t with entries := t.entries ++ [(k, Bits.empty)] } else none

/-- Apply `f` to every entry value, knowing its key. -/
def TempIndex.mapEntriesIn (t : TempIndex) (f : Int → Bits → Option Bits) : Option TempIndex :=
  (t.entries.mapM fun p => (f p.1 p.2).map fun b => (p.1, b)).map fun es => { t with entries := es }

/-- `add_positive`: 75-81. -/
def addPositiveIn (t : TempIndex) (m : Nat × Int) : Option TempIndex :=
  (t.ensureIn m.2).bind fun t => t.mapEntriesIn fun k b => if k = m.2 then b.setIn m.1 else some b

/-- `std::none_of` over the entries: 86-89. -/
def noneOf (i : Nat) : List (Int × Bits) → Option Bool
  | [] => some true
  | p :: ps => (p.2.readIn i).bind fun b => if b then some false else noneOf i ps

/-- `collect_defaults`: 83-93. -/
def collectDefaultsIn (n : Nat) (t : TempIndex) : Option TempIndex :=
  ((List.range n).foldlM (fun (d : Bits) i => (noneOf i t.entries).bind fun b => if b then d.setIn i else some d)
    t.dflt).map fun d => { t with dflt := d }

/-- `add_negative`: 95-111. -/
def addNegativeIn (t : TempIndex) (m : Nat × Int) : Option TempIndex :=
  (t.ensureIn m.2).bind fun u =>
  (u.mapEntriesIn fun k b => if k = m.2 then (b.or t.dflt).resetIn m.1 else b.setIn m.1).bind fun u =>
  (t.neg.setIn m.1).map fun n => { u with neg := n }

/-- `create_temp_indices` for one field: 181-205. -/
def createIndexIn (f : Field) (cbs : List Callback) : Option TempIndex :=
  ((walk indexTerms f 0 cbs).foldlM addPositiveIn ⟨[], Bits.empty, Bits.empty⟩).bind fun t =>
  (collectDefaultsIn cbs.length t).bind fun t =>
  ((walk indexNotTerms f 0 cbs).foldlM addNegativeIn t).map propagate

/-- `indexed_handler::handle` on the service built from `cbs`: `indexed_builder.hpp` 48-82,
`indexed_handler_common.hpp` 49-64. -/
def handleIndexedIn (fields : List Field) (cbs : List Callback) (e : Msg) : Option Outcome :=
  let ts := build cbs
  (fields.mapM fun f => (createIndexIn f ts).map fun t => (f, t)).map fun tables =>
  let found : Bits := if fields = [] then Bits.empty else fun i => tables.all fun p => p.2.lookup (e.val p.1) i
  let o := ((ts.zipIdx.filter fun p => found p.2).map (·.1)).foldl (invoke fields e) ([], false)
  ⟨o.1, o.2, !o.2⟩

end Verif.Handler
