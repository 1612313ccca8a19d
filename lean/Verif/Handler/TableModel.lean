import Verif.Handler.RoomModel
import Verif.Lookup.CountProps
/-!
# Model of the tables with which an indexed service finds its callbacks

`Verif.Handler.Model` takes the tables of an indexed service to be maps. Here they are the tables of `lookup::make`.
-/
namespace Verif.Handler
open Verif.Match
open Verif.Lookup (Entry Table make Made.table)

/-- `get_entry` for every entry: `indexed_builder.hpp` 28-33. The keys are values of the type of the field. -/
def TempIndex.input (f : Field) (t : TempIndex) : List (Entry f.ty.bits Bits) :=
  t.entries.map fun p => ⟨BitVec.ofInt f.ty.bits p.1, p.2⟩

/-- `make_input` and `make_index_lookup`: 35-58. `none` if the table is not made, so that the program does not
compile. `srt` is `std::sort`. -/
def tableOf (f : Field) (srt : (BitVec f.ty.bits → Nat) → List (Entry f.ty.bits Bits) → List (Entry f.ty.bits Bits))
    (ts : List Callback) : Option (Table f.ty.bits Bits) :=
  (createIndexIn f ts).bind fun t => (make srt t.dflt (t.input f)).table

/-- `index::operator()`: `indexed_handler_common.hpp` 17-30; with it the number of keys compared. -/
def answer (e : Msg) (f : Field)
    (srt : (BitVec f.ty.bits → Nat) → List (Entry f.ty.bits Bits) → List (Entry f.ty.bits Bits))
    (ts : List Callback) : Option (Bits × Nat) :=
  (tableOf f srt ts).bind fun t =>
  (t.lookup (BitVec.ofInt f.ty.bits (e.val f))).bind fun b =>
  (t.compared (BitVec.ofInt f.ty.bits (e.val f))).map fun c => (b, c)

/-- `indexed_handler::handle` on the service built from `cbs`: `indexed_builder.hpp` 48-82,
`indexed_handler.hpp` 9-26, `indexed_handler_common.hpp` 49-64; with it the number of keys compared. -/
def handleTables
    (srt : ∀ W : Nat, (BitVec W → Nat) → List (Entry W Bits) → List (Entry W Bits))
    (fields : List Field) (cbs : List Callback) (e : Msg) : Option (Outcome × Nat) :=
  let ts := build cbs
  (fields.mapM fun f => answer e f (srt f.ty.bits) ts).map fun as =>
  let found : Bits := if fields = [] then Bits.empty else fun i => as.all fun p => p.1 i
  let o := ((ts.zipIdx.filter fun p => found p.2).map (·.1)).foldl (invoke fields e) ([], false)
  (⟨o.1, o.2, !o.2⟩, (as.map (·.2)).sum)

end Verif.Handler
