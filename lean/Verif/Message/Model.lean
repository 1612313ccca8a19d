import Verif.Bits.Model
/-!
# Model of messages (`/repo/include/msg/message.hpp`)

A message definition is a list of fields. Values are natural numbers: `static_cast` to the field's
value type reduces modulo `2^EW`. `none` is the undefined outcome of `Verif.Bits` or (for a field
name that is not part of the message) a compile error.

Left out: names of messages, environments, `describe`, `constness` of views, and the static
assertions (they appear as hypotheses or predicates below).
`boost::mp11::mp_sort` is modelled as a stable sort, `mp_unique_if` as keeping first occurrences.
-/
namespace Verif.Message
open Verif.Bits

/-- Default of a field: `with_default`, `with_const_default`, `without_default`, `uninitialized`,
`msg/field.hpp` 356-374. -/
inductive Dflt where
  | value (v : Nat)
  | const (v : Nat)
  | without
  | uninit
deriving DecidableEq, Repr

/-- `default_value`, if there is one: 357, 363. -/
def Dflt.val? : Dflt → Option Nat
  | .value v => some v
  | .const v => some v
  | _ => none

/-- `is_mutable_value`: 383-384 with 358, 368. -/
def Dflt.isMutable : Dflt → Bool
  | .value _ => true
  | .without => true
  | _ => false

/-- `initializable_t`: 379-381. -/
def Dflt.initializable : Dflt → Bool
  | .without => false
  | _ => true

/-- A field of a message: name, type and location, default (`field_t`, `msg/field.hpp` 397-406).
`rest` numbers the template arguments which no function of this file looks at: whether `T` is signed,
and the matcher `M` (`Verif.Receive` reads them). -/
structure MField where
  name : Nat
  fld : Fld
  dflt : Dflt
  rest : Nat
deriving DecidableEq, Repr

/-- `storage_size<Fields...>::in<T>`: `msg/message.hpp` 189-193. -/
def storageSize (W : Nat) (fs : List MField) : Nat := (fs.map (·.fld.extentIn W)).foldl max 0

/-- `Field::insert` after the conversion to the value type: 213-219. -/
def put (W : Nat) (f : Fld) (r : List (BitVec W)) (v : Nat) : Option (List (BitVec W)) :=
  f.insert W r (BitVec.ofNat f.EW v)

/-- `Field::extract`, as a number. -/
def read (W : Nat) (f : Fld) (r : List (BitVec W)) : Option Nat :=
  (f.extract W r).map BitVec.toNat

/-- `field_t<N>`: the field of that name, 233-234. -/
def find (fs : List MField) (n : Nat) : Option MField := fs.find? (·.name == n)

/-- `set1`: 213-219. -/
def set1 (W : Nat) (fs : List MField) (r : List (BitVec W)) (nv : Nat × Nat) :
    Option (List (BitVec W)) := do
  let f ← find fs nv.1
  put W f.fld r nv.2

/-- `set_default`: 221-225, with `insert_default`, `msg/field.hpp` 448-453. -/
def setDefault (W : Nat) (fs : List MField) (r : List (BitVec W)) (n : Nat) :
    Option (List (BitVec W)) := do
  let f ← find fs n
  match f.dflt.val? with
  | some d => put W f.fld r d
  | none => some r

/-- `get`: 227-230. -/
def get (W : Nat) (fs : List MField) (r : List (BitVec W)) (n : Nat) : Option Nat := do
  let f ← find fs n
  read W f.fld r

/-- `set(R&&, Vs...)` with values: 241-244, left to right. -/
def setValues (W : Nat) (fs : List MField) (r : List (BitVec W)) (vs : List (Nat × Nat)) :
    Option (List (BitVec W)) :=
  vs.foldlM (set1 W fs) r

/-- `set(R&&, names...)` without values: 236-239, 246-249. The first overload, for names written as
`"f"_field`, passes the name as a value where `set_default` takes a type, so a program that uses it does not
compile; the model is that of the second overload, which takes the fields' names as types. -/
def setDefaults (W : Nat) (fs : List MField) (r : List (BitVec W)) (ns : List Nat) :
    Option (List (BitVec W)) :=
  ns.foldlM (setDefault W fs) r

/-- `owner_t(Vs...)`: 503-523, and for no values `owner_t()` 494-501; storage starts zeroed (563). -/
def construct (W n : Nat) (fs : List MField) (vs : List (Nat × Nat)) :
    Option (List (BitVec W)) := do
  let r ← setDefaults W fs (List.replicate n 0) (fs.map (·.name))
  setValues W fs r vs

/-- `owner_t(S const&, Vs...)`: 525-536. -/
def constructFrom (W n : Nat) (fs : List MField) (s : List (BitVec W)) (vs : List (Nat × Nat)) :
    Option (List (BitVec W)) :=
  setValues W fs (s.take (min s.length n) ++ List.replicate (n - min s.length n) 0) vs

/-- `set` with values compiles: `check` (200-211) finds each field, and `insert` demands a mutable
default (`msg/field.hpp` 434-439). -/
def setOk (fs : List MField) (vs : List (Nat × Nat)) : Bool :=
  vs.all fun nv => match find fs nv.1 with
    | some f => f.dflt.isMutable
    | none => false

/-- `set` with names only compiles: `check` finds each field, 221-225. -/
def setNamesOk (fs : List MField) (ns : List Nat) : Bool := ns.all fun m => (find fs m).isSome

/-- `owner_t(Vs...)` compiles: every field is initializable or named (494-520), and `set` compiles. -/
def constructOk (fs : List MField) (vs : List (Nat × Nat)) : Bool :=
  fs.all (fun f => f.dflt.initializable || vs.any (fun nv => nv.1 == f.name)) && setOk fs vs

/-- A call of `set` on a message: with values 241-244, with names 246-249 (for 236-239 see `setDefaults`). -/
inductive SetOp where
  | values (vs : List (Nat × Nat))
  | names (ns : List Nat)
deriving DecidableEq, Repr

/-- The call compiles. -/
def SetOp.ok (fs : List MField) : SetOp → Bool
  | .values vs => setOk fs vs
  | .names ns => setNamesOk fs ns

/-- The effect of one call, 236-249. -/
def SetOp.run (W : Nat) (fs : List MField) (r : List (BitVec W)) : SetOp → Option (List (BitVec W))
  | .values vs => setValues W fs r vs
  | .names ns => setDefaults W fs r ns

/-- A history of calls. -/
def runOps (W : Nat) (fs : List MField) (r : List (BitVec W)) (ops : List SetOp) :
    Option (List (BitVec W)) :=
  ops.foldlM (SetOp.run W fs) r

/-- `equiv`: 476-479, 578-581. -/
def equiv (W : Nat) (fs : List MField) (a b : List (BitVec W)) : Bool :=
  fs.all fun f => decide (get W fs a f.name = get W fs b f.name)

/-- `sort_key` of a field: smallest lsb of its locations, `msg/field.hpp` 339-342, 392-394. -/
def sortKey (f : MField) : Nat :=
  match f.fld.ats with
  | [] => 0
  | a :: as => as.foldl (fun k b => min k b.lsb) a.lsb

/-- Insertion for a stable sort by `lt`. -/
def insertBy {α : Type} (lt : α → α → Bool) (x : α) : List α → List α
  | [] => [x]
  | y :: ys => if lt y x then y :: insertBy lt x ys else x :: y :: ys

/-- `boost::mp11::mp_sort`, a stable sort. -/
def sortBy {α : Type} (lt : α → α → Bool) (xs : List α) : List α := xs.foldr (insertBy lt) []

/-- `boost::mp11::mp_unique_if` with `name_equal_fn`. -/
def uniqueNames : List MField → List MField
  | [] => []
  | f :: fs => f :: (uniqueNames fs).filter (fun g => g.name != f.name)

/-- `unique_by_name`: 301-310. -/
def uniqueByName (fs : List MField) : List MField :=
  uniqueNames (sortBy (fun a b => decide (sortKey a < sortKey b)) fs)

/-- `msg::message`, with the static assertion on names as `none`: 317-334. -/
def message (fs : List MField) : Option (List MField) :=
  if (fs.map (·.name)).Nodup then some (uniqueByName fs) else none

/-- `extension`: 622-627. -/
def extend (base new : List MField) : List MField := uniqueByName (new ++ base)

/-- `field_t::shifted_by`: `msg/field.hpp` 546-548 with 343-346. `n` is in bits. -/
def MField.shiftedBy (f : MField) (n : Nat) : MField :=
  { f with fld := { f.fld with ats := f.fld.ats.map (·.shiftedBy n) } }

/-- `boost::mp11::mp_partial_sum` from `acc`. -/
def partialSums (acc : Nat) : List Nat → List Nat
  | [] => []
  | x :: xs => (acc + x) :: partialSums (acc + x) xs

/-- `msg_offsets`: 741-746, in units of `A` bits. -/
def msgOffsets (A : Nat) (ms : List (List MField)) : List Nat :=
  0 :: partialSums 0 (ms.map (storageSize A))

/-- `shifted_msgs`: 748-757, with the empty message "end" appended. -/
def shiftedMsgs (A : Nat) (ms : List (List MField)) : List (List MField) :=
  List.zipWith (fun off m => m.map (·.shiftedBy (off * A))) (msgOffsets A ms) (ms ++ [[]])

/-- `overlay`: 759-774. -/
def overlay (ms : List (List MField)) : Option (List MField) := message ms.flatten

/-- `pack`: 776-779. -/
def pack (A : Nat) (ms : List (List MField)) : Option (List MField) := overlay (shiftedMsgs A ms)

/-- `default_located`: `msg/field.hpp` 553-554. -/
def MField.defaultLocated (f : MField) : MField :=
  { f with fld := { f.fld with ats := [⟨f.fld.EW - 1, 0⟩] } }

/-- `is_locatable`: 782-783. -/
def MField.located (f : MField) : Bool := !f.fld.ats.isEmpty

/-- `field_locator` and `relaxed_message`: 781-820. The located message comes first, then one
message per unlocated field, widest first. -/
def relaxed (fs : List MField) : Option (List MField) := do
  let located ← message (fs.filter (·.located))
  let auto := sortBy (fun a b => decide (b.fld.EW < a.fld.EW)) (fs.filter (fun f => !f.located))
  pack 8 (located :: auto.map (fun f => [f.defaultLocated]))

/-- `rename_field`: 822-853. `none` for the two static assertions. -/
def renameField (fs : List MField) (old new : Nat) : Option (List MField) :=
  let touched := fs.filter (fun f => f.name == old)
  let untouched := fs.filter (fun f => !(f.name == old))
  if untouched.any (fun f => f.name == new) then none
  else match touched with
    | [] => none
    | f :: _ => message (untouched ++ [{ f with name := new }])

end Verif.Message
