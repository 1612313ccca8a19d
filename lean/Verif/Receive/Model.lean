import Verif.Handler.Model
import Verif.Message.Model
/-!
# Model of matching on concrete data

How a matcher made of *field types* is evaluated on a concrete message: raw storage (an array or a
span) or a message object (a view or an owning message). `/repo/include/msg/field.hpp` 397-567 (options
of a field declaration), `/repo/include/msg/field_matchers.hpp` 134-141, `/repo/include/msg/message.hpp`
43-177 and 197-255, `/repo/include/msg/detail/indexed_handler_common.hpp` 17-30.

A field *type* carries its matcher, and the matcher carries a field type: the one the option was
applied to. In C++ both are template arguments; here types are numbered (`Numbering`), and
`Verif.Match.Field.name` is the number of the whole type. Two fields are the same for `implies` and for
the index exactly when the types are (`std::is_same`), and the numbers are then equal.

`none` is "no answer": undefined behaviour of `Verif.Bits` (access outside the storage), or the program
does not compile.

Simplifications: field values are integers; when a message object holds a field of the matcher's name
with another value type, numbers are compared (C++ first applies the usual arithmetic conversions).
`with_matcher` with an arbitrary matcher is not an option here. A matcher's call operator accepts any
argument, so `call_with_message` (`msg/message.hpp` 684-735) always passes the data as it is.
-/
namespace Verif.Receive
open Verif.Match Verif.Message Verif.Bits

/-- The predicates a matcher can hold: `pred_matcher_t<Field, P>` (`msg/field_matchers.hpp` 345-351) on
the value of a field, or `match::predicate` on something other than the message (a runtime condition,
`msg/callback.hpp` 109-110). -/
inductive Pred where
  | field (f : MField) (p : Nat)
  | cond (k : Nat)
deriving DecidableEq, Repr

/-- Numbers for field types, for the template arguments kept in `MField.rest` (signedness of `T`,
matcher `M`), and for predicates. Different types have different numbers. -/
structure Numbering where
  field : MField → Nat
  fieldOf : Nat → Option MField
  field_ok : ∀ f, fieldOf (field f) = some f
  rest : Bool → M RLeaf → Nat
  restOf : Nat → Option (Bool × M RLeaf)
  rest_ok : ∀ s m, restOf (rest s m) = some (s, m)
  pred : Pred → Nat
  predOf : Nat → Option Pred
  pred_ok : ∀ p, predOf (pred p) = some p

/-- Answers of the functions given to `with_predicate`, and of runtime conditions. -/
structure Env where
  fieldPred : Nat → Int → Bool
  cond : Nat → Bool

/-- Value type `T` is signed. -/
def signed (N : Numbering) (f : MField) : Bool := ((N.restOf f.rest).getD (false, .always)).1

/-- `field_t::matcher_t`: `msg/field.hpp` 420. -/
def matcher (N : Numbering) (f : MField) : M RLeaf := ((N.restOf f.rest).getD (false, .always)).2

/-- Value type of a field. -/
def ty (N : Numbering) (f : MField) : IntTy := ⟨f.fld.EW, signed N f⟩

/-- A field type as `Verif.Match` sees it. -/
def toField (N : Numbering) (f : MField) : Field := ⟨N.field f, ty N f⟩

/-- Bits as a value of the field's type (`stdx::bit_cast`, `msg/field.hpp` 242, 249). -/
def toInt (s : Bool) {w : Nat} (v : BitVec w) : Int := if s then v.toInt else v.toNat

/-- `field_t<Name, T>` as first written: no location, default zero, matcher `always`: 397-400. -/
def newField (N : Numbering) (name : Nat) (t : IntTy) : MField :=
  ⟨name, ⟨[], t.bits⟩, .value 0, N.rest t.signed .always⟩

/-- Replace the matcher. -/
def setMatcher (N : Numbering) (f : MField) (m : M RLeaf) : MField :=
  { f with rest := N.rest (signed N f) m }

/-- A value of type `T` as the unsigned number of the same bits. -/
def raw (w : Nat) (v : Int) : Nat := (BitVec.ofInt w v).toNat

/-- Options of a field declaration: 475-554. -/
inductive Opt where
  | default (v : Int)
  | constDefault (v : Int)
  | withoutDefault
  | uninitialized
  | equalTo (v : Int)
  | in (vs : List Int)
  | greaterThan (v : Int)
  | greaterThanOrEqualTo (v : Int)
  | lessThan (v : Int)
  | lessThanOrEqualTo (v : Int)
  | predicate (p : Nat)
  | required (v : Int)
  | newType (t : IntTy)
  | newName (n : Nat)
  | shiftedBy (n : Nat)
  | located (ats : List At)
deriving DecidableEq, Repr

/-- The field type after one more option: 475-554. The matchers refer to `field_t`, the type the
option is applied to. -/
def declare (N : Numbering) (f : MField) : Opt → MField
  | .default v => { f with dflt := .value (raw f.fld.EW v) }
  | .constDefault v => { f with dflt := .const (raw f.fld.EW v) }
  | .withoutDefault => { f with dflt := .without }
  | .uninitialized => { f with dflt := .uninit }
  | .equalTo v => setMatcher N f (.leaf (.rel .eq (toField N f) v))
  | .in vs => setMatcher N f (inMatcher (toField N f) vs)
  | .greaterThan v => setMatcher N f (.leaf (.rel .gt (toField N f) v))
  | .greaterThanOrEqualTo v => setMatcher N f (.leaf (.rel .ge (toField N f) v))
  | .lessThan v => setMatcher N f (.leaf (.rel .le (toField N f) v))
  | .lessThanOrEqualTo v => setMatcher N f (.leaf (.rel .le (toField N f) v))
  | .predicate p => setMatcher N f (.leaf (.pred (N.pred (.field f p))))
  | .required v => { setMatcher N f (.leaf (.rel .eq (toField N f) v)) with
      dflt := .const (raw f.fld.EW v) }
  | .newType t => ⟨f.name, ⟨f.fld.ats, t.bits⟩, .value 0, N.rest t.signed .always⟩
  | .newName n => { f with name := n }
  | .shiftedBy n => f.shiftedBy n
  | .located ats => { f with fld := { f.fld with ats := ats } }

/-- A whole declaration. -/
def field (N : Numbering) (name : Nat) (t : IntTy) (opts : List Opt) : MField :=
  opts.foldl (declare N) (newField N name t)

/-- `compatible_with_default<V, Default>`: 360-374, 386-387. -/
def compatible (w : Nat) (d : Dflt) (v : Int) : Bool :=
  match d with
  | .const n => raw w v == n
  | _ => true

/-- The constraints of the options: 494-495, 499-500. An empty `with_in<>` is refused (`||` of nothing). -/
def allowed (f : MField) : Opt → Bool
  | .equalTo v => compatible f.fld.EW f.dflt v
  | .in vs => vs.any (compatible f.fld.EW f.dflt)
  | _ => true

/-- The declaration compiles, as far as the options' own constraints go. -/
def fieldOk (N : Numbering) (name : Nat) (t : IntTy) (opts : List Opt) : Bool :=
  (List.range opts.length).all fun i => match opts[i]? with
    | some o => allowed (field N name t (opts.take i)) o
    | none => true

/-- What a matcher is applied to: raw storage, or a message object (view or owning message) with the
fields of its definition. -/
inductive Data (W : Nat) where
  | raw (r : List (BitVec W))
  | msg (fs : List MField) (r : List (BitVec W))

/-- `Field::extract` as a number of the field's type: 422-425. -/
def value (N : Numbering) (W : Nat) (f : MField) (r : List (BitVec W)) : Option Int :=
  (f.fld.extract W r).map (toInt (signed N f))

/-- `detail::extract_field`: `msg/field_matchers.hpp` 134-141. Storage is read with the field type of
the matcher; a message object is asked for the field of that name (`msg/message.hpp` 227-234,
253-255). -/
def extractField (N : Numbering) (W : Nat) (d : Data W) (f : MField) : Option Int :=
  match d with
  | .raw r => value N W f r
  | .msg fs r => (find fs f.name).bind fun g => value N W g r

/-- One term on the data: `rel_matcher_t::operator()` 148-151, `pred_matcher_t::operator()` 348-351. -/
def evalLeaf (N : Numbering) (env : Env) (W : Nat) (d : Data W) : RLeaf → Option Bool
  | .rel op g v => (N.fieldOf g.name).bind fun f => (extractField N W d f).map (op.app · v)
  | .pred i => match N.predOf i with
    | some (.field f p) => (extractField N W d f).map (env.fieldPred p)
    | some (.cond k) => some (env.cond k)
    | none => none

/-- A matcher on the data, with the short-circuit operators of `match/and.hpp` 21-24 and
`match/or.hpp` 21-24. -/
def evalM (N : Numbering) (env : Env) (W : Nat) (d : Data W) : M RLeaf → Option Bool
  | .always => some true
  | .never => some false
  | .leaf a => evalLeaf N env W d a
  | .not m => (evalM N env W d m).map (!·)
  | .and l r => (evalM N env W d l).bind fun b => if b then evalM N env W d r else some false
  | .or l r => (evalM N env W d l).bind fun b => if b then some true else evalM N env W d r

/-- Fields read by a matcher. -/
def fieldsOf (N : Numbering) : M RLeaf → List MField
  | .always => []
  | .never => []
  | .leaf (.rel _ g _) => (N.fieldOf g.name).toList
  | .leaf (.pred i) => match N.predOf i with
    | some (.field f _) => [f]
    | _ => []
  | .not m => fieldsOf N m
  | .and l r => fieldsOf N l ++ fieldsOf N r
  | .or l r => fieldsOf N l ++ fieldsOf N r

/-- The static assertions of `check` (`msg/message.hpp` 200-211): a message object is only asked for
names it has. They do not depend on the short-circuit. -/
def compiles (N : Numbering) {W : Nat} (d : Data W) (m : M RLeaf) : Bool :=
  match d with
  | .raw _ => true
  | .msg fs _ => (fieldsOf N m).all fun f => (find fs f.name).isSome

/-- `callback::is_match` (`msg/callback.hpp` 26-28) for a callback with matcher `m`. -/
def accepts (N : Numbering) (env : Env) (W : Nat) (d : Data W) (m : M RLeaf) : Option Bool :=
  if compiles N d m then evalM N env W d m else none

/-- The matcher of `msg::callback<Name, Msg>(f)`: `msg/callback.hpp` 90-95, `msg/message.hpp` 620. -/
def plainMatcher (N : Numbering) (fs : List MField) : M RLeaf :=
  (Handler.constructPlain 0 (fs.map (matcher N))).matcher

/-- The matcher of `msg::callback<Name, Msg>(m, f)`: `msg/callback.hpp` 75-82. -/
def callbackMatcher (N : Numbering) (fs : List MField) (m : M RLeaf) : M RLeaf :=
  (Handler.construct 0 m (fs.map (matcher N))).matcher

/-- Matchers on field names, `"name"_field == constant<v>` and combinations: `msg/message.hpp` 44-118,
120-166. -/
inductive Maker where
  | rel (name : Nat) (op : RelOp) (v : Int)
  | in (name : Nat) (vs : List Int)
  | not (m : Maker)
  | and (l r : Maker)
  | or (l r : Maker)
  | wrap (m : M RLeaf)
deriving DecidableEq, Repr

/-- `make_matcher<Msg>`: `msg/message.hpp` 47-55, 60-62, 72-74, 85-87, 95-103, 134-136. `in` is the left
fold `(... or Ts)`, which for no values is not a matcher. -/
def make (N : Numbering) (fs : List MField) : Maker → Option (M RLeaf)
  | .rel n op v => (find fs n).map fun f => .leaf (.rel op (toField N f) v)
  | .in n vs => (find fs n).bind fun f => match vs with
    | [] => none
    | v :: vs => some (vs.foldl (fun m w => opOr relOps m (.leaf (.rel .eq (toField N f) w)))
        (.leaf (.rel .eq (toField N f) v)))
  | .not m => (make N fs m).map (opNot relOps)
  | .and l r => (make N fs l).bind fun a => (make N fs r).map (opAnd relOps a)
  | .or l r => (make N fs l).bind fun a => (make N fs r).map (opOr relOps a)
  | .wrap m => some m

/-! ### Services -/

/-- A callback as it is registered: `msg::callback<Name, Msg>(f)` or `msg::callback<Name, Msg>(m, f)`
with a condition on field names. `id` stands for the callable, `fs` are the fields of `Msg`. -/
structure Entry where
  id : Nat
  fs : List MField
  cond : Option Maker

/-- `callback_construct_t`: `msg/callback.hpp` 75-95. -/
def Entry.callback (N : Numbering) (e : Entry) : Option Handler.Callback :=
  match e.cond with
  | none => some ⟨e.id, plainMatcher N e.fs⟩
  | some u => (make N e.fs u).map fun t => ⟨e.id, callbackMatcher N e.fs t⟩

/-- `std::data(msg)`, or the range itself: `indexed_handler_common.hpp` 24-28. -/
def Data.storage {W : Nat} : Data W → List (BitVec W)
  | .raw r => r
  | .msg _ r => r

/-- `callback::handle` on data, as one operand: `msg/callback.hpp` 30-46. -/
def stepData (N : Numbering) (env : Env) (W : Nat) (d : Data W) (o : List Nat × Bool)
    (c : Handler.Callback) : Option (List Nat × Bool) :=
  (evalM N env W d c.matcher).map fun b => if b then (o.1 ++ [c.id], true) else o

/-- Callbacks one after the other. -/
def runAll (N : Numbering) (env : Env) (W : Nat) (d : Data W) (cbs : List Handler.Callback) :
    Option Handler.Outcome :=
  if cbs.all fun c => compiles N d c.matcher then
    (cbs.foldlM (stepData N env W d) ([], false)).map fun o => ⟨o.1, o.2, !o.2⟩
  else none

/-- `handler::handle` on data, operands from left to right: `msg/handler.hpp` 25-40. -/
def serve (N : Numbering) (env : Env) (W : Nat) (d : Data W) (cbs : List Handler.Callback) :
    Option Handler.Outcome := runAll N env W d cbs

/-- `indices::operator()` for index fields whose values are known: `msg/indexed_handler.hpp` 9-26. -/
def candidatesOf (ixs : List (Field × Int)) (ts : List Handler.Callback) : Handler.Bits :=
  match ixs with
  | [] => Handler.Bits.empty
  | xs => fun i => xs.all fun p => (Handler.createIndex p.1 ts).lookup p.2 i

/-- `indexed_handler::handle` on data: `indexed_handler_common.hpp` 49-64. Index fields are read from
the storage at their own places (`index::operator()`, 17-30), also when `msg` is a message object; all
callback functions are compiled (`create_callback_array`), those of the candidates are called. -/
def serveIndexed (N : Numbering) (env : Env) (W : Nat) (idx : List MField) (d : Data W)
    (cbs : List Handler.Callback) : Option Handler.Outcome :=
  let ts := Handler.build cbs
  let left := ts.map fun t => (⟨t.id, Handler.removeTerms (idx.map (toField N)) t.matcher⟩ : Handler.Callback)
  if left.all fun c => compiles N d c.matcher then
    (idx.mapM fun f => (value N W f d.storage).map fun x => (toField N f, x)).bind fun ixs =>
      runAll N env W d ((left.zipIdx.filter fun p => candidatesOf ixs ts p.2).map (·.1))
  else none

/-- The message as `Verif.Handler` sees it: what `extract_field` returns for each field type. Fields that
cannot be read count as 0. -/
def seen (N : Numbering) (env : Env) (W : Nat) (d : Data W) : Msg where
  val g := match N.fieldOf g.name with
    | some f => if (g.ty = ty N f) ∧ (∃ x, extractField N W d f = some x ∧ g.ty.InRange x)
      then (extractField N W d f).getD 0 else 0
    | none => 0
  pred i := match N.predOf i with
    | some (.field f p) => env.fieldPred p ((extractField N W d f).getD 0)
    | some (.cond k) => env.cond k
    | none => false

end Verif.Receive
