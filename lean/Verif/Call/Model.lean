import Verif.Object.Model
/-!
# Model of handing a message to a function

`call_with_message` (`/repo/include/msg/message.hpp` 684-735): conditions and functions of callbacks
may take a message as they like (`/repo/include/msg/callback.hpp` 26-55).

A call compiles or not, depending on types only; the model computes this together with what the
function gets. Types are those of `Verif.Object`: the fields stand for the definition. `stdx::span`
and deduction of template arguments are as documented: a span is made from anything that has at least
as many elements of the same type, and constant elements only become constant ones.

Left out: overloaded functions (each function has one parameter for the message), the further
arguments (they are forwarded), parameters that are spans or arrays of another type than the data,
aliasing (in `Verif.Object`), 64-bit elements.
-/
namespace Verif.Call
open Verif.Bits Verif.Message Verif.Object

/-- What an argument is. -/
inductive Kind where
  | array
  | span
  | owner
  | view
deriving DecidableEq, Repr

/-- An argument: kind, fields of the definition (for owning messages and views), elements, and
whether the elements are constant (of a span or view; of the others they are, as the argument is a
constant reference, `callback.hpp` 26, 33). -/
structure Data where
  kind : Kind
  fs : List MField
  W : Nat
  els : List (BitVec W)
  const : Bool
deriving DecidableEq

/-- How a function takes the message. -/
inductive Param where
  /-- `auto const &` -/
  | any
  /-- An array or a span, of this type. -/
  | data (kind : Kind) (W n : Nat)
  /-- `msg::const_view<M>` -/
  | constView
  /-- `msg::mutable_view<M>` -/
  | mutableView
  /-- `msg::owning<M>` -/
  | owning
  /-- `msg::view_of<M> auto` -/
  | someView
  /-- `msg::owninglike auto` -/
  | someOwner
deriving DecidableEq, Repr

/-- A function; `templ`: it wants the nexus as template argument. -/
structure Fun where
  templ : Bool
  param : Param
deriving DecidableEq, Repr

/-- What the compiler makes of an expression: no function for it, an error at once, or a value;
`ok = false` is an error only when the expression is really used (in the body of a constructor). -/
inductive Res where
  | no
  | error
  | value (d : Data) (ok : Bool)
deriving DecidableEq

/-- The number of elements of the default storage and the default spans: 278-286. -/
def size (fs : List MField) : Nat := storageSize defaultW fs

/-- The first `n` elements, with zeros if there are not so many: 532-534, 563. -/
def copyN {W : Nat} (n : Nat) (r : List (BitVec W)) : List (BitVec W) :=
  r.take (min r.length n) ++ List.replicate (n - min r.length n) 0

/-- Enough elements of the default type for the default span. -/
def enough (fs : List MField) (d : Data) : Bool := d.W == defaultW && decide (size fs ≤ d.els.length)

/-- The argument `d` for a parameter of a function: the parameter. -/
def bind (fs : List MField) (p : Param) (d : Data) : Res :=
  match p with
  | .any => .value d true
  | .data k W n =>
    if (k = .array ∨ k = .span) ∧ d.kind = k ∧ d.W = W ∧ d.els.length = n then .value d true else .no
  | .constView =>
    let v : Data := ⟨.view, fs, d.W, d.els.take (size fs), true⟩
    match d.kind with
    | .array | .span => .value v (enough fs d)                       -- 421-422
    | .owner => if d.fs = fs then .value v (enough fs d) else .no    -- 429-431
    | .view => if d.fs = fs ∧ enough fs d then .value v true else .no -- 439-445
  | .mutableView =>
    let v : Data := ⟨.view, fs, d.W, d.els.take (size fs), false⟩
    match d.kind with
    | .array => .value v false                                       -- 421-422
    | .span => .value v (!d.const && enough fs d)                    -- 421-422
    | .owner => if d.fs = fs then .value v false else .no            -- 429-431
    | .view =>
      if d.fs = fs ∧ d.const = false ∧ d.W = defaultW ∧ d.els.length = size fs then .value d true else .no
  | .owning =>                                                        -- all other constructors are explicit
    if d.kind = .owner ∧ d.fs = fs ∧ d.W = defaultW ∧ d.els.length = size fs then .value d true else .no
  | .someView => if d.kind = .view ∧ d.fs = fs then .value d true else .no
  | .someOwner => if d.kind = .owner then .value d true else .no

/-- `typename Msg::view_t{s}`: 421-445 and 598-618; the static assertion 459-460. -/
def asView (fs : List MField) (d : Data) : Res :=
  match d.kind with
  | .array => if fits fs d.W d.els.length then .value ⟨.view, fs, d.W, d.els, true⟩ true else .error
  | .span => if fits fs d.W d.els.length then .value ⟨.view, fs, d.W, d.els, d.const⟩ true else .error
  | .owner => if d.fs = fs then .value ⟨.view, fs, d.W, d.els, true⟩ true else .no
  | .view => if d.fs = fs then .value d true else .no

/-- `typename Msg::owner_t{s}`: 525-540 and 589-591; the static assertion 561-562. A view is constant
here, so that the guide 594-596 is no candidate and the storage is the default one (489-490), for
which the elements must be of the default type (527-530). -/
def asOwner (fs : List MField) (d : Data) : Res :=
  match d.kind with
  | .array | .span =>
    if fits fs d.W d.els.length then .value ⟨.owner, fs, d.W, d.els, false⟩ true else .error
  | .owner => if d.fs = fs then .value d true else .no
  | .view =>
    if d.fs = fs then .value ⟨.owner, fs, defaultW, copyN (size fs) (d.els.map (·.setWidth _)), false⟩
      (d.W == defaultW) else .no

/-- The forms of the message. -/
inductive Form where
  | asIs
  | view
  | owner
deriving DecidableEq, Repr

def Form.of (fs : List MField) (d : Data) : Form → Res
  | .asIs => .value d true
  | .view => asView fs d
  | .owner => asOwner fs d

/-- The branches of `call_with_message`: 688-731. With template arguments or without, and the form. -/
def branches : List (Bool × Form) :=
  [(false, .asIs), (false, .view), (false, .owner), (true, .asIs), (true, .view), (true, .owner)]

/-- The call in one of them. -/
def attempt (fs : List MField) (f : Fun) (d : Data) (b : Bool × Form) : Res :=
  match b.2.of fs d with
  | .no => .no
  | .error => .error
  | .value a ok =>
    if f.templ = b.1 then
      match bind fs f.param a with
      | .no => .no
      | .error => .error
      | .value x ok' => .value x (ok && ok')
    else .no

/-- The first branch that is possible; `none`: the program does not compile. -/
def select (fs : List MField) (f : Fun) (d : Data) : List (Bool × Form) → Option Data
  | [] => none                                                        -- 732-733
  | b :: bs =>
    match attempt fs f d b with
    | .no => select fs f d bs
    | .error => none
    | .value x ok => if ok then some x else none

/-- `call_with_message<Msg, Nexus>(f, d)`: 684-735. -/
def call (fs : List MField) (f : Fun) (d : Data) : Option Data := select fs f d branches

/-- `m.get("n"_field)` in the function: of a message its field (344-346), of an array or a span
`Field::extract` (`field.hpp` 422-425). -/
def Data.get (fs : List MField) (x : Data) (n : Nat) : Option Nat := Message.get x.W fs x.els n

end Verif.Call
