import Verif.Match.Spec
/-!
# Model of relational field matchers (`/repo/include/msg/field_matchers.hpp`)

A field is its name together with its integer type; events are messages seen through their
field values, plus the answers of opaque predicates.

Left out: enumeration and floating-point fields (`++inc` does not compile for the former; see the
note in DESIGN.md for the latter), `describe`.
-/

namespace Verif.Match

/-- Integer type of a field: width in bits and signedness. -/
structure IntTy where
  bits : Nat
  signed : Bool
deriving DecidableEq, Repr

/-- Smallest value of the type. -/
def IntTy.lo (t : IntTy) : Int := if t.signed then -(2 ^ (t.bits - 1)) else 0
/-- Largest value of the type. -/
def IntTy.hi (t : IntTy) : Int := if t.signed then 2 ^ (t.bits - 1) - 1 else 2 ^ t.bits - 1
/-- Value is representable. -/
def IntTy.InRange (t : IntTy) (v : Int) : Prop := t.lo ≤ v ∧ v ≤ t.hi

instance (t : IntTy) (v : Int) : Decidable (t.InRange v) := by unfold IntTy.InRange; infer_instance

/-- A field as far as matchers see it. Two C++ field types are the same exactly when all their
template arguments are; `name` stands for these. -/
structure Field where
  name : Nat
  ty : IntTy
deriving DecidableEq, Repr

/-- `std::less<>` … `std::not_equal_to<>`. -/
inductive RelOp where
  | lt | le | gt | ge | eq | ne
deriving DecidableEq, Repr

/-- Application of the comparison functor. -/
def RelOp.app : RelOp → Int → Int → Bool
  | .lt, a, b => decide (a < b)
  | .le, a, b => decide (a ≤ b)
  | .gt, a, b => decide (a > b)
  | .ge, a, b => decide (a ≥ b)
  | .eq, a, b => decide (a = b)
  | .ne, a, b => decide (a ≠ b)

/-- `detail::inverse_op`: `msg/field_matchers.hpp` 101-115. -/
def RelOp.inverse : RelOp → RelOp
  | .lt => .ge | .le => .gt | .gt => .le | .ge => .lt | .eq => .ne | .ne => .eq

/-- Single-term matchers of the msg library: `rel_matcher_t` (`msg/field_matchers.hpp` 144-192)
and opaque ones: `pred_matcher_t` (345-367) and `match::predicate_t`. -/
inductive RLeaf where
  | rel (op : RelOp) (f : Field) (v : Int)
  | pred (id : Nat)
deriving DecidableEq, Repr

/-- A message: value of every field, and the answers of opaque predicates. -/
structure Msg where
  val : Field → Int
  pred : Nat → Bool

/-- Every field holds a value of its type. -/
def Msg.WT (m : Msg) : Prop := ∀ f : Field, f.ty.InRange (m.val f)

/-- `rel_matcher_t::operator()` 148-151; `pred_matcher_t::operator()` 348-351. -/
def revalLeaf : RLeaf → Msg → Bool
  | .rel op f v, m => op.app (m.val f) v
  | .pred i, m => m.pred i

/-- `Y + ++inc` with `inc` a zero of the field type (`msg/field_matchers.hpp` 229-230, 244-245):
narrow types are promoted to `int` and do not wrap, wide unsigned types wrap, signed overflow in a
constant expression is a compile error (`none`). -/
def addOne (t : IntTy) (y : Int) : Option Int :=
  if t.bits < 32 then some (y + 1)
  else if t.signed then (if y = t.hi then none else some (y + 1))
  else some ((y + 1) % 2 ^ t.bits)

/-- `implies_t` overloads for two relational matchers on the same field:
`msg/field_matchers.hpp` 185-191 (same operator), 218-223, 225-231, 233-238, 240-246, 253-259,
304-310, 312-318, 320-325, 327-332; otherwise the default `is_same`, which is false here.
A compile error (`addOne = none`) is answered with `false`: no matcher is built. -/
def relImplies (t : IntTy) : RelOp → Int → RelOp → Int → Bool
  | .lt, x, .lt, y => decide (x = y) || RelOp.lt.app x y
  | .le, x, .le, y => decide (x = y) || RelOp.le.app x y
  | .gt, x, .gt, y => decide (x = y) || RelOp.gt.app x y
  | .ge, x, .ge, y => decide (x = y) || RelOp.ge.app x y
  | .ne, x, .ne, y => decide (x = y) || RelOp.ne.app x y
  | .le, x, .lt, y => decide (x < y)
  | .lt, x, .le, y => match addOne t y with
    | some y' => decide (x ≤ y')
    | none => false
  | .ge, x, .gt, y => decide (x > y)
  | .gt, x, .ge, y => match addOne t x with
    | some x' => decide (x' ≥ y)
    | none => false
  | .eq, x, op, y => op.app x y
  | .lt, x, .ne, y => decide (x ≤ y)
  | .gt, x, .ne, y => decide (x ≥ y)
  | .le, x, .ne, y => decide (x < y)
  | .ge, x, .ne, y => decide (x > y)
  | _, _, _, _ => false

/-- Customisations of the msg library's leaves. -/
def relOps : LeafOps RLeaf where
  neg
    | .rel op f v => some (.rel op.inverse f v)
    | .pred _ => none
  impl
    | .rel op f x, .rel op' g y => if f = g then relImplies f.ty op x op' y else false
    | .pred i, .pred j => decide (i = j)
    | _, _ => false

/-- `msg::in_t`: `msg/field_matchers.hpp` 334-336, a right fold of `operator or` ending in `never`. -/
def inMatcher (f : Field) (vs : List Int) : M RLeaf :=
  vs.foldr (fun v acc => opOr relOps (.leaf (.rel .eq f v)) acc) .never

end Verif.Match
