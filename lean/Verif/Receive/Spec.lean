import Verif.Receive.Model
import Verif.Message.Spec
import Batteries.Data.Nat.Lemmas
/-!
# Specification of matching on concrete data

What a user expects: an option such as `with_less_than<5>` admits the messages whose field, where the
definition has it, holds a number less than 5. Nothing here mentions matchers.
-/
namespace Verif.Receive
open Verif.Match Verif.Message Verif.Bits

/-- The number a field holds in the storage: its bits at their declared positions, lowest first, read as
a number of the field's type. -/
def held {W : Nat} (s : Bool) (f : Fld) (r : List (BitVec W)) : Int :=
  let n : Nat := Nat.ofBits (fun i : Fin f.EW => f.specBit r i)
  if s && decide (2 ^ f.EW ≤ 2 * n) then (n : Int) - 2 ^ f.EW else n

/-- A condition on a number. -/
inductive Cond where
  | any
  | eq (v : Int)
  | oneOf (vs : List Int)
  | gt (v : Int)
  | ge (v : Int)
  | lt (v : Int)
  | le (v : Int)
  | sat (p : Nat)
deriving DecidableEq, Repr

/-- The condition holds of `x`. -/
def Cond.holds (env : Env) (x : Int) : Cond → Bool
  | .any => true
  | .eq v => decide (x = v)
  | .oneOf vs => decide (x ∈ vs)
  | .gt v => decide (x > v)
  | .ge v => decide (x ≥ v)
  | .lt v => decide (x < v)
  | .le v => decide (x ≤ v)
  | .sat p => env.fieldPred p x

/-- The constants of a condition are values of the type (they are template arguments of type `T`). -/
def Cond.Typed (t : IntTy) : Cond → Prop
  | .any => True
  | .eq v => t.InRange v
  | .oneOf vs => ∀ v ∈ vs, t.InRange v
  | .gt v => t.InRange v
  | .ge v => t.InRange v
  | .lt v => t.InRange v
  | .le v => t.InRange v
  | .sat _ => True

/-- The condition an option asks for, by its name. -/
def Opt.asks : Opt → Option Cond
  | .equalTo v => some (.eq v)
  | .in vs => some (.oneOf vs)
  | .greaterThan v => some (.gt v)
  | .greaterThanOrEqualTo v => some (.ge v)
  | .lessThan v => some (.lt v)
  | .lessThanOrEqualTo v => some (.le v)
  | .predicate p => some (.sat p)
  | .required v => some (.eq v)
  | _ => none

/-- The option only concerns the default value. -/
def Opt.isDefault : Opt → Bool
  | .default _ | .constDefault _ | .withoutDefault | .uninitialized => true
  | _ => false

/-- The option moves the field. -/
def Opt.moves : Opt → Bool
  | .shiftedBy _ | .located _ => true
  | _ => false

/-- The option gives the field another name. -/
def Opt.renames : Opt → Bool
  | .newName _ => true
  | _ => false

/-- The field was declared with an option asking for `c` (or with none, and `c` is no condition), and
every option after that is allowed by `later`. -/
def Asks (N : Numbering) (later : Opt → Bool) (f : MField) (c : Cond) : Prop :=
  (∃ name t opts, f = field N name t opts ∧ (∀ o ∈ opts, o.asks = none) ∧ c = .any) ∨
  ∃ name t pre o post, f = field N name t (pre ++ o :: post) ∧ o.asks = some c ∧
    c.Typed (ty N (field N name t pre)) ∧ ∀ p ∈ post, later p = true

/-- Options that neither move the field nor ask for something. -/
def staysPut (o : Opt) : Bool := o.isDefault || o.renames

/-- Options that neither rename the field nor ask for something. -/
def keepsName (o : Opt) : Bool := o.isDefault || o.moves

/-- The condition is not a strict upper bound. -/
def Cond.NotLt : Cond → Prop
  | .lt _ => False
  | _ => True

/-- Meaning of a condition written with field names: `x n` is the number in the field of name `n`. -/
def Maker.sem (x : Nat → Int) : Maker → Bool
  | .rel n .lt v => decide (x n < v)
  | .rel n .le v => decide (x n ≤ v)
  | .rel n .gt v => decide (x n > v)
  | .rel n .ge v => decide (x n ≥ v)
  | .rel n .eq v => decide (x n = v)
  | .rel n .ne v => decide (x n ≠ v)
  | .in n vs => decide (x n ∈ vs)
  | .not m => !(m.sem x)
  | .and l r => l.sem x && r.sem x
  | .or l r => l.sem x || r.sem x
  | .wrap _ => true

/-- The number held by the field of name `n`. -/
def heldBy (N : Numbering) {W : Nat} (fs : List MField) (r : List (BitVec W)) (n : Nat) : Int :=
  match fs.find? (fun f => f.name = n) with
  | some f => held (signed N f) f.fld r
  | none => 0

/-- The message is one the callback was registered for: all conditions of its definition and its own
condition hold. -/
def Entry.wants (N : Numbering) (env : Env) (cond : MField → Cond) {W : Nat} (r : List (BitVec W))
    (e : Entry) : Bool :=
  (match e.cond with
    | some u => u.sem (heldBy N e.fs r)
    | none => true) &&
  e.fs.all fun f => (cond f).holds env (held (signed N f) f.fld r)

/-- Names used in a condition. -/
def Maker.names : Maker → List Nat
  | .rel n _ _ => [n]
  | .in n _ => [n]
  | .not m => m.names
  | .and l r => l.names ++ r.names
  | .or l r => l.names ++ r.names
  | .wrap _ => []

/-- No `in` without values. -/
def Maker.NoEmptyIn : Maker → Prop
  | .rel _ _ _ => True
  | .in _ vs => vs ≠ []
  | .not m => m.NoEmptyIn
  | .and l r => l.NoEmptyIn ∧ r.NoEmptyIn
  | .or l r => l.NoEmptyIn ∧ r.NoEmptyIn
  | .wrap _ => True

/-- The condition is one that is understood (`C02_mixed_partial`): constants are values of the fields'
types; for a name with `K n = some k` the only constant of `==` and `!=` is `k`; the other names have no
`!=`, and no `==` or `in` below a `not`. `neg` is true below a `not`. -/
def Maker.Ok (N : Numbering) (fs : List MField) (K : Nat → Option Int) : Bool → Maker → Prop
  | neg, .rel n op v => ∃ f ∈ fs, f.name = n ∧ (ty N f).InRange v ∧
      (op = .eq → K n = some v ∨ (K n = none ∧ neg = false)) ∧ (op = .ne → K n = some v)
  | neg, .in n vs => vs ≠ [] ∧ ∃ f ∈ fs, f.name = n ∧ ∀ v ∈ vs, (ty N f).InRange v ∧
      (K n = some v ∨ (K n = none ∧ neg = false))
  | _, .not m => m.Ok N fs K true
  | neg, .and l r => l.Ok N fs K neg ∧ r.Ok N fs K neg
  | neg, .or l r => l.Ok N fs K neg ∧ r.Ok N fs K neg
  | _, .wrap _ => False

/-- Names used by the condition of a callback. -/
def Entry.names (e : Entry) : List Nat :=
  match e.cond with
  | some u => u.names
  | none => []

/-- The message has the field: same name, place, width and signedness. -/
def Has (N : Numbering) (gs : List MField) (f : MField) : Prop :=
  ∃ g ∈ gs, g.name = f.name ∧ g.fld = f.fld ∧ signed N g = signed N f

/-- The condition of a declaration does not disturb that: its equality constants agree with `k`. -/
def Cond.Agrees (k : Option Int) : Cond → Prop
  | .eq v => k = none ∨ k = some v
  | .oneOf vs => k = none ∨ ∀ v ∈ vs, k = some v
  | _ => True

/-- A callback whose conditions are understood: the definition has distinct names, each field asks for
`cond f` and later options are allowed by `later`, no strict upper bounds (C89), equality constants agree
with `K`; the fields are legal and inside `n` bits. -/
structure Entry.Ok (N : Numbering) (later : Opt → Bool) (cond : MField → Cond) (K : Nat → Option Int)
    (n : Nat) (e : Entry) : Prop where
  names : (e.fs.map (·.name)).Nodup
  asks : ∀ f ∈ e.fs, Asks N later f (cond f)
  notLt : ∀ f ∈ e.fs, (cond f).NotLt
  agrees : ∀ f ∈ e.fs, (cond f).Agrees (K f.name)
  legal : ∀ f ∈ e.fs, f.fld.Legal ∧ f.fld.Within n
  named : ∀ u, e.cond = some u → u.Ok N e.fs K false

/-! ### Declarations -/

/-- The last thing given by an option, or `a` if none gives one. -/
def lastGiven {α : Type} (g : Opt → Option α) (opts : List Opt) (a : α) : α :=
  ((opts.filterMap g).getLast?).getD a

/-- The option gives a name. -/
def Opt.name? : Opt → Option Nat
  | .newName n => some n
  | _ => none

/-- The option gives a value type. -/
def Opt.type? : Opt → Option IntTy
  | .newType t => some t
  | _ => none

/-- The option gives a place. -/
def Opt.place? : Opt → Option (List At)
  | .located ats => some ats
  | _ => none

/-- How far the option moves the field. -/
def Opt.shift : Opt → Nat
  | .shiftedBy n => n
  | _ => 0

/-- How a field is initialised. -/
inductive Init where
  /-- with a value that may be changed later -/
  | value (v : Int)
  /-- with a value that stays -/
  | fixed (v : Int)
  /-- must be given -/
  | given
  /-- left alone -/
  | nothing
deriving DecidableEq, Repr

/-- The option says how the field is initialised. -/
def Opt.init? : Opt → Option Init
  | .default v => some (.value v)
  | .constDefault v => some (.fixed v)
  | .withoutDefault => some .given
  | .uninitialized => some .nothing
  | .required v => some (.fixed v)
  | _ => none

/-- The initial value is one of the type. -/
def Init.Typed (t : IntTy) : Init → Prop
  | .value v => t.InRange v
  | .fixed v => t.InRange v
  | _ => True

end Verif.Receive
