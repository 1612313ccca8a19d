/-!
# Model of the selection without branches, and of the linear search that uses it

`include/lookup/detail/select.hpp`, `include/lookup/linear_search_lookup.hpp`. On ARC processors the
selection is written in assembler; the instructions are modelled by what the processor does:
`cmp` compares two registers of 32 bits, `mov.eq` and `mov.lo` move if they were equal, or if the first
was below the second as a number without sign.

Keys and values are numbers (`Rat`), with a type that says which numbers there are and how they are
converted. Not modelled: keys and values of class or pointer types (the conversion of a pointer is
refused by the compiler), which operands are immediate, the assembler's own limits.
-/
namespace Verif.Select

/-- Arithmetic types of keys: integers (an enumeration is like its underlying type) and floating
point types. -/
inductive KeyTy where
  | int (bytes : Nat) (signed : Bool)
  | float (bytes : Nat)
  deriving DecidableEq, Repr

/-- `sizeof`. -/
def KeyTy.size : KeyTy → Nat
  | .int b _ => b
  | .float b => b

/-- The number is a value of the type (for floating point types: some of the conditions). -/
def KeyTy.Has : KeyTy → Rat → Prop
  | .int b true, q => ∃ z : Int, q = z ∧ -(2 ^ (8 * b - 1) : Int) ≤ z ∧ z < 2 ^ (8 * b - 1)
  | .int b false, q => ∃ z : Int, q = z ∧ 0 ≤ z ∧ z < 2 ^ (8 * b)
  | .float _, _ => True

/-- Towards zero. -/
def trunc (q : Rat) : Int := if 0 ≤ q then q.floor else -(-q).floor

/-- `static_cast<std::uint32_t>`: integers modulo 2^32; of a floating point number the integral part,
undefined if that is not in range. -/
def toU32 (ty : KeyTy) (q : Rat) : Option (BitVec 32) :=
  match ty with
  | .int _ _ => some (BitVec.ofInt 32 q.floor)
  | .float _ =>
    if 0 ≤ trunc q ∧ trunc q < 2 ^ 32 then some (BitVec.ofInt 32 (trunc q)) else none

/-- `fallback_select`: `select.hpp` 7-13. -/
def fallbackSelect {T : Type} (lhs rhs : Rat) (first second : T) : T :=
  if lhs = rhs then first else second

/-- `fallback_select_lt`: 15-21. -/
def fallbackSelectLt {T : Type} (lhs rhs : Rat) (first second : T) : T :=
  if lhs < rhs then first else second

/-- `cmp`, `mov.eq`: 35-36. -/
def cmpMovEq {T : Type} (lhs rhs : BitVec 32) (first result : T) : T :=
  if lhs = rhs then first else result

/-- `cmp`, `mov.lo`: 54-55. -/
def cmpMovLo {T : Type} (lhs rhs : BitVec 32) (first result : T) : T :=
  if lhs.ult rhs then first else result

/-- `optimized_select` on ARC: 25-45, 67-70; `valueSize` is `sizeof(T)`. -/
def optimizedSelect {T : Type} (ty : KeyTy) (valueSize : Nat) (lhs rhs : Rat) (first second : T) :
    Option T :=
  if valueSize ≤ 4 ∧ ty.size ≤ 4 then do
    let l ← toU32 ty lhs
    let r ← toU32 ty rhs
    some (cmpMovEq l r first second)
  else some (fallbackSelect lhs rhs first second)

/-- `optimized_select_lt` on ARC: 47-64, 72-75. -/
def optimizedSelectLt {T : Type} (ty : KeyTy) (valueSize : Nat) (lhs rhs : Rat)
    (first second : T) : Option T :=
  if valueSize ≤ 4 ∧ ty.size ≤ 4 then do
    let l ← toU32 ty lhs
    let r ← toU32 ty rhs
    some (cmpMovLo l r first second)
  else some (fallbackSelectLt lhs rhs first second)

/-- Where the program is evaluated. -/
inductive Place where
  | compileTime
  | arc
  | other
  deriving DecidableEq, Repr

/-- `select`: 77-83. -/
def select {T : Type} (p : Place) (ty : KeyTy) (valueSize : Nat) (lhs rhs : Rat)
    (first second : T) : Option T :=
  match p with
  | .arc => optimizedSelect ty valueSize lhs rhs first second
  | _ => some (fallbackSelect lhs rhs first second)

/-- `select_lt`: 85-91. -/
def selectLt {T : Type} (p : Place) (ty : KeyTy) (valueSize : Nat) (lhs rhs : Rat)
    (first second : T) : Option T :=
  match p with
  | .arc => optimizedSelectLt ty valueSize lhs rhs first second
  | _ => some (fallbackSelectLt lhs rhs first second)

/-- The loop of `operator[]`: `linear_search_lookup.hpp` 18-22. -/
def search {T : Type} (p : Place) (ty : KeyTy) (valueSize : Nat) (key : Rat) :
    List (Rat × T) → T → Option T
  | [], result => some result
  | (k, v) :: es, result =>
    (select p ty valueSize key k v result).bind (search p ty valueSize key es)

/-- `operator[]` of a linear search: 15-23. -/
def lookup {T : Type} (p : Place) (ty : KeyTy) (valueSize : Nat) (dflt : T)
    (entries : List (Rat × T)) (key : Rat) : Option T :=
  search p ty valueSize key entries dflt

end Verif.Select
