/-!
# Model of the match library (`/repo/include/match`)

Matcher *types* of the C++ library become terms of the inductive type `M α`.
`α` is the type of the single-term matchers ("leaves"): predicates, relational field
matchers or custom matchers.  A leaf type comes with the customisation points that the
library offers (`docs/match.adoc`, "Customizing matchers"):

* `neg a = some b`  – an overload of `tag_invoke(negate_t, …)` returns the matcher `b`;
  `none` – no overload, the default of `negate.hpp` 11-15 wraps in `not_t`.
* `impl a b` – the answer of `tag_invoke(implies_t, a, b)`, including the default
  `std::is_same` of `implies.hpp` 9-13.

Left out: `describe`/`describe_match` (strings), and customisations between a leaf and a
compound matcher (the library has none).
-/

namespace Verif.Match

/-- The customisation points of single-term matchers. -/
structure LeafOps (α : Type) where
  /-- `negate_t` customisation (`match/negate.hpp` 11-15 is the default). -/
  neg : α → Option α
  /-- `implies_t` customisation between leaves (`match/implies.hpp` 9-13 is the default). -/
  impl : α → α → Bool

/-- Matcher types.  `always_t`, `never_t` (`match/constant.hpp` 15-60), leaves, `not_t`
(`match/not.hpp` 19-21), `and_t` (`match/and.hpp` 20), `or_t` (`match/or.hpp` 20). -/
inductive M (α : Type) where
  | always : M α
  | never : M α
  | leaf : α → M α
  | not : M α → M α
  | and : M α → M α → M α
  | or : M α → M α → M α
deriving DecidableEq, Repr

variable {α : Type} {E : Type}

/-- Evaluation `m(event)`: `match/constant.hpp` 18, 39; `match/not.hpp` 23-26;
`match/and.hpp` 21-24; `match/or.hpp` 21-24. `ev` evaluates single-term matchers. -/
def eval (ev : α → E → Bool) : M α → E → Bool
  | .always, _ => true
  | .never, _ => false
  | .leaf a, e => ev a e
  | .not m, e => !(eval ev m e)
  | .and l r, e => eval ev l e && eval ev r e
  | .or l r, e => eval ev l e || eval ev r e

/-- `match::negate`: default `match/negate.hpp` 11-15, `match/constant.hpp` 51-54 and 62-64,
`match/not.hpp` 53-56, customised leaves (`msg/field_matchers.hpp` 179-183). -/
def negate (ops : LeafOps α) : M α → M α
  | .always => .never
  | .never => .always
  | .not m => m
  | .leaf a => match ops.neg a with
    | some b => .leaf b
    | none => .not (.leaf a)
  | .and l r => .not (.and l r)
  | .or l r => .not (.or l r)

/-- `match::implies` when the right side is neither `always` nor an `or`:
`match/constant.hpp` 56-59 (`never => _`), `match/and.hpp` 69-74 (`and => m`), leaf
customisations, default `match/implies.hpp` 9-13 (`is_same`). -/
def impliesL [DecidableEq α] (ops : LeafOps α) : M α → M α → Bool
  | .never, _ => true
  | .and a b, y => impliesL ops a y || impliesL ops b y
  | .leaf a, .leaf b => ops.impl a b
  | x, y => decide (x = y)

/-- `match::implies`: `match/constant.hpp` 30-33 (`_ => always`), 56-59 (`never => _`),
`match/or.hpp` 58-62 (`m => or`), and `impliesL` for other right sides (the `and` overload
`match/and.hpp` 69-74 is not used when the right side is an `or`). -/
def implies [DecidableEq α] (ops : LeafOps α) (x : M α) : M α → Bool
  | .always => true
  | .or a b => decide (x = .never) || (implies ops x a || implies ops x b)
  | y => impliesL ops x y

/-- `match::cost`: `match/cost.hpp` 10-13, `match/not.hpp` 47-51, `match/and.hpp` 42-47,
`match/or.hpp` 42-47. -/
def cost : M α → Nat
  | .not m => cost m + 1
  | .and l r => cost l + cost r + 1
  | .or l r => cost l + cost r + 1
  | _ => 1

/-- `detail::de_morgan<and_t, or_t>`: `match/bin_op.hpp` 49-60. -/
def deMorganAnd (ops : LeafOps α) (l r : M α) : M α :=
  let d := negate ops (.or (negate ops l) (negate ops r))
  if cost d < cost (M.and l r) then d else .and l r

/-- `detail::de_morgan<or_t, and_t>`: `match/bin_op.hpp` 49-60. -/
def deMorganOr (ops : LeafOps α) (l r : M α) : M α :=
  let d := negate ops (.and (negate ops l) (negate ops r))
  if cost d < cost (M.or l r) then d else .or l r

/-- The body of `simplify(and_t)` after the operands are simplified: `match/and.hpp` 31-39. -/
def simplifyAnd [DecidableEq α] (ops : LeafOps α) (l r : M α) : M α :=
  if implies ops l r then l
  else if implies ops r l then r
  else if implies ops l (negate ops r) || implies ops r (negate ops l) then .never
  else deMorganAnd ops l r

/-- The body of `simplify(or_t)` after the operands are simplified: `match/or.hpp` 31-39. -/
def simplifyOr [DecidableEq α] (ops : LeafOps α) (l r : M α) : M α :=
  if implies ops l r then r
  else if implies ops r l then l
  else if implies ops (negate ops l) r || implies ops (negate ops r) l then .always
  else deMorganOr ops l r

/-- `match::simplify`: default `match/simplify.hpp` 9-13, `match/and.hpp` 27-40,
`match/or.hpp` 27-40, `match/not.hpp` 37-45. -/
def simplify [DecidableEq α] (ops : LeafOps α) : M α → M α
  | .and l r => simplifyAnd ops (simplify ops l) (simplify ops r)
  | .or l r => simplifyOr ops (simplify ops l) (simplify ops r)
  | .not .always => .never
  | .not .never => .always
  | .not m => negate ops (simplify ops m)
  | m => m

/-- `operator and`: `match/ops.hpp` 14-18. -/
def opAnd [DecidableEq α] (ops : LeafOps α) (l r : M α) : M α := simplify ops (.and l r)

/-- `operator or`: `match/ops.hpp` 20-24. -/
def opOr [DecidableEq α] (ops : LeafOps α) (l r : M α) : M α := simplify ops (.or l r)

/-- `operator not`: `match/ops.hpp` 26-30. -/
def opNot [DecidableEq α] (ops : LeafOps α) (m : M α) : M α := simplify ops (negate ops m)

/-- `match::all`: `match/and.hpp` 84-86, a left fold of the raw `&` starting at `always`. -/
def all [DecidableEq α] (ops : LeafOps α) (ms : List (M α)) : M α :=
  simplify ops (ms.foldl M.and .always)

/-- `match::any`: `match/or.hpp` 72-74, a left fold of the raw `|` starting at `never`. -/
def any [DecidableEq α] (ops : LeafOps α) (ms : List (M α)) : M α :=
  simplify ops (ms.foldl M.or .never)

/-- Results of `std::partial_ordering`. -/
inductive POrd where
  | less | equivalent | greater | unordered
deriving DecidableEq, Repr

/-- `operator<=>`: `match/ops.hpp` 32-43 (`y <=> x` on Booleans, false < true). -/
def spaceship [DecidableEq α] (ops : LeafOps α) (lhs rhs : M α) : POrd :=
  let l := simplify ops lhs
  let r := simplify ops rhs
  match implies ops l r, implies ops r l with
  | false, false => .unordered
  | true, true => .equivalent
  | true, false => .less
  | false, true => .greater

/-- `match::sum_of_products` with a recursion budget (`none` = budget exhausted):
`match/sum_of_products.hpp` 9-13, `match/and.hpp` 49-67, `match/or.hpp` 49-56,
`match/not.hpp` 58-69.  The C++ recursion is over types and unbounded; `sop` below supplies a
budget which `sopF_total` proves sufficient. -/
def sopF (ops : LeafOps α) : Nat → M α → Option (M α)
  | 0, _ => none
  | n + 1, .or l r => do
    let l' ← sopF ops n l
    let r' ← sopF ops n r
    return .or l' r'
  | n + 1, .and l r => do
    let l' ← sopF ops n l
    let r' ← sopF ops n r
    match l', r' with
    | .or a b, r' => do
      let x ← sopF ops n (.and a r')
      let y ← sopF ops n (.and b r')
      return .or x y
    | l', .or a b => do
      let x ← sopF ops n (.and l' a)
      let y ← sopF ops n (.and l' b)
      return .or x y
    | l', r' => return .and l' r'
  | n + 1, .not (.and l r) => do
    let l' ← sopF ops n (negate ops l)
    let r' ← sopF ops n (negate ops r)
    return .or l' r'
  | n + 1, .not (.or l r) => do
    let l' ← sopF ops n (negate ops l)
    let r' ← sopF ops n (negate ops r)
    sopF ops n (.and l' r')
  | _ + 1, m => some m

mutual
/-- Recursion budget for `sop` of a matcher in positive position. -/
def budget : M α → Nat
  | .not m => nbudget m + 1
  | .and l r => budget l * budget r
  | .or l r => budget l + budget r + 1
  | _ => 2
/-- Recursion budget for `sop` of a negated matcher. -/
def nbudget : M α → Nat
  | .not m => budget m + 1
  | .and l r => nbudget l + nbudget r + 3
  | .or l r => (nbudget l + 1) * (nbudget r + 1)
  | _ => 2
end

/-- `match::sum_of_products`. -/
def sop (ops : LeafOps α) (m : M α) : M α := (sopF ops (budget m) m).getD m

end Verif.Match
