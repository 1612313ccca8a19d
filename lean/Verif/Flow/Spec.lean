import Verif.Flow.Model
import Mathlib.Data.List.Dedup
import Mathlib.Logic.Relation

/-!
# Specification for flows

Everything here speaks about expressions as written (`Expr`, `Frag`), not about the values, node
lists and graphs the model makes from them.
-/
namespace Verif.Flow.Spec
open Verif.Flow

/-- The names occurring in an expression. -/
def names : Expr → List Nat
  | .action n _ => [n]
  | .ref n => [n]
  | .step n _ => [n]
  | .star e => names e
  | .par a b => names a ++ names b
  | .seq a b => names a ++ names b

/-- The orderings an expression declares: `a >> b` puts everything in `a` before everything in `b`. -/
def Declared : Expr → Nat → Nat → Prop
  | .action _ _, _, _ => False
  | .ref _, _, _ => False
  | .step _ _, _, _ => False
  | .star e, x, y => Declared e x y
  | .par a b, x, y => Declared a x y ∨ Declared b x y
  | .seq a b, x, y => Declared a x y ∨ Declared b x y ∨ (x ∈ names a ∧ y ∈ names b)

/-- The actions occurring in an expression: name, function, and whether a `*` stands directly before
the action. -/
def occurrences : Expr → List (Nat × Nat × Bool)
  | .action n f => [(n, f, false)]
  | .ref _ => []
  | .step n f => [(n, f, false)]
  | .star (.action n f) => [(n, f, true)]
  | .star (.step n f) => [(n, f, true)]
  | .star (.star e) => occurrences (.star e)
  | .star e => occurrences e
  | .par a b => occurrences a ++ occurrences b
  | .seq a b => occurrences a ++ occurrences b

/-- The actions an expression adds: `*` before an action adds it, `*` before a group adds every
different action of the group; without any `*` nothing is added. -/
def added : Expr → List (Nat × Nat)
  | .action _ _ => []
  | .ref _ => []
  | .step _ _ => []
  | .star e => (occurrences e).dedup.map fun o => (o.1, o.2.1)
  | .par a b => added a ++ added b
  | .seq a b => added a ++ added b

/-- No sequencer step occurs: the expression is one for a flow. -/
def FlowExpr : Expr → Prop
  | .action _ _ => True
  | .ref _ => True
  | .step _ _ => False
  | .star e => FlowExpr e
  | .par a b => FlowExpr a ∧ FlowExpr b
  | .seq a b => FlowExpr a ∧ FlowExpr b

/-- No `_ref` below a `*`. -/
def NoStarredRef : Expr → Prop
  | .action _ _ => True
  | .ref _ => True
  | .step _ _ => True
  | .star e => NoRef e
  | .par a b => NoStarredRef a ∧ NoStarredRef b
  | .seq a b => NoStarredRef a ∧ NoStarredRef b
where
  NoRef : Expr → Prop
    | .action _ _ => True
    | .ref _ => False
    | .step _ _ => True
    | .star e => NoRef e
    | .par a b => NoRef a ∧ NoRef b
    | .seq a b => NoRef a ∧ NoRef b

/-- No `*` stands before a group. -/
def NoStarredGroup : Expr → Prop
  | .action _ _ => True
  | .ref _ => True
  | .step _ _ => True
  | .star (.action _ _) => True
  | .star (.ref _) => True
  | .star (.step _ _) => True
  | .star e => NoStarredGroup e ∧ ∃ e', e = .star e'
  | .par a b => NoStarredGroup a ∧ NoStarredGroup b
  | .seq a b => NoStarredGroup a ∧ NoStarredGroup b

/-- The names in a program. -/
def progNames (fs : List Frag) : List Nat := fs.flatMap fun f => names f.expr

/-- The actions a program adds. -/
def progAdded (fs : List Frag) : List (Nat × Nat) := fs.flatMap fun f => added f.expr

/-- The orderings a program declares. -/
def ProgDeclared (fs : List Frag) (x y : Nat) : Prop := ∃ f ∈ fs, Declared f.expr x y

/-- The declared orderings are cyclic: following them some action comes before itself. -/
def Cyclic (fs : List Frag) : Prop := ∃ x, Relation.TransGen (ProgDeclared fs) x x

/-- In the list, every occurrence of `y` has an `x` somewhere before it. -/
def Precedes (x y : Nat) (l : List Nat) : Prop := ∀ p r, l = p ++ y :: r → x ∈ p

/-- The actions an expression begins with. -/
def First : Expr → Nat → Prop
  | .action n _, x => x = n
  | .ref n, x => x = n
  | .step n _, x => x = n
  | .star e, x => First e x
  | .par a b, x => First a x ∨ First b x
  | .seq a _, x => First a x

/-- The actions an expression ends with. -/
def Last : Expr → Nat → Prop
  | .action n _, x => x = n
  | .ref n, x => x = n
  | .step n _, x => x = n
  | .star e, x => Last e x
  | .par a b, x => Last a x ∨ Last b x
  | .seq _ b, x => Last b x

/-- `y` directly follows `x` at some `>>` of the expression. -/
def Follows : Expr → Nat → Nat → Prop
  | .action _ _, _, _ => False
  | .ref _, _, _ => False
  | .step _ _, _, _ => False
  | .star e, x, y => Follows e x y
  | .par a b, x, y => Follows a x y ∨ Follows b x y
  | .seq a b, x, y => Follows a x y ∨ Follows b x y ∨ (Last a x ∧ First b y)

/-- The program is one for a flow, and compiles as far as references are concerned: no `_ref` below a
`*` or under a condition. -/
def WellFormed (fs : List Frag) : Prop :=
  ∀ f ∈ fs, FlowExpr f.expr ∧ NoStarredRef f.expr ∧ (f.whens = [] ∨ NoStarredRef.NoRef f.expr)

/-- Every action or step is mentioned as a step with its own `*`, never in any other way. -/
def StarredSteps : Expr → Prop
  | .star (.step _ _) => True
  | .par a b => StarredSteps a ∧ StarredSteps b
  | .seq a b => StarredSteps a ∧ StarredSteps b
  | _ => False

end Verif.Flow.Spec
