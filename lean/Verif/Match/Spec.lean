import Verif.Match.Model
/-!
# Specification of matcher expressions

`Formula α` is what a user writes; `Formula.sem` is its plain Boolean meaning, defined with no
reference to the model's rewriting functions.  `Formula.build` is the matcher which the library
operators produce for it.
-/

namespace Verif.Match

/-- What a user writes with the library operators. -/
inductive Formula (α : Type) where
  | always : Formula α
  | never : Formula α
  | term : α → Formula α
  | neg : Formula α → Formula α
  | conj : Formula α → Formula α → Formula α
  | disj : Formula α → Formula α → Formula α
  | all : List (Formula α) → Formula α
  | any : List (Formula α) → Formula α

variable {α : Type} {E : Type}

/-- Boolean meaning of a formula on an event. -/
def Formula.sem (ev : α → E → Bool) (e : E) : Formula α → Bool
  | .always => true
  | .never => false
  | .term a => ev a e
  | .neg f => !(f.sem ev e)
  | .conj f g => f.sem ev e && g.sem ev e
  | .disj f g => f.sem ev e || g.sem ev e
  | .all fs => (fs.attach.map fun ⟨f, _⟩ => f.sem ev e).all id
  | .any fs => (fs.attach.map fun ⟨f, _⟩ => f.sem ev e).any id

/-- The matcher which `and`, `or`, `not`, `match::all`, `match::any` return
(`match/ops.hpp` 14-30, `match/and.hpp` 84-86, `match/or.hpp` 72-74). -/
def Formula.build [DecidableEq α] (ops : LeafOps α) : Formula α → M α
  | .always => M.always
  | .never => M.never
  | .term a => M.leaf a
  | .neg f => opNot ops (f.build ops)
  | .conj f g => opAnd ops (f.build ops) (g.build ops)
  | .disj f g => opOr ops (f.build ops) (g.build ops)
  | .all fs => Match.all ops (fs.attach.map fun ⟨f, _⟩ => f.build ops)
  | .any fs => Match.any ops (fs.attach.map fun ⟨f, _⟩ => f.build ops)

/-- The single terms a user mentions. -/
def Formula.terms : Formula α → List α
  | .always => []
  | .never => []
  | .term a => [a]
  | .neg f => f.terms
  | .conj f g => f.terms ++ g.terms
  | .disj f g => f.terms ++ g.terms
  | .all fs => (fs.attach.map fun ⟨f, _⟩ => f.terms).flatten
  | .any fs => (fs.attach.map fun ⟨f, _⟩ => f.terms).flatten

/-- Customised negations are truthful. -/
structure NegTruthful (ops : LeafOps α) (ev : α → E → Bool) (S : α → Prop) : Prop where
  neg_mem : ∀ a b, S a → ops.neg a = some b → S b
  neg_eval : ∀ a b e, S a → ops.neg a = some b → ev b e = !(ev a e)

/-- Customisations are truthful: what an implementer of a custom matcher warrants
(`docs/match.adoc` "Customizing matchers"). -/
structure Truthful (ops : LeafOps α) (ev : α → E → Bool) (S : α → Prop) : Prop
    extends NegTruthful ops ev S where
  impl_eval : ∀ a b e, S a → S b → ops.impl a b = true → ev a e = true → ev b e = true

/-- Predicates (`match/predicate.hpp` 12-32): no customisation at all, identity is the type. -/
def predOps (α : Type) [DecidableEq α] : LeafOps α where
  neg _ := none
  impl a b := decide (a = b)

/-! Disjunctive normal form, as in `docs/match.adoc` "Disjunctive normal form". -/

/-- Literal: a constant, a single term, or the negation of one of these. -/
inductive IsLiteral : M α → Prop
  | always : IsLiteral .always
  | never : IsLiteral .never
  | leaf (a) : IsLiteral (.leaf a)
  | nalways : IsLiteral (.not .always)
  | nnever : IsLiteral (.not .never)
  | nleaf (a) : IsLiteral (.not (.leaf a))

/-- Product of literals. -/
inductive IsProduct : M α → Prop
  | lit {m} : IsLiteral m → IsProduct m
  | and {l r} : IsProduct l → IsProduct r → IsProduct (.and l r)

/-- Sum of products. -/
inductive IsDNF : M α → Prop
  | prod {m} : IsProduct m → IsDNF m
  | or {l r} : IsDNF l → IsDNF r → IsDNF (.or l r)

/-- No `not_t` directly below another `not_t`. -/
inductive NoDoubleNot : M α → Prop
  | always : NoDoubleNot .always
  | never : NoDoubleNot .never
  | leaf (a) : NoDoubleNot (.leaf a)
  | not {m} : (∀ k, m ≠ .not k) → NoDoubleNot m → NoDoubleNot (.not m)
  | and {l r} : NoDoubleNot l → NoDoubleNot r → NoDoubleNot (.and l r)
  | or {l r} : NoDoubleNot l → NoDoubleNot r → NoDoubleNot (.or l r)

end Verif.Match
