import Verif.Handler.Model
import Verif.Match.Lemmas
/-!
# Specification of message dispatch

What a user expects: a callback is called exactly when its matcher accepts the message.
-/
namespace Verif.Handler
open Verif.Match

/-- The callbacks that must be called for a message, in registration order. -/
def expected (cbs : List Callback) (e : Msg) : List Nat :=
  (cbs.filter fun c => eval revalLeaf c.matcher e).map (·.id)

/-- No negation occurs in the matcher. -/
def NoNot : M RLeaf → Prop
  | .not _ => False
  | .and l r => NoNot l ∧ NoNot r
  | .or l r => NoNot l ∧ NoNot r
  | _ => True

/-- The term is `f == v` or `f != v` for some `v`. -/
def Selects (f : Field) : RLeaf → Prop
  | .rel .eq g _ => g = f
  | .rel .ne g _ => g = f
  | _ => False

/-- The lists of conjunctions for which the index is exact: no negated predicate, at most one `==`
or `!=` term per index field in a conjunction, and no two conjunctions excluding the same value of an index
field. -/
structure Indexable (fields : List Field) (ts : List (M RLeaf)) : Prop where
  noNot : ∀ t ∈ ts, NoNot t
  oneTerm : ∀ t ∈ ts, ∀ f ∈ fields, ∀ a ∈ leaves t, ∀ b ∈ leaves t,
    Selects f a → Selects f b → a = b
  distinctNe : ∀ (i j : Nat) (s t : M RLeaf), ts[i]? = some s → ts[j]? = some t →
    ∀ f ∈ fields, ∀ v : Int, RLeaf.rel .ne f v ∈ leaves s → RLeaf.rel .ne f v ∈ leaves t → i = j

end Verif.Handler
