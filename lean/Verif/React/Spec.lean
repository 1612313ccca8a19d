import Verif.React.Model
/-!
# What handling a message should do
-/
namespace Verif.React
open Verif.Match Verif.Handler

variable {σ : Type}

/-- The callbacks of the list have their turn one after the other: a callback is called if what its
matcher says is true at that time, and then the state is what the callback makes of it. -/
inductive Turns (P : Program σ) : List Callback → σ → List Nat → σ → Prop where
  | done (s : σ) : Turns P [] s [] s
  | call {c : Callback} {cs : List Callback} {s s' : σ} {l : List Nat} :
      eval revalLeaf c.matcher (P.msg s) = true → Turns P cs (P.act c.id s) l s' →
      Turns P (c :: cs) s (c.id :: l) s'
  | skip {c : Callback} {cs : List Callback} {s s' : σ} {l : List Nat} :
      eval revalLeaf c.matcher (P.msg s) = false → Turns P cs s l s' → Turns P (c :: cs) s l s'

/-- The callbacks leave the index fields of the message alone. -/
def KeepsFields (P : Program σ) (fields : List Field) : Prop :=
  ∀ n s, ∀ f ∈ fields, P.val (P.act n s) f = P.val s f

/-- The fields hold values of their types, at all times. -/
def Typed (P : Program σ) : Prop := ∀ s, (P.msg s).WT

/-- The result says what the turns gave: who was called, whether someone was, and an error line if not. -/
def Tells (r : Result σ) (l : List Nat) (s' : σ) : Prop :=
  r.state = s' ∧ r.out.called = l ∧ (r.out.handled = true ↔ l ≠ []) ∧ (r.out.error = true ↔ l = [])

end Verif.React
