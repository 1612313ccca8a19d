import Verif.Select.Model
/-!
# What a linear search should answer

The value of the last entry with the key, or the default.
-/
namespace Verif.Select

/-- `r` is the value of the last entry with that key; the default without such an entry. -/
def LastWith {T : Type} (dflt : T) (entries : List (Rat × T)) (key : Rat) (r : T) : Prop :=
  (∃ before after, entries = before ++ (key, r) :: after ∧ ∀ e ∈ after, e.1 ≠ key) ∨
    (r = dflt ∧ ∀ e ∈ entries, e.1 ≠ key)

/-- An integral type as there are in C++. -/
def Integral : KeyTy → Prop
  | .int b _ => b = 1 ∨ b = 2 ∨ b = 4 ∨ b = 8
  | .float _ => False

end Verif.Select
