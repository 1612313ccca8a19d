import Verif.Call.Model
import Verif.Object.Spec
/-!
# Specification of handing a message to a function

The number of a field is that at its bits in the data (`valueAt` of `Verif.Object.Spec`).
-/
namespace Verif.Call
open Verif.Bits Verif.Message Verif.Object

/-- Data for a message: elements of 8, 16 or 32 bits, room for all fields; a message is one of the
same definition. -/
def Proper (fs : List MField) (d : Data) : Prop :=
  GoodDef fs ∧ (d.W = 8 ∨ d.W = 16 ∨ d.W = 32) ∧ FitsIn fs (d.els.length * d.W) ∧
    (d.kind = .owner ∨ d.kind = .view → d.fs = fs)

/-- The number of a field in the data. -/
def Data.number (d : Data) (g : MField) : Nat := valueAt (bitAt d.els) 0 g

/-- The data that a function can be called with. -/
def Takes (fs : List MField) (d : Data) : Param → Prop
  | .any => True
  | .data k W n => (k = .array ∨ k = .span) ∧ d.kind = k ∧ d.W = W ∧ d.els.length = n
  | .constView => d.W = 32
  | .mutableView =>
    d.W = 32 ∧ d.const = false ∧ (d.kind = .span ∨ d.kind = .view ∧ d.els.length * 32 = owningSize fs)
  | .owning => d.W = 32 ∧ (d.kind = .view ∨ d.els.length * 32 = owningSize fs)
  | .someView => True
  | .someOwner => d.kind = .view → d.W = 32

/-- What the function gets is of the kind it asked for; views of constant data, arrays and messages are constant. -/
def Asked (fs : List MField) (d x : Data) : Param → Prop
  | .any => x = d
  | .data _ _ _ => x = d
  | .constView => x.kind = .view ∧ x.fs = fs ∧ x.const = true ∧ x.W = 32 ∧ x.els.length * 32 = owningSize fs
  | .mutableView => x.kind = .view ∧ x.fs = fs ∧ x.const = false ∧ x.W = 32 ∧ x.els.length * 32 = owningSize fs
  | .owning => x.kind = .owner ∧ x.fs = fs ∧ x.W = 32 ∧ x.els.length * 32 = owningSize fs
  | .someView => x.kind = .view ∧ x.fs = fs ∧ (x.const = false → d.const = false ∧ (d.kind = .span ∨ d.kind = .view))
  | .someOwner => x.kind = .owner ∧ x.fs = fs

end Verif.Call
