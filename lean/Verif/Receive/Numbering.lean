import Verif.Receive.Model
import Mathlib.Tactic.DeriveEncodable
import Mathlib.Logic.Equiv.List
/-!
# A numbering of types exists

The theorems of this area hold for every `Numbering`; here is one, so they are not about nothing. Its
numbers are far too large to be computed.
-/
namespace Verif.Receive
open Verif.Match Verif.Message Verif.Bits

deriving instance Encodable for IntTy
deriving instance Encodable for Field
deriving instance Encodable for RelOp
deriving instance Encodable for RLeaf
deriving instance Encodable for M
deriving instance Encodable for At
deriving instance Encodable for Fld
deriving instance Encodable for Dflt
deriving instance Encodable for MField
deriving instance Encodable for Pred

/-- Field types, template arguments and predicates can be numbered. -/
theorem numbering_exists : Nonempty Numbering :=
  ⟨{ field := Encodable.encode
     fieldOf := Encodable.decode
     field_ok := Encodable.encodek
     rest := fun s m => Encodable.encode (s, m)
     restOf := Encodable.decode
     rest_ok := fun s m => Encodable.encodek (s, m)
     pred := Encodable.encode
     predOf := Encodable.decode
     pred_ok := Encodable.encodek }⟩

end Verif.Receive
