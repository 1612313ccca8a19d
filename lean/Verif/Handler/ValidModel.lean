import Verif.Handler.Model
/-!
# Model of the validator for indexed services

`/repo/include/msg/detail/indexed_builder_common.hpp` 30-51, 146-166: a program may choose `never_matcher_validator`,
with which an indexed service does not compile if what is left of the matcher of a callback, or of one of its
alternatives, is `never`. The default accepts everything.
-/
namespace Verif.Handler
open Verif.Match

/-- `never_matcher_validator::validate` for what `remove_match_terms` leaves: 39-44, 149-156. -/
def validate (fields : List Field) (t : Callback) : Bool := decide (removeTerms fields t.matcher ≠ .never)

/-- `create_callback_array` instantiates `invoke_callback` for all callbacks of the builder: 168-172. -/
def accepted (fields : List Field) (cbs : List Callback) : Bool := (build cbs).all (validate fields)

end Verif.Handler
