import Verif.Catalog.Model

/-! # What the catalog generator should do -/
namespace Verif.Catalog

/-- The same message: same text and same types of arguments. -/
def same (a b : Item) : Prop := a.text = b.text ∧ a.args = b.args

instance (a b : Item) : Decidable (same a b) := inferInstanceAs (Decidable (_ ∧ _))

/-- The hash tells these messages apart. -/
def NoCollision (key : Key) (items : List Item) : Prop :=
  ∀ a ∈ items, ∀ b ∈ items, key.of a = key.of b → same a b

/-- No id stands for two different messages. -/
def OneMessagePerId (items : List Item) : Prop := ∀ a ∈ items, ∀ b ∈ items, a.id = b.id → same a b

/-- No message has two ids. -/
def OneIdPerMessage (items : List Item) : Prop := ∀ a ∈ items, ∀ b ∈ items, same a b → a.id = b.id

/-- The messages with an explicit id. -/
def explicit (items : List Item) : List Item := items.filter fun m => m.id ≠ -1

/-- One run in a history of builds, each with the JSON output of the one before as the stable input. -/
structure Run where
  key : Key
  reserved : List (Nat × Nat)
  items : List Item

/-- The messages with their ids, run by run. -/
def history : List Item → List Run → List (List Item)
  | _, [] => []
  | json, r :: rs =>
    let x := run r.key [json] r.reserved false r.items
    x.1 :: history x.2 rs

/-! ## Lists of arguments -/

/-- Text with nested angle brackets. -/
inductive Nested (lt gt : Nat) : Text → Prop
  | nil : Nested lt gt []
  | char {c : Nat} {s : Text} : c ≠ lt → c ≠ gt → Nested lt gt s → Nested lt gt (c :: s)
  | block {s t : Text} : Nested lt gt s → Nested lt gt t → Nested lt gt (lt :: (s ++ gt :: t))

/-- Text with nested angle brackets and commas only inside of them: a type, or a value. -/
inductive Arg (lt gt comma : Nat) : Text → Prop
  | nil : Arg lt gt comma []
  | char {c : Nat} {s : Text} : c ≠ lt → c ≠ gt → c ≠ comma → Arg lt gt comma s → Arg lt gt comma (c :: s)
  | block {s t : Text} : Nested lt gt s → Arg lt gt comma t → Arg lt gt comma (lt :: (s ++ gt :: t))

/-- `", ".join(args)`. -/
def join (comma space : Nat) : List Text → Text
  | [] => []
  | [a] => a
  | a :: b :: as => a ++ comma :: space :: join comma space (b :: as)

end Verif.Catalog
