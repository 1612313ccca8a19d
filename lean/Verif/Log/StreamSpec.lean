import Verif.Log.Model

/-!
# Which files the decoder should accept

A log file is a sequence of complete records. The layout of a record is given by equations between numbers, and
the value of an argument by its remainder.
-/
namespace Verif.Log

/-- How many bytes of an argument of this type count, in a place of the given length. -/
def width (p : Prim) (len : Nat) : Nat :=
  match p with
  | .char _ | .schar | .uchar | .bool => 1
  | .short | .ushort => 2
  | .int | .uint | .float => 4
  | .long _ | .ulong _ => if len = 8 then 8 else 4
  | .llong | .ullong | .double => 8

/-- The value which the number `x` of so many bytes stands for. -/
def meant (p : Prim) (w x : Nat) : PyVal :=
  match p with
  | .char _ => .chr x
  | .float => .float x
  | .double => .double x
  | .uchar | .ushort | .uint | .ulong _ | .ullong => .int x
  | .bool => .int (if x = 1 then -1 else Int.bmod x (2 ^ (8 * w)))
  | .schar | .short | .int | .long _ | .llong => .int (Int.bmod x (2 ^ (8 * w)))

/-- The size of the place of an argument. -/
def Tag.size : Tag → Nat
  | .e32 _ | .u32 _ => 4
  | .e64 _ | .u64 _ => 8
  | .enum _ _ n => n

/-- The type as which an argument is read. -/
def Tag.read : Tag → Prim
  | .e32 (.prim p) | .u32 (.prim p) | .e64 (.prim p) | .u64 (.prim p) | .enum _ p _ => p
  | .e32 (.user _) | .u32 (.user _) => .uint
  | .e64 (.user _) | .u64 (.user _) => .ullong

/-- The enumeration of an argument. -/
def Tag.enum? : Tag → Option Nat
  | .e32 (.prim _) | .u32 (.prim _) | .e64 (.prim _) | .u64 (.prim _) => none
  | .enum e _ _ | .e32 (.user e) | .u32 (.user e) | .e64 (.user e) | .u64 (.user e) => some e

/-- The bytes `p` hold the argument `d`. -/
def ArgIs (t : Tag) (p : List Nat) (d : Decoded) : Prop :=
  width t.read p.length ≤ p.length ∧
    d = (t.enum?.elim Decoded.val Decoded.enum) (meant t.read (width t.read p.length)
      (fromLe p % 2 ^ (8 * width t.read p.length)))

/-- Complete arguments, one after the other. -/
inductive ArgsAre : List Tag → List Nat → List Decoded → Prop
  | nil : ArgsAre [] [] []
  | cons {t ts p q d ds} : p.length = t.size → ArgIs t p d → ArgsAre ts q ds → ArgsAre (t :: ts) (p ++ q) (d :: ds)

/-- Arguments of which the last one is cut off, with enough bytes left to read a value. -/
inductive ArgsCut : List Tag → List Nat → List Decoded → Prop
  | last {t p d} : p.length < t.size → ArgIs t p d → ArgsCut [t] p [d]
  | cons {t ts p q d ds} : p.length = t.size → ArgIs t p d → ArgsCut ts q ds → ArgsCut (t :: ts) (p ++ q) (d :: ds)

/-- A catalog record with a known module and a known id. -/
def CatalogIs (db : Db) (A : List Tag → List Nat → List Decoded → Prop) (bs : List Nat) (x : Rec) : Prop :=
  ∃ h i p severity module unit a b c tags ds, bs = h ++ (i ++ p) ∧ h.length = 4 ∧ i.length = 4 ∧
    fromLe h = 3 + 2 ^ 4 * severity + 2 ^ 7 * a + 2 ^ 12 * unit + 2 ^ 16 * module + 2 ^ 23 * b + 2 ^ 24 * 1 + 2 ^ 30 * c ∧
    severity < 2 ^ 3 ∧ a < 2 ^ 5 ∧ unit < 2 ^ 4 ∧ module < 2 ^ 7 ∧ b < 2 ∧ c < 2 ^ 2 ∧
    db.modules module = true ∧ db.messages (fromLe i) = some tags ∧ A tags p ds ∧
    x = .catalog severity module unit (fromLe i) ds

/-- A complete record. -/
inductive IsRec (db : Db) : List Nat → Rec → Prop
  | short {p id} : p.length = 4 → fromLe p = 1 + 2 ^ 4 * id → db.messages id ≠ none → IsRec db p (.short id)
  | short64 {p id} : p.length = 8 → fromLe p = 7 + 2 ^ 4 * id → db.messages id ≠ none → IsRec db p (.short id)
  | catalog {p x} : CatalogIs db ArgsAre p x → IsRec db p x

/-- A sequence of complete records. -/
inductive Stream (db : Db) : List Nat → List Rec → Prop
  | nil : Stream db [] []
  | cons {p q x xs} : IsRec db p x → Stream db q xs → Stream db (p ++ q) (x :: xs)

/-- Four bytes are turned around in each word. -/
def swapped : List Nat → List Nat
  | a :: b :: c :: d :: bs => d :: c :: b :: a :: swapped bs
  | _ => []

end Verif.Log
