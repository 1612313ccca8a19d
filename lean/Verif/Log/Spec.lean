import Verif.Log.Model

/-!
# What logging should do

A value logged is the value shown; a stream is the sequence of its records; a version record can be read
by its published layout.
-/
namespace Verif.Log

/-- The value is one of the type; a floating point value is given by its bits; `long` has 4 or 8
bytes. -/
def InType (t : CType) (v : Int) : Prop :=
  (∀ s, t.under = .long s ∨ t.under = .ulong s → s = 4 ∨ s = 8) ∧
  (if t.under = .bool then v = 0 ∨ v = 1
   else if t.under.signed then -(2 ^ (8 * t.under.size - 1)) ≤ v ∧ v < 2 ^ (8 * t.under.size - 1)
   else 0 ≤ v ∧ v < 2 ^ (8 * t.under.size))

/-- The number under which the catalog lists an enumerator: clang reports `true` as -1
(`mipi_messages.py` 48). -/
def listed (p : Prim) (v : Int) : Int := if p = .bool ∧ v = 1 then -1 else v

/-- What the decoder should show for a value. -/
def shown : CType → Int → Decoded
  | .prim (.char _), v => .val (.chr (v % 256).toNat)
  | .prim .float, v => .val (.float v.toNat)
  | .prim .double, v => .val (.double v.toNat)
  | .prim _, v => .val (.int v)
  | .enumClass e p, v => .enum e (.int (listed p v))
  | .enumPlain e p, v => .enum e (.int (listed p v))

/-- The arguments the decoder handles: not `true`, no scoped enumeration over `char`, no unscoped
enumerator listed as a negative number. -/
def Handled : CType → Int → Prop
  | .prim p, v => ¬ (p = .bool ∧ v = 1)
  | .enumClass _ p, _ => ∀ s, p ≠ .char s
  | .enumPlain _ p, v => 0 ≤ listed p v

/-- An enumeration has an integer type below it. -/
def EnumOk (t : CType) : Prop :=
  (∃ p, t = .prim p) ∨ (t.under ≠ .float ∧ t.under ≠ .double)

/-- The record the decoder should give for a statement. -/
def wanted (s : Stmt) : Rec :=
  if s.args = [] then .short s.id
  else .catalog s.level s.module s.unit s.id (s.args.map fun a => shown a.1 a.2)

/-- The numbers of a statement fit the places they have in a record. -/
structure Fits (s : Stmt) : Prop where
  level : s.level < 2 ^ 3
  module : s.module < 2 ^ 7
  unit : s.unit < 2 ^ 4
  id : s.id < 2 ^ 32
  short : s.args = [] → s.id < 2 ^ 28
  args : ∀ a ∈ s.args, InType a.1 a.2 ∧ EnumOk a.1

/-- The generated JSON belongs to the program: it has the message with the types of its arguments, and
the module. -/
def Knows (db : Db) (s : Stmt) : Prop :=
  db.messages s.id = some (s.args.map fun a => encodeTag a.1) ∧ db.modules s.module = true

/-- Reading a version record by the layout: the type and the subtype, then the build id in the bits
23..4, 31..30 and the second word; or the length, the build id and the text. -/
def readVersion (bs : List Nat) : Option (Nat × List Nat) :=
  let w := fromLe (bs.take 4)
  if w % 16 ≠ 0 then none
  else if w / 2 ^ 24 % 64 = 0 ∧ bs.length = 4 then
    some (w / 2 ^ 4 % 2 ^ 20 + 2 ^ 20 * (w / 2 ^ 30 % 4), [])
  else if w / 2 ^ 24 % 64 = 1 ∧ bs.length = 8 then
    some (w / 2 ^ 4 % 2 ^ 20 + 2 ^ 20 * (w / 2 ^ 30 % 4) + 2 ^ 22 * fromLe (bs.drop 4), [])
  else if w / 2 ^ 24 % 64 = 2 ∧ bs.length = 6 + fromLe ((bs.drop 4).take 2) then
    some (fromLe ((bs.drop 6).take 8), bs.drop 14)
  else none

end Verif.Log
