import Verif.Json.Model
import Verif.Catalog.Spec
import Verif.Symbols.Spec
/-! # What the files of the catalog say -/
namespace Verif.Json
open Verif.Symbols (Text dec)

/-! ## Entries -/

/-- A place in the text, from `first` to `last`; or a reference to an argument, for which `last` is the number
before `first`. -/
def NamedArg.Ok (a : NamedArg) : Prop := (0 ≤ a.first ∧ a.first ≤ a.last) ∨ a.last = a.first - 1

/-- All named arguments are such. -/
def Message.Ok (m : Message) : Prop := ∀ a ∈ m.named, a.Ok

/-! ## Files -/

mutual
/-- A value that was read from a file: keys are strings, and each is there once. -/
def J.Loaded : J → Prop
  | .str _ => True
  | .int _ => True
  | .atom _ => True
  | .arr l => LoadedL l
  | .obj l => (l.map Prod.fst).Nodup ∧ LoadedO l
def LoadedL : List J → Prop
  | [] => True
  | j :: js => j.Loaded ∧ LoadedL js
def LoadedO : List (PyKey × J) → Prop
  | [] => True
  | (k, j) :: l => (∃ t, k = .str t) ∧ j.Loaded ∧ LoadedO l
end

/-- A file with a dictionary. -/
abbrev Extra (x : List (PyKey × J)) : Prop := (J.obj x).Loaded

/-- The file has nothing for a key. -/
def Without (k : Text) (x : List (PyKey × J)) : Prop := ∀ e ∈ x, e.1 ≠ .str k

/-- Enumerations in an extra file: dictionaries of names. -/
def EnumsOk (x : List (PyKey × J)) : Prop :=
  ∀ j, (.str t!"enums", j) ∈ x → ∃ es, j = .obj es ∧ ∀ e ∈ es, ∃ vs, e.2 = .obj vs

/-! ## Reserved ids -/

/-- A number as a user writes it, with blanks around it. -/
structure Num where
  before : Nat
  hex : Bool
  val : Nat
  after : Nat

def Num.text (n : Num) : Text :=
  List.replicate n.before ' ' ++ (if n.hex then t!"0x" ++ Nat.toDigits 16 n.val else dec n.val) ++
    List.replicate n.after ' '

/-- A number, or a range. -/
structure Range where
  lo : Num
  hi : Option Num

def Range.text (r : Range) : Text :=
  r.lo.text ++ (match r.hi with
    | none => []
    | some h => '-' :: h.text)

/-- The greatest number. -/
def Range.top (r : Range) : Nat := (r.hi.getD r.lo).val

/-- The list. -/
def rangesText (rs : List Range) : Text := ((rs.map Range.text).intersperse t!",").flatten

/-- A character that occurs in lists of ranges. -/
def RangeChar (c : Char) : Prop :=
  c.isDigit = true ∨ c ∈ t!"abcdefABCDEF" ∨ c ∈ t!"xXoO" ∨ c = ' ' ∨ c = '\t' ∨ c = '-' ∨ c = ','

/-! ## Enumerations -/

/-- The name of an enumeration in namespaces. -/
def qualified (ns : List Text) (e : Text) : Text := ns.flatMap (· ++ t!"::") ++ e

/-- A declaration of it. -/
def declText (ns : List Text) (e ut : Text) : Text :=
  (if ns = [] then [] else t!"namespace " ++ (ns.intersperse t!"::").flatten ++ t!" { ") ++
    t!"enum struct " ++ e ++ t!" : " ++ ut ++ t!";" ++ (if ns = [] then [] else t!" }")

/-- An identifier. -/
def Ident (t : Text) : Prop := t ≠ [] ∧ ∀ c ∈ t, c.isAlphanum = true ∨ c = '_'

/-- The type of an argument: a scoped enumeration, or something else (an integer, an unscoped enumeration). -/
inductive Arg where
  | scoped (name ut : Text) (size : Nat)
  | plain (signed long : Bool) (name : Text)

/-- As it is in the catalog. -/
def Arg.text : Arg → Text
  | .scoped e ut n => t!"encode_enum<" ++ e ++ t!", " ++ ut ++ t!", " ++ dec n ++ t!">"
  | .plain s l e => t!"encode_" ++ (if s then [] else t!"u") ++ (if l then t!"64" else t!"32") ++ t!"<" ++ e ++ t!">"

/-- The enumeration, or another type. -/
def Arg.name : Arg → Text
  | .scoped e _ _ => e
  | .plain _ _ e => e

/-- The scoped enumerations among the arguments. -/
def Arg.enum? : Arg → Option (Text × Text)
  | .scoped e ut _ => some (e, ut)
  | .plain _ _ _ => none

/-- Underlying types have no commas. -/
def Arg.Ok : Arg → Prop
  | .scoped _ ut _ => ',' ∉ ut
  | .plain _ _ _ => True

/-- References to the enumerations of the arguments, which begin at a position. -/
def references (ids : Text → Option Nat) : Nat → List Text → List (Nat × Nat)
  | _, [] => []
  | i, e :: es => ((ids e).map fun n => (i, n)).toList ++ references ids (i + 1) es

end Verif.Json
