import Verif.Render.Model
import Verif.Log.Spec
import Verif.Symbols.Spec
/-!
# Format strings, printf

What the program's format strings print (`fmt`), and what the format strings of the XML file print: a
SyS-T decoder prints the arguments of a message, which it has as words of 4 or 8 bytes, by the rules of
`printf`.
-/
namespace Verif.Render
open Verif.Symbols (Text isDigit natText intText dec)
open Verif.Log (Prim Tag)

/-- A piece of a format string: text, `{}`, or `{:…}` with a flag for zeros, a width (0: none) and one of
`d`, `x`, `X`. -/
inductive Piece where
  | lit (s : Text)
  | plain
  | spec (zero : Bool) (width : Nat) (conv : Char)
deriving DecidableEq, Repr

/-- A width as written. -/
def widthText (w : Nat) : Text := if w = 0 then [] else natText w

/-- What stands in the format string; braces in text are written twice. -/
def Piece.text : Piece → Text
  | .lit s => s.flatMap fun c => if c = '{' ∨ c = '}' then [c, c] else [c]
  | .plain => t!"{}"
  | .spec z w c => t!"{:" ++ (if z then t!"0" else []) ++ widthText w ++ [c] ++ t!"}"

/-- A format string. -/
def fmtText (ps : List Piece) : Text := ps.flatMap Piece.text

/-- `{}` with an integer, a character, a truth value. Floating point numbers are left out. -/
def fmtPlain (p : Prim) (v : Int) : Option Text :=
  match p with
  | .float | .double => none
  | .bool => some (if v = 0 then t!"false" else t!"true")
  | .char _ => some [Char.ofNat (v % 256).toNat]
  | _ => some (intText v)

/-- `{:…}` with an integer. -/
def fmtSpec (p : Prim) (v : Int) (z : Bool) (w : Nat) (c : Char) : Option Text :=
  if p = .float ∨ p = .double then none else some (padded (v < 0) (digitsOf c v.natAbs) z w)

/-- What the program's format string prints. -/
def fmtOut : List Piece → List (Prim × Int) → Option Text
  | [], [] => some []
  | .lit s :: ps, as => (fmtOut ps as).map (s ++ ·)
  | .plain :: ps, a :: as => (fmtPlain a.1 a.2).bind fun s => (fmtOut ps as).map (s ++ ·)
  | .spec z w c :: ps, a :: as => (fmtSpec a.1 a.2 z w c).bind fun s => (fmtOut ps as).map (s ++ ·)
  | _, _ => none

/-- `{:…}`. -/
def isSpec : Piece → Bool
  | .spec .. => true
  | _ => false

/-- `{}`. -/
def isPlain : Piece → Bool
  | .plain => true
  | _ => false

/-- The value fits the type, and `long` has `L` bytes. -/
def Fits (L : Nat) (p : Prim) (v : Int) : Prop :=
  Log.InType (.prim p) v ∧ ∀ s, p = .long s ∨ p = .ulong s → s = L

/-- The fields that the XML file can show: text without braces and `%`; `{}` with integers of the declared
types and characters; `{:…}` with integers of up to 32 bits, of which `d` shows those of `int` and `x` those
that are not negative. -/
def FieldsOk (L : Nat) : List Piece → List (Prim × Int) → Prop
  | [], as => as = []
  | .lit s :: ps, as => ('{' ∉ s ∧ '}' ∉ s ∧ '%' ∉ s) ∧ FieldsOk L ps as
  | .plain :: ps, a :: as => Fits L a.1 a.2 ∧ (a.1 ≠ .bool ∧ a.1 ≠ .float ∧ a.1 ≠ .double) ∧ FieldsOk L ps as
  | .spec _ _ c :: ps, a :: as =>
    (a.1.size ≤ 4 ∧ a.1 ≠ .float) ∧ (c = 'd' ∨ c = 'x' ∨ c = 'X') ∧
      (if c = 'd' then -(2 ^ 31) ≤ a.2 ∧ a.2 < 2 ^ 31 else 0 ≤ a.2 ∧ a.2 < 2 ^ 32) ∧ FieldsOk L ps as
  | _, _ => False

/-- Arguments with their types, enumerations too; `{}` with an enumerator is its name, or a cast if it has none.
An enumerator is listed by its value (`Log.listed`). -/
def lineOut (name : Nat → Int → Option Text) (enum : Nat → Text) : List Piece → List (Log.CType × Int) → Option Text
  | [], [] => some []
  | .lit s :: ps, as => (lineOut name enum ps as).map (s ++ ·)
  | .plain :: ps, (.prim p, v) :: as => (fmtPlain p v).bind fun s => (lineOut name enum ps as).map (s ++ ·)
  | .plain :: ps, (.enumClass e p, v) :: as | .plain :: ps, (.enumPlain e p, v) :: as =>
    (lineOut name enum ps as).map
      ((name e (Log.listed p v)).getD (t!"static_cast<" ++ enum e ++ t!">(" ++ dec (Log.listed p v) ++ t!")") ++ ·)
  | .spec z w c :: ps, (.prim p, v) :: as => (fmtSpec p v z w c).bind fun s => (lineOut name enum ps as).map (s ++ ·)
  | _, _ => none

/-- Integer types, without characters and truth values. -/
def Integer (p : Prim) : Prop := (∀ s, p ≠ .char s) ∧ p ≠ .bool ∧ p ≠ .float ∧ p ≠ .double

/-- The fields that Python can show: integers, enumerators with `{}`. -/
def PyOk : List Piece → List (Log.CType × Int) → Prop
  | [], as => as = []
  | .lit _ :: ps, as => PyOk ps as
  | .plain :: ps, a :: as => (∀ p, a.1 = .prim p → Integer p) ∧ PyOk ps as
  | .spec _ _ c :: ps, a :: as => (∃ p, a.1 = .prim p ∧ Integer p) ∧ (c = 'd' ∨ c = 'x' ∨ c = 'X') ∧ PyOk ps as
  | _, _ => False

/-- The levels: `/repo/include/log/level.hpp` 8-17. -/
def levelName (n : Nat) : Text :=
  if n = 0 then t!"MAX" else if n = 1 then t!"FATAL" else if n = 2 then t!"ERROR" else if n = 3 then t!"WARN"
  else if n = 4 then t!"INFO" else if n = 5 then t!"USER1" else if n = 6 then t!"USER2" else t!"TRACE"

/-- The types of the arguments of the `{}`. -/
def plainTypes : List Piece → List (Prim × Int) → List Prim
  | .lit _ :: ps, as => plainTypes ps as
  | .plain :: ps, a :: as => a.1 :: plainTypes ps as
  | .spec .. :: ps, _ :: as => plainTypes ps as
  | _, _ => []

/-! ## printf -/

/-- A word of the message: 4 or 8 bytes, and its value. -/
abbrev Word := Nat × Nat

/-- The word in which an argument is sent. -/
def word (p : Prim) (v : Int) : Word :=
  let n := if p.size ≤ 4 then 4 else 8
  (n, (v % 2 ^ (8 * n)).toNat)

/-- Two's complement. -/
def signed (w : Word) : Int := if w.2 < 2 ^ (8 * w.1 - 1) then w.2 else (w.2 : Int) - 2 ^ (8 * w.1)

/-- The bytes that a conversion reads: `long` has `L` bytes. -/
def lenBytes (L : Nat) : Nat → Nat
  | 0 => 4
  | 1 => L
  | _ => 8

/-- One conversion; `none` when it reads another number of bytes than the argument has, or is none. -/
def conversion (L : Nat) (z : Bool) (w l : Nat) (c : Char) (a : Word) : Option Text :=
  if a.1 ≠ lenBytes L l then none
  else if c = 'd' then some (padded (signed a < 0) (natText (signed a).natAbs) z w)
  else if c = 'u' then some (padded false (natText a.2) z w)
  else if c = 'x' ∨ c = 'X' then some (padded false (digitsOf c a.2) z w)
  else if c = 'c' then some (padded false [Char.ofNat (a.2 % 256)] z w)
  else none

/-- `printf`; `some (z, w, l)`: behind `%`, with a flag, a width, and as many `l`. -/
def printf (L : Nat) : Option (Bool × Nat × Nat) → Text → List Word → Option Text
  | none, [], [] => some []
  | none, [], _ :: _ => none
  | some _, [], _ => none
  | none, c :: t, as => if c = '%' then printf L (some (false, 0, 0)) t as else (printf L none t as).map (c :: ·)
  | some (z, w, l), c :: t, as =>
    if c = '%' ∧ z = false ∧ w = 0 ∧ l = 0 then (printf L none t as).map ('%' :: ·)
    else if c = '0' ∧ z = false ∧ w = 0 ∧ l = 0 then printf L (some (true, 0, 0)) t as
    else if isDigit c ∧ l = 0 then printf L (some (z, 10 * w + (c.toNat - '0'.toNat), 0)) t as
    else if c = 'l' then printf L (some (z, w, l + 1)) t as
    else (as.head?.bind (conversion L z w l c)).bind fun s => (printf L none t as.tail).map (s ++ ·)

/-! ## XML -/

/-- The text of an element as an XML reader gives it; the flag: within CDATA, where everything up to `]]>`
stands for itself; the number: how many characters are still to be skipped. Left out: other elements, other
references than `&amp;`, line breaks. -/
def xmlRead : Nat → Bool → Text → Option Text
  | _, false, [] => some []
  | _, true, [] => none
  | n + 1, cd, _ :: t => xmlRead n cd t
  | 0, true, c :: t =>
    if t!"]]>".isPrefixOf (c :: t) then xmlRead 2 false t else (xmlRead 0 true t).map (c :: ·)
  | 0, false, c :: t =>
    if t!"<![CDATA[".isPrefixOf (c :: t) then xmlRead 8 true t
    else if t!"&amp;".isPrefixOf (c :: t) then (xmlRead 4 false t).map ('&' :: ·)
    else if c = '<' ∨ c = '&' ∨ t!"]]>".isPrefixOf (c :: t) = true then none
    else (xmlRead 0 false t).map (c :: ·)

/-! ## Names of types -/

/-- Arithmetic types as they are named in symbols. -/
def primText : Prim → Text
  | .char _ => t!"char"
  | .schar => t!"signed char"
  | .uchar => t!"unsigned char"
  | .bool => t!"bool"
  | .short => t!"short"
  | .ushort => t!"unsigned short"
  | .int => t!"int"
  | .uint => t!"unsigned int"
  | .long _ => t!"long"
  | .ulong _ => t!"unsigned long"
  | .llong => t!"long long"
  | .ullong => t!"unsigned long long"
  | .float => t!"float"
  | .double => t!"double"

/-- The types of arguments in a symbol: `encode_32<int>`, `encode_enum<E, int, 4>`. -/
def tagText (names : Nat → Text) : Tag → Text
  | .e32 s => t!"encode_32<" ++ spec s ++ t!">"
  | .u32 s => t!"encode_u32<" ++ spec s ++ t!">"
  | .e64 s => t!"encode_64<" ++ spec s ++ t!">"
  | .u64 s => t!"encode_u64<" ++ spec s ++ t!">"
  | .enum e p n => t!"encode_enum<" ++ names e ++ t!", " ++ primText p ++ t!", " ++ natText n ++ t!">"
where
  spec : Log.TagSpec → Text
    | .prim p => primText p
    | .user e => names e

/-- The type in the catalog for an argument of an arithmetic type. -/
def argText (p : Prim) : Text := tagText (fun _ => []) (Log.encodeTag (.prim p))

/-- What the decoder should take from a type. -/
def wantedArg (names : Nat → Text) : Tag → ArgSpec
  | .e32 s => .plain t!"encode_32" (tagText.spec names s)
  | .u32 s => .plain t!"encode_u32" (tagText.spec names s)
  | .e64 s => .plain t!"encode_64" (tagText.spec names s)
  | .u64 s => .plain t!"encode_u64" (tagText.spec names s)
  | .enum e p n => .enum (names e) (primText p) n

/-- The enumerations in a type. -/
def tagEnum : Tag → Option Nat
  | .e32 (.user e) | .u32 (.user e) | .e64 (.user e) | .u64 (.user e) => some e
  | .enum e _ _ => some e
  | _ => none

/-! ## Texts with enumerators -/

/-- A piece of a text: characters, or an enumerator written as `(E)v`. -/
inductive CtPiece where
  | lit (s : Text)
  | ct (e : Text) (v : Nat)
deriving DecidableEq, Repr

/-- What stands in the text. -/
def ctText (ps : List CtPiece) : Text := ps.flatMap fun p =>
  match p with
  | .lit s => s
  | .ct e v => t!"(" ++ e ++ t!")" ++ natText v

/-- The text with names for the enumerators. -/
def ctShown (name : Text → Nat → Text) (ps : List CtPiece) : Text := ps.flatMap fun p =>
  match p with
  | .lit s => s
  | .ct e v => name e v

/-- Letters, digits, underscores. -/
abbrev WordChar (c : Char) : Prop := c.isAlpha = true ∨ c.isDigit = true ∨ c = '_'

/-- What follows an enumerator: nothing, or no character of a word. -/
def Apart (t : Text) : Prop := ∀ c r, t = c :: r → ¬ WordChar c

/-- Nothing, or no digit. -/
def NoDigit (t : Text) : Prop := ∀ c r, t = c :: r → isDigit c = false

/-- Characters without `(`; a name that is a word, a number, and then no character of a word. -/
def CtOk : List CtPiece → Prop
  | [] => True
  | .lit s :: ps => '(' ∉ s ∧ CtOk ps
  | .ct e _ :: ps => e ≠ [] ∧ (∀ c ∈ e, WordChar c) ∧ Apart (ctText ps) ∧ CtOk ps

/-- The first enumerator. -/
def firstCt : List CtPiece → Option (Text × Nat)
  | [] => none
  | .lit _ :: ps => firstCt ps
  | .ct e v :: _ => some (e, v)

/-- The enumerators in the JSON file have names: not empty, no `(`, no `)`, no digit in front. -/
def Names (db : Enums) : Prop := ∀ e v n, db e v = some n → n ≠ [] ∧ NoDigit n ∧ '(' ∉ n ∧ ')' ∉ n

end Verif.Render
