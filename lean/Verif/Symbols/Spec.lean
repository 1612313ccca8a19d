import Verif.Symbols.Model
/-!
# Symbols

The messages of a program as types (`include/log_binary/catalog/encoder.hpp` 53-69), and how such types
are written: by `nm -uC` in a list of symbols, and in C++. Demanglers differ in whether they write a space
between two closing angle brackets (`gap`).
-/
namespace Verif.Symbols

/-- A message of the program: `to_message`. The characters of a text are values of `char`, which may be
negative. -/
structure Sym where
  args : List Text
  id : Int
  /-- the letters after the id that show its type: `u` for `unsigned int` -/
  suffix : Text
  text : List Int
  tags : List (List Int × List Int)
  named : List (List Int × Int × Int)

/-- A module of the program: `to_module`. -/
structure ModSym where
  id : Int
  suffix : Text
  text : List Int

/-- A number as Lean writes it. -/
def dec (n : Int) : Text := (toString n).toList

/-- With commas between. -/
def commas (ts : List Text) : Text := (ts.intersperse t!", ").flatten

/-- The closing angle bracket. -/
def shut (gap : Bool) (t : Text) : Text :=
  t ++ (if gap && t.getLast? == some '>' then [' '] else []) ++ ['>']

/-- A template with arguments. -/
def tmpl (gap : Bool) (name : Text) (args : List Text) : Text := shut gap (name ++ '<' :: commas args)

/-- How a character is written: by a demangler, or in C++. -/
def nmChar (c : Int) : Text := t!"(char)" ++ dec c
@[inherit_doc nmChar]
def cppChar (c : Int) : Text := t!"static_cast<char>(" ++ dec c ++ t!")"

/-- A text as a type. -/
def strType (gap : Bool) (chr : Int → Text) (s : List Int) : Text := tmpl gap t!"sc::string" (s.map chr)

/-- The type of a tag. -/
def tagType (gap : Bool) (chr : Int → Text) (t : List Int × List Int) : Text :=
  tmpl gap t!"sc::tag" [strType gap chr t.1, strType gap chr t.2]

/-- The type of a named argument. -/
def namedType (gap : Bool) (chr : Int → Text) (a : List Int × Int × Int) : Text :=
  tmpl gap t!"sc::named_arg" [strType gap chr a.1, dec a.2.1, dec a.2.2]

/-- The type of a message. -/
def Sym.type (gap : Bool) (chr : Int → Text) (m : Sym) : Text :=
  tmpl gap t!"sc::message" [tmpl gap t!"sc::undefined" [tmpl gap t!"sc::args" m.args, dec m.id ++ m.suffix,
    strType gap chr m.text, tmpl gap t!"sc::tags" (m.tags.map (tagType gap chr)),
    tmpl gap t!"sc::named_args" (m.named.map (namedType gap chr))]]

/-- The type of a module. -/
def ModSym.type (gap : Bool) (chr : Int → Text) (m : ModSym) : Text :=
  tmpl gap t!"sc::module_string" [tmpl gap t!"sc::undefined" [t!"void", dec m.id ++ m.suffix,
    strType gap chr m.text]]

/-- The line of `nm -uC` for the function `name<type>`, which returns `unsigned int`, or `unsigned long`;
the symbol has no address, so there are spaces before it. -/
def nmLine (spaces : Nat) (long : Bool) (gap : Bool) (name : Text) (type : Text) : Text :=
  List.replicate spaces ' ' ++ t!"U unsigned " ++ (if long then t!"long" else t!"int") ++ t!" " ++
    tmpl gap name [type] ++ t!"()"

/-! ## Texts that can be read -/

/-- A type: angle brackets are closed, and commas are only inside of them. -/
def balanced : Nat → Text → Bool
  | n, [] => n = 0
  | n, c :: t =>
    if c = '>' then n ≠ 0 && balanced (n - 1) t
    else if c = '<' then balanced (n + 1) t
    else if c = ',' then n ≠ 0 && balanced n t
    else balanced n t

/-- No spaces at the ends. -/
def Trimmed (t : Text) : Prop := (∃ c r, t = c :: r ∧ isSpace c = false) ∧ ∃ c r, t = r ++ [c] ∧ isSpace c = false

/-- The templates and functions that tell the parts of a symbol apart. -/
def markers : List Text :=
  [t!"sc::string", t!"sc::tags", t!"sc::named_args", t!"int catalog", t!"int module", t!"long catalog",
    t!"long module"]

/-- An argument type that names none of these. -/
structure ArgType (a : Text) : Prop where
  balanced : balanced 0 a = true
  trimmed : Trimmed a
  free : ∀ m ∈ markers, ¬ (m ++ ['<']) <:+: a

/-- A text that is not empty, of characters with positive codes. -/
def Plain (s : List Int) : Prop := s ≠ [] ∧ ∀ c ∈ s, 0 ≤ c ∧ c < 0x110000

/-- The code points. -/
def codes (s : List Int) : List Nat := s.map Int.toNat

/-- A message that can be read. -/
structure Sym.Readable (m : Sym) : Prop where
  args : ∀ a ∈ m.args, ArgType a
  suffix : ∀ c ∈ m.suffix, c.isAlpha = true
  text : Plain m.text
  tags : ∀ t ∈ m.tags, Plain t.1 ∧ Plain t.2
  named : ∀ a ∈ m.named, Plain a.1

end Verif.Symbols
