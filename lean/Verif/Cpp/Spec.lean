import Verif.Cpp.Model
import Verif.Symbols.Spec
/-! # What a compiler reads in the generated C++ file -/
namespace Verif.Cpp
open Verif.Symbols (Text Message Module intText dec)

/-- Lines, which line feed or carriage return end (the latter for clang). -/
def lines : Text → List Text
  | [] => [[]]
  | c :: t =>
    if c = '\n' ∨ c = '\r' then [] :: lines t
    else (c :: (lines t).headD []) :: (lines t).tail

/-- A backslash at the end of a line joins it with the next. -/
def splice : List Text → List Text
  | [] => []
  | l :: ls =>
    if l.getLast? = some '\\' then (l.dropLast ++ (splice ls).headD []) :: (splice ls).tail
    else l :: splice ls

/-- A line without its comment. -/
def cut : Text → Text
  | [] => []
  | c :: t => if c = '/' ∧ t.head? = some '/' then [] else c :: cut t

/-- The lines that are left. -/
def code (t : Text) : List Text := ((splice (lines t)).map cut).filter fun l => l.any fun c => c ≠ ' '

/-- The definition that gives a message its id. -/
def messageCode (m : Message × Int) : List Text :=
  [t!"template<> auto catalog<" ++ m.1.toCpp ++ t!">() -> string_id {", t!"    return " ++ dec m.2 ++ t!";", t!"}"]

/-- The definition that gives a module its id. -/
def moduleCode (m : Module × Int) : List Text :=
  [t!"template<> auto module<" ++ m.1.toCpp ++ t!">() -> module_id {", t!"    return " ++ dec m.2 ++ t!";", t!"}"]

/-- What the file should have: headers, declarations, and a definition for each message and module. -/
def wanted (x : Input) : List Text :=
  (x.headers.map fun h => t!"#include \"" ++ h ++ t!"\"") ++
    [t!"#include <log_binary/catalog/arguments.hpp>", t!"#include <log_binary/catalog/catalog.hpp>"] ++ x.decls ++
    x.messages.flatMap messageCode ++ x.modules.flatMap moduleCode

/-- Text in one line. -/
def OneLine (t : Text) : Prop := '\n' ∉ t ∧ '\r' ∉ t

/-- A line of code: no comment, no backslash at the end, not blank. -/
structure CodeLine (t : Text) : Prop where
  one : OneLine t
  comment : ¬ t!"//" <:+: t
  last : t.getLast? ≠ some '\\'
  blank : ∃ c ∈ t, c ≠ ' '

/-- Names of types. -/
def TypeName (t : Text) : Prop := OneLine t ∧ '/' ∉ t

/-- The input: messages and modules with a text of one line. -/
structure Fine (x : Input) : Prop where
  argv : OneLine x.argv ∧ x.argv.getLast? ≠ some '\\'
  time : OneLine x.time ∧ x.time.getLast? ≠ some '\\'
  headers : ∀ h ∈ x.headers, OneLine h ∧ ¬ t!"//" <:+: h
  decls : ∀ d ∈ x.decls, CodeLine d
  messages : ∀ m ∈ x.messages, OneLine (shown m.1.text) ∧ (∀ a ∈ m.1.args, TypeName a) ∧ ∀ c ∈ m.1.suffix, c.isAlpha = true
  modules : ∀ m ∈ x.modules, OneLine (shown m.1.text) ∧ ∀ c ∈ m.1.suffix, c.isAlpha = true

end Verif.Cpp
