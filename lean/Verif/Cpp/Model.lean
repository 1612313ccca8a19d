import Verif.Symbols.Model
/-!
# Model of the generated C++ file

`write_cpp` (`/repo/python/cib/gen_str_catalog.py` 393-421) with `make_cpp_catalog_defn`, `make_cpp_module_defn`
(372-390) and `disclaimer` (`gen_utils.py` 6-16).

Left out: `dedent`, which has nothing to do as the first line of each text is not indented (it only makes lines empty
that are blank); the encoding of the file; the `repr` of characters that cannot be printed, in a comment.
-/
namespace Verif.Cpp
open Verif.Symbols (Text Message Module intText)

/-- `sep.join(parts)`. -/
def join (sep : Text) : List Text → Text
  | [] => []
  | [a] => a
  | a :: b :: as => a ++ sep ++ join sep (b :: as)

/-- A character in the `repr` of a string with the quote `q`. -/
def reprChar (q c : Char) : Text :=
  if c = q ∨ c = '\\' then ['\\', c]
  else if c = '\n' then t!"\\n" else if c = '\r' then t!"\\r" else if c = '\t' then t!"\\t" else [c]

/-- The `repr` of a string: quotes are double if there is a single one, and no double one, in it. -/
def reprStr (s : Text) : Text :=
  let q := if '\'' ∈ s ∧ '"' ∉ s then '"' else '\''
  q :: s.flatMap (reprChar q) ++ [q]

/-- The `repr` of a list. -/
def reprList (l : List Text) : Text := '[' :: join t!", " (l.map reprStr) ++ [']']

/-- The text of a message or module. -/
def shown (s : List Nat) : Text := s.map Char.ofNat

/-- `make_cpp_catalog_defn`: 372-380. `m.id` is the id in the type, `id` the one that was given. -/
def catalogDefn (m : Message) (id : Int) : Text :=
  t!"// \"" ++ shown m.text ++ t!"\"\n// " ++ reprList m.args ++ t!"\ntemplate<> auto catalog<" ++ m.toCpp ++
    t!">() -> string_id {\n    return " ++ intText id ++ t!";\n}"

/-- `make_cpp_module_defn`: 383-390. -/
def moduleDefn (m : Module) (id : Int) : Text :=
  t!"// \"" ++ shown m.text ++ t!"\"\ntemplate<> auto module<" ++ m.toCpp ++
    t!">() -> module_id {\n    return " ++ intText id ++ t!";\n}"

/-- `disclaimer`: `argv` and the time. -/
def disclaimer (argv time : Text) : Text :=
  t!"//\n// This file was automatically generated by\n// " ++ argv ++ t!"\n// At " ++ time ++
    t!"\n// DO NOT MODIFY THIS FILE MANUALLY\n//"

/-- What `write_cpp` gets. -/
structure Input where
  argv : Text
  time : Text
  headers : List Text
  /-- what `make_cpp_scoped_enum_decl` gives -/
  decls : List Text
  messages : List (Message × Int)
  modules : List (Module × Int)

/-- `write_cpp`: 393-421. -/
def file (x : Input) : Text :=
  disclaimer x.argv x.time ++ t!"\n\n" ++ join t!"\n" (x.headers.map fun h => t!"#include \"" ++ h ++ t!"\"") ++
    t!"\n\n#include <log_binary/catalog/arguments.hpp>\n#include <log_binary/catalog/catalog.hpp>\n\n" ++
    join t!"\n" x.decls ++ t!"\n\n" ++ join t!"\n\n" (x.messages.map fun m => catalogDefn m.1 m.2) ++ t!"\n\n" ++
    join t!"\n\n" (x.modules.map fun m => moduleDefn m.1 m.2) ++ t!"\n"

end Verif.Cpp
