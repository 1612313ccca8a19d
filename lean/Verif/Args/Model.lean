import Verif.Json.Model

/-!
# Options of `gen_str_catalog`

Model of `cmake/string_catalog.cmake` (the function `gen_str_catalog`) and of `parse_cmdline` in
`python/cib/gen_str_catalog.py` 642-726: from the arguments of the cmake function to the settings of the
script. A cmake variable that is not set is an empty text, a list is a text with `;` between its elements.
-/

namespace Verif.Args

open Verif.Symbols

/-! ## cmake -/

/-- Kinds of keywords. -/
inductive Kind | flag | one | multi
  deriving DecidableEq, Repr

/-- `oneValueArgs`: string_catalog.cmake 3-15. -/
def oneKeys : List Text :=
  [t!"OUTPUT_CPP", t!"OUTPUT_XML", t!"OUTPUT_JSON", t!"GEN_STR_CATALOG", t!"OUTPUT_LIB", t!"CLIENT_NAME",
   t!"VERSION", t!"GUID_ID", t!"GUID_MASK", t!"MODULE_ID_MAX", t!"RESERVED_IDS", t!"OUTPUTS_TARGET"]

/-- `multiValueArgs`: 16. -/
def multiKeys : List Text := [t!"INPUT_JSON", t!"INPUT_LIBS", t!"INPUT_HEADERS", t!"STABLE_JSON"]

/-- `options`: 2. -/
def flagKeys : List Text := [t!"FORGET_OLD_IDS"]

/-- The kind of a keyword. -/
def kind (t : Text) : Option Kind :=
  if t ∈ flagKeys then some .flag else if t ∈ oneKeys then some .one
  else if t ∈ multiKeys then some .multi else none

/-- What `cmake_parse_arguments` finds; of a keyword with one value the last one is first in the list. -/
structure Parsed where
  flags : List Text := []
  ones : List (Text × Text) := []
  multis : List (Text × Text) := []
  deriving DecidableEq, Repr

/-- A text that is not a keyword, behind the keyword `cur` (environment). The value of a keyword with one value
is the next text, further texts are not looked at; a keyword with many values takes all texts up to the next
keyword, and adds to those of an earlier occurrence. -/
def takeValue (cur : Option (Text × Kind)) (a : Text) (p : Parsed) : Option (Text × Kind) × Parsed :=
  match cur with
  | none => (none, p)
  | some (k, .one) => (none, { p with ones := (k, a) :: p.ones })
  | some (k, .multi) => (some (k, .multi), { p with multis := p.multis ++ [(k, a)] })
  | some (_, .flag) => (none, p)

/-- `cmake_parse_arguments(SC …)`: 17-18 (environment). A text that is a keyword always begins a new option. -/
def parseArguments : Option (Text × Kind) → List Text → Parsed → Parsed
  | _, [], p => p
  | cur, a :: as, p =>
    match kind a with
    | some .flag => parseArguments none as { p with flags := a :: p.flags }
    | some k => parseArguments (some (a, k)) as p
    | none => parseArguments (takeValue cur a p).1 as (takeValue cur a p).2

/-- `SC_<k>` of a keyword with one value, empty if it is not given. -/
def Parsed.one (p : Parsed) (k : Text) : Text := ((p.ones.find? (·.1 = k)).map (·.2)).getD []

/-- `SC_<k>` of a keyword with many values. -/
def Parsed.multi (p : Parsed) (k : Text) : Text :=
  Json.joinWith [';'] ((p.multis.filter (·.1 = k)).map (·.2))

/-- `${X}` without quotes: the elements of a list; empty ones are left out (environment). Left out:
`\;` and square brackets. -/
def expand (t : Text) : List Text := (splitAt ';' t).filter (· ≠ [])

/-- Capital letters. -/
def upper (t : Text) : Text := t.map Char.toUpper

/-- A value that `if(X)` takes for false (environment): `cmIsOff` of cmake. -/
def off (v : Text) : Bool :=
  (v = []) || (v = t!"0") || (upper v = t!"N") || (upper v = t!"NO") || (upper v = t!"OFF") ||
  (upper v = t!"FALSE") || (upper v = t!"IGNORE") || (v = t!"NOTFOUND") || (t!"-NOTFOUND").isSuffixOf v

/-- `list(APPEND …)` on a variable whose value is `v` (environment). -/
def listAppend (v : Text) (xs : List Text) : Text :=
  if v = [] then Json.joinWith [';'] xs else if xs = [] then v else v ++ [';'] ++ Json.joinWith [';'] xs

/-- `foreach(INPUT ${SC_X}) file(REAL_PATH ${INPUT} out_path) list(APPEND X ${out_path})`: 41-52. The
variable has the value that it has where the function is called: `old`. -/
def appendPaths (path : Text → Text) (old sc : Text) : Text :=
  (expand sc).foldl (fun v i => listAppend v (expand (path i))) old

/-- `if(SC_X) set(X_ARG --x ${SC_X})`: 57-74; otherwise the variable keeps the value `old` that it has where
the function is called. -/
def optionArg (old name sc : Text) : Text :=
  if off sc then old else Json.joinWith [';'] (name :: expand sc)

/-- Where the function is called: variables that are set there, `CMAKE_CURRENT_BINARY_DIR`,
`file(REAL_PATH …)` (environment). -/
structure Scope where
  vars : Text → Text := fun _ => []
  binDir : Text := []
  path : Text → Text := id

/-- `list(TRANSFORM … PREPEND …)`, `list(TRANSFORM … APPEND ".txt")`: 20-23. -/
def undefs (s : Scope) (libs : Text) : Text :=
  Json.joinWith [';'] ((expand libs).map fun l => s.binDir ++ t!"/undefined_symbols_" ++ l ++ t!".txt")

/-- `cmake_parse_arguments(SC … ${ARGN})`: 17-18. `ARGN` is a list: texts with `;` are split, empty texts are
left out. -/
def parsed (argn : List Text) : Parsed := parseArguments none (argn.flatMap expand) {}

/-- The arguments of the script: 79-87. -/
def command (s : Scope) (argn : List Text) : List Text :=
  let p := parsed argn
  [t!"--input"] ++ expand (undefs s (p.multi t!"INPUT_LIBS")) ++
  [t!"--json_input"] ++ expand (appendPaths s.path (s.vars t!"INPUT_JSON") (p.multi t!"INPUT_JSON")) ++
  [t!"--cpp_headers"] ++ expand (appendPaths s.path (s.vars t!"INPUT_HEADERS") (p.multi t!"INPUT_HEADERS")) ++
  [t!"--cpp_output"] ++ expand (p.one t!"OUTPUT_CPP") ++
  [t!"--json_output"] ++ expand (p.one t!"OUTPUT_JSON") ++
  [t!"--xml_output"] ++ expand (p.one t!"OUTPUT_XML") ++
  [t!"--stable_json"] ++ expand (appendPaths s.path (s.vars t!"STABLE_JSON") (p.multi t!"STABLE_JSON")) ++
  expand (if t!"FORGET_OLD_IDS" ∈ p.flags then t!"--forget_old_ids" else s.vars t!"FORGET_ARG") ++
  expand (optionArg (s.vars t!"CLIENT_NAME_ARG") t!"--client_name" (p.one t!"CLIENT_NAME")) ++
  expand (optionArg (s.vars t!"VERSION_ARG") t!"--version" (p.one t!"VERSION")) ++
  expand (optionArg (s.vars t!"GUID_ID_ARG") t!"--guid_id" (p.one t!"GUID_ID")) ++
  expand (optionArg (s.vars t!"GUID_MASK_ARG") t!"--guid_mask" (p.one t!"GUID_MASK")) ++
  expand (optionArg (s.vars t!"MODULE_ID_MAX_ARG") t!"--module_id_max" (p.one t!"MODULE_ID_MAX")) ++
  expand (optionArg (s.vars t!"RESERVED_IDS_ARG") t!"--reserved_ids" (p.one t!"RESERVED_IDS"))

/-! ## The script -/

/-- `nargs` of options: none, one value, `*`, `+`. -/
inductive Nargs | zero | one | star | plus
  deriving DecidableEq, Repr

/-- `add_argument`: gen_str_catalog.py 644-725. -/
def nargs (o : Text) : Option Nargs :=
  if o = t!"--input" then some .plus
  else if o = t!"--json_input" ∨ o = t!"--cpp_headers" ∨ o = t!"--stable_json" then some .star
  else if o = t!"--cpp_output" ∨ o = t!"--json_output" ∨ o = t!"--xml_output" ∨ o = t!"--client_name" ∨
    o = t!"--version" ∨ o = t!"--guid_id" ∨ o = t!"--guid_mask" ∨ o = t!"--module_id_max" ∨
    o = t!"--reserved_ids" then some .one
  else if o = t!"--forget_old_ids" then some .zero
  else none

/-- Texts that `argparse` takes for options (environment). Left out: negative numbers and texts with blanks,
which it takes for values although they begin with `-`. -/
def optionLike (t : Text) : Bool := t.head? = some '-' && t ≠ ['-']

/-- Options with the values behind them; values in front of the first option. -/
def group : List Text → List Text × List (Text × List Text)
  | [] => ([], [])
  | a :: as =>
    if optionLike a then ([], (a, (group as).1) :: (group as).2) else (a :: (group as).1, (group as).2)

/-- The number of values is right; an option is known. Left out: options that are not written out
(`--inp`) and `--option=value`, which are taken for unknown here. -/
def countOk (g : Text × List Text) : Bool :=
  match nargs g.1 with
  | none => false
  | some .zero => g.2.length = 0
  | some .one => g.2.length = 1
  | some .star => true
  | some .plus => g.2.length ≠ 0

/-- Values of an option: the last occurrence counts. -/
def valuesOf (gs : List (Text × List Text)) (o : Text) : Option (List Text) :=
  (gs.reverse.find? (·.1 = o)).map (·.2)

/-- Settings of the script. -/
structure Settings where
  input : List Text
  cppOutput : Option Text
  jsonOutput : Option Text
  xmlOutput : Option Text
  jsonInput : List Text
  cppHeaders : List Text
  clientName : Text
  version : Text
  guidId : Text
  guidMask : Text
  stableJson : List Text
  forgetOldIds : Bool
  moduleIdMax : Int
  reservedIds : List (Nat × Nat)
  deriving DecidableEq, Repr

/-- The only value. -/
def only (gs : List (Text × List Text)) (o : Text) : Option Text := (valuesOf gs o).bind (·.head?)

/-- `parse_cmdline`: gen_str_catalog.py 642-726; `none` when the script ends with an error. -/
def parseCmdline (argv : List Text) : Option Settings :=
  let g := group argv
  if g.1 = [] ∧ g.2.all countOk then
    (valuesOf g.2 t!"--input").bind fun input =>
    (((only g.2 t!"--module_id_max").map intOf).getD (some 127)).bind fun m =>
    (Json.intervals ((only g.2 t!"--reserved_ids").getD [])).map fun r =>
    { input := input
      cppOutput := only g.2 t!"--cpp_output"
      jsonOutput := only g.2 t!"--json_output"
      xmlOutput := only g.2 t!"--xml_output"
      jsonInput := (valuesOf g.2 t!"--json_input").getD []
      cppHeaders := (valuesOf g.2 t!"--cpp_headers").getD []
      clientName := (only g.2 t!"--client_name").getD t!"CIB Framework FW"
      version := (only g.2 t!"--version").getD t!"VERSION"
      guidId := (only g.2 t!"--guid_id").getD t!"00000000-0017-0001-0000-000000000000"
      guidMask := (only g.2 t!"--guid_mask").getD t!"00000000-FFFF-FFFF-8000-000000000000"
      stableJson := (valuesOf g.2 t!"--stable_json").getD []
      forgetOldIds := (valuesOf g.2 t!"--forget_old_ids").isSome
      moduleIdMax := m
      reservedIds := r }
  else none

/-- The settings with which the script runs after `gen_str_catalog(argn…)`. -/
def scriptSettings (s : Scope) (argn : List Text) : Option Settings := parseCmdline (command s argn)

end Verif.Args
