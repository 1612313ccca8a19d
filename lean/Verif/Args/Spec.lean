import Verif.Args.Model

/-! # What options of `gen_str_catalog` are for -/

namespace Verif.Args

open Verif.Symbols

/-- A call of `gen_str_catalog`: keywords with their values, in any order. -/
abbrev Options := List (Text × List Text)

/-- The call as it is written. -/
def written (gs : Options) : List Text := gs.flatMap fun g => g.1 :: g.2

/-- A value that is not empty, has no `;` (as in a list of cmake) and no `-` in front (as in an option of the
script), unless it is only that. -/
structure Word (v : Text) : Prop where
  nonempty : v ≠ []
  noList : ';' ∉ v
  noDash : v.head? = some '-' → v = ['-']

/-- The values of a keyword that is given. -/
def given (gs : Options) (k : Text) : Option (List Text) := (gs.find? (·.1 = k)).map (·.2)

/-- The values of a keyword, none if it is not given. -/
def valuesGiven (gs : Options) (k : Text) : List Text := (given gs k).getD []

/-- The value of a keyword. -/
def valueGiven (gs : Options) (k : Text) : Option Text := (given gs k).bind (·.head?)

/-- Each keyword is given once, those with one value with at least one (further ones, and those behind a flag,
mean nothing); values are not keywords. The keywords are those
in docs/logging.adoc 227-245 and `RESERVED_IDS`. -/
structure Proper (gs : Options) : Prop where
  once : (gs.map (·.1)).Nodup
  shape : ∀ g ∈ gs,
    (g.1 = t!"FORGET_OLD_IDS") ∨
    (g.1 ∈ [t!"OUTPUT_CPP", t!"OUTPUT_XML", t!"OUTPUT_JSON", t!"GEN_STR_CATALOG", t!"OUTPUT_LIB",
      t!"CLIENT_NAME", t!"VERSION", t!"GUID_ID", t!"GUID_MASK", t!"MODULE_ID_MAX", t!"RESERVED_IDS",
      t!"OUTPUTS_TARGET"] ∧ g.2 ≠ []) ∨
    (g.1 ∈ [t!"INPUT_JSON", t!"INPUT_LIBS", t!"INPUT_HEADERS", t!"STABLE_JSON"])
  words : ∀ g ∈ gs, ∀ v ∈ g.2, Word v
  values : ∀ g ∈ gs, ∀ v ∈ g.2, v ∉ [t!"FORGET_OLD_IDS", t!"OUTPUT_CPP", t!"OUTPUT_XML", t!"OUTPUT_JSON",
    t!"GEN_STR_CATALOG", t!"OUTPUT_LIB", t!"CLIENT_NAME", t!"VERSION", t!"GUID_ID", t!"GUID_MASK",
    t!"MODULE_ID_MAX", t!"RESERVED_IDS", t!"OUTPUTS_TARGET", t!"INPUT_JSON", t!"INPUT_LIBS",
    t!"INPUT_HEADERS", t!"STABLE_JSON"]
  libs : valuesGiven gs t!"INPUT_LIBS" ≠ []
  cpp : (given gs t!"OUTPUT_CPP").isSome
  json : (given gs t!"OUTPUT_JSON").isSome
  xml : (given gs t!"OUTPUT_XML").isSome

/-- The file of symbols of a library. -/
def symbolsFile (s : Scope) (lib : Text) : Text := s.binDir ++ t!"/undefined_symbols_" ++ lib ++ t!".txt"

/-- What the options ask for; `none` when a number or the list of reserved ids cannot be read. -/
def wanted (s : Scope) (gs : Options) : Option Settings :=
  (match valueGiven gs t!"MODULE_ID_MAX" with
    | none => some 127
    | some v => intOf v).bind fun m =>
  (match valueGiven gs t!"RESERVED_IDS" with
    | none => some []
    | some v => Json.intervals v).map fun r =>
  { input := (valuesGiven gs t!"INPUT_LIBS").map (symbolsFile s)
    cppOutput := valueGiven gs t!"OUTPUT_CPP"
    jsonOutput := valueGiven gs t!"OUTPUT_JSON"
    xmlOutput := valueGiven gs t!"OUTPUT_XML"
    jsonInput := (valuesGiven gs t!"INPUT_JSON").map s.path
    cppHeaders := (valuesGiven gs t!"INPUT_HEADERS").map s.path
    clientName := (valueGiven gs t!"CLIENT_NAME").getD t!"CIB Framework FW"
    version := (valueGiven gs t!"VERSION").getD t!"VERSION"
    guidId := (valueGiven gs t!"GUID_ID").getD t!"00000000-0017-0001-0000-000000000000"
    guidMask := (valueGiven gs t!"GUID_MASK").getD t!"00000000-FFFF-FFFF-8000-000000000000"
    stableJson := (valuesGiven gs t!"STABLE_JSON").map s.path
    forgetOldIds := (given gs t!"FORGET_OLD_IDS").isSome
    moduleIdMax := m
    reservedIds := r }

/-- Paths are words. -/
structure Paths (s : Scope) : Prop where
  binDir : ';' ∉ s.binDir ∧ s.binDir.head? ≠ some '-'
  path : ∀ v, Word v → Word (s.path v)

/-- Variables that the function uses without setting them first. -/
def leaking : List Text :=
  [t!"INPUT_JSON", t!"INPUT_HEADERS", t!"STABLE_JSON", t!"FORGET_ARG", t!"CLIENT_NAME_ARG", t!"VERSION_ARG",
   t!"GUID_ID_ARG", t!"GUID_MASK_ARG", t!"MODULE_ID_MAX_ARG", t!"RESERVED_IDS_ARG"]

/-- Options that are given to the script only if cmake does not take their value for false. -/
def tested : List Text :=
  [t!"CLIENT_NAME", t!"VERSION", t!"GUID_ID", t!"GUID_MASK", t!"MODULE_ID_MAX", t!"RESERVED_IDS"]

/-- The values that cmake takes for false: `0`, `N`, `NO`, `OFF`, `FALSE`, `IGNORE` in small or capital letters,
`NOTFOUND` and texts that end in `-NOTFOUND`. -/
def takenForFalse (v : Text) : Bool :=
  v ∈ [t!"0", t!"NOTFOUND"] || v.map Char.toUpper ∈ [t!"N", t!"NO", t!"OFF", t!"FALSE", t!"IGNORE"] ||
    v.drop (v.length - 9) = t!"-NOTFOUND"

/-- The options without those that cmake takes for not given. -/
def kept (gs : Options) : Options := gs.filter fun g => !(g.1 ∈ tested && g.2.head?.any takenForFalse)

end Verif.Args
