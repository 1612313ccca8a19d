import Verif.Symbols.Model
/-!
# Model of the JSON file of the catalog

`/repo/python/cib/gen_str_catalog.py` writes messages, modules and enumerations to a JSON file, with the
contents of extra JSON files; reads JSON files of earlier runs; reads the list of reserved ids; declares
enumerations in the generated C++ file; gives references to enumerations to the messages of the XML file.

A Python string is a list of code points, a dictionary is an association list in insertion order. `none` is
an exception. How JSON is written as text is left out, except that keys become strings: `json.dump` writes the
key 1 as "1", and a file can then have a key twice.
-/
namespace Verif.Json
open Verif.Symbols (Text natText intText intOf splitAt strip isDigit reMatch lit all Part)

abbrev Str := List Nat

/-- The code points of a text. -/
def code (t : Text) : Str := t.map Char.toNat

/-! ## Values -/

/-- A key of a dictionary. -/
inductive PyKey where
  | str (t : Text)
  | int (n : Int)
deriving DecidableEq, Repr

/-- Values. -/
inductive J where
  | str (s : Str)
  | int (n : Int)
  /-- `null`, `true`, `false` and numbers that are no integers -/
  | atom (n : Nat)
  | arr (l : List J)
  | obj (l : List (PyKey × J))
deriving Repr

mutual
def J.decEq : (a b : J) → Decidable (a = b)
  | .str a, .str b => if h : a = b then isTrue (by rw [h]) else isFalse (by intro e; cases e; exact h rfl)
  | .int a, .int b => if h : a = b then isTrue (by rw [h]) else isFalse (by intro e; cases e; exact h rfl)
  | .atom a, .atom b => if h : a = b then isTrue (by rw [h]) else isFalse (by intro e; cases e; exact h rfl)
  | .arr a, .arr b => match J.decEqL a b with
    | isTrue h => isTrue (by rw [h])
    | isFalse h => isFalse (by intro e; cases e; exact h rfl)
  | .obj a, .obj b => match J.decEqO a b with
    | isTrue h => isTrue (by rw [h])
    | isFalse h => isFalse (by intro e; cases e; exact h rfl)
  | .str _, .int _ | .str _, .arr _ | .str _, .obj _ | .int _, .str _ | .int _, .arr _ | .int _, .obj _
  | .arr _, .str _ | .arr _, .int _ | .arr _, .obj _ | .obj _, .str _ | .obj _, .int _ | .obj _, .arr _
  | .atom _, .str _ | .atom _, .int _ | .atom _, .arr _ | .atom _, .obj _
  | .str _, .atom _ | .int _, .atom _ | .arr _, .atom _ | .obj _, .atom _ =>
    isFalse (by intro e; cases e)
def J.decEqL : (a b : List J) → Decidable (a = b)
  | [], [] => isTrue rfl
  | [], _ :: _ | _ :: _, [] => isFalse (by intro e; cases e)
  | a :: as, b :: bs => match J.decEq a b, J.decEqL as bs with
    | isTrue h, isTrue h' => isTrue (by rw [h, h'])
    | isFalse h, _ => isFalse (by intro e; cases e; exact h rfl)
    | _, isFalse h => isFalse (by intro e; cases e; exact h rfl)
def J.decEqO : (a b : List (PyKey × J)) → Decidable (a = b)
  | [], [] => isTrue rfl
  | [], _ :: _ | _ :: _, [] => isFalse (by intro e; cases e)
  | (k, a) :: as, (l, b) :: bs =>
    if hk : k = l then
      match J.decEq a b, J.decEqO as bs with
      | isTrue h, isTrue h' => isTrue (by rw [h, h', hk])
      | isFalse h, _ => isFalse (by intro e; cases e; exact h rfl)
      | _, isFalse h => isFalse (by intro e; cases e; exact h rfl)
    else isFalse (by intro e; cases e; exact hk rfl)
end

instance : DecidableEq J := J.decEq

/-! ## Dictionaries -/

variable {κ α : Type} [DecidableEq κ]

/-- `d[k] = v`: an existing key keeps its place. -/
def dset (k : κ) (v : α) : List (κ × α) → List (κ × α)
  | [] => [(k, v)]
  | e :: d => if e.1 = k then (k, v) :: d else e :: dset k v d

/-- `d.get(k)`. -/
def dget (d : List (κ × α)) (k : κ) : Option α := (d.find? fun e => e.1 = k).map (·.2)

/-- `d.update(e)`; also the dictionary of a list of pairs, from `d = {}`. -/
def dupdate (d : List (κ × α)) : List (κ × α) → List (κ × α)
  | [] => d
  | e :: es => dupdate (dset e.1 e.2 d) es

/-! ## Files -/

/-- A key as it is written. -/
def PyKey.text : PyKey → Text
  | .str t => t
  | .int n => intText n

/-- What `json.load` reads from what `json.dump` has written. -/
def J.file : J → J
  | .str s => .str s
  | .int n => .int n
  | .atom n => .atom n
  | .arr l => .arr (files l)
  | .obj l => .obj (dupdate [] (fileFields l))
where
  files : List J → List J
    | [] => []
    | j :: js => j.file :: files js
  fileFields : List (PyKey × J) → List (PyKey × J)
    | [] => []
    | (k, j) :: l => (.str k.text, j.file) :: fileFields l

/-- `j[k]`. -/
def J.get (j : J) (k : Text) : Option J :=
  match j with
  | .obj l => dget l (.str k)
  | _ => none

def J.str? : J → Option Str
  | .str s => some s
  | _ => none

def J.int? : J → Option Int
  | .int n => some n
  | _ => none

def J.arr? : J → Option (List J)
  | .arr l => some l
  | _ => none

def J.obj? : J → Option (List (PyKey × J))
  | .obj l => some l
  | _ => none

/-! ## Messages and modules -/

/-- `NamedArg`: 65-69. -/
structure NamedArg where
  name : Str
  first : Int
  last : Int
deriving DecidableEq, Repr

/-- `NamedArg.to_json`: 93-98. -/
def NamedArg.toJson (a : NamedArg) : J :=
  if a.last < a.first then .obj [(.str t!"ref", .int a.first), (.str t!"name", .str a.name)]
  else .obj [(.str t!"loc", .str (code (t!"[" ++ intText a.first ++ t!":" ++ intText a.last ++ t!"]"))),
    (.str t!"name", .str a.name)]

/-- `(\d+)` -/
abbrev digits : Part := ⟨true, [.rep isDigit 1 false]⟩

/-- `NamedArg.from_json`: 82-91. -/
def NamedArg.ofJson (j : J) : Option NamedArg :=
  match j.get t!"ref" with
  | some r => (j.get t!"name").bind J.str? |>.bind fun n => r.int?.map fun r => ⟨n, r, r - 1⟩
  | none =>
    (j.get t!"loc").bind J.str? |>.bind fun loc =>
    match reMatch [lit t!"[", digits, lit t!":", digits, lit t!"]"] (loc.map Char.ofNat) with
    | some [a, b] =>
      (j.get t!"name").bind J.str? |>.bind fun n => (intOf a).bind fun a => (intOf b).map fun b => ⟨n, a, b⟩
    | _ => none

/-- `Tag`: 114-117. -/
structure Tag where
  name : Str
  value : Str
deriving DecidableEq, Repr

/-- `Tag.to_json`: 134-135. -/
def Tag.toJson (t : Tag) : J := .obj [(.str t!"name", .str t.name), (.str t!"value", .str t.value)]

/-- `Tag.from_json`: 130-132. -/
def Tag.ofJson (j : J) : Option Tag :=
  (j.get t!"name").bind J.str? |>.bind fun n => (j.get t!"value").bind J.str? |>.map fun v => ⟨n, v⟩

/-- `Message`: 147-166; the id is the one that is written to the file. -/
structure Message where
  text : Str
  args : List Str
  id : Int
  named : List NamedArg
  tags : List Tag
deriving DecidableEq, Repr

/-- `Message.type`: 205-207. -/
def Message.type (m : Message) : Text := if code t!"flow." <+: m.text then t!"flow" else t!"msg"

/-- `Message.to_json`: 195-203. -/
def Message.toJson (m : Message) : J :=
  .obj [(.str t!"msg", .str m.text), (.str t!"type", .str (code m.type)), (.str t!"arg_types", .arr (m.args.map .str)),
    (.str t!"id", .int m.id), (.str t!"args", .arr (m.named.map NamedArg.toJson)),
    (.str t!"tags", .arr (m.tags.map Tag.toJson))]

/-- `json.get(k, [])`, a list of which `f` reads each. -/
def J.listOr {β : Type} (f : J → Option β) (j : J) (k : Text) : Option (List β) :=
  match j.get k with
  | none => some []
  | some l => l.arr?.bind fun l => l.mapM f

/-- `Message.from_json`: 185-193. -/
def Message.ofJson (j : J) : Option Message :=
  (j.get t!"msg").bind J.str? |>.bind fun text =>
  (j.get t!"arg_types").bind J.arr? |>.bind fun args =>
  (args.mapM J.str?).bind fun args =>
  (j.get t!"id").bind J.int? |>.bind fun id =>
  (j.listOr NamedArg.ofJson t!"args").bind fun named =>
  (j.listOr Tag.ofJson t!"tags").map fun tags => ⟨text, args, id, named, tags⟩

/-- `Module`: 232-239. -/
structure Module where
  text : Str
  id : Int
deriving DecidableEq, Repr

/-- `Module.to_json`: 261-265. -/
def Module.toJson (m : Module) : J := .obj [(.str t!"string", .str m.text), (.str t!"id", .int m.id)]

/-- `Module.from_json`: 254-259. -/
def Module.ofJson (j : J) : Option Module :=
  (j.get t!"string").bind J.str? |>.bind fun t => (j.get t!"id").bind J.int? |>.map fun i => ⟨t, i⟩

/-! ## Writing and reading the file -/

/-- `j not in d["messages"]`, append: 459-466. -/
def addNew (l : List J) : List J → List J
  | [] => l
  | j :: js => addNew (if j ∈ l then l else l ++ [j]) js

/-- `{value: name for (name, value) in v.items()}`: 475. -/
def byValue (vs : List (Text × Int)) : List (PyKey × J) :=
  dupdate [] (vs.map fun x => (.int x.2, .str (code x.1)))

/-- One enumeration: 476-480. -/
def addEnum (enums : List (PyKey × J)) (k : Text) (v : List (PyKey × J)) : Option (List (PyKey × J)) :=
  match dget enums (.str k) with
  | some (.obj old) => some (dset (.str k) (.obj (dupdate old v)) enums)
  | some _ => none
  | none => some (dset (.str k) (.obj v) enums)

def addEnums (enums : List (PyKey × J)) : List (Text × List (PyKey × J)) → Option (List (PyKey × J))
  | [] => some enums
  | (k, v) :: es => (addEnum enums k v).bind fun e => addEnums e es

/-- `write_json`: 452-483. `enums` is what `extract_enums` found: the enumerators of each enumeration with
their values. `old` are the entries that are to be remembered. -/
def writeJson (messages : List Message) (modules : List Module) (enums : List (Text × List (Text × Int)))
    (extras : List (List (PyKey × J))) (oldMessages : List Message) (oldModules : List Module) :
    Option (List (PyKey × J)) :=
  let ms := addNew (messages.map Message.toJson) (oldMessages.map Message.toJson)
  let ds := addNew (modules.map Module.toJson) (oldModules.map Module.toJson)
  let catalog := extras.foldl dupdate
    [(.str t!"messages", .arr ms), (.str t!"modules", .arr ds), (.str t!"enums", .obj [])]
  let es := dupdate [] (enums.map fun e => (e.1, byValue e.2))
  (dget catalog (.str t!"enums")).bind J.obj? |>.bind fun old =>
  (addEnums old es).map fun new => dset (.str t!"enums") (.obj new) catalog

/-- `read_stable`: 486-500; the entries of the files, before those with the same key are merged
(`Verif.Catalog`). -/
def readStable (files : List (List (PyKey × J))) : Option (List Message × List Module) :=
  let catalog := files.foldl dupdate [(.str t!"messages", .arr []), (.str t!"modules", .arr [])]
  (dget catalog (.str t!"messages")).bind J.arr? |>.bind fun ms =>
  (dget catalog (.str t!"modules")).bind J.arr? |>.bind fun ds =>
  (ms.mapM Message.ofJson).bind fun ms => (ds.mapM Module.ofJson).map fun ds => (ms, ds)

/-- `enum_lookup`: `/repo/python/cib/mipi_messages.py` 54-56, `db` being the JSON file. -/
def enumName (db : J) (e v : Text) : Option Text :=
  (db.get t!"enums").bind fun es => (es.get e).bind fun vs => (vs.get v).bind J.str? |>.map fun n => n.map Char.ofNat

/-! ## Reserved ids -/

/-- The value of a digit. -/
def digitVal (c : Char) : Option Nat :=
  if '0' ≤ c ∧ c ≤ '9' then some (c.toNat - 48)
  else if 'a' ≤ c ∧ c ≤ 'f' then some (c.toNat - 87)
  else if 'A' ≤ c ∧ c ≤ 'F' then some (c.toNat - 55)
  else none

/-- Digits of a base. -/
def digitsVal (b : Nat) : Nat → Text → Option Nat
  | n, [] => some n
  | n, c :: t => (digitVal c).bind fun d => if d < b then digitsVal b (n * b + d) t else none

/-- At least one digit. -/
def baseVal (b : Nat) (t : Text) : Option Nat := if t = [] then none else digitsVal b 0 t

/-- `int(s, 0)` without a sign: the base is in the text, decimal numbers do not begin with 0. Left out:
underscores, `+`. -/
def intAny (t : Text) : Option Nat :=
  match strip t with
  | [] => none
  | c :: r =>
    if c = '0' then
      match r.head? with
      | none => some 0
      | some x =>
        if x = 'x' ∨ x = 'X' then baseVal 16 r.tail
        else if x = 'o' ∨ x = 'O' then baseVal 8 r.tail
        else if x = 'b' ∨ x = 'B' then baseVal 2 r.tail
        else if r.all (· = '0') then some 0 else none
    else baseVal 10 (c :: r)

/-- One piece between commas: 44-49; `[]` for none. -/
def interval (i : Text) : Option (List (Nat × Nat)) :=
  let rng := splitAt '-' i
  if rng = [[]] then some []
  else
    match rng with
    | [] => none
    | [a] => (intAny a).map fun a => [(a, a)]
    | [a, b] => (intAny a).bind fun a => (intAny b).map fun b => [(a, b)]
    | a :: _ :: _ :: _ => (intAny a).map fun a => [(a, a)]

/-- `Intervals.__init__`: 41-49. -/
def intervals (t : Text) : Option (List (Nat × Nat)) := ((splitAt ',' t).mapM interval).map List.flatten

/-- Texts with a separator. -/
def joinWith (sep : Text) : List Text → Text
  | [] => []
  | [t] => t
  | t :: u :: ts => t ++ sep ++ joinWith sep (u :: ts)

/-- `Intervals.__str__`: 54-59. -/
def intervalsText (is : List (Nat × Nat)) : Text :=
  joinWith t!"," (is.map fun x => if x.1 ≠ x.2 then natText x.1 ++ t!"-" ++ natText x.2 else natText x.1)

/-! ## Enumerations in the C++ and the XML file -/

/-- `arg_type_encoding`: 533-545; the encoding, the type or enumeration, the type that is printed. -/
def argType (arg : Text) : Option (Text × Text × Text) :=
  match reMatch [lit t!"encode_", ⟨true, [.alt [t!"32", t!"u32", t!"64", t!"u64", t!"enum"]]⟩, lit t!"<", all,
      lit t!">"] arg with
  | some [enc, spec] =>
    if enc = t!"enum" then
      match reMatch [all, lit t!", ", all, lit t!", ", digits] spec with
      | some [e, ut, _] => some (t!"encode_" ++ enc, e, ut)
      | _ => none
    else some (t!"encode_" ++ enc, spec, spec)
  | _ => none

/-- `e.split("::")`. -/
def splitColons : Text → List Text
  | [] => [[]]
  | [c] => [[c]]
  | c :: d :: t =>
    if c = ':' ∧ d = ':' then [] :: splitColons t
    else match splitColons (d :: t) with
      | [] => [[c]]
      | p :: ps => (c :: p) :: ps

/-- `make_cpp_scoped_enum_decl`: 359-369. -/
def enumDecl (e ut : Text) : Option Text :=
  let parts := splitColons e
  let enum := parts.getLast?.getD []
  if t!"(anonymous namespace)" ∈ parts ∨ t!"{anonymous}" ∈ parts then none
  else if 1 < parts.length then
    some (t!"namespace " ++ joinWith t!"::" parts.dropLast ++ t!" { enum struct " ++ enum ++ t!" : " ++ ut ++ t!"; }")
  else some (t!"enum struct " ++ enum ++ t!" : " ++ ut ++ t!";")

/-- The scoped enumerations of the arguments: `main`, 752-758. -/
def scopedEnums : List Text → List (Text × Text) → Option (List (Text × Text))
  | [], d => some d
  | a :: as, d => (argType a).bind fun x => scopedEnums as (if x.1 = t!"encode_enum" then dset x.2.1 x.2.2 d else d)

/-- Their declarations: `write_cpp`, 396-398. -/
def enumDecls (args : List Text) : Option (List Text) :=
  (scopedEnums args []).bind fun d => d.mapM fun e => enumDecl e.1 e.2

/-- `main`, 772-781: `m.enum_lookup`; `ids` are the numbers of the enumerations. -/
def enumLookup (ids : List (Text × Nat)) : Nat → List Text → Option (Nat × Nat) → Option (Option (Nat × Nat))
  | _, [], r => some r
  | i, a :: as, r => (argType a).bind fun x =>
    enumLookup ids (i + 1) as (match dget ids x.2.1 with
      | some n => some (i + 1, n)
      | none => r)

/-- The attribute of a message in the XML file: 581-582. -/
def enumLookupText (r : Option (Nat × Nat)) : Option Text :=
  r.map fun x => natText x.1 ++ t!":" ++ natText x.2

/-- The numbers of the enumerations: `enumerate`, 773-778. -/
def enumIds {β : Type} : Nat → List (Text × β) → List (Text × Nat)
  | _, [] => []
  | i, e :: es => (e.1, i) :: enumIds (i + 1) es

end Verif.Json
