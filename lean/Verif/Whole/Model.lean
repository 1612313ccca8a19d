import Verif.Catalog.Model
import Verif.Json.Model
import Verif.Render.Model
/-!
# Model of the way of a log statement

From the symbols of a program to the lines of decoded logs: the script
(`/repo/python/cib/gen_str_catalog.py`, `main`) reads symbols and gives ids; the generated C++ file gives the
program these ids; the program writes records (`Verif.Log`); the decoder
(`/repo/python/cib/{log_decode,mipi_messages}.py`) reads them with the JSON file and prints lines.

The parts are those of `Verif.Symbols`, `Verif.Catalog`, `Verif.Json`, `Verif.Log` and `Verif.Render`; the decoder
works here on the JSON file itself, with types of arguments as texts. `none` is an exception.
-/
namespace Verif.Whole
open Verif.Symbols (Text)
open Verif.Json (J PyKey Str code dget dupdate)
open Verif.Catalog (Item)

/-! ## The script -/

/-- What `Verif.Catalog` has as a number: the suffix of the id, named arguments and tags. -/
abbrev Details := Text × List Symbols.NamedArg × List Symbols.Tag

/-- A way to have these as a number. -/
structure Coding where
  enc : Details → Nat
  dec : Nat → Details
  dec_enc : ∀ d, dec (enc d) = d

/-- A message that was read from a symbol. -/
def ofSymbol (C : Coding) (m : Symbols.Message) : Item :=
  ⟨m.text, m.args.map code, m.id, m.id, C.enc (m.suffix, m.named, m.tags)⟩

/-- A message that was read from a file; it has no suffix (185-193). -/
def ofJson (C : Coding) (m : Json.Message) : Item :=
  ⟨m.text, m.args, m.id, m.id,
    C.enc ([], m.named.map fun a => ⟨a.name, a.first, a.last⟩, m.tags.map fun t => ⟨t.name, t.value⟩)⟩

/-- A message that is written to a file. -/
def toJson (C : Coding) (i : Item) : Json.Message :=
  ⟨i.text, i.args, i.id, (C.dec i.extra).2.1.map fun a => ⟨a.name, a.first, a.last⟩,
    (C.dec i.extra).2.2.map fun t => ⟨t.name, t.value⟩⟩

/-- Modules have no arguments, named arguments and tags. -/
def ofSymbolMod (C : Coding) (m : Symbols.Module) : Item := ⟨m.text, [], m.id, m.id, C.enc (m.suffix, [], [])⟩
@[inherit_doc ofSymbolMod]
def ofJsonMod (C : Coding) (m : Json.Module) : Item := ⟨m.text, [], m.id, m.id, C.enc ([], [], [])⟩
@[inherit_doc ofSymbolMod]
def toJsonMod (i : Item) : Json.Module := ⟨i.text, i.id⟩

/-- What the script is called with, and what libclang finds in the generated C++ file. -/
structure Input where
  /-- the lines of the files of symbols -/
  symbols : List Text
  stable : List (List (PyKey × J))
  reserved : List (Nat × Nat)
  forget : Bool
  limit : Int
  extras : List (List (PyKey × J))
  enums : List (Text × List (Text × Int))

/-- What it writes: messages and modules as they are in the C++ file, and the JSON file. -/
structure Output where
  messages : List Item
  modules : List Item
  json : List (PyKey × J)

def messageOf? : Option Symbols.Entry → Option Symbols.Message
  | some (.message m) => some m
  | _ => none

def moduleOf? : Option Symbols.Entry → Option Symbols.Module
  | some (.module m) => some m
  | _ => none

/-- The entries that are remembered: 762-767. -/
def remembered (key : Catalog.Key) (f : List Item) (forget : Bool) (items : List Item) : List Item :=
  if forget then []
  else (Catalog.withExplicit key (Catalog.unique key items) (Catalog.readStable key [f])).values

/-- `main`: 742-797. -/
def script (hash : Catalog.Text → Nat) (C : Coding) (x : Input) : Option Output :=
  (Json.readStable x.stable).bind fun s =>
  (x.symbols.mapM Symbols.readLine).bind fun es =>
  let items := (es.filterMap messageOf?).map (ofSymbol C)
  let mods := (es.filterMap moduleOf?).map (ofSymbolMod C)
  let f := s.1.map (ofJson C)
  let g := s.2.map (ofJsonMod C)
  let key := Catalog.msgKey hash
  let mkey := Catalog.modKey hash
  let out := (Catalog.run key [f] x.reserved x.forget items).1
  (Catalog.runModules mkey [g] x.forget x.limit mods).bind fun r =>
  (Json.writeJson (out.map (toJson C)) (r.1.map toJsonMod) x.enums x.extras
      ((remembered key f x.forget items).map (toJson C)) ((remembered mkey g x.forget mods).map toJsonMod)).map
    fun json => ⟨out, r.1, json⟩

/-- The id that the program gets for a type: the definition of `catalog` or `module` for this type in the C++
file (`make_cpp_catalog_defn`, 372-380, `make_cpp_module_defn`, 383-390). -/
def idOf (out : List Item) (i : Item) : Option Int := (out.find? fun o => o.cppType = i.cppType).map (·.id)

/-! ## The decoder -/

/-- `format_table`: `mipi_messages.py` 19-34. Signedness of `char` and size of `long` do not matter to
`Log.convert`. -/
def primOf (t : Text) : Option Log.Prim :=
  if t = t!"char" then some (.char true)
  else if t = t!"signed char" then some .schar
  else if t = t!"unsigned char" then some .uchar
  else if t = t!"bool" then some .bool
  else if t = t!"short" then some .short
  else if t = t!"unsigned short" then some .ushort
  else if t = t!"int" then some .int
  else if t = t!"unsigned int" then some .uint
  else if t = t!"long" then some (.long 4)
  else if t = t!"unsigned long" then some (.ulong 4)
  else if t = t!"long long" then some .llong
  else if t = t!"unsigned long long" then some .ullong
  else if t = t!"float" then some .float
  else if t = t!"double" then some .double
  else none

/-- A value that is no enumerator. -/
def objOf : Log.PyVal → Render.PyObj
  | .int v => .int v
  | .chr b => .bytes b
  | .float _ => .float
  | .double _ => .float

/-- The part of `Catalog.extract_arg` for `encode_32`, `encode_u32`, `encode_64`, `encode_u64`: 167-174. -/
def extractPlain (db : J) (n : Nat) (under : Log.Prim) (spec : Text) (bs : List Nat) : Option (Render.PyObj × List Nat) :=
  match primOf spec with
  | some p => (Log.convert p (bs.take n)).map fun v => (objOf v, bs.drop n)
  | none => (Log.convert under (bs.take n)).map fun v =>
    (.str (Render.enumLookup (Json.enumName db) spec (Render.pyStr v)), bs.drop n)

/-- `Catalog.extract_arg`: 158-174. -/
def extractArg (db : J) (arg : Text) (bs : List Nat) : Option (Render.PyObj × List Nat) :=
  (Render.readArgType arg).bind fun a =>
  match a with
  | .enum cpp under size =>
    if size < 0 then none
    else (primOf under).bind fun p => (Log.convert p (bs.take size.toNat)).map fun v =>
      (.str (Render.enumLookup (Json.enumName db) cpp (Render.pyStr v)), bs.drop size.toNat)
  | .plain tag spec =>
    if tag = t!"encode_32" ∨ tag = t!"encode_u32" then extractPlain db 4 .uint spec bs
    else extractPlain db 8 .ullong spec bs

/-- The arguments: 195-197. -/
def extractArgs (db : J) : List Text → List Nat → Option (List Render.PyObj × List Nat)
  | [], bs => some ([], bs)
  | a :: as, bs => (extractArg db a bs).bind fun r => (extractArgs db as r.2).map fun rs => (r.1 :: rs.1, rs.2)

/-- `{msg["id"]: msg for msg in db["messages"]}`, and the same for modules: `log_decode.py` 39-40. Left out: ids that
are no integers. -/
def byId (l : List J) : Option (List (Int × J)) :=
  (l.mapM fun (m : J) => (m.get t!"id").bind J.int? |>.map fun i => (i, m)).map (dupdate [])

/-- What the decoder reads from the JSON file. -/
structure Db where
  messages : List (Int × J)
  modules : List (Int × J)
  file : J

def loadDb (file : J) : Option Db :=
  ((file.get t!"messages").bind J.arr? |>.bind byId).bind fun ms =>
  ((file.get t!"modules").bind J.arr? |>.bind byId).map fun ds => ⟨ms, ds, file⟩

/-- A string in an entry. -/
def strOf (j : J) (k : Text) : Option Text := (j.get k).bind J.str? |>.map fun s => s.map Char.ofNat

/-- `convert_ct_enums` on the text of a message. The converted text is stored; converting it again leaves it as it
is (`Render.C141_ends`). -/
def textOf (db : Db) (m : J) : Option Text :=
  (strOf m t!"msg").bind fun t => Render.convertCt (Json.enumName db.file) (t.length + 1) t

/-- `Short32`: `mipi_messages.py` 114-124; the line, and the rest of the bytes. -/
def readShort (db : Db) (bs : List Nat) : Option (Text × List Nat) :=
  (Log.readWord bs).bind fun w =>
  (dget db.messages ((w.1 / 2 ^ 4 % 2 ^ 28 : Nat) : Int)).bind fun m =>
  (textOf db m).map fun t => (t, w.2)

/-- `Short64`: `mipi_messages.py` 127-137. -/
def readShort64 (db : Db) (bs : List Nat) : Option (Text × List Nat) :=
  if bs.length < 8 then none
  else
    (dget db.messages ((Log.fromLe (bs.take 8) / 2 ^ 4 % 2 ^ 60 : Nat) : Int)).bind fun m =>
    (textOf db m).map fun t => (t, bs.drop 8)

/-- `Catalog`: 177-202. -/
def readCatalog (db : Db) (bs : List Nat) : Option (Text × List Nat) :=
  (Log.readWord bs).bind fun w =>
  if w.1 / 2 ^ 24 % 2 ^ 6 ≠ 1 then none
  else
    (dget db.modules ((w.1 / 2 ^ 16 % 2 ^ 7 : Nat) : Int)).bind fun d =>
    (strOf d t!"string").bind fun module =>
    (Log.readWord w.2).bind fun i =>
    (dget db.messages (i.1 : Int)).bind fun m =>
    (textOf db m).bind fun t =>
    ((m.get t!"arg_types").bind J.arr?).bind fun types =>
    (types.mapM fun (a : J) => a.str?.map fun s => s.map Char.ofNat).bind fun types =>
    (extractArgs db.file types i.2).bind fun r =>
    (Render.pyFormat .out t r.1).map fun s =>
      (Render.severity (w.1 / 2 ^ 4 % 2 ^ 3) ++ t!" [" ++ module ++ t!"] " ++ s, r.2)

/-- `construct_msg`: `log_decode.py` 30-34. -/
def readRecord (db : Db) (bs : List Nat) : Option (Text × List Nat) :=
  match bs with
  | [] => none
  | b :: _ =>
    if b % 16 = 1 then readShort db bs
    else if b % 16 = 3 then readCatalog db bs
    else if b % 16 = 7 then readShort64 db bs
    else none

/-- `read_logs`: 37-51. The lines before an exception, and whether the end was reached. -/
def readLogs (db : Db) : Nat → List Nat → List Text × Bool
  | 0, bs => ([], bs.isEmpty)
  | fuel + 1, bs =>
    match bs with
    | [] => ([], true)
    | b :: r =>
      match readRecord db (b :: r) with
      | none => ([], false)
      | some (x, rest) => (x :: (readLogs db fuel rest).1, (readLogs db fuel rest).2)

/-- `main`: 74-80. -/
def decode (file : J) (bs : List Nat) : List Text × Bool :=
  match loadDb file with
  | none => ([], false)
  | some db => readLogs db bs.length bs

end Verif.Whole
