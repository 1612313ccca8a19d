import Verif.Whole.Model
import Verif.Xml.Model

/-!
# Model of the files that `gen_str_catalog` writes

`/repo/python/cib/gen_str_catalog.py`, `main` (742-809), as to which files are written when. What is written is
modelled elsewhere: the JSON file in `Verif.Json`, the C++ file in `Verif.Cpp`, the XML file in `Verif.Xml`; the
latter two are parameters here.
-/
namespace Verif.Whole
open Verif.Symbols (Text)
open Verif.Json (J PyKey)
open Verif.Catalog (Item)

/-- What `read_stable` and `read_input` give: 746-750; messages, modules, and the entries that are remembered
(762-767). -/
structure Reading where
  messages : List Item
  modules : List Item
  oldMessages : List Item
  oldModules : List Item

@[inherit_doc Reading]
def scriptRead (hash : Catalog.Text → Nat) (C : Coding) (x : Input) : Option Reading :=
  (Json.readStable x.stable).bind fun s =>
  (x.symbols.mapM Symbols.readLine).map fun es =>
  let items := (es.filterMap messageOf?).map (ofSymbol C)
  let mods := (es.filterMap moduleOf?).map (ofSymbolMod C)
  let f := s.1.map (ofJson C)
  let g := s.2.map (ofJsonMod C)
  let key := Catalog.msgKey hash
  let mkey := Catalog.modKey hash
  ⟨(Catalog.run key [f] x.reserved x.forget items).1, (Catalog.run mkey [g] [] x.forget mods).1,
    remembered key f x.forget items, remembered mkey g x.forget mods⟩

/-- What is in a file. -/
inductive Content where
  /-- a file that was opened and not written to -/
  | empty
  | cpp (t : Text)
  | json (l : List (PyKey × J))
  | xml (e : Xml.El)
  /-- anything else -/
  | other (n : Nat)

abbrev Files := Text → Option Content

def put (fs : Files) (p : Text) (c : Content) : Files := fun q => if q = p then some c else fs q

/-- The files that are asked for: `--cpp_output`, `--json_output`, `--xml_output`. -/
structure Paths where
  cpp : Option Text
  json : Option Text
  xml : Option Text

/-- How the text of the C++ file is made: an argument type is not understood (754), before the file is opened; a
declaration cannot be made (`make_cpp_scoped_enum_decl`, 363), after the file was opened (394); or the text. -/
inductive CppText where
  | refused
  | cut
  | text (t : Text)

/-- 752-760. The file is there, and whether there was no exception. -/
def cppStep (p : Option Text) (t : CppText) (fs : Files) : Files × Bool :=
  match p with
  | none => (fs, true)
  | some p =>
    match t with
    | .refused => (fs, false)
    | .cut => (put fs p .empty, false)
    | .text t => (put fs p (.cpp t), true)

/-- The end of `write_json` and `write_xml`, which open the file when everything is ready. -/
def outStep (p : Option Text) (c : Option Content) (fs : Files) : Files × Bool :=
  match p with
  | none => (fs, true)
  | some p =>
    match c with
    | none => (fs, false)
    | some c => (put fs p c, true)

/-- `main`: 742-809. -/
def genMain (hash : Catalog.Text → Nat) (C : Coding) (cpp : Reading → CppText) (xml : Reading → Option Xml.El)
    (x : Input) (a : Paths) (fs : Files) : Files × Bool :=
  match scriptRead hash C x with
  | none => (fs, false)
  | some r =>
    let s1 := cppStep a.cpp (cpp r) fs
    if !s1.2 then s1
    else if (Catalog.checkModuleLimit r.modules x.limit).isNone then (s1.1, false)
    else
      let json := Json.writeJson (r.messages.map (toJson C)) (r.modules.map toJsonMod) x.enums x.extras
        (r.oldMessages.map (toJson C)) (r.oldModules.map toJsonMod)
      let s2 := outStep a.json (json.map .json) s1.1
      if !s2.2 then s2 else outStep a.xml ((xml r).map .xml) s2.1

end Verif.Whole
