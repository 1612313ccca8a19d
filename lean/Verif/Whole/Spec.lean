import Verif.Whole.Model
import Verif.Catalog.Spec
import Verif.Json.Spec
import Verif.Render.Spec
/-! # What the lines of decoded logs should say -/
namespace Verif.Whole
open Verif.Symbols (Text Sym ModSym dec nmLine nmChar)
open Verif.Render (Piece fmtText tagText lineOut levelName)

/-- Text as the program has it: bytes of UTF-8, which `char` has as numbers from -128 to 127. -/
def chars (t : Text) : List Int :=
  t.flatMap fun c => (String.utf8EncodeChar c).map fun b => if b.toNat < 128 then (b.toNat : Int) else b.toNat - 256

/-- A log statement: level, format string, arguments, module, unit; an explicit id (or -1), tags and named
arguments; `names` are the names of the enumerations. -/
structure Statement where
  level : Nat
  fmt : List Piece
  args : List (Log.CType × Int)
  module : Text
  unit : Nat
  id : Int
  suffix : Text
  tags : List (List Int × List Int)
  named : List (List Int × Int × Int)
  modId : Int
  modSuffix : Text

/-- The type of its message. -/
def Statement.sym (names : Nat → Text) (s : Statement) : Sym :=
  ⟨s.args.map fun a => tagText names (Log.encodeTag a.1), s.id, s.suffix, chars (fmtText s.fmt), s.tags, s.named⟩

/-- The type of its module. -/
def Statement.mod (s : Statement) : ModSym := ⟨s.modId, s.modSuffix, chars s.module⟩

/-- The names of enumerators in the program, of those that have one. -/
def enumerator (enums : List (Text × List (Text × Int))) (names : Nat → Text) (e : Nat) (v : Int) : Option Text :=
  (enums.find? fun x => x.1 = names e).bind fun x => (x.2.find? fun y => y.2 = v).map (·.1)

/-- The line: what the format string says; with the level and the module for statements with arguments. -/
def Statement.line (enums : List (Text × List (Text × Int))) (names : Nat → Text) (s : Statement) : Option Text :=
  (lineOut (enumerator enums names) names s.fmt s.args).map fun t =>
    if s.args = [] then t else levelName s.level ++ t!" [" ++ s.module ++ t!"] " ++ t

/-- The number of an enumerator, if an argument is one. -/
def enumArg : Log.CType × Int → Option (Nat × Int)
  | (.prim _, _) => none
  | (.enumClass e p, v) => some (e, Log.listed p v)
  | (.enumPlain e p, v) => some (e, Log.listed p v)

/-- The value has a name in the program, and no other. -/
def Named (enums : List (Text × List (Text × Int))) (names : Nat → Text) (e : Nat) (v : Int) : Prop :=
  ∃ vs n, (names e, vs) ∈ enums ∧ (n, v) ∈ vs ∧ ∀ n', (n', v) ∈ vs → n' = n

/-- Names of types that are no names of enumerations. -/
def typeNames : List Text :=
  [t!"char", t!"signed char", t!"unsigned char", t!"bool", t!"short", t!"unsigned short", t!"int", t!"unsigned int",
    t!"long", t!"unsigned long", t!"long long", t!"unsigned long long", t!"float", t!"double"]

/-- The statements for which the decoder shows what the program says: ASCII text without `(` (and without braces, if
there are no arguments), integers, enumerators that have one name, no unscoped ones that are negative. -/
structure Statement.Fine (enums : List (Text × List (Text × Int))) (names : Nat → Text) (s : Statement) : Prop where
  level : s.level < 2 ^ 3
  unit : s.unit < 2 ^ 4
  ascii : (∀ c ∈ fmtText s.fmt, c.toNat < 128) ∧ ∀ c ∈ s.module, c.toNat < 128
  pieces : Render.PyOk s.fmt s.args
  parens : ∀ t, .lit t ∈ s.fmt → '(' ∉ t
  braces : s.args = [] → ∀ t, .lit t ∈ s.fmt → '{' ∉ t ∧ '}' ∉ t
  args : ∀ a ∈ s.args, Log.InType a.1 a.2 ∧ Log.EnumOk a.1 ∧ Log.Handled a.1 a.2
  named : ∀ a ∈ s.args, ∀ e v, enumArg a = some (e, v) → Named enums names e v
  types : ∀ a ∈ s.args, ∀ e v, enumArg a = some (e, v) → '<' ∉ names e ∧ ',' ∉ names e ∧ names e ∉ typeNames

/-- The message and the module of a statement, with code points for characters. -/
def Statement.msg (names : Nat → Text) (s : Statement) : Symbols.Message :=
  let m := s.sym names
  ⟨Symbols.codes m.text, m.args, m.id, m.suffix, m.named.map fun a => ⟨Symbols.codes a.1, a.2.1, a.2.2⟩,
    m.tags.map fun t => ⟨Symbols.codes t.1, Symbols.codes t.2⟩⟩
@[inherit_doc Statement.msg]
def Statement.modMsg (s : Statement) : Symbols.Module := ⟨Symbols.codes s.mod.text, s.mod.id, s.mod.suffix⟩

/-- The record that the program writes for a statement, with the ids of the generated C++ file; `none` if the program
does not link, as the file has no definition for the type of the message or of the module. -/
def Statement.record (C : Coding) (out : Output) (names : Nat → Text) (s : Statement) : Option (List Nat) :=
  (idOf out.messages (ofSymbol C (s.msg names))).bind fun i =>
  (idOf out.modules (ofSymbolMod C s.modMsg)).bind fun j =>
  Log.record ⟨s.level, i.toNat, j.toNat, s.unit, s.args⟩

/-- The ids fit a record: 32 bits; 28 bits for a message without arguments. -/
def IdsFit (out : Output) : Prop :=
  ∀ o ∈ out.messages, 0 ≤ o.id ∧ o.id < 2 ^ 32 ∧ (o.args = [] → o.id < 2 ^ 28)

/-- What the script reads of earlier builds and of the program: ids are not given twice, and the hash tells texts
apart. -/
structure Sound (hash : Catalog.Text → Nat) (C : Coding) (x : Input) : Prop where
  extras : ∀ y ∈ x.extras, Json.Extra y ∧ Json.Without t!"messages" y ∧ Json.Without t!"modules" y
  enums : (x.enums.map Prod.fst).Nodup
  limit : x.limit ≤ 127
  stable : ∀ s, Json.readStable x.stable = some s → ∀ es, x.symbols.mapM Symbols.readLine = some es →
    let items := (es.filterMap messageOf?).map (ofSymbol C)
    let mods := (es.filterMap moduleOf?).map (ofSymbolMod C)
    let f := s.1.map (ofJson C)
    let g := s.2.map (ofJsonMod C)
    Catalog.NoCollision (Catalog.msgKey hash) (f ++ items) ∧ Catalog.NoCollision (Catalog.modKey hash) (g ++ mods) ∧
      Catalog.OneMessagePerId (f ++ Catalog.explicit items) ∧ Catalog.OneMessagePerId (g ++ Catalog.explicit mods) ∧
      ∀ d ∈ g ++ Catalog.explicit mods, 0 ≤ d.id

/-- The files of symbols are those of a program with these statements: `nm -uC` prints a line for the message and one
for the module of each statement, and other lines are passed over. -/
structure Lists (x : Input) (names : Nat → Text) (ss : List Statement) : Prop where
  messages : ∀ s ∈ ss, ∃ n long gap, nmLine n long gap t!"catalog" ((s.sym names).type gap nmChar) ∈ x.symbols
  modules : ∀ s ∈ ss, ∃ n long gap, nmLine n long gap t!"module" (s.mod.type gap nmChar) ∈ x.symbols
  only : ∀ l ∈ x.symbols, (∃ s ∈ ss, ∃ n long gap, l = nmLine n long gap t!"catalog" ((s.sym names).type gap nmChar) ∨
    l = nmLine n long gap t!"module" (s.mod.type gap nmChar)) ∨ Symbols.readLine l = some none

/-- The symbols of the statement can be read. -/
structure Statement.Readable (names : Nat → Text) (s : Statement) : Prop where
  message : (s.sym names).Readable
  modSuffix : ∀ c ∈ s.modSuffix, c.isAlpha = true
  module : Symbols.Plain (chars s.module)

/-- Statements with the same text and the same types of arguments have the same id, tags and named arguments; the same
for modules. -/
def OneType (names : Nat → Text) (ss : List Statement) : Prop :=
  ∀ s ∈ ss, ∀ t ∈ ss,
    (chars (fmtText s.fmt) = chars (fmtText t.fmt) → (s.sym names).args = (t.sym names).args →
      s.sym names = t.sym names) ∧
    (chars s.module = chars t.module → s.mod = t.mod)

/-! ## Builds one after the other -/

/-- A build: the hash of that run of the script, what it was called with, what it wrote. -/
structure Build where
  hash : Catalog.Text → Nat
  x : Input
  out : Output

/-- The script wrote this, for an input as `Sound` asks. -/
def Build.Done (C : Coding) (b : Build) : Prop := script b.hash C b.x = some b.out ∧ Sound b.hash C b.x

/-- A build after another one: it has the JSON file of the other as stable file, does not forget, and does not give a
message or module of this file an explicit id that it does not have there. -/
structure Build.Next (C : Coding) (a b : Build) : Prop where
  stable : ∃ file, (Json.J.obj a.out.json).file = .obj file ∧ b.x.stable = [file]
  remembers : b.x.forget = false
  explicit : ∀ s, Json.readStable b.x.stable = some s → ∀ es, b.x.symbols.mapM Symbols.readLine = some es →
    (∀ i ∈ Catalog.explicit ((es.filterMap messageOf?).map (ofSymbol C)), ∀ y ∈ s.1.map (ofJson C),
      Catalog.same i y → i.id = y.id) ∧
    ∀ i ∈ Catalog.explicit ((es.filterMap moduleOf?).map (ofSymbolMod C)), ∀ y ∈ s.2.map (ofJsonMod C),
      Catalog.same i y → i.id = y.id

/-- A history of builds from one to another. -/
inductive Build.History (C : Coding) (a : Build) : Build → Prop where
  | here : a.Done C → History C a a
  | next {b c : Build} : History C a b → b.Next C c → c.Done C → History C a c

/-- A statement of the program of a build, the symbols of which can be read. -/
def Build.Has (names : Nat → Text) (b : Build) (s : Statement) : Prop :=
  ∃ ss, s ∈ ss ∧ Lists b.x names ss ∧ OneType names ss ∧ ∀ t ∈ ss, t.Readable names

end Verif.Whole
