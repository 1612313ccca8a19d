import Verif.Symbols.Regex
/-!
# Model of reading symbols and writing C++ types

`/repo/python/cib/gen_str_catalog.py` reads the undefined symbols of the program, as `nm -uC` prints
them, finds the messages and modules in them, and writes a C++ definition for each.

Text in symbols is a list of characters; the text of a message is a list of code points (as in
`Verif.Catalog`). `none` is an exception.
-/
namespace Verif.Symbols

/-! ## Functions of Python -/

/-- `str.replace(pat, "")`; the number is how many characters are still to be skipped. -/
def remove (pat : Text) : Nat → Text → Text
  | _, [] => []
  | n + 1, _ :: t => remove pat n t
  | 0, c :: t =>
    if (dropPrefix? pat (c :: t)).isSome then remove pat (pat.length - 1) t else c :: remove pat 0 t

/-- The pieces between separators. `re.split(r"\s*,\s*", …)` also takes the spaces away around them,
which `int` ignores. -/
def splitAt (sep : Char) : Text → List Text
  | [] => [[]]
  | c :: t =>
    if c = sep then [] :: splitAt sep t
    else match splitAt sep t with
      | [] => [[c]]
      | p :: ps => (c :: p) :: ps

/-- `str.strip()`. -/
def strip (t : Text) : Text := ((t.dropWhile isSpace).reverse.dropWhile isSpace).reverse

/-- Digits. -/
def natOf (t : Text) : Option Nat :=
  if t.isEmpty || !t.all isDigit then none else some (Nat.ofDigitChars 10 t 0)

/-- `int(s)`. Left out: `+`, underscores. -/
def intOf (t : Text) : Option Int :=
  match strip t with
  | '-' :: ds => (natOf ds).map fun (n : Nat) => -(n : Int)
  | ds => (natOf ds).map fun (n : Nat) => (n : Int)

/-- `chr(n)`. -/
def chr (n : Int) : Option Nat := if 0 ≤ n ∧ n < 0x110000 then some n.toNat else none

/-- `"".join((chr(int(c)) for c in re.split(r"\s*,\s*", s.replace("(char)", ""))))`. -/
def charsOf (s : Text) : Option (List Nat) :=
  (splitAt ',' (remove t!"(char)" 0 s)).mapM fun c => (intOf c).bind chr

/-- `find_arg_split_pos`: 17-27, on the rest of the string. -/
def findSplit : Int → Text → Text × Option Text
  | _, [] => ([], none)
  | n, c :: s =>
    if c = '>' then let r := findSplit (n - 1) s; (c :: r.1, r.2)
    else if c = '<' then let r := findSplit (n + 1) s; (c :: r.1, r.2)
    else if c = ',' ∧ n = 0 then ([], some s)
    else let r := findSplit n s; (c :: r.1, r.2)

/-- `split_args`: 30-37; the number is at least the length of the string. -/
def splitArgs : Nat → Text → List Text
  | 0, _ => []
  | _, [] => []
  | fuel + 1, s =>
    match findSplit 0 s with
    | (a, none) => [strip a]
    | (a, some s) => strip a :: splitArgs fuel s

/-! ## Reading -/

/-- `NamedArg`: 65-69. -/
structure NamedArg where
  name : List Nat
  first : Int
  last : Int
deriving DecidableEq, Repr

/-- `NamedArg.from_cpp_type`: 71-80. -/
def NamedArg.ofCpp (s : Text) : Option NamedArg :=
  match reMatch [lit t!"sc::named_arg<sc::string<", all, lit t!">, ", number, lit t!", ", number, lit t!">"] s with
  | some [a, b, e] => (charsOf a).bind fun name => (intOf b).bind fun b => (intOf e).map fun e => ⟨name, b, e⟩
  | _ => none

/-- `Tag`: 114-117. -/
structure Tag where
  name : List Nat
  value : List Nat
deriving DecidableEq, Repr

/-- `Tag.from_cpp_type`: 119-128. -/
def Tag.ofCpp (s : Text) : Option Tag :=
  match reMatch [lit t!"sc::tag<sc::string<", all, lit t!">, sc::string<", all, lit t!">", spaces, lit t!">"] s with
  | some [a, b] => (charsOf a).bind fun name => (charsOf b).map fun value => ⟨name, value⟩
  | _ => none

/-- `Message`: 147-166. -/
structure Message where
  text : List Nat
  args : List Text
  id : Int
  suffix : Text
  named : List NamedArg
  tags : List Tag
deriving DecidableEq, Repr

/-- The regular expression in `Message.from_cpp_type`: 170-172. -/
def messageRe : List Part :=
  [lit t!"sc::message<sc::undefined<sc::args<", all, lit t!">, ", number, letters, lit t!", sc::string<", all,
    lit t!">, sc::tags<", all, lit t!">, sc::named_args<", all, lit t!">", spaces, lit t!">", spaces, lit t!">"]

/-- `Message.from_cpp_type`: 168-183. -/
def Message.ofCpp (s : Text) : Option Message :=
  match reMatch messageRe s with
  | some [a, i, x, t, g, n] =>
    (charsOf t).bind fun text => (intOf i).bind fun id =>
    ((splitArgs n.length n).mapM NamedArg.ofCpp).bind fun named =>
    ((splitArgs g.length g).mapM Tag.ofCpp).map fun tags =>
      ⟨text, splitArgs a.length a, id, x, named, tags⟩
  | _ => none

/-- `Module`: 232-239. -/
structure Module where
  text : List Nat
  id : Int
  suffix : Text
deriving DecidableEq, Repr

/-- The regular expression in `Module.from_cpp_type`: 243-245. -/
def moduleRe : List Part :=
  [lit t!"sc::module_string<sc::undefined<", all, lit t!", ", number, letters, lit t!", sc::string<", all,
    lit t!">", spaces, lit t!">", spaces, lit t!">"]

/-- `Module.from_cpp_type`: 241-252. -/
def Module.ofCpp (s : Text) : Option Module :=
  match reMatch moduleRe s with
  | some [_, i, x, t] => (charsOf t).bind fun text => (intOf i).map fun id => ⟨text, id, x⟩
  | _ => none

inductive Entry where
  | message (m : Message)
  | module (m : Module)
deriving DecidableEq, Repr

/-- `line_re` in `read_input`: 342. -/
def lineRe : List Part :=
  [⟨false, [.rep any 0 false]⟩, lit t!"unsigned ", ⟨false, [.alt [t!"int", t!"long"]]⟩, lit t!" ",
    ⟨true, [.alt [t!"catalog", t!"module"]]⟩, lit t!"<", ⟨true, [.rep any 1 true]⟩, lit t!">()", ⟨false, [.eos]⟩]

/-- A line of a file of symbols: `read_file` (343-348) with `extract` (287-297). `some none`: the line is
passed over. -/
def readLine (line : Text) : Option (Option Entry) :=
  match reMatch lineRe (strip line) with
  | some [k, s] =>
    if k = t!"catalog" then (Message.ofCpp s).map fun m => some (.message m)
    else (Module.ofCpp s).map fun m => some (.module m)
  | _ => some none

/-! ## Writing -/

/-- A number in decimal. -/
def natText (n : Nat) : Text := Nat.toDigits 10 n
@[inherit_doc natText]
def intText (n : Int) : Text := if n < 0 then '-' :: natText n.natAbs else natText n.toNat

/-- `", ".join(…)`. -/
def joined : List Text → Text
  | [] => []
  | [a] => a
  | a :: as => a ++ t!", " ++ joined as

/-- `static_cast<char>({ord(c)})` for each character. -/
def castChars (cs : List Nat) : Text := joined (cs.map fun c => t!"static_cast<char>(" ++ natText c ++ t!")")

/-- `NamedArg.to_cpp_type`: 100-101. -/
def NamedArg.toCpp (a : NamedArg) : Text :=
  t!"sc::named_arg<sc::string<" ++ castChars a.name ++ t!">, " ++ intText a.first ++ t!", " ++ intText a.last ++ t!">"

/-- `Tag.to_cpp_type`: 137-138. -/
def Tag.toCpp (a : Tag) : Text :=
  t!"sc::tag<sc::string<" ++ castChars a.name ++ t!">, sc::string<" ++ castChars a.value ++ t!">>"

/-- `Message.to_cpp_type`: 209-210. The id is the original one. -/
def Message.toCpp (m : Message) : Text :=
  t!"sc::message<sc::undefined<sc::args<" ++ joined m.args ++ t!">, " ++ intText m.id ++ m.suffix ++
    t!", sc::string<" ++ castChars m.text ++ t!">, sc::tags<" ++ joined (m.tags.map Tag.toCpp) ++
    t!">, sc::named_args<" ++ joined (m.named.map NamedArg.toCpp) ++ t!">>>"

/-- `Module.to_cpp_type`: 267-268. -/
def Module.toCpp (m : Module) : Text :=
  t!"sc::module_string<sc::undefined<void, " ++ intText m.id ++ m.suffix ++ t!", sc::string<" ++
    castChars m.text ++ t!">>>"

/-- The first line of the definition: `make_cpp_catalog_defn` (372-380), `make_cpp_module_defn` (383-390). -/
def Entry.defines : Entry → Text
  | .message m => t!"template<> auto catalog<" ++ m.toCpp ++ t!">() -> string_id {"
  | .module m => t!"template<> auto module<" ++ m.toCpp ++ t!">() -> module_id {"

end Verif.Symbols
