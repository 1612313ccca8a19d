import Verif.Symbols.Model
import Verif.Log.Model
/-!
# Model of texts in the collateral and in decoded logs

The format strings of the XML file are made by `serialize_messages` in
`/repo/python/cib/gen_str_catalog.py`; lines of text are made from binary logs by
`/repo/python/cib/mipi_messages.py`. What the decoder reads from the bytes is in `Verif.Log`; here are the
texts. `none` is an exception.
-/
namespace Verif.Render
open Verif.Symbols (Text dropPrefix? reMatch lit all isDigit natText intText strip intOf splitAt)

/-! ## Format strings of the XML file -/

/-- `{:([^}]+)}` at the beginning of a text: the group, and what follows. -/
def specAt (t : Text) : Option (Text × Text) :=
  (dropPrefix? t!"{:" t).bind fun r =>
    let g := r.takeWhile (· ≠ '}')
    if g.isEmpty then none
    else match r.dropWhile (· ≠ '}') with
      | [] => none
      | _ :: a => some (g, a)

/-- `re.search(r"{:([^}]+)}", …)`: what is before the match, the group, what follows. -/
def searchSpec : Text → Option (Text × Text × Text)
  | [] => none
  | c :: t =>
    match specAt (c :: t) with
    | some (g, a) => some ([], g, a)
    | none => (searchSpec t).map fun x => (c :: x.1, x.2)

/-- `re.sub(r"{}", r, …, count=1)`. -/
def subPlain (r : Text) : Text → Text
  | [] => []
  | c :: t =>
    match dropPrefix? t!"{}" (c :: t) with
    | some a => r ++ a
    | none => c :: subPlain r t

/-- `arg_type_encoding`: 533-545; the encoding and the type that is printed. -/
def argTypeEncoding (arg : Text) : Option (Text × Text) :=
  match reMatch [lit t!"encode_", ⟨true, [.alt [t!"32", t!"u32", t!"64", t!"u64", t!"enum"]]⟩, lit t!"<", all,
      lit t!">"] arg with
  | some [enc, spec] =>
    if enc = t!"enum" then
      match reMatch [all, lit t!", ", all, lit t!", ", ⟨true, [.rep isDigit 1 false]⟩] spec with
      | some [_, ut, _] => some (t!"encode_" ++ enc, ut)
      | _ => none
    else some (t!"encode_" ++ enc, spec)
  | _ => none

/-- `printf_dict`: 549-567. -/
def printfDict : List (Text × Text) :=
  [(t!"encode_32", t!"%d"), (t!"encode_u32", t!"%u"), (t!"encode_64", t!"%lld"), (t!"encode_u64", t!"%llu"),
    (t!"float", t!"%f"), (t!"double", t!"%f"), (t!"int", t!"%d"), (t!"unsigned int", t!"%u"), (t!"short", t!"%d"),
    (t!"unsigned short", t!"%u"), (t!"signed char", t!"%d"), (t!"unsigned char", t!"%u"), (t!"char", t!"%c"),
    (t!"long", t!"%ld"), (t!"unsigned long", t!"%lu"), (t!"long long", t!"%lld"), (t!"unsigned long long", t!"%llu")]

/-- `arg_printf_spec`: 548-569. -/
def argPrintfSpec (arg : Text) : Option Text :=
  (argTypeEncoding arg).map fun e =>
    (printfDict.lookup e.2).getD ((printfDict.lookup e.1).getD t!"%d")

/-- The loop over the arguments in `serialize_messages`: 584-592. -/
def xmlFormat : Text → List Text → Option Text
  | fmt, [] => some fmt
  | fmt, arg :: args =>
    match searchSpec fmt with
    | some (b, g, a) => xmlFormat (b ++ t!"%" ++ g ++ a) args
    | none => (argPrintfSpec arg).bind fun s => xmlFormat (subPlain s fmt) args

/-- `_escape_cdata`: 729-735, which replaces the function of the library that writes the text of an element. -/
def escapeCdata (t : Text) : Text := t.flatMap fun c => if c = '&' then t!"&amp;" else [c]

/-- The text of an element, as written to the file: 530 and 593. -/
def element (t : Text) : Text := escapeCdata (t!"<![CDATA[" ++ t ++ t!"]]>")

/-! ## Lines of a decoded log -/

/-- What is given to `str.format`. -/
inductive PyObj where
  | int (v : Int)
  | bytes (b : Nat)
  | str (s : Text)
  | float
deriving DecidableEq, Repr

/-- Two hexadecimal digits. -/
def hex2 (b : Nat) : Text := [Nat.digitChar (b / 16), Nat.digitChar (b % 16)]

/-- `repr` of one byte. -/
def bytesRepr (b : Nat) : Text :=
  if b = 39 then t!"b\"'\""
  else if b = 92 then t!"b'\\\\'"
  else if b = 9 then t!"b'\\t'"
  else if b = 10 then t!"b'\\n'"
  else if b = 13 then t!"b'\\r'"
  else if 32 ≤ b ∧ b < 127 then t!"b'" ++ [Char.ofNat b] ++ t!"'"
  else t!"b'\\x" ++ hex2 b ++ t!"'"

/-- A number written with at least `width` characters: spaces before it, or zeros behind its sign. The same in
Python, `fmt` and `printf`. -/
def padded (neg : Bool) (digits : Text) (zero : Bool) (width : Nat) : Text :=
  let sign := if neg then t!"-" else []
  let fill := width - (sign ++ digits).length
  if zero then sign ++ List.replicate fill '0' ++ digits else List.replicate fill ' ' ++ sign ++ digits

/-- The digits of a number for `d`, `x` or `X`. -/
def digitsOf (conv : Char) (n : Nat) : Text :=
  if conv = 'x' then Nat.toDigits 16 n
  else if conv = 'X' then (Nat.toDigits 16 n).map Char.toUpper
  else natText n

/-- `[0][width][type]` of the format specification of Python; the flag, the width and the type. Left out:
alignment, sign, `#`, grouping, precision, other types. -/
def readSpec (s : Text) : Option (Bool × Nat × Char) :=
  let zero := s.head? = some '0'
  let r := if zero then s.tail else s
  let ds := r.takeWhile isDigit
  let w := Nat.ofDigitChars 10 ds 0
  match r.dropWhile isDigit with
  | [] => some (zero, w, 'd')
  | [c] => if c = 'd' ∨ c = 'x' ∨ c = 'X' then some (zero, w, c) else none
  | _ => none

/-- `format(obj, spec)`. -/
def pyField (o : PyObj) (spec : Text) : Option Text :=
  match o with
  | .int v => (readSpec spec).map fun f => padded (v < 0) (digitsOf f.2.2 v.natAbs) f.1 f.2.1
  | .bytes b => if spec.isEmpty then some (bytesRepr b) else none
  | .str s => if spec.isEmpty then some s else none
  | .float => none

/-- One field of `str.format`: the text between the braces. Left out: names and numbers of arguments. -/
def pyArg (f : Text) (o : PyObj) : Option Text :=
  match f with
  | [] => pyField o []
  | ':' :: spec => pyField o spec
  | _ => none

/-- Where `str.format` is: outside of fields, behind `{`, behind `}`, in a field (the characters so far, in
reverse). -/
inductive FmtState where
  | out
  | lbrace
  | rbrace
  | field (acc : Text)

/-- `str.format`. Left out: braces within braces. -/
def pyFormat : FmtState → Text → List PyObj → Option Text
  | .out, [], _ => some []
  | .lbrace, [], _ => none
  | .rbrace, [], _ => none
  | .field _, [], _ => none
  | .out, c :: t, os =>
    if c = '{' then pyFormat .lbrace t os
    else if c = '}' then pyFormat .rbrace t os
    else (pyFormat .out t os).map (c :: ·)
  | .lbrace, c :: t, os =>
    if c = '{' then (pyFormat .out t os).map ('{' :: ·)
    else if c = '}' then (os.head?.bind (pyArg [])).bind fun s => (pyFormat .out t os.tail).map (s ++ ·)
    else pyFormat (.field [c]) t os
  | .rbrace, c :: t, os => if c = '}' then (pyFormat .out t os).map ('}' :: ·) else none
  | .field acc, c :: t, os =>
    if c = '}' then (os.head?.bind (pyArg acc.reverse)).bind fun s => (pyFormat .out t os.tail).map (s ++ ·)
    else if c = '{' then none
    else pyFormat (.field (c :: acc)) t os

/-- The enumerations in the JSON file: names by the enumeration and the text of the value. -/
abbrev Enums := Text → Text → Option Text

/-- `enum_lookup`: 54-58. -/
def enumLookup (db : Enums) (e value : Text) : Text :=
  (db e value).getD (t!"static_cast<" ++ e ++ t!">(" ++ value ++ t!")")

/-- `str(…)` of what `convert` gives. -/
def pyStr : Log.PyVal → Text
  | .int v => intText v
  | .chr b => bytesRepr b
  | .float _ | .double _ => []

/-- What `extract_arg` gives (`Verif.Log`), as an object; `names` are the names of the enumerations. -/
def toPy (db : Enums) (names : Nat → Text) : Log.Decoded → PyObj
  | .val (.int v) => .int v
  | .val (.chr b) => .bytes b
  | .val (.float _) | .val (.double _) => .float
  | .enum e v => .str (enumLookup db (names e) (pyStr v))

/-- `severity`: 140-149. -/
def severity (n : Nat) : Text :=
  [t!"MAX", t!"FATAL", t!"ERROR", t!"WARN", t!"INFO", t!"USER1", t!"USER2", t!"TRACE"].getD n []

/-! ### Enumerators in the text -/

/-- `\w`. -/
def isWord (c : Char) : Bool := c.isAlphanum || c = '_'

/-- `\(([a-zA-Z0-9_]+)\)([0-9]+)\b` at the beginning of a text: the groups, and what follows. -/
def ctAt (t : Text) : Option (Text × Text × Text) :=
  match t with
  | '(' :: r =>
    let e := r.takeWhile isWord
    match r.dropWhile isWord with
    | ')' :: s =>
      let v := s.takeWhile isDigit
      let a := s.dropWhile isDigit
      if e.isEmpty || v.isEmpty || (a.head?.map isWord).getD false then none else some (e, v, a)
    | _ => none
  | _ => none

/-- `re.search`: the groups of the first match. -/
def searchCt : Text → Option (Text × Text)
  | [] => none
  | c :: t =>
    match ctAt (c :: t) with
    | some (e, v, _) => some (e, v)
    | none => searchCt t

/-- `re.sub` of all matches; the number is how many characters are still to be skipped. -/
def subCt (r : Text) : Nat → Text → Text
  | _, [] => []
  | n + 1, _ :: t => subCt r n t
  | 0, c :: t =>
    match ctAt (c :: t) with
    | some (_, _, a) => r ++ subCt r ((c :: t).length - a.length - 1) t
    | none => c :: subCt r 0 t

/-- `convert_ct_enums`: 66-75; `none`: the loop has not ended after this many rounds. -/
def convertCt (db : Enums) : Nat → Text → Option Text
  | 0, _ => none
  | n + 1, t =>
    match searchCt t with
    | none => some t
    | some (e, v) => convertCt db n (subCt (enumLookup db e v) 0 t)

/-- `Catalog.__str__`: 199-202, with the conversion of 193. -/
def catalogLine (db : Enums) (names : Nat → Text) (fuel : Nat) (sev : Nat) (module text : Text)
    (args : List Log.Decoded) : Option Text :=
  (convertCt db fuel text).bind fun t =>
    (pyFormat .out t (args.map (toPy db names))).map fun s => severity sev ++ t!" [" ++ module ++ t!"] " ++ s

/-! ### Argument types in the JSON file -/

/-- What `extract_arg` takes from the text of an argument type. -/
inductive ArgSpec where
  | enum (cpp under : Text) (size : Int)
  | plain (tag spec : Text)
deriving DecidableEq, Repr

/-- `Catalog.extract_arg`: 159-167. -/
def readArgType (arg : Text) : Option ArgSpec :=
  match splitAt '<' arg.dropLast with
  | [tag, spec] =>
    if tag = t!"encode_enum" then
      match splitAt ',' spec with
      | [cpp, under, sz] => (intOf sz).map fun n => .enum cpp (strip under) n
      | _ => none
    else if [t!"encode_u32", t!"encode_32", t!"encode_u64", t!"encode_64"].contains tag then some (.plain tag spec)
    else none
  | _ => none

end Verif.Render
