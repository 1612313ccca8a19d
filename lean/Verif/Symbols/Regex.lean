/-!
# Regular expressions

The part of Python's `re` that `/repo/python/cib/gen_str_catalog.py` uses: literals, repeated classes of
characters (greedy or lazy), choices between literals, an optional character, groups, the end of the
text. A regular expression gives the list of its matches in the order in which backtracking tries them;
`re.match` takes the first. The text has no line breaks (it is a line of a file), so `.` is any character.
-/
namespace Verif.Symbols

abbrev Text := List Char

open Lean in
/-- A text written as the list of its characters. -/
macro:max "t!" s:str : term => do
  let cs := (s.getString.toList.map fun c => Syntax.mkCharLit c).toArray
  `([$cs,*])

inductive Atom where
  | lit (s : Text)
  /-- `p*` or more (`n` times at least); lazy with `?` -/
  | rep (p : Char → Bool) (n : Nat) (lazy : Bool)
  /-- `(?:s|t|…)` -/
  | alt (ss : List Text)
  /-- `c?` -/
  | opt (c : Char)
  /-- `$` -/
  | eos

/-- The rest of the text behind a prefix. -/
def dropPrefix? : Text → Text → Option Text
  | [], t => some t
  | _ :: _, [] => none
  | a :: s, b :: t => if a = b then dropPrefix? s t else none

/-- The ways to match at the beginning of a text: what is matched, and the rest. -/
def Atom.ways : Atom → Text → List (Text × Text)
  | .lit s, t => ((dropPrefix? s t).map fun r => (s, r)).toList
  | .rep p n lazy, t =>
    let m := (t.takeWhile p).length
    let ls := (List.range (m + 1)).filter (n ≤ ·)
    (if lazy then ls else ls.reverse).map fun k => (t.take k, t.drop k)
  | .alt ss, t => ss.flatMap fun s => ((dropPrefix? s t).map fun r => (s, r)).toList
  | .opt c, t => ((dropPrefix? [c] t).map fun r => ([c], r)).toList ++ [([], t)]
  | .eos, t => if t.isEmpty then [([], [])] else []

/-- One after the other. -/
def atomsWays : List Atom → Text → List (Text × Text)
  | [], t => [([], t)]
  | a :: as, t => (a.ways t).flatMap fun x => (atomsWays as x.2).map fun y => (x.1 ++ y.1, y.2)

/-- A part of a regular expression; `cap`: it is a group. -/
structure Part where
  cap : Bool
  atoms : List Atom

/-- The groups of each match, and the rest of the text. -/
def partsWays : List Part → Text → List (List Text × Text)
  | [], t => [([], t)]
  | p :: ps, t => (atomsWays p.atoms t).flatMap fun x =>
    (partsWays ps x.2).map fun y => (if p.cap then x.1 :: y.1 else y.1, y.2)

/-- `re.match`: the groups. -/
def reMatch (ps : List Part) (t : Text) : Option (List Text) := (partsWays ps t).head?.map (·.1)

/-- A literal. -/
abbrev lit (s : Text) : Part := ⟨false, [.lit s]⟩
/-- `.` -/
def any (_ : Char) : Bool := true
/-- `(.*)` -/
abbrev all : Part := ⟨true, [.rep any 0 false]⟩
/-- `\d` -/
def isDigit (c : Char) : Bool := c.isDigit
/-- `[a-zA-Z]` -/
def isLetter (c : Char) : Bool := c.isAlpha
/-- `\s`, as far as it occurs within a line -/
def isSpace (c : Char) : Bool := c = ' ' || c = '\t'
/-- `\s*` -/
abbrev spaces : Part := ⟨false, [.rep isSpace 0 false]⟩
/-- `(-?\d+)` -/
abbrev number : Part := ⟨true, [.opt '-', .rep isDigit 1 false]⟩
/-- `([a-zA-Z]*)` -/
abbrev letters : Part := ⟨true, [.rep isLetter 0 false]⟩

end Verif.Symbols
