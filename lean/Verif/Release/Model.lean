/-!
# The single-header release

`tools/gen_release_header.py` makes one header of the main header and the library headers it includes.

A header is a list of lines, told apart as far as the script or the preprocessor does. Paths are numbers
in the order of their texts. `subst` is the replacement of the version (48).

Simplifications: files end with a newline (otherwise the script joins the last line with the line after
it); a header is always included by the same path; the script and the preprocessor agree on which lines
are `#include <...>` (23: not those with quotes, with a space after `#`, or in comments); no exceptions
of Python other than for files that are missing.
-/
namespace Verif.Release

abbrev Path := Nat

inductive Line where
  /-- `#include <p>` -/
  | inc (p : Path)
  /-- `#pragma once` -/
  | once
  /-- `#if` with a condition -/
  | cond (k : Nat)
  | els
  | endif
  | text (s : String)
  /-- A line without meaning, for instance an empty one. -/
  | blank
deriving DecidableEq, Repr

/-- The files below the root directory. -/
abbrev Files := List (Path × List Line)

/-- The global variables of the script: 9-16. `sys` is a set. -/
structure St where
  visited : List Path := []
  content : List Line := []
  sys : List Path := []
  mark : Option Nat := none
deriving DecidableEq, Repr

/-- `re.sub` on a line: 48. -/
def substLine (subst : String → String) : Line → Line
  | .text s => .text (subst s)
  | l => l

/-- `if not insert_system_headers_line: …`: 27-28. In Python `not 0` is true. -/
def setMark (st : St) : St :=
  match st.mark with
  | none | some 0 => { st with mark := some st.content.length }
  | some _ => st

/-- `system_headers.add(line)`: 38. -/
def addSys (q : Path) (st : St) : St :=
  if st.sys.contains q then st else { st with sys := q :: st.sys }

/-- One line of a file: 22-49. `rec` is `process`. -/
def step (subst : String → String) (fs : Files) (rec : Path → St → Option St) (st : St) (l : Line) :
    Option St :=
  match l with
  | .inc q =>
    let st := setMark st
    if (fs.lookup q).isSome then rec q st else some (addSys q st)
  | .once => some st
  | l => some { st with content := st.content ++ [substLine subst l] }

/-- `process`: 19-49. The first argument bounds the depth of the recursion; `none`: the bound is reached,
or `open` fails. -/
def process (subst : String → String) (fs : Files) : Nat → Path → St → Option St
  | 0, p, st => if st.visited.contains p then some st else none
  | d + 1, p, st =>
    if st.visited.contains p then some st
    else match fs.lookup p with
      | none => none
      | some ls => ls.foldlM (step subst fs (process subst fs d)) { st with visited := p :: st.visited }

/-- A path put in its place. -/
def insertSorted (q : Path) : List Path → List Path
  | [] => [q]
  | p :: l => if q ≤ p then q :: p :: l else p :: insertSorted q l

/-- `sorted(system_headers)`: 57. -/
def sorted : List Path → List Path
  | [] => []
  | q :: l => insertSorted q (sorted l)

/-- Python's `l[:i]`, `l[i:]`, where `i` may be `None`. -/
def sliceTo (l : List Line) : Option Nat → List Line
  | none => l
  | some i => l.take i
@[inherit_doc sliceTo]
def sliceFrom (l : List Line) : Option Nat → List Line
  | none => l
  | some i => l.drop i

/-- What is printed: 56-58. Each `print` adds a newline. -/
def printed (st : St) : List Line :=
  sliceTo st.content st.mark ++ [.blank] ++ (sorted st.sys).map .inc ++ [.blank] ++
    sliceFrom st.content st.mark ++ [.blank]

/-- The whole script: 9-58. -/
def release (subst : String → String) (fs : Files) (depth : Nat) (main : Path) : Option (List Line) :=
  (process subst fs depth main {}).map printed

end Verif.Release
