import Verif.Viz.Model

/-!
# Pictures of flows from the output of the compiler

Model of the commands with which `generate_flow_graph` (`cmake/debug_flow.cmake` 75-90) takes the picture of a
part of a flow out of the output of the compiler, and of the message that it is in
(`include/flow/debug_builder.hpp` 46-49). Output and files are lists of lines.
-/

namespace Verif.Extract

open Verif.Viz (Str)

/-- The message of `STATIC_ASSERT`: debug_builder.hpp 47-49. -/
def message (picture : Str) : Str :=
  "subgraph debug\n~~~~START\n".toList ++ picture ++ "~~~~END".toList

/-- A compiler shows a line feed as `\012` (gcc) or `\n` (clang), other characters as they are
(environment). -/
def shown (esc : Str) (m : Str) : Str := m.flatMap fun c => if c = '\n' then esc else [c]

/-- A character in front of the first line. -/
def consHead (c : Char) : List Str → List Str
  | [] => [[c]]
  | l :: ls => (c :: l) :: ls

/-- The lines that `awk '{gsub("<pat>","\n")};1'` prints for a line, where `pat` is a text: 75-76. The number says
how many characters belong to the last match. -/
def breakAt (pat : Str) : Nat → Str → List Str
  | _, [] => [[]]
  | k + 1, _ :: t => breakAt pat k t
  | 0, c :: t =>
    if pat.isPrefixOf (c :: t) then [] :: breakAt pat (pat.length - 1) t else consHead c (breakAt pat 0 t)

/-- Both `awk` commands: 75-76, 84. -/
def unescape (ls : List Str) : List Str :=
  (ls.flatMap (breakAt "\\012".toList 0)).flatMap (breakAt "\\n".toList 0)

/-- `sed -n "/^~~~~END/,/^~~~~START/{p;/^~~~~START/q}"`: 85. The flag says that the range has begun. -/
def sedRange : Bool → List Str → List Str
  | _, [] => []
  | false, l :: ls => if "~~~~END".toList.isPrefixOf l then l :: sedRange true ls else sedRange false ls
  | true, l :: ls => if "~~~~START".toList.isPrefixOf l then [l] else l :: sedRange true ls

/-- The lines of the file: 82-88 (`tac | sed … | tac | tail -n +2 | head -n -1`). -/
def extract (output : List Str) : List Str :=
  ((sedRange false (unescape output).reverse).reverse.drop 1).dropLast

/-- A file with these lines. -/
def fileText (ls : List Str) : Str := ls.flatMap (· ++ ['\n'])

end Verif.Extract
