import Verif.Extract.Model
import Verif.Viz.Spec

/-! # What the file of a picture should be -/

namespace Verif.Extract

open Verif.Viz (Str)

/-- How gcc and clang show a line feed. -/
def Escape (esc : Str) : Prop := esc = "\\012".toList ∨ esc = "\\n".toList

/-- The line of the compiler that has the message, with any text before and after it. -/
def errorLine (esc front tail picture : Str) : Str := front ++ shown esc (message picture) ++ tail

/-- The text has no mark of the end. -/
def NoMark (l : Str) : Prop := ¬ "~~~~END".toList <:+: l

/-- A line is at the end. -/
def EndsLine (picture : Str) : Prop := ∃ p, picture = p ++ ['\n']

end Verif.Extract
