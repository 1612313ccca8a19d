import Verif.Whole.Model

/-!
# Model of the program `log_decode`

`/repo/python/cib/log_decode.py`, `main` (74-80), after its arguments were parsed. A file has bytes; how bytes are
read as JSON is a parameter. A line that is printed is its characters and an end of line.
-/
namespace Verif.Whole
open Verif.Symbols (Text)
open Verif.Json (J)

/-- The arguments: 57-73. -/
structure ToolArgs where
  input : Text
  output : Option Text
  json : Text
deriving DecidableEq, Repr

/-- What there is after the program: what was printed, the files, and whether it ended without an exception. -/
structure ToolEnd where
  stdout : Text
  files : Text → Option (List Nat)
  ok : Bool

/-- What `print` writes for these lines. -/
def printed (lines : List Text) : Text := lines.flatMap fun l => l ++ ['\n']

/-- `main`: 74-80. If a file cannot be opened or is no JSON, nothing is printed. The file with the
logs is opened only when the first line is asked for (14-21); nothing is printed before. -/
def toolMain (load : List Nat → Option J) (a : ToolArgs) (files : Text → Option (List Nat)) :
    ToolEnd :=
  match (files a.json).bind load, files a.input with
  | some db, some bs =>
    let r := decode db bs
    ⟨printed r.1, files, r.2⟩
  | _, _ => ⟨[], files, false⟩

end Verif.Whole
