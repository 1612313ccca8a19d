import Verif.Whole.ToolModel
import Verif.Whole.Cases

/-! # Where `log_decode` writes -/
namespace Verif.Whole
open Verif.Symbols (Text)
open Verif.Json (J)

/-- Each line and an end of line. -/
def written : List Text → Text
  | [] => []
  | l :: ls => l ++ '\n' :: written ls

theorem printed_written (ls : List Text) : printed ls = written ls := by
  induction ls with
  | nil => rfl
  | cons l ls ih =>
    rw [printed, List.flatMap_cons, List.append_assoc]
    rw [printed] at ih
    rw [ih]
    rfl

/-- What the arguments ask for: the lines are printed, or written to the file that was named; no other file is
changed. `utf8` is the encoding of texts. -/
def Wanted (utf8 : Text → List Nat) (a : ToolArgs) (lines : List Text) (before : Text → Option (List Nat)) (e : ToolEnd) :
    Prop :=
  match a.output with
  | none => e.stdout = written lines ∧ e.files = before
  | some p => e.stdout = [] ∧ e.files = fun q => if q = p then some (utf8 (written lines)) else before q

/-- **C174** Without `--output`, the lines of the records before the first error are printed and files stay as they
are. -/
theorem C174_stdout_partial (load : List Nat → Option J) (utf8 : Text → List Nat) (a : ToolArgs)
    (files : Text → Option (List Nat)) (ho : a.output = none) {j bs db} (h1 : files a.json = some j)
    (h2 : load j = some db) (h3 : files a.input = some bs) :
    Wanted utf8 a (decode db bs).1 files (toolMain load a files) ∧ ((toolMain load a files).ok ↔ (decode db bs).2) := by
  rw [Wanted, ho, toolMain, h1, Option.bind_some, h2, h3]
  exact ⟨⟨printed_written _, rfl⟩, Iff.rfl⟩

theorem printed_ne {lines : List Text} (h : lines ≠ []) : printed lines ≠ [] := by
  cases lines with
  | nil => exact absurd rfl h
  | cons l ls =>
    rw [printed, List.flatMap_cons, List.append_assoc]
    intro hn
    have := congrArg List.length hn
    simp at this

/-- **C174 violated** With `--output`, the lines are printed nevertheless and the file is not written: as soon as
there is a line, the result is not what was asked for. -/
theorem C174_violated_output (load : List Nat → Option J) (utf8 : Text → List Nat) (a : ToolArgs)
    (files : Text → Option (List Nat)) {p : Text} (ho : a.output = some p) {j bs db} (h1 : files a.json = some j)
    (h2 : load j = some db) (h3 : files a.input = some bs) (hl : (decode db bs).1 ≠ []) :
    ¬ Wanted utf8 a (decode db bs).1 files (toolMain load a files) ∧ (toolMain load a files).files p = files p := by
  rw [Wanted, ho, toolMain, h1, Option.bind_some, h2, h3]
  exact ⟨fun h => printed_ne hl h.1, rfl⟩

/-- A file with a message of id 4, and its record. -/
example : decode (.obj [(.str t!"messages", .arr [.obj [(.str t!"id", .int 4), (.str t!"msg", .str (Json.code t!"up"))]]),
    (.str t!"modules", .arr [])]) [65, 0, 0, 0] = ([t!"up"], true) := by decide +kernel

end Verif.Whole
