import Verif.Results.Model
/-!
# What the tables of results should be

A result file is the output of runs of benchmarks, one after the other.
-/
namespace Verif.Results

/-- White space. -/
def blank (c : Char) : Bool := [9, 10, 11, 12, 13, 32].contains c.toNat

/-- The text without white space around it. -/
def trim (t : Text) : Text := ((t.dropWhile blank).reverse.dropWhile blank).reverse

/-- The output of one benchmark program: `benchmark/lookup/pseudo_pext.cpp` 14-15, `size:` by the
algorithm, and the lines of the measurements, each a list of cells (without cells: an empty line). -/
structure Run where
  dataset : Text
  algorithm : Text
  size : Text
  rows : List (List Text)

/-- A line of measurements: each cell behind a bar. -/
def rowText (cells : List Text) : Text := cells.flatMap fun c => '|' :: c

/-- The lines of the output. -/
def Run.lines (r : Run) : List Text :=
  [[], [], [], "dataset:   ".toList ++ r.dataset, "algorithm: ".toList ++ r.algorithm,
    "size:      ".toList ++ r.size] ++ r.rows.map rowText

/-- Names without colons and without white space around them, sizes that are numbers, cells without
bars. -/
structure Run.Ok {Num : Type} (py : Py Num) (r : Run) : Prop where
  dataset : ':' ∉ r.dataset ∧ trim r.dataset = r.dataset
  algorithm : ':' ∉ r.algorithm ∧ trim r.algorithm = r.algorithm
  size : ':' ∉ r.size ∧ trim r.size = r.size ∧ (py.int r.size).isSome
  cells : ∀ row ∈ r.rows, ∀ c ∈ row, '|' ∉ c

/-- The time in a line: its first cell, if it is a number and there are five cells. -/
def time {Num : Type} (py : Py Num) (cells : List Text) : Option Num :=
  match cells with
  | c :: _ :: _ :: _ :: _ :: _ => py.float (trim c)
  | _ => none

/-- The name of the measurement in a line: the fifth cell. -/
def nameOf (cells : List Text) : Text := trim (cells.getD 4 [])

/-- A text is part of another. -/
def within (p t : Text) : Bool :=
  (List.range (t.length + 1)).any fun n => p.isPrefixOf (t.drop n)

/-- A line with the time of dependent lookups. -/
def isChained (cells : List Text) : Bool := within "chained".toList (nameOf cells)

/-- A line with the time of independent lookups. -/
def isIndependent (cells : List Text) : Bool :=
  within "independent".toList (nameOf cells) && !isChained cells

/-- The run has a time. -/
def Run.measured {Num : Type} (py : Py Num) (r : Run) : Bool := r.rows.any fun row => (time py row).isSome

/-- The times of an algorithm with a data set in lines of some kind, in the order of the file. -/
def times {Num : Type} (py : Py Num) (kind : List Text → Bool) (runs : List Run) (d a : Text) :
    List Num :=
  (runs.filter fun r => r.dataset = d ∧ r.algorithm = a).flatMap fun r =>
    (r.rows.filter kind).filterMap (time py)

/-- The sizes of an algorithm with a data set in runs with times, in the order of the file. -/
def sizes {Num : Type} (py : Py Num) (runs : List Run) (d a : Text) : List Nat :=
  (runs.filter fun r => r.dataset = d ∧ r.algorithm = a ∧ r.measured py).filterMap
    fun r => py.int r.size

/-- Each text once, where it comes first. -/
def firsts : List Text → List Text
  | [] => []
  | t :: ts => t :: (firsts ts).filter (· ≠ t)

/-- The data sets of runs with times, in the order in which they come first. -/
def rowNames {Num : Type} (py : Py Num) (runs : List Run) : List Text :=
  firsts ((runs.filter fun r => r.measured py).map Run.dataset)

/-- The algorithms of runs with times, sorted. -/
def Columns {Num : Type} (py : Py Num) (runs : List Run) (as : List Text) : Prop :=
  as.Pairwise (fun s t => s < t) ∧
    ∀ a, a ∈ as ↔ ∃ r ∈ runs, r.measured py ∧ r.algorithm = a

/-- The table with these rows, columns and cells. -/
def Is {Num : Type} (t : List (List (Cell Num))) (ds as : List Text)
    (cell : Text → Text → Cell Num) : Prop :=
  t = (Cell.name (some "Dataset".toList) :: as.map fun a => .name (some a)) ::
    ds.map fun d => .name (some d) :: as.map fun a => cell d a

/-- The last time, or nothing. -/
def lastTime {Num : Type} (ts : List Num) : Cell Num := ts.getLast?.elim .empty .time

/-- The first size, or nothing. -/
def firstSize {Num : Type} (ns : List Nat) : Cell Num := ns.head?.elim .empty fun n => .size (some n)

/-- The table has a cell with this content in the row of a data set and the column of an algorithm. -/
def Shows {Num : Type} (t : List (List (Cell Num))) (d a : Text) (c : Cell Num) : Prop :=
  ∃ top rows row, t = top :: rows ∧ row ∈ rows ∧ row.head? = some (.name (some d)) ∧
    ∃ j, 0 < j ∧ top[j]? = some (.name (some a)) ∧ row[j]? = some c

end Verif.Results
