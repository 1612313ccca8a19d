/-!
# Model of the script that makes tables of the benchmark results

`tools/benchmark/parse_bench_data.py` reads the output of the lookup benchmarks and writes three
tables.

The file is given as its lines; a table as its rows of cells. Numbers are whatever `float` gives
(a parameter), sizes whatever `int` gives. White space is that of ASCII. Not modelled: `argparse`,
opening files, how `csv` quotes cells.
-/
namespace Verif.Results

abbrev Text := List Char

/-- `str.isspace` for ASCII. -/
def isSpace (c : Char) : Bool :=
  c == ' ' || c == '\t' || c == '\n' || c == '\r' || c == Char.ofNat 11 || c == Char.ofNat 12

/-- The text without white space at the beginning. -/
def lstrip (t : Text) : Text := t.dropWhile isSpace

/-- The text without white space at the end. -/
def rstrip : Text → Text
  | [] => []
  | c :: t => if rstrip t = [] ∧ isSpace c = true then [] else c :: rstrip t

/-- `str.strip`. -/
def strip (t : Text) : Text := rstrip (lstrip t)

/-- `str.split` with a separator: the pieces, at least one. -/
def split (sep : Char) : Text → List Text
  | [] => [[]]
  | c :: t =>
    if c = sep then [] :: split sep t
    else
      match split sep t with
      | [] => [[c]]
      | p :: ps => (c :: p) :: ps

/-- `p in t` for texts. -/
def inText (p : Text) : Text → Bool
  | [] => p.isEmpty
  | c :: t => p.isPrefixOf (c :: t) || inText p t

/-- How Python reads numbers; `none`: `ValueError`. -/
structure Py (Num : Type) where
  float : Text → Option Num
  int : Text → Option Nat

/-- What is stored for a data set and an algorithm: 37-48. -/
structure Entry (Num : Type) where
  size : Option Nat
  chained : Option Num := none
  independent : Option Num := none

/-- A dictionary in the order of insertion. A key is `none` for `None`. -/
abbrev Dict (α : Type) := List (Option Text × α)

/-- `d.get(k)`. -/
def Dict.get {α : Type} (d : Dict α) (k : Option Text) : Option α :=
  match d with
  | [] => none
  | (k', v) :: r => if k' = k then some v else Dict.get r k

/-- `d[k] = v`. -/
def Dict.put {α : Type} (d : Dict α) (k : Option Text) (v : α) : Dict α :=
  match d with
  | [] => [(k, v)]
  | (k', v') :: r => if k' = k then (k', v) :: r else (k', v') :: Dict.put r k v

/-- The local variables of `parse_file`: 9-12. -/
structure State (Num : Type) where
  data : Dict (Dict (Entry Num)) := []
  dataset : Option Text := none
  algorithm : Option Text := none
  size : Option Nat := none

/-- `line.split(":")[1].strip()`: 19, 21, 23; the line has a colon. -/
def afterColon (line : Text) : Text := strip ((split ':' line).getD 1 [])

/-- Lines 34-48. -/
def record {Num : Type} (s : State Num) (ns : Num) (name : Text) : State Num :=
  let row := (s.data.get s.dataset).getD []
  let e := (row.get s.algorithm).getD { size := s.size }
  let e :=
    if inText "chained".toList name then { e with chained := some ns }
    else if inText "independent".toList name then { e with independent := some ns }
    else e
  { s with data := s.data.put s.dataset (row.put s.algorithm e) }

/-- One line: 16-48. `none`: `int` raises. -/
def step {Num : Type} (py : Py Num) (s : State Num) (line : Text) : Option (State Num) :=
  let line := strip line
  if "dataset:".toList.isPrefixOf line then some { s with dataset := some (afterColon line) }
  else if "algorithm:".toList.isPrefixOf line then some { s with algorithm := some (afterColon line) }
  else if "size:".toList.isPrefixOf line then
    (py.int (afterColon line)).map fun n => { s with size := some n }
  else if "|".toList.isPrefixOf line then
    let fields := (split '|' line).drop 1
    if 5 ≤ fields.length then
      match py.float (strip (fields.getD 0 [])) with
      | none => some s
      | some ns => some (record s ns (strip (fields.getD 4 [])))
    else some s
  else some s

/-- `parse_file`: 8-50. -/
def parseFile {Num : Type} (py : Py Num) (lines : List Text) : Option (Dict (Dict (Entry Num))) :=
  (lines.foldlM (step py) {}).map State.data

/-- Texts are ordered by code points. -/
def before : Text → Text → Bool
  | _, [] => false
  | [], _ :: _ => true
  | a :: s, b :: t => a.toNat < b.toNat || (a == b && before s t)

/-- A place in a sorted list without repetitions. -/
def insertSorted (t : Text) : List Text → List Text
  | [] => [t]
  | u :: us => if t = u then u :: us else if before t u then t :: u :: us else u :: insertSorted t us

/-- `sorted(set(…))`: 55-57. `none`: `None` and texts cannot be compared. -/
def sortedSet (ks : List (Option Text)) : Option (List (Option Text)) :=
  if ks.all (· == none) then some (ks.take 1)
  else (ks.mapM id).map fun ts => (ts.foldr insertSorted []).map some

/-- A cell of a table. -/
inductive Cell (Num : Type) where
  /-- A name; `None` is written as an empty text. -/
  | name (t : Option Text)
  | time (n : Num)
  /-- A size; `None` is written as an empty text. -/
  | size (n : Option Nat)
  | empty
  deriving DecidableEq

/-- The three tables. -/
structure Tables (Num : Type) where
  chained : List (List (Cell Num))
  independent : List (List (Cell Num))
  size : List (List (Cell Num))
  deriving DecidableEq

/-- One table: 62-68, 73-79, 84-89. -/
def table {Num : Type} (data : Dict (Dict (Entry Num))) (algorithms : List (Option Text))
    (cell : Option (Entry Num) → Cell Num) : List (List (Cell Num)) :=
  (.name (some "Dataset".toList) :: algorithms.map .name) ::
    data.map fun d => .name d.1 :: algorithms.map fun a => cell (d.2.get a)

/-- A time, or the empty text. -/
def timeCell {Num : Type} : Option Num → Cell Num
  | none => .empty
  | some n => .time n

/-- `generate_csv_tables`: 53-89. -/
def makeTables {Num : Type} (data : Dict (Dict (Entry Num))) : Option (Tables Num) :=
  (sortedSet (data.flatMap fun d => d.2.map Prod.fst)).map fun algorithms =>
    { chained := table data algorithms fun e => timeCell (e.bind Entry.chained)
      independent := table data algorithms fun e => timeCell (e.bind Entry.independent)
      size := table data algorithms fun e => e.elim .empty (fun e => .size e.size) }

/-- `main`: 109-112. -/
def tables {Num : Type} (py : Py Num) (lines : List Text) : Option (Tables Num) :=
  (parseFile py lines).bind makeTables

end Verif.Results
