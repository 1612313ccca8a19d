import Verif.Flow.Spec
import Verif.Viz.Model

/-!
# Specification for pictures of flows

What a flow declares is said by `Verif.Flow.Spec` about the expressions as written. What a text shows
is said by two readers, for the part of the two languages that is needed here.
-/
namespace Verif.Viz.Spec
open Verif.Flow Verif.Flow.Spec Verif.Viz

/-! ## What the flow declares -/

/-- The action is added somewhere. -/
def Added (fs : List Frag) (x : Nat) : Prop := x ∈ (progAdded fs).map (·.1)

/-- `y` directly follows `x` at some `>>`. -/
def Next (fs : List Frag) (x y : Nat) : Prop := ∃ f ∈ fs, Follows f.expr x y

/-- `y` directly follows `x` at some `>>` that stands under the condition `c`. -/
def NextIf (fs : List Frag) (x y : Nat) (c : List Nat) : Prop :=
  ∃ f ∈ fs, Follows f.expr x y ∧ c = f.whens.flatten

/-- The action is added under the condition `c`. -/
def AddedIf (fs : List Frag) (x : Nat) (c : List Nat) : Prop :=
  ∃ f ∈ fs, x ∈ (added f.expr).map (·.1) ∧ c = f.whens.flatten

/-- The action is added with the function `g`. -/
def AddedAs (fs : List Frag) (x g : Nat) : Prop := (x, g) ∈ progAdded fs

/-- The arrows that a picture of the flow should have: one for every direct ordering, one from the
start to every action that no other has to precede, one to the end from every action that no other has
to follow. -/
def Arrow (first last : Nat) (fs : List Frag) (x y : Nat) : Prop :=
  Next fs x y ∨ (x = first ∧ Added fs y ∧ ∀ z, ¬ Next fs z y) ∨
    (y = last ∧ Added fs x ∧ ∀ z, ¬ Next fs x z)

/-- The same with the conditions of the arrows. -/
def ArrowIf (first last : Nat) (fs : List Frag) (x y : Nat) (c : List Nat) : Prop :=
  NextIf fs x y c ∨ (x = first ∧ AddedIf fs y c ∧ ∀ z, ¬ Next fs z y) ∨
    (y = last ∧ AddedIf fs x c ∧ ∀ z, ¬ Next fs x z)

/-! ## Reading text -/

/-- The lines of a text. -/
def lines : Str → List Str
  | [] => [[]]
  | c :: cs =>
    if c = '\n' then [] :: lines cs
    else match lines cs with
      | [] => [[c]]
      | l :: ls => (c :: l) :: ls

/-- The words of a line, without spaces. -/
def words : Str → List Str
  | [] => []
  | c :: cs =>
    if c = ' ' then words cs
    else match cs with
      | [] => [[c]]
      | d :: _ =>
        if d = ' ' then [c] :: words cs
        else match words cs with
          | [] => [[c]]
          | w :: ws => (c :: w) :: ws

/-- A letter, a digit or an underscore. -/
def identChar (c : Char) : Bool := c.isAlphanum || c == '_'

/-- An identifier: `[A-Za-z0-9_]+`. -/
def Ident (s : Str) : Prop := s ≠ [] ∧ ∀ c ∈ s, identChar c = true

/-- A text of letters, digits, underscores and spaces. -/
def Plain (s : Str) : Prop := ∀ c ∈ s, identChar c = true ∨ c = ' '

instance (s : Str) : Decidable (Ident s) := inferInstanceAs (Decidable (_ ∧ _))

/-- What a graph in the language of graphviz says: its nodes and its arrows. -/
structure Dot where
  name : Str
  nodes : List Str
  arrows : List (Str × Str)
deriving DecidableEq, Repr

/-- The statements of a graph up to the closing brace, one on each line: `a` or `a -> b`, where `a` and
`b` are identifiers. -/
def readDotBody : List Str → Option (List Str × List (Str × Str))
  | [] => none
  | l :: ls =>
    match words l with
    | [] => readDotBody ls
    | [a] =>
      if a = "}".toList then (if ls.all fun l => (words l).isEmpty then some ([], []) else none)
      else if Ident a then (readDotBody ls).map fun p => (a :: p.1, p.2) else none
    | [a, r, b] =>
      if r = "->".toList ∧ Ident a ∧ Ident b then
        (readDotBody ls).map fun p => (p.1, (a, b) :: p.2)
      else none
    | _ => none

/-- A graph: `digraph name {`, statements, `}`. -/
def readDot (t : Str) : Option Dot :=
  match lines t with
  | [] => none
  | h :: ls =>
    match words h with
    | [d, n, b] =>
      if d = "digraph".toList ∧ b = "{".toList ∧ Ident n then
        (readDotBody ls).map fun p => ⟨n, p.1, p.2⟩
      else none
    | _ => none

/-- The shapes of nodes in mermaid: `((label))`, `(label)`, `[label]`. -/
inductive Shape where
  | circle
  | round
  | square
deriving DecidableEq, Repr

/-- What a flow chart in the language of mermaid says: nodes with identifier, shape and label; arrows
with their ends and perhaps a label. -/
structure Chart where
  title : Str
  nodes : List (Str × Shape × Str)
  arrows : List (Str × Option Str × Str)
deriving DecidableEq, Repr

/-- One statement of a flow chart. -/
inductive Item where
  | blank
  | node (id : Str) (shape : Shape) (label : Str)
  | arrow (src : Str) (label : Option Str) (dst : Str)
deriving DecidableEq, Repr

/-- The text without its last characters, if these are the given ones. -/
def dropEnd (suffix s : Str) : Option Str :=
  if suffix.isSuffixOf s then some (s.take (s.length - suffix.length)) else none

/-- What follows the identifier at the beginning of a statement. -/
def readRest (id : Str) : Str → Option Item
  | '(' :: '(' :: s => (dropEnd "))".toList s).map (.node id .circle)
  | '(' :: s => (dropEnd ")".toList s).map (.node id .round)
  | '[' :: s => (dropEnd "]".toList s).map (.node id .square)
  | ' ' :: '-' :: '-' :: '>' :: ' ' :: s => if Ident s then some (.arrow id none s) else none
  | ' ' :: '-' :: '-' :: s =>
    match s.dropWhile (fun c => c ≠ '-') with
    | '-' :: '-' :: '>' :: ' ' :: d =>
      if Ident d then some (.arrow id (some (s.takeWhile fun c => c ≠ '-')) d) else none
    | _ => none
  | _ => none

/-- A statement: after spaces an identifier and the rest. -/
def readItem (l : Str) : Option Item :=
  let s := l.dropWhile fun c => c = ' '
  if s = [] then some .blank
  else if Ident (s.takeWhile identChar) then readRest (s.takeWhile identChar) (s.dropWhile identChar)
  else none

/-- The statements of a flow chart. -/
def readItems : List Str → Option (List (Str × Shape × Str) × List (Str × Option Str × Str))
  | [] => some ([], [])
  | l :: ls => do
    let i ← readItem l
    let p ← readItems ls
    match i with
    | .blank => return p
    | .node a s b => return ((a, s, b) :: p.1, p.2)
    | .arrow a c b => return (p.1, (a, c, b) :: p.2)

/-- A flow chart: a title between dashes, `flowchart TD`, statements. -/
def readMermaid (t : Str) : Option Chart :=
  match lines t with
  | a :: b :: c :: d :: ls =>
    if a = "---".toList ∧ c = "---".toList ∧ d = "flowchart TD".toList ∧
        b.take 7 = "title: ".toList then
      (readItems ls).map fun p => ⟨b.drop 7, p.1, p.2⟩
    else none
  | _ => none

end Verif.Viz.Spec
