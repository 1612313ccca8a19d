import Verif.Release.Model
/-!
# What a compiler sees of a header

The C++ preprocessor with `#pragma once`. The value of each condition is given (`cond`). Headers that are
not below the root are system headers; the compiler sees that they are included.
-/
namespace Verif.Release

/-- What the compiler sees. -/
inductive Item where
  | text (s : String)
  | sys (p : Path)
deriving DecidableEq, Repr

/-- The headers that are not to be included again, and the conditions that are open. -/
structure PSt where
  once : List Path := []
  open_ : List Bool := []
deriving DecidableEq, Repr

/-- No open condition is false. -/
def PSt.live (s : PSt) : Bool := s.open_.all id

/-- A line of the file `cur`; `inc` is what to do with an included file. -/
def seeLine (fs : Files) (cond : Nat → Bool) (cur : Path)
    (inc : Path → List Line → PSt → Option (List Item × PSt)) (l : Line) (s : PSt) :
    Option (List Item × PSt) :=
  match l with
  | .cond k => some ([], { s with open_ := cond k :: s.open_ })
  | .els =>
    match s.open_ with
    | [] => none
    | b :: bs => some ([], { s with open_ := (!b) :: bs })
  | .endif =>
    match s.open_ with
    | [] => none
    | _ :: bs => some ([], { s with open_ := bs })
  | .blank => some ([], s)
  | .once => some ([], if s.live then { s with once := cur :: s.once } else s)
  | .text t => some (if s.live then [.text t] else [], s)
  | .inc q =>
    if s.live then
      match fs.lookup q with
      | none => some ([.sys q], s)
      | some ls => if s.once.contains q then some ([], s) else inc q ls s
    else some ([], s)

/-- The lines of a file one after the other. -/
def seeLines (fs : Files) (cond : Nat → Bool) (cur : Path)
    (inc : Path → List Line → PSt → Option (List Item × PSt)) : List Line → PSt →
    Option (List Item × PSt)
  | [], s => some ([], s)
  | l :: ls, s =>
    (seeLine fs cond cur inc l s).bind fun r =>
      (seeLines fs cond cur inc ls r.2).map fun q => (r.1 ++ q.1, q.2)

/-- The compiler sees a file; the first number bounds the depth of includes. -/
def see (fs : Files) (cond : Nat → Bool) : Nat → Path → List Line → PSt → Option (List Item × PSt)
  | 0, _, _, _ => none
  | d + 1, cur, ls, s => seeLines fs cond cur (see fs cond d) ls s

/-- What the compiler sees of the library when the main header is included. -/
def library (fs : Files) (cond : Nat → Bool) (depth : Nat) (main : Path) : Option (List Item) :=
  (fs.lookup main).bind fun ls => (see fs cond depth main ls {}).map (·.1)

/-- What the compiler sees of a header that stands alone. -/
def alone (cond : Nat → Bool) (ls : List Line) : Option (List Item) :=
  (see [] cond 1 0 ls {}).map (·.1)

/-- The lines of text seen. -/
def texts (out : List Item) : List String :=
  out.filterMap fun | .text s => some s | .sys _ => none

/-- The system headers seen. -/
def systems (out : List Item) : List Path :=
  out.filterMap fun | .sys p => some p | .text _ => none

/-- The system headers seen before the line of text number `n`. -/
def systemsBefore : Nat → List Item → List Path
  | _, [] => []
  | n, .sys p :: out => p :: systemsBefore n out
  | 0, .text _ :: _ => []
  | n + 1, .text _ :: out => systemsBefore n out

/-- Is a line an include, is it one of a library header? -/
def Line.isInc : Line → Bool
  | .inc _ => true
  | _ => false
@[inherit_doc Line.isInc]
def Line.isLib (fs : Files) : Line → Bool
  | .inc q => (fs.lookup q).isSome
  | _ => false

/-- The number of open conditions after a line; `none` if there is none to close. -/
def nesting (n : Nat) : Line → Option Nat
  | .cond _ => some (n + 1)
  | .els => if n = 0 then none else some n
  | .endif => if n = 0 then none else some (n - 1)
  | _ => some n

/-- Conditions are closed, and library headers are not included under conditions. -/
def Closed (fs : Files) : Nat → List Line → Prop
  | n, [] => n = 0
  | n, l :: ls => (l.isLib fs = true → n = 0) ∧ ∃ m, nesting n l = some m ∧ Closed fs m ls

/-- The file begins with `#pragma once`, perhaps after some text. -/
def Guarded (ls : List Line) : Prop :=
  ∃ a b, ls = a ++ .once :: b ∧ ∀ l ∈ a, ∃ s, l = .text s ∨ l = .blank

/-- The library headers are guarded and their includes are not under conditions. -/
def Tidy (fs : Files) : Prop := ∀ p ls, fs.lookup p = some ls → Guarded ls ∧ Closed fs 0 ls

/-- Conditions opened and not closed. -/
def openAfter : Nat → List Line → Option Nat
  | n, [] => some n
  | n, l :: ls => (nesting n l).bind fun m => openAfter m ls

/-- The first include of the main header is not under a condition, and there is a line before it. -/
def FirstInclude (ls : List Line) : Prop :=
  ∃ a p b, ls = a ++ .inc p :: b ∧ (∀ l ∈ a, l.isInc = false) ∧ openAfter 0 a = some 0 ∧
    ∃ l ∈ a, l ≠ .once

end Verif.Release
