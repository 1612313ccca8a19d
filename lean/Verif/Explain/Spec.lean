import Verif.Explain.Model
import Verif.Front.Spec
import Verif.Match.Lemmas

/-! # What descriptions and the logs of services should tell

Readers of the texts, as a person or a script would read them. They do not use the functions that write
them. -/
namespace Verif.Explain.Spec
open Verif.Match

/-! ## Conditions -/

/-- A condition that was read. -/
inductive Expr where
  | const (b : Bool)
  | term (s : Str)
  | not (x : Expr)
  | and (x y : Expr)
  | or (x y : Expr)
deriving DecidableEq, Repr

/-- Its value, given those of the terms. -/
def Expr.eval (τ : Str → Bool) : Expr → Bool
  | .const b => b
  | .term s => τ s
  | .not x => !x.eval τ
  | .and x y => x.eval τ && y.eval τ
  | .or x y => x.eval τ || y.eval τ

/-- The terms from left to right. -/
def Expr.terms : Expr → List Str
  | .const _ => []
  | .term s => [s]
  | .not x => x.terms
  | .and x y => x.terms ++ y.terms
  | .or x y => x.terms ++ y.terms

/-- The text before the parenthesis that closes, and the text after it. The number counts the parentheses
that were opened on the way. -/
def closing : Nat → Str → Option (Str × Str)
  | _, [] => none
  | 0, ')' :: s => some ([], s)
  | n + 1, ')' :: s => (closing n s).map fun p => (')' :: p.1, p.2)
  | n, '(' :: s => (closing (n + 1) s).map fun p => ('(' :: p.1, p.2)
  | n, a :: s => (closing n s).map fun p => (a :: p.1, p.2)

/-- Reading a condition: `(a) and (b) and (c)`, `(a) or (b)`, `not (a)`, `true`, `false`, or a term.
A mixture of `and` and `or` without parentheses is refused. The first argument bounds the depth, the
second one is the operator of the row that the text is in (`some true` for `and`). -/
def readExpr : Nat → Option Bool → Str → Option Expr
  | 0, _, _ => none
  | n + 1, ctx, '(' :: t => (closing 0 t).bind fun p =>
      if p.2 = [] then readExpr n none p.1
      else if " and (".toList.isPrefixOf p.2 ∧ ctx ≠ some false then
        (readExpr n none p.1).bind fun x => (readExpr n (some true) (p.2.drop 5)).map (.and x)
      else if " or (".toList.isPrefixOf p.2 ∧ ctx ≠ some true then
        (readExpr n none p.1).bind fun x => (readExpr n (some false) (p.2.drop 4)).map (.or x)
      else none
  | n + 1, none, s =>
      if s = "true".toList then some (.const true)
      else if s = "false".toList then some (.const false)
      else if "not (".toList.isPrefixOf s ∧ (closing 0 (s.drop 5)).map (·.2) = some [] then
        (closing 0 (s.drop 5)).bind fun p => (readExpr n none p.1).map .not
      else some (.term s)
  | _ + 1, some _, _ => none

/-- Reading a condition. -/
def readText (s : Str) : Option Expr := readExpr (s.length + 1) none s

/-- The number of open parentheses after the text; `none` when one is closed that was not opened. -/
def depth : Nat → Str → Option Nat
  | n, [] => some n
  | n, '(' :: s => depth (n + 1) s
  | 0, ')' :: _ => none
  | n + 1, ')' :: s => depth n s
  | n, _ :: s => depth n s

/-- Every parenthesis has its partner. -/
def Balanced (s : Str) : Prop := depth 0 s = some 0

instance (s : Str) : Decidable (Balanced s) := by unfold Balanced; infer_instance

/-- A text that is not mistaken for a combination of others. -/
def PlainTerm (s : Str) : Prop :=
  Balanced s ∧ s.head? ≠ some '(' ∧ s ≠ "true".toList ∧ s ≠ "false".toList ∧
    ¬("not (".toList.isPrefixOf s ∧ (closing 0 (s.drop 5)).map (·.2) = some [])

instance (s : Str) : Decidable (PlainTerm s) := by unfold PlainTerm; infer_instance

/-! ## Terms -/

/-- A hexadecimal digit. -/
def digit (a : Char) : Option Nat :=
  if '0' ≤ a ∧ a ≤ '9' then some (a.toNat - '0'.toNat)
  else if 'a' ≤ a ∧ a ≤ 'f' then some (a.toNat - 'a'.toNat + 10)
  else none

/-- The number of some digits. -/
def digits (s : Str) : Option Nat :=
  if s = [] then none else s.foldlM (fun n a => (digit a).map (16 * n + ·)) 0

/-- A number in hexadecimal, with `0x`, possibly negative. -/
def number : Str → Option Int
  | '0' :: 'x' :: '-' :: s => (digits s).map fun n : Nat => -(n : Int)
  | '0' :: 'x' :: s => (digits s).map fun n : Nat => (n : Int)
  | _ => none

/-- The text before the last space, and the word after it. -/
def lastWord (s : Str) : Option (Str × Str) :=
  let w := s.reverse.takeWhile (· ≠ ' ')
  match s.reverse.drop w.length with
  | _ :: t => some (t.reverse, w.reverse)
  | [] => none

/-- An operator. -/
def operator : Str → Option RelOp
  | ['<'] => some .lt
  | ['<', '='] => some .le
  | ['>'] => some .gt
  | ['>', '='] => some .ge
  | ['=', '='] => some .eq
  | ['!', '='] => some .ne
  | _ => none

/-- What an operator says. -/
def compares : RelOp → Int → Int → Bool
  | .lt, a, b => decide (a < b)
  | .le, a, b => decide (a ≤ b)
  | .gt, a, b => decide (b < a)
  | .ge, a, b => decide (b ≤ a)
  | .eq, a, b => decide (a = b)
  | .ne, a, b => !decide (a = b)

/-- A comparison of a field with a number. -/
structure Comparison where
  name : Str
  op : RelOp
  bound : Int
deriving DecidableEq, Repr

/-- Reading `name op 0x…`. -/
def readComparison (s : Str) : Option Comparison := do
  let (s, b) ← lastWord s
  let (s, o) ← lastWord s
  return ⟨s, ← operator o, ← number b⟩

/-- A comparison that also shows the value of the field. -/
structure Shown extends Comparison where
  actual : Int
deriving DecidableEq, Repr

/-- Reading `name (0x…) op 0x…`. -/
def readShown (s : Str) : Option Shown := do
  let c ← readComparison s
  let (n, v) ← lastWord c.name
  let a ← (match v with
    | '(' :: v => if v.getLast? = some ')' then number v.dropLast else none
    | _ => none)
  return ⟨⟨n, c.op, c.bound⟩, a⟩

/-- The value of a term, given the values of fields by name, and answers for other terms. -/
def truth (val : Str → Int) (ans : Str → Bool) (s : Str) : Bool :=
  match readComparison s with
  | some c => compares c.op (val c.name) c.bound
  | none => ans s

/-- The value of a term that shows the value of its field. -/
def truthShown (ans : Str → Bool) (s : Str) : Bool :=
  match readShown s with
  | some c => compares c.op c.actual c.bound
  | none => ans s

/-- Names that can be read: parentheses in the names of fields have their partners and none stands at the
beginning; predicates have names that are not like comparisons or combinations. -/
structure ReadableNames (nm : Names) : Prop where
  field : ∀ n, Balanced (nm.field n) ∧ (nm.field n).head? ≠ some '('
  cond : ∀ k, PlainTerm (nm.cond k) ∧ readComparison (nm.cond k) = none

open Verif.Receive in
/-- Someone who knows the message: `val` gives the values of fields by name, `ans` the answers of
predicates by their texts (`field` makes the text for a predicate on a field). Only terms of the matcher
that can be evaluated are asked for. -/
structure Known (N : Numbering) (env : Receive.Env) (nm : Names) {W : Nat} (d : Data W) (m : M RLeaf)
    (val : Str → Int) (ans : Str → Bool) : Prop where
  field : ∀ op g v, .rel op g v ∈ leaves m → ∀ f, N.fieldOf g.name = some f →
    ∀ x, extractField N W d f = some x → val (nm.field f.name) = x
  pred : ∀ i, .pred i ∈ leaves m → ∀ f p, N.predOf i = some (.field f p) →
    ∀ x, extractField N W d f = some x →
      ans ("<predicate>(".toList ++ nm.field f.name ++ ")".toList) = env.fieldPred p x
  cond : ∀ i, .pred i ∈ leaves m → ∀ k, N.predOf i = some (.cond k) → ans (nm.cond k) = env.cond k

open Verif.Receive in
/-- What the text of a term should show on the data. -/
def shown (N : Numbering) (nm : Names) {W : Nat} (d : Data W) : RLeaf → Option Shown
  | .rel op g v => do
    let f ← N.fieldOf g.name
    let x ← extractField N W d f
    return ⟨⟨nm.field f.name, op, v⟩, x⟩
  | .pred _ => none

open Verif.Receive in
/-- Someone who knows how the predicates answer. `<predicate>(name(0x…))` shows the value of its field. -/
structure Answered (N : Numbering) (env : Receive.Env) (nm : Names) {W : Nat} (d : Data W) (m : M RLeaf)
    (ans : Str → Bool) : Prop where
  pred : ∀ i, .pred i ∈ leaves m → ∀ f p, N.predOf i = some (.field f p) →
    ∀ x s, extractField N W d f = some x → number ("0x".toList ++ s) = some x →
      ans ("<predicate>(".toList ++ nm.field f.name ++ "(0x".toList ++ s ++ "))".toList) = env.fieldPred p x
  cond : ∀ i, .pred i ∈ leaves m → ∀ k, N.predOf i = some (.cond k) → ans (nm.cond k) = env.cond k

/-! ## Lines of services -/

/-- The rest of a text after a beginning. -/
def after (p s : Str) : Option Str := if p.isPrefixOf s then some (s.drop p.length) else none

/-- A line about a callback that is called: its name, the reason, and the condition before the index was
taken into account. -/
structure Told where
  name : Str
  because : Str
  before : Option Str
deriving DecidableEq, Repr

/-- Reading such a line. -/
def readTold (s : Str) : Option Told := do
  let s ← after "Incoming message matched [".toList s
  let name := s.takeWhile (· ≠ ']')
  let s ← after "], because [".toList (s.drop name.length)
  let because := s.takeWhile (· ≠ ']')
  let s ← after "]".toList (s.drop because.length)
  if s = ", executing callback".toList then return ⟨name, because, none⟩
  let s ← after " (collapsed by index from [".toList s
  let before := s.takeWhile (· ≠ ']')
  if s.drop before.length = "]), executing callback".toList then return ⟨name, because, some before⟩
  none

/-- A line about a callback that was not called: its name and what it found. -/
structure Refused where
  name : Str
  found : Str
deriving DecidableEq, Repr

/-- The text before the first place where another text stands, and the text after that. -/
def cutAt (p : Str) : Str → Option (Str × Str)
  | [] => none
  | a :: s => if p.isPrefixOf (a :: s) then some ([], (a :: s).drop p.length)
    else (cutAt p s).map fun q => (a :: q.1, q.2)

/-- Reading such a line. -/
def readRefused (s : Str) : Option Refused := do
  let s ← after "    ".toList s
  let (name, s) ← cutAt " - F:(".toList s
  if s.getLast? = some ')' then return ⟨name, s.dropLast⟩
  none

/-- Reading the error: the number of callbacks. -/
def readError (s : Str) : Option Nat := do
  let s ← after "None of the registered callbacks (".toList s
  let n := s.takeWhile (· ≠ ')')
  let t := s.drop n.length
  if t = ") claimed this message:".toList ∨ t = ") claimed this message.".toList then
    return Nat.ofDigitChars 10 n 0
  none

/-- The texts of log lines. -/
def texts (es : List Event) : List Str :=
  es.filterMap fun e => match e with | .log _ t => some t | .call _ => none

/-- The callables that were called. -/
def calls (es : List Event) : List Nat :=
  es.filterMap fun e => match e with | .log _ _ => none | .call i => some i

/-- The log lines with their environments. -/
def lines (es : List Event) : List (Front.Env × Str) :=
  es.filterMap fun e => match e with | .log e t => some (e, t) | .call _ => none

/-- Reading what happened as a row of calls, each directly after the line about it. -/
def readCalls : List Event → Option (List (Front.Env × Told × Nat))
  | [] => some []
  | .log e t :: .call i :: es => do
    let x ← readTold t
    let xs ← readCalls es
    return (e, x, i) :: xs
  | _ => none

/-- Names that do not disturb the lines: no closing bracket; no parenthesis in the names of callbacks. -/
structure LineNames (nm : Names) : Prop where
  field : ∀ n, ']' ∉ nm.field n
  cond : ∀ k, ']' ∉ nm.cond k
  callback : ∀ i, ']' ∉ nm.callback i ∧ '(' ∉ nm.callback i

/-- The level of a line about a callback: `INFO`, unless the environment of the message has another one. -/
def lineLevel (nm : Names) (i : Nat) : Nat := (Front.Spec.ask Front.Spec.level? (nm.env i)).getD 4

/-! ## Descriptions of messages -/

/-- Reading a number in hexadecimal at the beginning, and the text after it. -/
def numberAt (s : Str) : Option (Int × Str) :=
  let w := s.takeWhile fun a => a ≠ ',' && a ≠ ')'
  (number w).map fun v => (v, s.drop w.length)

/-- Reading the values of these fields, one after the other. -/
def readFields : List Str → Str → Option (List Int × Str)
  | [], s => some ([], s)
  | [n], s => do
    let s ← after (n ++ ": ".toList) s
    let (v, s) ← numberAt s
    return ([v], s)
  | n :: ns, s => do
    let s ← after (n ++ ": ".toList) s
    let (v, s) ← numberAt s
    let s ← after ", ".toList s
    let (vs, s) ← readFields ns s
    return (v :: vs, s)

/-- Reading the description of a message with these fields. -/
def readMsg (name : Str) (fields : List Str) (s : Str) : Option (List Int) := do
  let s ← after (name ++ "(".toList) s
  let (vs, s) ← readFields fields s
  if s = ")".toList then return vs
  none

end Verif.Explain.Spec
