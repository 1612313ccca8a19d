import Verif.Xml.Model
import Verif.Render.Spec
/-!
# What a decoder looks up in the XML file
-/
namespace Verif.Xml
open Verif.Symbols (Text)
open Verif.Render (xmlRead)

def El.tag : El → Text | .mk t _ _ _ => t
def El.attrs : El → List (Text × Text) | .mk _ a _ _ => a
def El.text : El → Text | .mk _ _ t _ => t
def El.kids : El → List El | .mk _ _ _ k => k

/-- An attribute. -/
def El.attr (e : El) (name : Text) : Option Text := (e.attrs.find? fun a => a.1 = name).map (·.2)

/-- The first child with a tag. -/
def El.child (e : El) (tag : Text) : Option El := e.kids.find? fun k => k.tag = tag

/-- The value of a digit. -/
def digitValue (c : Char) : Option Nat :=
  if '0' ≤ c ∧ c ≤ '9' then some (c.toNat - 48)
  else if 'A' ≤ c ∧ c ≤ 'F' then some (c.toNat - 55)
  else if 'a' ≤ c ∧ c ≤ 'f' then some (c.toNat - 87)
  else none

/-- The value of digits of a base, which follow a number. -/
def value (base : Nat) : Nat → Text → Option Nat
  | n, [] => some n
  | n, c :: t => (digitValue c).bind fun d => if d < base then value base (n * base + d) t else none

/-- A number: decimal, or hexadecimal with `0x`. -/
def number : Text → Option Nat
  | '0' :: 'x' :: t => value 16 0 t
  | t => value 10 0 t

/-- An entry is for an id if they agree in the bits of the mask. -/
def isFor (e : El) (id : Nat) : Bool :=
  match (e.attr t!"ID").bind number, (e.attr t!"Mask").bind number with
  | some i, some m => i &&& m == id &&& m
  | _, _ => false

/-- The entry for an id under `syst:Short32` or `syst:Catalog32`. -/
def entryOf (root : El) (kind : Text) (id : Nat) : Option El :=
  (root.child t!"syst:Client").bind fun c => (c.child kind).bind fun k =>
    k.kids.find? fun e => e.tag = t!"syst:Format" && isFor e id

/-- Its format string. -/
def formatOf (root : El) (kind : Text) (id : Nat) : Option Text :=
  (entryOf root kind id).bind fun e => xmlRead 0 false e.text

/-- The text of a module. -/
def moduleOf (root : El) (id : Nat) : Option Text :=
  (root.child t!"syst:Client").bind fun c => (c.child t!"syst:Modules").bind fun k =>
    (k.kids.find? fun e => e.tag = t!"syst:Module" && (e.attr t!"ID").bind number == some id).bind fun e =>
      xmlRead 0 false e.text

/-- The enumeration with a number: its name, and its enumerators with their values as they are written. -/
def enumOf (root : El) (n : Nat) : Option (Text × List (Option Text × Option Text)) :=
  (root.child t!"syst:Client").bind fun c => (c.child t!"syst:EnumDefinition").bind fun k =>
    (k.kids.find? fun e => e.tag = t!"syst:Enum" && (e.attr t!"ID").bind number == some n).bind fun e =>
      (e.attr t!"Name").map fun name => (name, e.kids.map fun v => (v.attr t!"Name", v.attr t!"Value"))

/-- Which argument is of which enumeration, from an attribute `argument:enumeration`. -/
def lookupOf (e : El) : Option (Nat × Nat) :=
  (e.attr t!"EnumLookup").bind fun t =>
    (number (t.takeWhile (· ≠ ':'))).bind fun a => (number (t.dropWhile (· ≠ ':')).tail).map fun n => (a, n)

/-- Where a message is listed: without arguments, among the short ones. -/
def kindOf (m : Msg) : Text := if m.args = [] then t!"syst:Short32" else t!"syst:Catalog32"

end Verif.Xml
