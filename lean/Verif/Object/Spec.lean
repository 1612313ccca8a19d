import Verif.Object.Model
import Verif.Bits.Spec

/-!
# Specification of message objects

Memory is rows of bits. A variable is a window on a row. A field is the number at its bits, counted from the
beginning of the window; giving it a value changes these bits and no others. There are no elements, no shifts
and no masks here.
-/
namespace Verif.Object
open Verif.Bits Verif.Message

/-- A number from its bits, lowest first. -/
def number : List Bool → Nat
  | [] => 0
  | b :: bs => b.toNat + 2 * number bs

/-- The number of a field in a row of bits, of a message that begins at bit `lo`. -/
def valueAt (row : Nat → Bool) (lo : Nat) (f : MField) : Nat :=
  number (f.fld.positions.map fun p => row (lo + p))

/-- The row with the number `v` in a field: bit `i` of `v` at the `i`-th bit of the field. -/
def writeAt (row : Nat → Bool) (lo : Nat) (f : MField) (v : Nat) : Nat → Bool := fun q =>
  if lo ≤ q ∧ q - lo ∈ f.fld.positions then v.testBit (f.fld.positions.idxOf (q - lo)) else row q

/-- The field of a name. -/
def named (fs : List MField) (n : Nat) : Option MField := fs.find? fun f => decide (f.name = n)

/-- Values given to named fields, one after the other. -/
def writesAt (row : Nat → Bool) (lo : Nat) (fs : List MField) : List (Nat × Nat) → Nat → Bool
  | [] => row
  | nv :: vs =>
    match named fs nv.1 with
    | some f => writesAt (writeAt row lo f nv.2) lo fs vs
    | none => writesAt row lo fs vs

/-- The values of those among some names which have a default value. -/
def defaultsOf (fs : List MField) (ns : List Nat) : List (Nat × Nat) :=
  ns.filterMap fun n =>
    match named fs n with
    | some f =>
      match f.dflt with
      | .value d => some (n, d)
      | .const d => some (n, d)
      | _ => none
    | none => none

/-- A variable: a window on a row of bits. `unit` is the number of bits of an element, for the statements that
count elements. -/
structure Window where
  kind : Kind
  fs : List MField
  unit : Nat
  size : Nat
  const : Bool
  row : Nat
  lo : Nat

/-- Memory and variables. -/
structure World where
  rows : Nat
  bit : Nat → Nat → Bool
  vars : List Window

/-- Change one row. -/
def World.update (w : World) (a : Nat) (row : Nat → Bool) : World :=
  { w with bit := fun b => if b = a then row else w.bit b }

/-- A new variable with a row of its own. -/
def World.fresh (w : World) (k : Kind) (fs : List MField) (unit size : Nat) (row : Nat → Bool) :
    World :=
  { rows := w.rows + 1
    bit := fun b => if b = w.rows then row else w.bit b
    vars := w.vars ++ [⟨k, fs, unit, size, false, w.rows, 0⟩] }

/-- A new variable on a row that exists. -/
def World.see (w : World) (v : Window) : World := { w with vars := w.vars ++ [v] }

/-- Values for fields of a variable. -/
def World.writes (w : World) (x : Window) (vs : List (Nat × Nat)) : World :=
  w.update x.row (writesAt (w.bit x.row) x.lo x.fs vs)

/-- The values of a call of `set`. -/
def valuesOf (fs : List MField) : SetOp → List (Nat × Nat)
  | .values vs => vs
  | .names ns => defaultsOf fs ns

/-- The number of bits of the storage of `msg::owning<M>`: all 32-bit words up to the last in which a field has
a bit. -/
def owningSize (fs : List MField) : Nat :=
  ((fs.flatMap (·.fld.positions)).map fun p => (p / 32 + 1) * 32).foldl max 0

/-- The bits of a window; none beyond a size. -/
def World.bitsOf (w : World) (x : Window) (size : Nat) : Nat → Bool := fun q =>
  decide (q < x.size) && decide (q < size) && w.bit x.row (x.lo + q)

/-- What a statement does, if it is one that compiles and stays in its storage. -/
def World.step (w : World) : Stmt → World
  | .array V els => w.fresh .array [] V (els.length * V) fun q => ((els[q / V]?).getD 0).testBit (q % V)
  | .poke i k v =>
    match w.vars[i]? with
    | some x => w.update x.row fun q =>
        if x.lo + k * x.unit ≤ q ∧ q < x.lo + k * x.unit + x.unit then v.testBit (q - (x.lo + k * x.unit))
        else w.bit x.row q
    | none => w
  | .owning fs vs =>
    w.fresh .owner fs 32 (owningSize fs)
      (writesAt (writesAt (fun _ => false) 0 fs (defaultsOf fs (fs.map (·.name)))) 0 fs vs)
  | .owningFrom fs i vs =>
    match w.vars[i]? with
    | some x => w.fresh .owner fs 32 (owningSize fs) (writesAt (w.bitsOf x (owningSize fs)) 0 fs vs)
    | none => w
  | .ownerFrom fs i vs =>
    match w.vars[i]? with
    | some x => w.fresh .owner fs x.unit x.size (writesAt (w.bitsOf x x.size) 0 fs vs)
    | none => w
  | .asOwning i =>
    match w.vars[i]? with
    | some x => w.fresh .owner x.fs x.unit x.size (w.bitsOf x x.size)
    | none => w
  | .view fs i vs =>
    match w.vars[i]? with
    | some x => (w.see { x with kind := .view, fs := fs }).writes { x with kind := .view, fs := fs } vs
    | none => w
  | .constView fs i =>
    match w.vars[i]? with
    | some x => w.see { x with kind := .view, fs := fs, const := true }
    | none => w
  | .spanView fs i off len vs =>
    match w.vars[i]? with
    | some x =>
      let v : Window := ⟨.view, fs, x.unit, len * x.unit, x.const, x.row, x.lo + off * x.unit⟩
      (w.see v).writes v vs
    | none => w
  | .asMutable i =>
    match w.vars[i]? with
    | some x => w.see { x with kind := .view }
    | none => w
  | .asConst i =>
    match w.vars[i]? with
    | some x => w.see { x with kind := .view, const := true }
    | none => w
  | .narrow i len =>
    match w.vars[i]? with
    | some x => w.see { x with kind := .view, const := true, size := len * x.unit }
    | none => w
  | .copy i =>
    match w.vars[i]? with
    | some x => if x.kind = .view then w.see x else w.fresh x.kind x.fs x.unit x.size (w.bitsOf x x.size)
    | none => w
  | .assign i j =>
    match w.vars[i]?, w.vars[j]? with
    | some x, some y =>
      if x.kind = .view then { w with vars := w.vars.set i y } else w.update x.row (w.bitsOf y y.size)
    | _, _ => w
  | .set i op =>
    match w.vars[i]? with
    | some x => w.writes x (valuesOf x.fs op)
    | none => w
  | .index i n v =>
    match w.vars[i]? with
    | some x => w.writes x [(n, v)]
    | none => w

/-- A program. -/
def World.run (p : List Stmt) : World := p.foldl World.step ⟨0, fun _ _ => false, []⟩

/-- A field lies inside the window. -/
def Window.Holds (x : Window) (f : MField) : Prop := ∀ p ∈ f.fld.positions, p < x.size

/-- A definition whose fields have different names, have legal locations and do not overlap themselves. (Two
fields may overlap each other.) -/
def GoodDef (fs : List MField) : Prop :=
  (fs.map (·.name)).Nodup ∧ ∀ f ∈ fs, f.fld.Legal ∧ f.fld.NonOverlapping

/-- Statements with such definitions, and arrays of elements of 8, 16 or 32 bits. -/
def Stmt.Good : Stmt → Prop
  | .array W _ => W = 8 ∨ W = 16 ∨ W = 32
  | .owning fs _ => GoodDef fs
  | .owningFrom fs _ _ => GoodDef fs
  | .ownerFrom fs _ _ => GoodDef fs
  | .view fs _ _ => GoodDef fs
  | .constView fs _ => GoodDef fs
  | .spanView fs _ _ _ _ => GoodDef fs
  | _ => True

/-- The variables a statement names. -/
def Stmt.names : Stmt → List Nat
  | .array _ _ => []
  | .poke x _ _ => [x]
  | .owning _ _ => []
  | .owningFrom _ x _ => [x]
  | .ownerFrom _ x _ => [x]
  | .asOwning x => [x]
  | .view _ x _ => [x]
  | .constView _ x => [x]
  | .spanView _ x _ _ _ => [x]
  | .asMutable x => [x]
  | .asConst x => [x]
  | .narrow x _ => [x]
  | .copy x => [x]
  | .assign x y => [x, y]
  | .set x _ => [x]
  | .index x _ _ => [x]

/-- A statement does not assign to a variable. -/
def Stmt.keeps (i : Nat) : Stmt → Prop
  | .assign x _ => x ≠ i
  | _ => True

/-- A declaration of a view of all of a message. -/
def Stmt.views (i : Nat) : Stmt → Prop
  | .view _ x _ => x = i
  | .constView _ x => x = i
  | .asMutable x => x = i
  | .asConst x => x = i
  | _ => False

/-- A declaration of an owning message with what an array or another message holds, and then some values. -/
def Stmt.copies (i : Nat) (vs : List (Nat × Nat)) : Stmt → Prop
  | .copy x => x = i ∧ vs = []
  | .asOwning x => x = i ∧ vs = []
  | .ownerFrom _ x us => x = i ∧ vs = us
  | .owningFrom _ x us => x = i ∧ vs = us
  | _ => False

/-- The value given last for a name; where there is none, something else. -/
def lastOr (vs : List (Nat × Nat)) (n : Nat) (bits : Nat) (other : Nat) : Nat :=
  match vs.reverse.find? (fun nv => nv.1 == n) with
  | some nv => nv.2 % 2 ^ bits
  | none => other

/-- Fields of these names can be given values. -/
def Settable (fs : List MField) (vs : List (Nat × Nat)) : Prop :=
  ∀ nv ∈ vs, ∃ f, named fs nv.1 = some f ∧ (f.dflt = .without ∨ ∃ d, f.dflt = .value d)

/-- All fields of a definition lie within so many bits. -/
def FitsIn (fs : List MField) (size : Nat) : Prop := ∀ f ∈ fs, ∀ p ∈ f.fld.positions, p < size

/-- A statement that has a meaning: its variables are what it takes them for, fields are inside the storages,
values are for fields that can be set, and nothing is set through a constant view. (`slack` bits more than there
are count as inside.) -/
def World.Legal (slack : Nat) (w : World) : Stmt → Prop
  | .array _ _ => True
  | .poke i k _ => ∃ x, w.vars[i]? = some x ∧ x.kind = .array ∧ (k + 1) * x.unit ≤ x.size
  | .owning fs vs => Settable fs vs ∧ ∀ f ∈ fs, f.dflt ≠ .without ∨ ∃ nv ∈ vs, nv.1 = f.name
  | .owningFrom fs i vs =>
    ∃ x, w.vars[i]? = some x ∧ (x.kind = .array ∨ x.kind = .view ∧ x.fs = fs) ∧ x.unit = 32 ∧ Settable fs vs
  | .ownerFrom fs i vs =>
    ∃ x, w.vars[i]? = some x ∧ (x.kind = .array ∨ x.kind = .view ∧ x.fs = fs) ∧ FitsIn fs (x.size + slack) ∧ Settable fs vs
  | .asOwning i => ∃ x, w.vars[i]? = some x ∧ x.kind = .view
  | .view fs i vs =>
    ∃ x, w.vars[i]? = some x ∧ (x.kind = .array ∨ x.kind = .owner ∧ x.fs = fs) ∧ FitsIn fs (x.size + slack) ∧ Settable fs vs
  | .constView fs i =>
    ∃ x, w.vars[i]? = some x ∧ (x.kind = .array ∨ x.kind = .owner ∧ x.fs = fs) ∧ FitsIn fs (x.size + slack)
  | .spanView fs i off len vs =>
    ∃ x, w.vars[i]? = some x ∧ (off + len) * x.unit ≤ x.size ∧ FitsIn fs (len * x.unit + slack) ∧ Settable fs vs ∧
      (vs = [] ∨ x.const = false)
  | .asMutable i => ∃ x, w.vars[i]? = some x ∧ x.kind = .owner
  | .asConst i => ∃ x, w.vars[i]? = some x ∧ x.kind ≠ .array
  | .narrow i len =>
    ∃ x, w.vars[i]? = some x ∧ x.kind = .view ∧ len * x.unit ≤ x.size ∧ FitsIn x.fs (len * x.unit + slack)
  | .copy i => ∃ x, w.vars[i]? = some x
  | .assign i j =>
    ∃ x y, w.vars[i]? = some x ∧ w.vars[j]? = some y ∧ x.kind = y.kind ∧ x.fs = y.fs ∧ x.unit = y.unit ∧
      x.size = y.size ∧ x.const = y.const
  | .set i (.values vs) =>
    ∃ x, w.vars[i]? = some x ∧ x.kind ≠ .array ∧ (vs = [] ∨ x.const = false) ∧ Settable x.fs vs
  | .set i (.names ns) =>
    ∃ x, w.vars[i]? = some x ∧ x.kind ≠ .array ∧ (ns = [] ∨ x.const = false) ∧ ∀ n ∈ ns, ∃ f, named x.fs n = some f
  | .index i n v => ∃ x, w.vars[i]? = some x ∧ x.kind ≠ .array ∧ x.const = false ∧ Settable x.fs [(n, v)]

/-- All statements of a program have a meaning. -/
def LegalFrom (slack : Nat) (w : World) : List Stmt → Prop
  | [] => True
  | t :: p => w.Legal slack t ∧ LegalFrom slack (w.step t) p

end Verif.Object
