import Verif.Pending.Model
import Verif.Interrupt.Spec
/-!
# What should become of requests
-/
namespace Verif.Pending
open Verif.Interrupt

/-- The interrupts from `x` down to the element `e`, both included. -/
inductive Chain (e : Irq) : Irq → List Irq → Prop where
  | here {i : Info} {fs : List Nat} : e = .element i fs → Chain e e [e]
  | under {i : Info} {a b : List Irq} {x : Irq} {p : List Irq} : Chain e x p →
      Chain e (.container i (a ++ x :: b)) (.container i (a ++ x :: b) :: p)

/-- The status fields of a list of interrupts. -/
def statusesOf (p : List Irq) : List Nat := p.filterMap (fun y => y.info.status)
/-- The enable fields of a list of interrupts. -/
def enablesOf (p : List Irq) : List Nat := p.filterMap (fun y => y.info.enable)

/-- The setting of the claims: below `root` there is the element `e` with status field `f`, reached
through the interrupts `p`. Each status field of `root` belongs to one interrupt; the enable fields on
the way are no status fields; flows leave the fields on the way alone; a request of `e` also sets the
status fields on the way. -/
structure Setting (up : Nat → List Nat) (w : World) (root e : Irq) (p : List Irq) (f : Nat) : Prop where
  chain : Chain e root p
  status : e.info.status = some f
  unique : root.statuses.Nodup
  apart : ∀ g ∈ enablesOf p, g ∉ root.statuses
  quiet : ∀ fl n σ g, g ∈ statusesOf p ∨ g ∈ enablesOf p → w.effect fl n σ g = σ g
  wired : ∀ g ∈ statusesOf p, g = f ∨ g ∈ up f

/-- The fields are all set. -/
def AllSet (σ : Nat → Bool) (gs : List Nat) : Prop := ∀ g ∈ gs, σ g = true

/-- A request that sets the field `f` is raised. -/
def Act.sets (up : Nat → List Nat) (f : Nat) : Act → Bool
  | .raise g => g == f || (up g).contains f
  | _ => false

/-- How often a field is set by requests. -/
def requests (up : Nat → List Nat) (f : Nat) (t : List Act) : Nat := t.countP (Act.sets up f)

/-- A trace of the simpler model, where the hardware raises nothing. -/
def ofEv : Ev → Act
  | .clear f => .clear f
  | .run i f n => .run i f n

end Verif.Pending
