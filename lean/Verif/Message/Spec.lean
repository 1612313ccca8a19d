import Verif.Message.Model
import Verif.Bits.Spec
/-!
# Specification of messages
-/
namespace Verif.Message
open Verif.Bits

/-- A message definition whose fields have distinct names, are legal and share no bits, in a storage
of `n` elements of `W` bits. -/
structure Layout (W n : Nat) (fs : List MField) : Prop where
  width : W = 8 ∨ W = 16 ∨ W = 32
  names : (fs.map (·.name)).Nodup
  legal : ∀ f ∈ fs, f.fld.Legal
  self : ∀ f ∈ fs, f.fld.NonOverlapping
  apart : ∀ f ∈ fs, ∀ g ∈ fs, f.name ≠ g.name → f.fld.Disjoint g.fld
  inside : ∀ f ∈ fs, f.fld.Within (n * W)

/-- Number of bits of a field. -/
def MField.bits (f : MField) : Nat := (f.fld.ats.map (fun a => a.msb + 1 - a.lsb)).sum

/-- The last value given for a name, if any. -/
def lastNamed (vs : List (Nat × Nat)) (n : Nat) : Option Nat :=
  (vs.reverse.find? (fun nv => nv.1 == n)).map Prod.snd

/-- What a field must read after construction from named values. -/
def expected (vs : List (Nat × Nat)) (f : MField) : Nat :=
  match lastNamed vs f.name, f.dflt.val? with
  | some v, _ => v
  | none, some d => d
  | none, none => 0

/-- `k` is the lowest bit of the field. -/
def MField.StartsAt (f : MField) (k : Nat) : Prop :=
  k ∈ f.fld.positions ∧ ∀ p ∈ f.fld.positions, k ≤ p

end Verif.Message
