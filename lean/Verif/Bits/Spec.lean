import Verif.Bits.Model
/-!
# Specification of field access

Storage is one long row of bits: bit `p` is bit `p % W` of element `p / W`. A field is an ordered
list of bit positions, lowest value bit first.
-/
namespace Verif.Bits

/-- Bit `p` of the storage (false outside). -/
def bitAt {W : Nat} (r : List (BitVec W)) (p : Nat) : Bool :=
  match r[p / W]? with
  | some e => e.getLsbD (p % W)
  | none => false

/-- Bit positions of one location, lowest first. -/
def At.positions (a : At) : List Nat := (List.range (a.msb + 1 - a.lsb)).map (a.lsb + ·)

/-- Bit positions of a field, lowest value bit first: the location listed first is the most
significant. -/
def Fld.positions (f : Fld) : List Nat := (f.ats.reverse.map At.positions).flatten

/-- The locations of the field do not overlap each other. -/
def Fld.NonOverlapping (f : Fld) : Prop := f.positions.Nodup

/-- All bits of the field are inside a storage of `n` bits. -/
def Fld.Within (f : Fld) (n : Nat) : Prop := ∀ p ∈ f.positions, p < n

/-- Bit `i` of what the field holds in the storage. -/
def Fld.specBit {W : Nat} (f : Fld) (r : List (BitVec W)) (i : Nat) : Bool :=
  match f.positions[i]? with
  | some p => bitAt r p
  | none => false

/-- Two fields share no bit. -/
def Fld.Disjoint (f g : Fld) : Prop := ∀ p ∈ f.positions, p ∉ g.positions

/-- Little-endian bytes, half-words or words hold the same bits. -/
def SameBits {W W' : Nat} (r : List (BitVec W)) (r' : List (BitVec W')) : Prop :=
  W * r.length = W' * r'.length ∧ ∀ p, bitAt r p = bitAt r' p

end Verif.Bits
