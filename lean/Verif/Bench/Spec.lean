import Verif.Bench.Model
/-!
# What the data of a benchmark should be

The numbers of a C++ file, read from the left; a map in which one can go from each key to all others.
-/
namespace Verif.Bench

/-- Bits of the type. -/
def Ty.bits : Ty → Nat
  | .uint16 => 16
  | .uint32 => 32

/-- The value of a hexadecimal digit. -/
def hexValue (c : Char) : Option Nat :=
  if '0' ≤ c ∧ c ≤ '9' then some (c.toNat - '0'.toNat)
  else if 'a' ≤ c ∧ c ≤ 'f' then some (c.toNat - 'a'.toNat + 10)
  else none

/-- Where the reader of numbers is. -/
inductive Reading where
  | outside
  | zero
  | inside (value : Nat)

/-- The hexadecimal numbers with suffix `u` in a text. -/
def numbers : Reading → Text → List Nat
  | _, [] => []
  | .outside, c :: cs => numbers (if c = '0' then .zero else .outside) cs
  | .zero, c :: cs =>
    numbers (if c = 'x' then .inside 0 else if c = '0' then .zero else .outside) cs
  | .inside v, c :: cs =>
    if c = 'u' then v :: numbers .outside cs
    else numbers (((hexValue c).map fun d => Reading.inside (16 * v + d)).getD .outside) cs

/-- The value of decimal digits. -/
def decimal (t : Text) : Nat := t.foldl (fun v c => 10 * v + (c.toNat - '0'.toNat)) 0

/-- The name of the type. -/
def Ty.name : Ty → String
  | .uint16 => "uint16"
  | .uint32 => "uint32"

/-- The text begins with the declaration of an array `exp_<type>_<n>` of `n` pairs. -/
def Declares (t : Ty) (n : Nat) (text : Text) : Prop :=
  ∃ len rest, text = txt "#pragma once\n\n#include <array>\n#include <cstdint>\n" ++
      txt "#include <utility>\n\nconstexpr auto exp_" ++ txt t.name ++ txt "_" ++ len ++
      txt " = std::array<std::pair<std::" ++ txt t.name ++ txt "_t, std::" ++ txt t.name ++
      txt "_t>, " ++ len ++ txt ">{{" ++ rest ∧ decimal len = n ∧ len ≠ []

/-- The numbers of the pairs, one after the other. -/
def flat (es : List (Nat × Nat)) : List Nat := es.flatMap fun e => [e.1, e.2]

/-- What the map gives for a key. -/
def follow (es : List (Nat × Nat)) (k : Nat) : Option Nat :=
  (es.find? fun e => e.1 == k).map (·.2)

/-- After `n` lookups. -/
def steps (es : List (Nat × Nat)) : Nat → Nat → Option Nat
  | 0, k => some k
  | n + 1, k => (follow es k).bind (steps es n)

/-- From each key one comes to every key, once, and then back. -/
def OneCycle (es : List (Nat × Nat)) : Prop :=
  ∀ k ∈ es.map (·.1),
    ((List.range es.length).map (steps es · k)).Perm (es.map fun e => some e.1) ∧
      steps es es.length k = some k

end Verif.Bench
