import Verif.Lookup.Model
/-!
# Model of the data of the lookup benchmarks

`tools/benchmark/gen_map_data.py` writes a table for the benchmarks of `benchmark/lookup`; the
benchmarks look up the result of the last lookup, again and again.

Numbers from `random.expovariate` are a list of draws (multiplied and made integers); the order in
which Python lists the elements of a set is any order. Not modelled: `argparse`, the distribution of
the numbers, measuring.
-/
namespace Verif.Bench

abbrev Text := List Char

/-- A text. -/
def txt (s : String) : Text := s.toList

/-- `--type`: `gen_map_data.py` 33-39. -/
inductive Ty where
  | uint16
  | uint32
  deriving DecidableEq, Repr

def Ty.text : Ty → Text
  | .uint16 => ['u', 'i', 'n', 't', '1', '6']
  | .uint32 => ['u', 'i', 'n', 't', '3', '2']

/-- `gen_fns`: 56-59. The draw is `int(random.expovariate(10) * (1 << 14))`, or with 28. -/
def Ty.gen : Ty → Nat → Nat
  | .uint16, draw => draw &&& 0xFFFF
  | .uint32, draw => draw

/-- The loop 9-11 with the draws it makes; `none`: they are not enough. -/
def collect (size : Nat) (t : Ty) : List Nat → List Nat → Option (List Nat)
  | draws, keys =>
    if size ≤ keys.length then some keys
    else
      match draws with
      | [] => none
      | d :: ds =>
        collect size t ds (if t.gen d ∈ keys then keys else keys ++ [t.gen d])

/-- A digit. -/
def digit (d : Nat) : Char :=
  if d < 10 then Char.ofNat (48 + d) else Char.ofNat (87 + d)

/-- The digits of a number. -/
def digits (b n : Nat) : Text :=
  if h : 1 < b ∧ b ≤ n then digits b (n / b) ++ [digit (n % b)] else [digit n]
  termination_by n
  decreasing_by exact Nat.div_lt_self (by omega) h.1

/-- `{k:08x}`. -/
def hex8 (n : Nat) : Text :=
  List.replicate (8 - (digits 16 n).length) '0' ++ digits 16 n

/-- `{0x…u, 0x…u}`: line 23. -/
def entryText (e : Nat × Nat) : Text :=
  '{' :: '0' :: 'x' :: hex8 e.1 ++ ['u', ',', ' ', '0', 'x'] ++ hex8 e.2 ++ ['u', '}']

/-- `",\n    ".join(…)`: 22-24. -/
def joinEntries : List Text → Text
  | [] => []
  | [x] => x
  | x :: y :: ys => x ++ (',' :: '\n' :: List.replicate 4 ' ') ++ joinEntries (y :: ys)

/-- `keys[1:] + keys[:1]`: line 16. -/
def valuesOf (keys : List Nat) : List Nat := keys.drop 1 ++ keys.take 1

/-- Lines 19-21. -/
def header (t : Ty) (size : Nat) : Text :=
  txt "constexpr auto exp_" ++ t.text ++ ['_'] ++ digits 10 size ++
    txt " = std::array<std::pair<std::" ++ t.text ++ txt "_t, std::" ++ t.text ++ txt "_t>, " ++
    digits 10 size ++ txt ">{{\n    "

/-- `gen_table`: 7-25; `order` is how Python lists a set. -/
def genTable (order : List Nat → List Nat) (t : Ty) (size : Nat) (draws : List Nat) :
    Option Text := do
  let keys ← collect size t draws []
  let keys := order keys
  some (header t size ++ joinEntries ((keys.zip (valuesOf keys)).map entryText) ++ txt "\n}};\n")

/-- The beginning of the file: 66-72. -/
def preamble : Text :=
  txt "#pragma once\n\n#include <array>\n#include <cstdint>\n#include <utility>\n\n"

/-- The file: 62-78. -/
def file (order : List Nat → List Nat) (t : Ty) (size : Nat) (draws : List Nat) : Option Text :=
  (genTable order t size draws).map (preamble ++ ·)

/-- `k = map[k]`, `n` times: `benchmark/lookup/algorithms/pseudo_pext.hpp` 51-54. -/
def chained {W : Nat} (table : Lookup.Table W (BitVec W)) : Nat → BitVec W → Option (BitVec W)
  | 0, k => some k
  | n + 1, k => (table.lookup k).bind (chained table n)

/-- `input_data`: `pseudo_pext.hpp` 13-22. -/
def entries (W : Nat) (es : List (Nat × Nat)) : List (Lookup.Entry W (BitVec W)) :=
  es.map fun e => ⟨BitVec.ofNat W e.1, BitVec.ofNat W e.2⟩

end Verif.Bench
