/-!
# Model of lookup tables (`/repo/include/lookup`)

Keys are raw unsigned integers of `W` bits (`as_raw_integral`, `pseudo_pext_lookup.hpp` 24-39, is a
reinterpretation of the bits; `W` is 8, 16, 32 or 64 in C++). Reading an array out of bounds gives
`none`. `int` has 32 bits.

Simplifications: `std::sort` on entries is not stable, so the model takes any sorting function
(`IsSort` in `Spec.lean` says what is known about it); `std::sort` on integers is insertion sort, its
result does not depend on the algorithm; `stdx::bit_mask<T>(n - 1)` (not in this repository) is the
mask of the `n` lowest bits, also for `n = 0`; `stdx::for_each` on a bitset visits set bits from the
lowest; `detail::select` (two versions, one in inline assembly) is `key == k ? v : result`; keys of
the linear search are compared as raw integers.
-/
namespace Verif.Lookup

/-- `entry`: `lookup/entry.hpp` 4-9. -/
structure Entry (W : Nat) (V : Type) where
  key : BitVec W
  value : V

/-- Number of set bits: `std::popcount`. -/
def popcount {W : Nat} (m : BitVec W) : Nat := (List.range W).countP m.getLsbD

/-- Number of zeros from bit `n - 1` down to the highest set bit below `n`. -/
def leadingZeros {W : Nat} (m : BitVec W) : Nat → Nat
  | 0 => 0
  | n + 1 => if m.getLsbD n then 0 else leadingZeros m n + 1

/-- `std::countl_zero`. -/
def clz {W : Nat} (m : BitVec W) : Nat := leadingZeros m W

/-- The loop 70-84 of `compute_pack_coefficient`, `n` rounds from `src`: the pairs `(dst, src)` at the
beginning of each stretch of set bits. -/
def stretches {W : Nat} (m : BitVec W) : Nat → Nat → Nat → Bool → List (Nat × Nat)
  | 0, _, _, _ => []
  | n + 1, src, dst, prev =>
    let curr := m.getLsbD src
    (if curr && !prev then [(dst, src)] else []) ++
      stretches m n (src + 1) (if curr then dst + 1 else dst) curr

/-- `gap_bits`: 99-100. -/
def gapBits {W : Nat} (m : BitVec W) : Nat := W - popcount m - clz m

/-- The pairs `(dst, src)` for which `compute_pack_coefficient` sets bit `dst - src`, called with
`gap_bits` (101) as first `dst`. -/
def multiplierBits {W : Nat} (m : BitVec W) : List (Nat × Nat) := stretches m W 0 (gapBits m) false

/-- `coefficient`: 101, `compute_pack_coefficient`: 64-87. Bit `dst - src` is set for each
stretch. -/
def coefficient {W : Nat} (m : BitVec W) : BitVec W :=
  (multiplierBits m).foldl (fun c p => c ||| BitVec.twoPow W (p.1 - p.2)) 0

/-- Width of the type of `(value & mask) * coefficient` after integral promotion. -/
def promoted (W : Nat) : Nat := max 32 W

/-- `pseudo_pext_t::operator()`: 107-110. -/
def pext {W : Nat} (m v : BitVec W) : BitVec W :=
  let packed : BitVec (promoted W) := (v &&& m).setWidth _ * (coefficient m).setWidth _
  (packed >>> gapBits m).setWidth W &&& (BitVec.ofNat W (2 ^ popcount m - 1))

/-- The multiplication 108 leaves `int`: only when both factors were promoted to `int`. -/
def pextOverflows {W : Nat} (m v : BitVec W) : Bool :=
  W < 32 && 2 ^ 31 ≤ (v &&& m).toNat * (coefficient m).toNat

/-- The slot of a key. -/
def hash {W : Nat} (m k : BitVec W) : Nat := (pext m k).toNat

/-- Insertion into a sorted list. -/
def ins (x : Nat) : List Nat → List Nat
  | [] => [x]
  | y :: ys => if x ≤ y then x :: y :: ys else y :: ins x ys

/-- `std::sort` on integers. -/
def sortNat : List Nat → List Nat
  | [] => []
  | x :: xs => ins x (sortNat xs)

/-- Number of equal neighbours: the `adjacent_find` loop 117-121. -/
def adjacent : List Nat → Nat
  | x :: y :: r => (if x = y then 1 else 0) + adjacent (y :: r)
  | _ => 0

/-- `count_duplicates`: 114-123. -/
def countDuplicates (keys : List Nat) : Nat := adjacent (sortNat keys)

/-- The loop 136-150. -/
def runGo (longest current prev : Nat) : List Nat → Nat
  | [] => longest
  | c :: r =>
    let current := if c = prev then current + 1 else current
    let longest := max longest current
    let current := if c ≠ prev then 0 else current
    runGo longest current c r

/-- `count_longest_run`: 126-154. -/
def countLongestRun (keys : List Nat) : Nat :=
  match sortNat keys with
  | [] => 0
  | k :: ks => runGo 0 0 k ks

/-- `keys_are_unique`: 156-159. -/
def keysAreUnique (keys : List Nat) : Bool := countDuplicates keys == 0

/-- `with_mask`: 161-170. -/
def withMask {W : Nat} (m : BitVec W) (keys : List (BitVec W)) : List Nat := keys.map (hash m)

/-- A mask with one bit reset: 200 and 232. -/
def reset {W : Nat} (m : BitVec W) (i : Nat) : BitVec W := m &&& ~~~(BitVec.twoPow W i)

/-- The loop 194-211 of `remove_cheapest_bit` over set bits; `none` stands for the largest
`size_t`. -/
def cheapestGo {W : Nat} (m : BitVec W) (keys : List (BitVec W)) :
    List Nat → Nat → Option Nat → Nat
  | [], bit, _ => bit
  | i :: is, bit, best =>
    let n := countDuplicates (withMask (reset m i) keys)
    if best.all (n < ·) then cheapestGo m keys is i (some n) else cheapestGo m keys is bit best

/-- `remove_cheapest_bit`: 185-215. -/
def removeCheapestBit {W : Nat} (m : BitVec W) (keys : List (BitVec W)) : BitVec W :=
  reset m (cheapestGo m keys ((List.range W).filter m.getLsbD) 0 none)

/-- The first loop of `calc_pseudo_pext_mask`, 230-237, with `n` bits left to try. -/
def phase1 {W : Nat} (keys : List (BitVec W)) : Nat → BitVec W → BitVec W
  | 0, m => m
  | n + 1, m =>
    let t := reset m n
    phase1 keys n (if keysAreUnique (withMask t keys) then t else m)

/-- The second loop, 244-256; `none` when it did not end within the given number of rounds. -/
def phase2 {W : Nat} (keys : List (BitVec W)) (maxSearchLen : Nat) :
    Nat → BitVec W → Nat → Option (BitVec W × Nat)
  | 0, _, _ => none
  | fuel + 1, m, prevLongest =>
    if 1 < maxSearchLen ∧ 4 < popcount m then
      let t := removeCheapestBit m keys
      let longest := countLongestRun (withMask t keys)
      if longest ≤ maxSearchLen then phase2 keys maxSearchLen fuel t longest
      else some (m, prevLongest)
    else some (m, prevLongest)

/-- `calc_pseudo_pext_mask`: 217-257. The second loop gets `W + 1` rounds. -/
def calcMask {W : Nat} (keys : List (BitVec W)) (maxSearchLen : Nat) : Option (BitVec W × Nat) :=
  phase2 keys maxSearchLen (W + 1) (phase1 keys W (BitVec.allOnes W)) 0

/-- `uint_for_`: 44-60, as a number of bits. -/
def uintFor (n : Nat) : Nat :=
  if n < 2 ^ 8 then 8 else if n < 2 ^ 16 then 16 else if n < 2 ^ 32 then 32 else 64

/-- The loop 394-412: how many of the remaining entries come before the place found. -/
def endOfLongest {W : Nat} {V : Type} (h : BitVec W → Nat) (searchLen : Nat) :
    Nat → Nat → List (Entry W V) → Nat
  | _, _, [] => 0
  | prev, len, e :: es =>
    if h e.key = prev then endOfLongest h searchLen (h e.key) (len + 1) es + 1
    else if searchLen ≤ len then 0
    else endOfLongest h searchLen (h e.key) 1 es + 1

/-- `storage`: 377-419, from the sorted entries. -/
def rotateLongest {W : Nat} {V : Type} (h : BitVec W → Nat) (searchLen : Nat)
    (s : List (Entry W V)) : List (Entry W V) :=
  match s with
  | [] => []
  | e :: es =>
    let n := endOfLongest h searchLen (h e.key) 1 es + 1
    s.drop n ++ s.take n

/-- The loop 432-439: `idx` counts down and wraps, in a type of `w` bits. `none`: an access out of
bounds, or no end within the given number of rounds. -/
def fillTable {W : Nat} {V : Type} (h : BitVec W → Nat) (w : Nat) (storage : List (Entry W V)) :
    Nat → Nat → List Nat → Option (List Nat)
  | 0, _, _ => none
  | fuel + 1, idx, t =>
    if idx < storage.length then do
      let e ← storage[idx]?
      if h e.key < t.length then
        fillTable h w storage fuel ((idx + (2 ^ w - 1)) % 2 ^ w) (t.set (h e.key) idx)
      else none
    else some t

/-- The loop 458-461 of the direct table. -/
def fillDirect {W : Nat} {V : Type} (h : BitVec W → Nat) :
    List (Entry W V) → List (Entry W V) → Option (List (Entry W V))
  | [], s => some s
  | e :: es, s => if h e.key < s.length then fillDirect h es (s.set (h e.key) e) else none

/-- A lookup object. -/
inductive Table (W : Nat) (V : Type) where
  /-- `linear_search_lookup::impl`: `linear_search_lookup.hpp` 12-24. -/
  | linear (default : V) (entries : List (Entry W V))
  /-- `empty_impl`: `pseudo_pext_lookup.hpp` 267-278. -/
  | empty (default : V)
  /-- `direct_impl`: 280-302. -/
  | direct (mask : BitVec W) (default : V) (storage : List (Entry W V))
  /-- `indirect_impl`: 316-347; `width` is the width of the elements of the lookup table. -/
  | indirect (mask : BitVec W) (default : V) (searchLen width : Nat) (table : List Nat)
      (storage : List (Entry W V))

/-- The loop 335-345. -/
def probe {W : Nat} {V : Type} (default : V) (w : Nat) (storage : List (Entry W V))
    (key : BitVec W) : Nat → Nat → Option V
  | 0, _ => some default
  | n + 1, i => do
    let e ← storage[i]?
    if key = e.key then some e.value
    else probe default w storage key n ((i + 1) % 2 ^ w)

/-- `operator[]`: `linear_search_lookup.hpp` 16-23, `pseudo_pext_lookup.hpp` 275-277, 291-301,
330-346. -/
def Table.lookup {W : Nat} {V : Type} (key : BitVec W) : Table W V → Option V
  | .linear d es => some (es.foldl (fun r e => if key = e.key then e.value else r) d)
  | .empty d => some d
  | .direct m d s => do
    let e ← s[hash m key]?
    if key = e.key then some e.value else some d
  | .indirect m d len w t s => do
    let i ← t[hash m key]?
    probe d w s key len i

/-- What `make` of a strategy gives: a table, `strategy_failed_t`, or the program does not
compile. -/
inductive Made (W : Nat) (V : Type) where
  | ok (t : Table W V)
  | failed
  | rejected

/-- `linear_search_lookup<MaxSize>::make`: 27-33. -/
def makeLinear {W : Nat} {V : Type} (maxSize : Nat) (default : V) (entries : List (Entry W V)) :
    Made W V :=
  if entries.length ≤ maxSize then .ok (.linear default entries) else .failed

/-- The tables 373-468 for the mask and search length found. `1 << popcount(mask)` (369) must be a
positive `int`. -/
def buildTable {W : Nat} {V : Type} (indirect : Bool)
    (srt : (BitVec W → Nat) → List (Entry W V) → List (Entry W V)) (default : V)
    (entries : List (Entry W V)) (m : BitVec W) (searchLen : Nat) : Made W V :=
  let h := hash m
  if 31 ≤ popcount m then .rejected
  else if entries.isEmpty then .ok (.empty default)
  else if indirect then
    let storage := rotateLongest h searchLen (srt h entries)
    let w := uintFor storage.length
    match fillTable h w storage (storage.length + 1) ((storage.length - 1) % 2 ^ w)
        (List.replicate (2 ^ popcount m) 0) with
    | some t => .ok (.indirect m default searchLen w t storage)
    | none => .rejected
  else
    match fillDirect h entries (List.replicate (2 ^ popcount m) ⟨0, default⟩) with
    | some s => .ok (.direct m default s)
    | none => .rejected

/-- `pseudo_pext_lookup<Indirect, MaxSearchLen>::make`: 350-469, with the assertions 265 and
357-358. -/
def makePext {W : Nat} {V : Type} (indirect : Bool) (maxSearchLen : Nat)
    (srt : (BitVec W → Nat) → List (Entry W V) → List (Entry W V)) (default : V)
    (entries : List (Entry W V)) : Made W V :=
  if !indirect && maxSearchLen != 1 then .rejected
  else if !keysAreUnique (entries.map (·.key.toNat)) then .rejected
  else
    match calcMask (entries.map (·.key)) maxSearchLen with
    | none => .rejected
    | some (m, longest) => buildTable indirect srt default entries m (longest + 1)

/-- The first result that did not fail. -/
def firstOk {W : Nat} {V : Type} : List (Made W V) → Made W V
  | [] => .failed
  | .failed :: rs => firstOk rs
  | r :: _ => r

/-- `strategies<Ts...>::make`: `strategies.hpp` 68-79. Every strategy is instantiated (71-72), so one
that does not compile makes the program not compile. -/
def strategies {W : Nat} {V : Type} (rs : List (Made W V)) : Made W V :=
  if rs.any (fun | .rejected => true | _ => false) then .rejected else firstOk rs

/-- `lookup::make`: `lookup.hpp` 9-12. -/
def make {W : Nat} {V : Type} (srt : (BitVec W → Nat) → List (Entry W V) → List (Entry W V))
    (default : V) (entries : List (Entry W V)) : Made W V :=
  strategies [makeLinear 4 default entries, makePext true 2 srt default entries]

end Verif.Lookup
