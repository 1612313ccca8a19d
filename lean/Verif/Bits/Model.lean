/-!
# Model of field locations (`/repo/include/msg/field.hpp`)

Storage is a list of elements of `W` bits, a raw field value has `EW` bits
(`W`, `EW` are 8, 16, 32 or 64 in C++). Every C++ shift whose amount reaches the width of the
(promoted) shifted type and every access outside the storage gives `none`: undefined behaviour.

Simplifications: location arithmetic is on natural numbers (in C++ 32-bit unsigned); the value of a
field is its raw integer (`stdx::bit_cast` at 242 and 249 is a reinterpretation of the same bits);
`stdx::bit_mask<T, msb, lsb>` (not in this repository) is the mask with bits msb..lsb set.
-/
namespace Verif.Bits

/-- `stdx::bit_mask<T, msb, lsb>()` for a `w`-bit `T`. -/
def bitMask (w msb lsb : Nat) : BitVec w :=
  (BitVec.allOnes w >>> (w - 1 - msb)) &&& (BitVec.allOnes w <<< lsb)

/-- `x << n` on a type of `w` bits; undefined when `n` reaches the width. -/
def shl {w : Nat} (x : BitVec w) (n : Nat) : Option (BitVec w) :=
  if n < w then some (x <<< n) else none

/-- `x >> n` on a type of `w` bits; undefined when `n` reaches the width. -/
def shr {w : Nat} (x : BitVec w) (n : Nat) : Option (BitVec w) :=
  if n < w then some (x >>> n) else none

/-- Width after integral promotion (`int` has 32 bits). -/
def promoted (w : Nat) : Nat := max 32 w

/-- `bits_locator_t<Index, BitSize, Lsb>`: `msg/field.hpp` 78-80. -/
structure Loc where
  index : Nat
  size : Nat
  lsb : Nat
deriving DecidableEq, Repr

/-- `Msb`: 104, 150, 203. -/
def Loc.msb (l : Loc) : Nat := l.lsb + l.size - 1

/-- `BaseIndex`: 106-107, 152-153. -/
def baseIndex (W : Nat) (l : Loc) : Nat := l.index * 4 / (W / 8)

/-- Width of `T` in `extract`: `make_unsigned_t<decltype(elem_t{} & E{})>`, 103. -/
def extractT (W EW : Nat) : Nat := max (promoted W) (promoted EW)

/-- The recursive lambda of `extract`: 113-141. `fuel` bounds the template recursion, `cur` is
`CurrentMsb`. -/
def extractGo (W TW : Nat) (l : Loc) (r : List (BitVec W)) :
    (fuel : Nat) → (cur : Nat) → (value : BitVec TW) → Option (BitVec TW)
  | 0, _, _ => none
  | fuel + 1, cur, value =>
    let maxIdx := baseIndex W l + l.msb / W
    let minIdx := baseIndex W l + l.lsb / W
    let currentIdx := baseIndex W l + cur / W
    if currentIdx = maxIdx ∧ currentIdx = minIdx then do
      let elem ← r[currentIdx]?
      shr (elem.setWidth TW &&& bitMask TW (cur % W) 0) (l.lsb % W)
    else if currentIdx = minIdx then do
      let elem ← r[currentIdx]?
      let shift := l.lsb % W
      let value ← shl value (W - shift)
      let low ← shr (elem.setWidth (promoted W)) shift
      return value ||| low.setWidth TW
    else if currentIdx = maxIdx then do
      let elem ← r[currentIdx]?
      extractGo W TW l r fuel (cur / W * W - 1) (elem.setWidth TW &&& bitMask TW (cur % W) 0)
    else do
      let value ← shl value W
      let elem ← r[currentIdx]?
      extractGo W TW l r fuel (cur - W) (value ||| elem.setWidth TW)

/-- `bits_locator_t::extract`: 100-144. -/
def Loc.extract (W EW : Nat) (l : Loc) (r : List (BitVec W)) : Option (BitVec EW) :=
  (extractGo W (extractT W EW) l r (l.msb / W + 1) l.msb 0).map (·.setWidth EW)

/-- The recursive lambda of `insert`: 159-197. `cur` is `CurrentLsb`. -/
def insertGo (W TW : Nat) (l : Loc) :
    (fuel : Nat) → (cur : Nat) → (r : List (BitVec W)) → (value : BitVec TW) →
      Option (List (BitVec W))
  | 0, _, _, _ => none
  | fuel + 1, cur, r, value =>
    let maxIdx := baseIndex W l + l.msb / W
    let minIdx := baseIndex W l + l.lsb / W
    let currentIdx := baseIndex W l + cur / W
    if currentIdx = maxIdx then do
      let lsb := cur % W
      let msb := l.msb % W
      let elem ← r[currentIdx]?
      let sh ← shl value lsb
      return r.set currentIdx ((elem &&& ~~~(bitMask W msb lsb)) ||| sh.setWidth W)
    else if currentIdx = minIdx then do
      let lsb := cur % W
      let numbits := W - lsb
      let valueMask := bitMask W (numbits - 1) 0
      let elem ← r[currentIdx]?
      let m ← shl (valueMask.setWidth (promoted W)) lsb
      let leftover := ~~~m
      let sh ← shl (value.setWidth (max TW (promoted W)) &&& valueMask.setWidth _) lsb
      let value ← shr value numbits
      insertGo W TW l fuel (cur + numbits)
        (r.set currentIdx ((elem &&& leftover.setWidth W) ||| sh.setWidth W)) value
    else do
      let valueMask := BitVec.allOnes W
      let _ ← r[currentIdx]?
      let v ← shr value W
      insertGo W TW l fuel (cur + W)
        (r.set currentIdx
          ((value.setWidth (max TW (promoted W)) &&& valueMask.setWidth _).setWidth W)) v

/-- `bits_locator_t::insert`: 146-199. `T` is `make_unsigned_t<decltype(E{} >> 1u)>`, 149. -/
def Loc.insert (W EW : Nat) (l : Loc) (r : List (BitVec W)) (e : BitVec EW) :
    Option (List (BitVec W)) :=
  insertGo W (promoted EW) l (l.msb / W + 1) l.lsb r (e.setWidth (promoted EW))

/-- `bits_locator_t::fold`: 82-89. -/
def Loc.fold {EW : Nat} (l : Loc) (v : BitVec EW) : Option (BitVec EW) :=
  if l.size = EW then some 0
  else (shr (v.setWidth (promoted EW)) l.size).map (·.setWidth EW)

/-- `bits_locator_t::unfold`: 91-98. -/
def Loc.unfold {EW : Nat} (l : Loc) (v : BitVec EW) : Option (BitVec EW) :=
  if l.size = EW then some 0
  else (shl (v.setWidth (promoted EW)) l.size).map (·.setWidth EW)

/-- `bits_locator_t::fits_inside<NumBits>`: 201-205. -/
def Loc.fitsInside (l : Loc) (numBits : Nat) : Bool := decide (l.index * 32 + l.msb ≤ numBits)

/-- `bits_locator_t::extent_in<T>` for a `W`-bit `T`: 207-213. -/
def Loc.extentIn (W : Nat) (l : Loc) : Nat :=
  let msbExtent := (l.lsb + l.size + 8 - 1) / 8
  let baseExtent := l.index * 4
  let extent := baseExtent + msbExtent
  (extent + W / 8 - 1) / (W / 8)

/-- `field_locator_t::extract`: 233-243, a left-to-right fold over the locations. -/
def extractField (W EW : Nat) (ls : List Loc) (r : List (BitVec W)) : Option (BitVec EW) :=
  ls.foldlM (fun raw l => do
    let raw ← l.unfold raw
    let x ← l.extract W EW r
    return raw ||| x) 0

/-- The lambda `insert_bits` over a list of locations, in the given order: 250-255. -/
def insertGoField (W EW : Nat) :
    List Loc → List (BitVec W) → BitVec EW → Option (List (BitVec W))
  | [], r, _ => some r
  | l :: ls, r, raw => do
    let r ← l.insert W EW r (raw &&& bitMask EW (l.size - 1) 0)
    let raw ← l.fold raw
    insertGoField W EW ls r raw

/-- `field_locator_t::insert`: 245-259. The fold `(dummy = ... = (insert_bits<BLs>(), 0))` evaluates
its assignments from right to left, so the last location is written first. -/
def insertField (W EW : Nat) (ls : List Loc) (r : List (BitVec W)) (v : BitVec EW) :
    Option (List (BitVec W)) :=
  insertGoField W EW ls.reverse r v

/-- `msg::at`: 305-307. -/
structure At where
  msb : Nat
  lsb : Nat
deriving DecidableEq, Repr

/-- `at(dword_index_t, msb_t, lsb_t)`: 311-315. -/
def At.ofDword (di m l : Nat) : At := ⟨di * 4 * 8 + m, di * 4 * 8 + l⟩
/-- `at(byte_index_t, msb_t, lsb_t)`: 316-320. -/
def At.ofByte (bi m l : Nat) : At := ⟨bi * 1 * 8 + m, bi * 1 * 8 + l⟩
/-- `at::size`: 332-334. -/
def At.size (a : At) : Nat := a.msb - a.lsb + 1
/-- `at::valid`: 335-338. -/
def At.valid (a : At) : Bool := decide (a.size ≤ 64) && decide (a.msb ≥ a.lsb)
/-- `at::shifted_by`: 343-346. -/
def At.shiftedBy (a : At) (n : Nat) : At := ⟨a.msb + n, a.lsb + n⟩
/-- `locator_for`, with `at::index` and `at::lsb`: 322-328, 350-352. -/
def At.loc (a : At) : Loc := ⟨a.lsb / 32, a.size, a.lsb % 32⟩

/-- A field type: its locations and the number of bits of its value type `T`; `raw_t` is the
smallest of 8, 16, 32, 64 bits that holds it (216-230). -/
structure Fld where
  ats : List At
  EW : Nat
deriving DecidableEq, Repr

/-- The static assertions on a field type: 411-414. -/
def Fld.Legal (f : Fld) : Prop :=
  (∀ a ∈ f.ats, a.valid = true) ∧ (f.ats.map At.size).sum ≤ f.EW ∧
    (f.EW = 8 ∨ f.EW = 16 ∨ f.EW = 32 ∨ f.EW = 64)

/-- `field_t::extract(R&&)`: 422-425. -/
def Fld.extract (W : Nat) (f : Fld) (r : List (BitVec W)) : Option (BitVec f.EW) :=
  extractField W f.EW (f.ats.map At.loc) r

/-- `field_t::insert(R&&, value)`: 434-439, and `insert_default` 448-453 with the default value. -/
def Fld.insert (W : Nat) (f : Fld) (r : List (BitVec W)) (v : BitVec f.EW) :
    Option (List (BitVec W)) :=
  insertField W f.EW (f.ats.map At.loc) r v

/-- The static assertion of the single-integer overloads: 429-430, 443-444. -/
def Fld.InsideInt (f : Fld) (W : Nat) : Prop := ∀ a ∈ f.ats, a.msb < W

/-- `field_t::extract(U const&)`: 427-432. -/
def Fld.extractInt (W : Nat) (f : Fld) (u : BitVec W) : Option (BitVec f.EW) := f.extract W [u]

/-- `field_t::insert(U&, value)`: 441-446. -/
def Fld.insertInt (W : Nat) (f : Fld) (u : BitVec W) (v : BitVec f.EW) : Option (BitVec W) :=
  (f.insert W [u] v).bind List.head?

/-- `field_t::fits_inside`: 455-460 with 261-264, for a storage of `n` elements of `W` bits. -/
def Fld.fitsInside (W n : Nat) (f : Fld) : Bool :=
  (f.ats.map At.loc).all (·.fitsInside (W * n))

/-- `field_t::extent_in<T>`: 462-464 with 266-268. -/
def Fld.extentIn (W : Nat) (f : Fld) : Nat :=
  ((f.ats.map At.loc).map (·.extentIn W)).foldl max 0

/-- `field_t::can_hold`: 470-472 with 270; `stdx::bit_width` of an unsigned value. -/
def Fld.canHold (f : Fld) (v : BitVec f.EW) : Bool :=
  decide ((f.ats.map At.size).sum ≥ (if v.toNat = 0 then 0 else Nat.log2 v.toNat + 1))

end Verif.Bits
