import Verif.Message.Model

/-!
# Model of binary logging

The encoder is `/repo/include/log_binary/catalog/{mipi_builder,mipi_messages,arguments}.hpp`, the
decoder is `/repo/python/cib/{mipi_messages,log_decode}.py`. Bytes are natural numbers below 256.
Headers are made with the model of messages (`Verif.Message`).

Simplifications: the host is little-endian, so `stdx::to_le` does nothing and the memory of a `uint32_t`
is its little-endian bytes; the writer passes on the memory of the message unchanged. An argument type
written in the catalog (`encode_32<int>`) is a value of `Tag`, not a string to be parsed. Floating point
values are their bits. Texts are left out. `none` in the decoder is a Python exception, in the encoder an
access outside the storage.
-/
namespace Verif.Log
open Verif.Bits Verif.Message

/-! ## Bytes -/

/-- The first `n` bytes of `x`, least significant first. -/
def leBytes : Nat → Nat → List Nat
  | 0, _ => []
  | n + 1, x => x % 256 :: leBytes n (x / 256)

/-- The number with these bytes, least significant first. -/
def fromLe : List Nat → Nat
  | [] => 0
  | b :: bs => b + 256 * fromLe bs

/-- The memory of an array of integers of `W` bits. -/
def memory {W : Nat} (r : List (BitVec W)) : List Nat := r.flatMap fun w => leBytes (W / 8) w.toNat

/-- `std::memcpy` into an array at the given byte; `none` when it does not fit. -/
def memcpy (mem : List Nat) (pos : Nat) (src : List Nat) : Option (List Nat) :=
  if pos + src.length ≤ mem.length then some (mem.take pos ++ src ++ mem.drop (pos + src.length))
  else none

/-! ## Types of arguments -/

/-- Arithmetic types, by the names which the catalog gives them. The signedness of `char` and the size
of `long` depend on the target. -/
inductive Prim where
  | char (signed : Bool)
  | schar
  | uchar
  | bool
  | short
  | ushort
  | int
  | uint
  | long (size : Nat)
  | ulong (size : Nat)
  | llong
  | ullong
  | float
  | double
deriving DecidableEq, Repr

/-- `sizeof`. -/
def Prim.size : Prim → Nat
  | .char _ | .schar | .uchar | .bool => 1
  | .short | .ushort => 2
  | .int | .uint | .float => 4
  | .long s | .ulong s => s
  | .llong | .ullong | .double => 8

/-- `std::signed_integral`; floating point types are packed like unsigned ones
(`arguments.hpp` 61-65). -/
def Prim.signed : Prim → Bool
  | .char s => s
  | .schar | .short | .int | .long _ | .llong => true
  | _ => false

/-- The type of an argument: arithmetic, scoped enumeration, unscoped enumeration; enumerations have a
name and an underlying type. -/
inductive CType where
  | prim (p : Prim)
  | enumClass (e : Nat) (p : Prim)
  | enumPlain (e : Nat) (p : Prim)
deriving DecidableEq, Repr

/-- `stdx::underlying_type_t`. -/
def CType.under : CType → Prim
  | .prim p => p
  | .enumClass _ p => p
  | .enumPlain _ p => p

/-- `sizeof(pack_t)`: `arguments.hpp` 49-68, for enumerations the one of the underlying type. -/
def packSize (t : CType) : Nat := if t.under.size ≤ 4 then 4 else 8

/-- What stands between the angle brackets of `encode_32<…>`: an arithmetic type or an enumeration. -/
inductive TagSpec where
  | prim (p : Prim)
  | user (e : Nat)
deriving DecidableEq, Repr

/-- `encode_32`, `encode_u32`, `encode_64`, `encode_u64`, `encode_enum`: `arguments.hpp` 9-13. -/
inductive Tag where
  | e32 (s : TagSpec)
  | u32 (s : TagSpec)
  | e64 (s : TagSpec)
  | u64 (s : TagSpec)
  | enum (e : Nat) (p : Prim) (size : Nat)
deriving DecidableEq, Repr

/-- `signed_encode_t` and `unsigned_encode_t`: `arguments.hpp` 38-46. -/
def plainTag (signed : Bool) (size : Nat) (s : TagSpec) : Tag :=
  if signed then (if size ≤ 4 then .e32 s else .e64 s)
  else (if size ≤ 4 then .u32 s else .u64 s)

/-- `encode_t`: `arguments.hpp` 49-78. -/
def encodeTag (t : CType) : Tag :=
  match t with
  | .prim p => plainTag p.signed p.size (.prim p)
  | .enumClass e p => .enum e p (packSize t)
  | .enumPlain e p => plainTag p.signed p.size (.user e)

/-! ## Encoder -/

/-- The bytes `pack_arg` writes: `mipi_builder.hpp` 43-57. A value of a narrower type is converted to
the packed type, which keeps the value; then the unsigned bits are stored. -/
def packBytes (t : CType) (v : Int) : List Nat :=
  leBytes (packSize t) (v % (2 ^ (8 * packSize t) : Int)).toNat

/-- Field names. -/
abbrev fType := 0
abbrev fSeverity := 1
abbrev fOptLen := 2
abbrev fUnit := 3
abbrev fModule := 4
abbrev fSubtype := 5
abbrev fPayloadLen := 6
abbrev fBuildId := 7
abbrev fPayload := 8

/-- `type_f::with_required<…>`: `mipi_messages.hpp` 27. -/
def typeF (v : Nat) : MField := ⟨fType, ⟨[At.ofDword 0 3 0], 8⟩, .const v, 0⟩
/-- `build_subtype_f` and `catalog_subtype_f`, required: 34-36, 67-69. -/
def subtypeF (v : Nat) : MField := ⟨fSubtype, ⟨[At.ofDword 0 29 24], 8⟩, .const v, 0⟩

/-- `short32_msg_t`: 60-65. -/
def shortFields : List MField := [typeF 1, ⟨fPayload, ⟨[At.ofDword 0 31 4], 32⟩, .value 0, 0⟩]

/-- `catalog_msg_t`: 70-82. -/
def catalogFields : List MField :=
  [typeF 3, ⟨fSeverity, ⟨[At.ofDword 0 6 4], 8⟩, .value 0, 0⟩, ⟨fUnit, ⟨[At.ofDword 0 15 12], 16⟩, .value 0, 0⟩,
   ⟨fModule, ⟨[At.ofDword 0 22 16], 8⟩, .value 0, 0⟩, subtypeF 1]

/-- `compact32_build_msg_t`: 37-38, 51-54. -/
def compact32Fields : List MField :=
  [typeF 0, ⟨fBuildId, ⟨[At.ofDword 0 31 30, At.ofDword 0 23 4], 32⟩, .value 0, 0⟩, subtypeF 0]

/-- `compact64_build_msg_t`: 39-41, 55-58. -/
def compact64Fields : List MField :=
  [typeF 0, ⟨fBuildId, ⟨[At.ofDword 1 31 0, At.ofDword 0 31 30, At.ofDword 0 23 4], 64⟩, .value 0, 0⟩,
   subtypeF 1]

/-- `normal_build_msg_t`: 28-32, 43-46. -/
def normalFields : List MField :=
  [typeF 0, ⟨fOptLen, ⟨[At.ofDword 0 9 9], 8⟩, .const 1, 0⟩, subtypeF 2,
   ⟨fPayloadLen, ⟨[At.ofDword 1 15 0], 16⟩, .value 0, 0⟩]

/-- `builder<short32_msg_t>::build`: `mipi_builder.hpp` 25-30. -/
def shortRecord (id : Nat) : Option (List Nat) :=
  (construct 32 (storageSize 32 shortFields) shortFields [(fPayload, id)]).map memory

/-- `((dest = pack_arg(dest, args)), ...)`: 43-61. `pos` is `dest` in bytes; it moves on by whole
elements (56). -/
def packAll (mem : List Nat) : Nat → List (List Nat) → Option (List Nat)
  | _, [] => some mem
  | pos, a :: as => do
    let mem ← memcpy mem pos a
    packAll mem (pos + (a.length + 3) / 4 * 4) as

/-- `builder<catalog_msg_t>::build` with `catalog_builder::build`: 32-81. -/
def catalogRecord (level id m u : Nat) (args : List (CType × Int)) : Option (List Nat) := do
  let payloadSize := 4 + (args.map fun a => packSize a.1).sum
  let headerSize := storageSize 32 catalogFields
  let msg ← construct 32 (headerSize + (payloadSize + 3) / 4) catalogFields
    [(fSeverity, level), (fModule, m), (fUnit, u)]
  packAll (memory msg) (headerSize * 4) (leBytes 4 id :: args.map fun a => packBytes a.1 a.2)

/-- A log statement: level, string id, module id, unit and arguments. -/
structure Stmt where
  level : Nat
  id : Nat
  module : Nat
  unit : Nat
  args : List (CType × Int)
deriving DecidableEq, Repr

/-- `default_builder::build`: 119-128. -/
def record (s : Stmt) : Option (List Nat) :=
  if s.args.isEmpty then shortRecord s.id
  else catalogRecord s.level s.id s.module s.unit s.args

/-- `stdx::bit_width`. -/
def bitWidth (v : Nat) : Nat := if v = 0 then 0 else Nat.log2 v + 1

/-- `builder<normal_build_msg_t>::build`: 97-115. -/
def normalRecord (version : Nat) (s : List Nat) : Option (List Nat) := do
  let headerSize := storageSize 8 normalFields
  let payloadLen := s.length + 8
  let msg ← construct 8 (headerSize + payloadLen) normalFields [(fPayloadLen, payloadLen)]
  let mem ← memcpy (memory msg) headerSize (leBytes 8 version)
  memcpy mem (headerSize + 8) s

/-- `default_builder::build_version`: 130-142, with 83-95. -/
def versionRecord (version : Nat) (s : List Nat) : Option (List Nat) :=
  if s.isEmpty ∧ bitWidth version ≤ 22 then
    (construct 32 (storageSize 32 compact32Fields) compact32Fields [(fBuildId, version)]).map memory
  else if s.isEmpty ∧ bitWidth version ≤ 54 then
    (construct 32 (storageSize 32 compact64Fields) compact64Fields [(fBuildId, version)]).map memory
  else normalRecord version s

/-! ## Decoder -/

/-- What `struct.unpack` and `convert` give: an integer, a byte string of length one (format `c`), or a
floating point number. -/
inductive PyVal where
  | int (v : Int)
  | chr (b : Nat)
  | float (bits : Nat)
  | double (bits : Nat)
deriving DecidableEq, Repr

/-- A decoded argument: a value, or the pair looked up by `enum_lookup`: the enumeration and the text of
the value (`mipi_messages.py` 51-60). -/
inductive Decoded where
  | val (v : PyVal)
  | enum (e : Nat) (v : PyVal)
deriving DecidableEq, Repr

/-- Bytes as a two's complement number. -/
def signedLe (bs : List Nat) : Int :=
  if fromLe bs < 2 ^ (8 * bs.length - 1) then (fromLe bs : Int)
  else (fromLe bs : Int) - 2 ^ (8 * bs.length)

/-- `format_table` and `alt_format_table`: the number of bytes unpacked, 19-39. -/
def formatSize (p : Prim) (len : Nat) : Nat :=
  match p with
  | .long _ | .ulong _ => if len = 8 then 8 else 4
  | _ => p.size

/-- `struct.unpack` by the letter in `format_table`: 19-39. -/
def unpack (p : Prim) (bs : List Nat) : PyVal :=
  match p with
  | .char _ => .chr (fromLe bs)
  | .float => .float (fromLe bs)
  | .double => .double (fromLe bs)
  | .uchar | .ushort | .uint | .ulong _ | .ullong => .int (fromLe bs)
  | .schar | .bool | .short | .int | .long _ | .llong => .int (signedLe bs)

/-- `convert`: 42-51. -/
def convert (p : Prim) (seq : List Nat) : Option PyVal :=
  let bs := seq.take (formatSize p seq.length)
  if bs.length = formatSize p seq.length then
    let r := unpack p bs
    if p = .bool ∧ r = .int 1 then some (.int (-1)) else some r
  else none

/-- `Catalog.extract_arg`: 151-167, on what `islice` takes from the stream (7-16). -/
def extractArg (tag : Tag) (bs : List Nat) : Option (Decoded × List Nat) :=
  match tag with
  | .enum e p sz => (convert p (bs.take sz)).map fun v => (.enum e v, bs.drop sz)
  | .e32 (.prim p) | .u32 (.prim p) => (convert p (bs.take 4)).map fun v => (.val v, bs.drop 4)
  | .e64 (.prim p) | .u64 (.prim p) => (convert p (bs.take 8)).map fun v => (.val v, bs.drop 8)
  | .e32 (.user e) | .u32 (.user e) =>
    (convert .uint (bs.take 4)).map fun v => (.enum e v, bs.drop 4)
  | .e64 (.user e) | .u64 (.user e) =>
    (convert .ullong (bs.take 8)).map fun v => (.enum e v, bs.drop 8)

/-- The list of arguments: 188-190. -/
def extractArgs : List Tag → List Nat → Option (List Decoded × List Nat)
  | [], bs => some ([], bs)
  | t :: ts, bs => do
    let r ← extractArg t bs
    let rs ← extractArgs ts r.2
    return (r.1 :: rs.1, rs.2)

/-- A decoded record. -/
inductive Rec where
  | short (id : Nat)
  | catalog (severity module unit id : Nat) (args : List Decoded)
deriving DecidableEq, Repr

/-- The generated JSON: argument types of the messages by id, and the known module ids
(`log_decode.py` 40-41). -/
structure Db where
  messages : Nat → Option (List Tag)
  modules : Nat → Bool

/-- `read_struct` of four bytes as one number; the fields are bit ranges of it
(`mipi_messages.py` 77-113). -/
def readWord (bs : List Nat) : Option (Nat × List Nat) :=
  if 4 ≤ bs.length then some (fromLe (bs.take 4), bs.drop 4) else none

/-- `Short32.__init__`: 116-123. -/
def readShort (db : Db) (bs : List Nat) : Option (Rec × List Nat) := do
  let w ← readWord bs
  let id := w.1 / 2 ^ 4 % 2 ^ 28
  let _ ← db.messages id
  return (.short id, w.2)

/-- `Short64.__init__`: 127-134, with the structure 103-107. -/
def readShort64 (db : Db) (bs : List Nat) : Option (Rec × List Nat) := do
  if bs.length < 8 then none
  let id := fromLe (bs.take 8) / 2 ^ 4 % 2 ^ 60
  let _ ← db.messages id
  return (.short id, bs.drop 8)

/-- `Catalog.__init__`: 169-190. -/
def readCatalog (db : Db) (bs : List Nat) : Option (Rec × List Nat) := do
  let w ← readWord bs
  if w.1 / 2 ^ 24 % 2 ^ 6 ≠ 1 then none
  let m := w.1 / 2 ^ 16 % 2 ^ 7
  if !db.modules m then none
  let id ← readWord w.2
  let tags ← db.messages id.1
  let args ← extractArgs tags id.2
  return (.catalog (w.1 / 2 ^ 4 % 2 ^ 3) m (w.1 / 2 ^ 12 % 2 ^ 4) id.1 args.1, args.2)

/-- `construct_msg`: `log_decode.py` 24-36. -/
def readRecord (db : Db) (bs : List Nat) : Option (Rec × List Nat) :=
  match bs with
  | [] => none
  | b :: _ =>
    if b % 16 = 1 then readShort db bs
    else if b % 16 = 3 then readCatalog db bs
    else if b % 16 = 7 then readShort64 db bs
    else none

/-- `read_logs`: 38-55. The records before an exception, and whether the end was reached without
one. -/
def readLogs (db : Db) : Nat → List Nat → List Rec × Bool
  | 0, bs => ([], bs.isEmpty)
  | fuel + 1, bs =>
    match bs with
    | [] => ([], true)
    | b :: r =>
      match readRecord db (b :: r) with
      | none => ([], false)
      | some (x, rest) =>
        let y := readLogs db fuel rest
        (x :: y.1, y.2)

/-- The decoder on a whole file; every record takes at least one byte. -/
def decode (db : Db) (bs : List Nat) : List Rec × Bool := readLogs db bs.length bs

end Verif.Log
