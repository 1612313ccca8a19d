import Verif.Log.Model

/-!
# Model of the encoder on hosts of either byte order

`/repo/include/log_binary/catalog/mipi_builder.hpp` as in `Verif.Log.Model`, with the byte order of the host as a
parameter. A record is handed to a destination as a span of `uint32_t` (`encoder.hpp` 72-79); a destination can pass
on the memory or the values of the words.
-/
namespace Verif.Log
open Verif.Bits Verif.Message

/-- The bytes in memory of an unsigned integer of `n` bytes. -/
def hostBytes (big : Bool) (n x : Nat) : List Nat := if big then (leBytes n x).reverse else leBytes n x

/-- `stdx::to_le`: the bytes are exchanged on a big-endian host. -/
def toLe (big : Bool) (n x : Nat) : Nat := if big then fromLe (leBytes n x).reverse else x

/-- The memory of an array. -/
def hostMemory {W : Nat} (big : Bool) (r : List (BitVec W)) : List Nat :=
  r.flatMap fun w => hostBytes big (W / 8) w.toNat

/-- The end of `pack_arg`, `to_le` and `memcpy`: `mipi_builder.hpp` 54-55. -/
def hostPack (big : Bool) (n x : Nat) : List Nat := hostBytes big n (toLe big n x)

/-- `builder<short32_msg_t>::build`: 25-30. -/
def shortOn (big : Bool) (id : Nat) : Option (List Nat) :=
  (construct 32 (storageSize 32 shortFields) shortFields [(fPayload, id)]).map (hostMemory big)

/-- `builder<catalog_msg_t>::build`: 32-81. The id goes through `to_le` before `pack_arg` does it again (60). -/
def catalogOn (big : Bool) (level id m u : Nat) (args : List (CType × Int)) : Option (List Nat) := do
  let payloadSize := 4 + (args.map fun a => packSize a.1).sum
  let headerSize := storageSize 32 catalogFields
  let msg ← construct 32 (headerSize + (payloadSize + 3) / 4) catalogFields
    [(fSeverity, level), (fModule, m), (fUnit, u)]
  packAll (hostMemory big msg) (headerSize * 4) (hostPack big 4 (toLe big 4 id) ::
    args.map fun a => hostPack big (packSize a.1) (a.2 % (2 ^ (8 * packSize a.1) : Int)).toNat)

/-- `default_builder::build`: 119-128. -/
def recordOn (big : Bool) (s : Stmt) : Option (List Nat) :=
  if s.args.isEmpty then shortOn big s.id
  else catalogOn big s.level s.id s.module s.unit s.args

/-- `builder<normal_build_msg_t>::build`: 97-115. The storage has elements of one byte. -/
def normalOn (big : Bool) (version : Nat) (s : List Nat) : Option (List Nat) := do
  let headerSize := storageSize 8 normalFields
  let payloadLen := s.length + 8
  let msg ← construct 8 (headerSize + payloadLen) normalFields [(fPayloadLen, payloadLen)]
  let mem ← memcpy (hostMemory big msg) headerSize (hostPack big 8 version)
  memcpy mem (headerSize + 8) s

/-- `default_builder::build_version`: 130-142, with 83-95. The elements of the array which the destination gets are
words (`inl`) or bytes (`inr`). -/
def versionOn (big : Bool) (version : Nat) (s : List Nat) : Option (List Nat ⊕ List Nat) :=
  if s.isEmpty ∧ bitWidth version ≤ 22 then
    (construct 32 (storageSize 32 compact32Fields) compact32Fields [(fBuildId, version)]).map
      fun r => .inl (hostMemory big r)
  else if s.isEmpty ∧ bitWidth version ≤ 54 then
    (construct 32 (storageSize 32 compact64Fields) compact64Fields [(fBuildId, version)]).map
      fun r => .inl (hostMemory big r)
  else (normalOn big version s).map .inr

/-- The values of the words in memory. -/
def hostWords (big : Bool) : List Nat → List Nat
  | a :: b :: c :: d :: bs => fromLe (if big then [d, c, b, a] else [a, b, c, d]) :: hostWords big bs
  | _ => []

/-- A destination that writes the value of each word, least significant byte first. -/
def byValue (big : Bool) (mem : List Nat) : List Nat := (hostWords big mem).flatMap (leBytes 4)

end Verif.Log
