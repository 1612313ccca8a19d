import Verif.Bits.Props
/-! # C11: locations counted from a byte or a word -/
namespace Verif.Bits

theorem bitAt_drop {W : Nat} (hW : 0 < W) (r : List (BitVec W)) (k p : Nat) : bitAt (r.drop k) p = bitAt r (k * W + p) := by
  have h1 : (k * W + p) / W = k + p / W := by rw [Nat.mul_comm, Nat.mul_add_div hW]
  have h2 : (k * W + p) % W = p % W := by rw [Nat.mul_comm, Nat.mul_add_mod]
  rw [bitAt, bitAt, h1, h2, List.getElem?_drop]

theorem read_from {W : Nat} (hW : Narrow W) (a : At) (EW : Nat) (hf : (Fld.mk [a] EW).Legal) (r : List (BitVec W))
    (k m l : Nat) (ha : a = ⟨k * W + m, k * W + l⟩) (hin : k * W + m < r.length * W) :
    ∃ v, (Fld.mk [a] EW).extract W r = some v ∧
      ∀ i, v.getLsbD i = (decide (l + i ≤ m) && bitAt (r.drop k) (l + i)) := by
  have hle := (valid_le (hf.1 a (by simp))).1
  obtain ⟨v, hv, hb⟩ := C11_reads_declared_bits hW ⟨[a], EW⟩ hf r (by
    intro p hp
    rw [mem_fld_positions] at hp
    obtain ⟨a', ha', h1, h2⟩ := hp
    simp only [List.mem_singleton] at ha'
    subst ha'; subst ha; dsimp only at h1 h2; omega)
  refine ⟨v, hv, fun i => ?_⟩
  rw [hb i, bitAt_drop hW.pos]
  simp only [Fld.specBit, Fld.positions, List.reverse_cons, List.reverse_nil, List.nil_append,
    List.map_cons, List.map_nil, List.flatten_cons, List.flatten_nil, List.append_nil,
    positions_getElem? hle, At.size]
  subst ha
  dsimp only at hle ⊢
  by_cases hi : i < k * W + m - (k * W + l) + 1
  · have : l + i ≤ m := by omega
    simp [hi, this, Nat.add_assoc]
  · have : ¬ l + i ≤ m := by omega
    simp [hi, this]

/-- **C11**: a location `at{bi, msb, lsb}` with a byte index names the bits counted from that byte, in
storage of any element width in which an element begins there. -/
theorem C11_byte_index {W : Nat} (hW : Narrow W) (bi m l EW k : Nat) (hf : (Fld.mk [At.ofByte bi m l] EW).Legal)
    (r : List (BitVec W)) (hk : 8 * bi = k * W) (hin : 8 * bi + m < r.length * W) :
    ∃ v, (Fld.mk [At.ofByte bi m l] EW).extract W r = some v ∧
      ∀ i, v.getLsbD i = (decide (l + i ≤ m) && bitAt (r.drop k) (l + i)) :=
  read_from hW _ EW hf r k m l (by rw [At.ofByte, ← hk]; congr 2 <;> omega) (by omega)

/-- **C11**: a location `at{dwi, msb, lsb}` with an index of a 32-bit word names the bits counted from that
word. -/
theorem C11_dword_index {W : Nat} (hW : Narrow W) (di m l EW k : Nat) (hf : (Fld.mk [At.ofDword di m l] EW).Legal)
    (r : List (BitVec W)) (hk : 32 * di = k * W) (hin : 32 * di + m < r.length * W) :
    ∃ v, (Fld.mk [At.ofDword di m l] EW).extract W r = some v ∧
      ∀ i, v.getLsbD i = (decide (l + i ≤ m) && bitAt (r.drop k) (l + i)) :=
  read_from hW _ EW hf r k m l (by rw [At.ofDword, ← hk]; congr 2 <;> omega) (by omega)

/-- Bits 11 to 4 from the second byte of five. -/
example : (Fld.mk [At.ofByte 1 11 4] 8).Legal ∧
    (Fld.mk [At.ofByte 1 11 4] 8).extract 8 [0x11#8, 0xA2, 0x0B, 0x44, 0x55] = some 0xBA#8 := by
  refine ⟨by simp [Fld.Legal, At.ofByte, At.valid, At.size], by decide⟩

/-- The same from the second word of two, in bytes. -/
example : (Fld.mk [At.ofDword 1 11 4] 8).Legal ∧
    (Fld.mk [At.ofDword 1 11 4] 8).extract 8 [0, 0, 0, 0, 0xA2#8, 0x0B, 0x44, 0x55] = some 0xBA#8 ∧ 32 * 1 = 4 * 8 := by
  refine ⟨by simp [Fld.Legal, At.ofDword, At.valid, At.size], by decide, rfl⟩

end Verif.Bits
