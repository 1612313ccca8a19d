import Verif.Log.Lemmas

/-! # Lemmas about headers -/
namespace Verif.Log
open Verif.Bits Verif.Message

theorem fromLe_append (a b : List Nat) : fromLe (a ++ b) = fromLe a + 256 ^ a.length * fromLe b := by
  induction a with
  | nil => simp [fromLe]
  | cons x a ih =>
    simp only [List.cons_append, fromLe, ih, List.length_cons, Nat.pow_succ]
    rw [Nat.mul_add, Nat.add_assoc, ← Nat.mul_assoc, Nat.mul_comm 256 (256 ^ a.length)]

/-- The bytes of the memory form the same number as the elements. -/
theorem fromLe_memory {W : Nat} (hW : W = 8 ∨ W = 32) (r : List (BitVec W)) :
    fromLe (memory r) = storageNat r := by
  induction r with
  | nil => rfl
  | cons w r ih =>
    have hm : memory (w :: r) = leBytes (W / 8) w.toNat ++ memory r := by simp [memory]
    have hp : 256 ^ (W / 8) = 2 ^ W := by rcases hW with rfl | rfl <;> norm_num
    rw [hm, fromLe_append, leBytes_length, fromLe_leBytes, ih, storageNat, hp, Nat.mod_eq_of_lt w.isLt]

theorem leBytes_lt (n x : Nat) : ∀ b ∈ leBytes n x, b < 256 := by
  induction n generalizing x with
  | zero => intro b hb; cases hb
  | succ n ih =>
    intro b hb
    rcases List.mem_cons.mp hb with rfl | hb
    · exact Nat.mod_lt _ (by decide)
    · exact ih _ b hb

theorem memory_lt {W : Nat} (r : List (BitVec W)) : ∀ b ∈ memory r, b < 256 := by
  intro b hb
  obtain ⟨w, -, hb⟩ := List.mem_flatMap.mp hb
  exact leBytes_lt _ _ b hb

theorem fromLe_lt (bs : List Nat) (h : ∀ b ∈ bs, b < 256) : fromLe bs < 256 ^ bs.length := by
  induction bs with
  | nil => simp [fromLe]
  | cons b bs ih =>
    have h1 := h b List.mem_cons_self
    have h2 := ih fun c hc => h c (List.mem_cons_of_mem _ hc)
    simp only [fromLe, List.length_cons, Nat.pow_succ]
    omega

/-- Taking bytes is taking the number modulo a power. -/
theorem fromLe_take (bs : List Nat) (h : ∀ b ∈ bs, b < 256) (k : Nat) (hk : k ≤ bs.length) :
    fromLe (bs.take k) = fromLe bs % 256 ^ k := by
  have hs : fromLe bs = fromLe (bs.take k) + 256 ^ k * fromLe (bs.drop k) := by
    conv => lhs; rw [← List.take_append_drop k bs]
    rw [fromLe_append, List.length_take, Nat.min_eq_left hk]
  have hlt := fromLe_lt (bs.take k) fun b hb => h b (List.mem_of_mem_take hb)
  rw [List.length_take, Nat.min_eq_left hk] at hlt
  rw [hs, Nat.add_mul_mod_self_left, Nat.mod_eq_of_lt hlt]

theorem fromLe_drop (bs : List Nat) (h : ∀ b ∈ bs, b < 256) (k : Nat) (hk : k ≤ bs.length) :
    fromLe (bs.drop k) = fromLe bs / 256 ^ k := by
  have hs : fromLe bs = fromLe (bs.take k) + 256 ^ k * fromLe (bs.drop k) := by
    conv => lhs; rw [← List.take_append_drop k bs]
    rw [fromLe_append, List.length_take, Nat.min_eq_left hk]
  have hlt := fromLe_lt (bs.take k) fun b hb => h b (List.mem_of_mem_take hb)
  rw [List.length_take, Nat.min_eq_left hk] at hlt
  rw [hs, Nat.add_mul_div_left _ _ (Nat.pow_pos (by decide)), Nat.div_eq_of_lt hlt, Nat.zero_add]

/-- A field with one location, read from the number that the constructed storage is. -/
theorem field_number {W n : Nat} {fs : List MField} (L : Layout W n fs) {r : List (BitVec W)}
    (hr : r.length = n) {f : MField} (hf : f ∈ fs) {x : Nat} (hx : Message.get W fs r f.name = some x) (a : At)
    (ha : f.fld.ats = [a]) : storageNat r / 2 ^ a.lsb % 2 ^ (a.msb + 1 - a.lsb) = x := by
  have hff : f.fld = ⟨[a], f.fld.EW⟩ := by rw [← ha]
  have hleg := L.legal f hf
  have hin := L.inside f hf
  rw [hff] at hleg hin
  have hle := (valid_le (hleg.1 a (by simp))).1
  obtain ⟨v, hv, hvn⟩ := C11_reads_number L.width a f.fld.EW hleg r (by
    rw [hr]
    exact hin a.msb ((mem_fld_positions _ _).2 ⟨a, by simp, hle, Nat.le_refl _⟩))
  simp only [Message.get, find_eq L.names hf, Option.bind_eq_bind, Option.bind_some, Message.read] at hx
  rw [hff] at hx
  rw [hv] at hx
  simp only [Option.map_some, Option.some.injEq] at hx
  rw [← hvn, hx]

/-- A field with any locations, bit by bit. -/
theorem field_bits {W n : Nat} {fs : List MField} (L : Layout W n fs) {r : List (BitVec W)}
    (hr : r.length = n) {f : MField} (hf : f ∈ fs) {x : Nat} (hx : Message.get W fs r f.name = some x) (i : Nat) :
    x.testBit i = match f.fld.positions[i]? with
      | some p => (storageNat r).testBit p
      | none => false := by
  obtain ⟨v, hv, hb⟩ := C11_reads_declared_bits L.width f.fld (L.legal f hf) r (by
    rw [hr]
    exact L.inside f hf)
  simp only [Message.get, find_eq L.names hf, Option.bind_eq_bind, Option.bind_some, Message.read] at hx
  rw [hv] at hx
  simp only [Option.map_some, Option.some.injEq] at hx
  have hW : 0 < W := by rcases L.width with h | h | h <;> omega
  rw [← hx, show v.toNat.testBit i = v.getLsbD i from rfl, hb, Fld.specBit]
  cases f.fld.positions[i]? with
  | none => rfl
  | some p => exact (testBit_storageNat hW r p).symm

/-! ## The layouts -/

theorem layout_grow {W m n : Nat} {fs : List MField} (L : Layout W m fs) (h : m ≤ n) : Layout W n fs where
  width := L.width
  names := L.names
  legal := L.legal
  self := L.self
  apart := L.apart
  inside := fun f hf p hp => Nat.lt_of_lt_of_le (L.inside f hf p hp) (Nat.mul_le_mul_right _ h)

theorem short_layout : Layout 32 1 shortFields where
  width := by simp
  names := by decide
  legal := by simp [shortFields, typeF, Fld.Legal, At.valid, At.size, At.ofDword]
  self := by unfold Fld.NonOverlapping; decide
  apart := by unfold Fld.Disjoint; decide
  inside := by unfold Fld.Within; decide

theorem catalog_layout : Layout 32 1 catalogFields where
  width := by simp
  names := by decide
  legal := by simp [catalogFields, typeF, subtypeF, Fld.Legal, At.valid, At.size, At.ofDword]
  self := by unfold Fld.NonOverlapping; decide
  apart := by unfold Fld.Disjoint; decide
  inside := by unfold Fld.Within; decide

theorem compact32_layout : Layout 32 1 compact32Fields where
  width := by simp
  names := by decide
  legal := by simp [compact32Fields, typeF, subtypeF, Fld.Legal, At.valid, At.size, At.ofDword]
  self := by unfold Fld.NonOverlapping; decide
  apart := by unfold Fld.Disjoint; decide
  inside := by unfold Fld.Within; decide

theorem compact64_layout : Layout 32 2 compact64Fields where
  width := by simp
  names := by decide
  legal := by simp [compact64Fields, typeF, subtypeF, Fld.Legal, At.valid, At.size, At.ofDword]
  self := by unfold Fld.NonOverlapping; decide
  apart := by unfold Fld.Disjoint; decide
  inside := by unfold Fld.Within; decide

theorem normal_layout : Layout 8 6 normalFields where
  width := by simp
  names := by decide
  legal := by simp [normalFields, typeF, subtypeF, Fld.Legal, At.valid, At.size, At.ofDword]
  self := by unfold Fld.NonOverlapping; decide
  apart := by unfold Fld.Disjoint; decide
  inside := by unfold Fld.Within; decide

/-! ## Records -/

/-- The short record, as a word. -/
theorem shortRecord_spec (id : Nat) : ∃ w, w < 2 ^ 32 ∧ shortRecord id = some (leBytes 4 w) ∧ w % 16 = 1 ∧
    w / 2 ^ 4 % 2 ^ 28 = id % 2 ^ 28 := by
  obtain ⟨r, hr, hlen, hget⟩ := C17_construction short_layout [(fPayload, id)] (by
    simp [shortFields, fPayload])
  have h0 := field_number short_layout hlen (f := typeF 1) (by simp [shortFields])
    (hget _ (by simp [shortFields])) ⟨3, 0⟩ rfl
  have h1 := field_number short_layout hlen (f := ⟨fPayload, ⟨[At.ofDword 0 31 4], 32⟩, .value 0, 0⟩)
    (by simp [shortFields]) (hget _ (by simp [shortFields])) ⟨31, 4⟩ rfl
  obtain ⟨w, rfl⟩ := List.length_eq_one_iff.mp hlen
  refine ⟨w.toNat, w.isLt, ?_, ?_, ?_⟩
  · rw [shortRecord, show storageSize 32 shortFields = 1 from by decide, hr]
    simp [memory]
  · simp [storageNat, expected, lastNamed, typeF, Dflt.val?, MField.bits, At.ofDword] at h0
    exact h0
  · simp [storageNat, expected, lastNamed, MField.bits, At.ofDword] at h1
    simpa using h1

/-- The header of a catalog record, as a word. -/
theorem catalogRecord_spec (level id m u : Nat) (args : List (CType × Int)) : ∃ w, w < 2 ^ 32 ∧
    catalogRecord level id m u args =
      some (leBytes 4 w ++ (leBytes 4 id ++ (args.map fun a => packBytes a.1 a.2).flatten)) ∧
    w % 16 = 3 ∧ w / 2 ^ 4 % 2 ^ 3 = level % 2 ^ 3 ∧ w / 2 ^ 12 % 2 ^ 4 = u % 2 ^ 4 ∧
    w / 2 ^ 16 % 2 ^ 7 = m % 2 ^ 7 ∧ w / 2 ^ 24 % 2 ^ 6 = 1 := by
  have hsz : storageSize 32 catalogFields = 1 := by decide
  have h4 : ∀ as : List (CType × Int), (as.map fun a => packSize a.1).sum % 4 = 0 := by
    intro as
    induction as with
    | nil => rfl
    | cons a as ih =>
      simp only [List.map_cons, List.sum_cons]
      rcases packSize_cases a.1 with h | h <;> omega
  generalize hn : 1 + (4 + (args.map fun a => packSize a.1).sum + 3) / 4 = n
  have L : Layout 32 n catalogFields := layout_grow catalog_layout (by omega)
  obtain ⟨r, hr, hlen, hget⟩ := C17_construction L [(fSeverity, level), (fModule, m), (fUnit, u)] (by
    simp [catalogFields, fSeverity, fModule, fUnit, typeF, subtypeF])
  have k0 := field_number L hlen (f := typeF 3) (by simp [catalogFields])
    (hget _ (by simp [catalogFields])) ⟨3, 0⟩ rfl
  have k1 := field_number L hlen (f := ⟨fSeverity, ⟨[At.ofDword 0 6 4], 8⟩, .value 0, 0⟩)
    (by simp [catalogFields]) (hget _ (by simp [catalogFields])) ⟨6, 4⟩ rfl
  have k2 := field_number L hlen (f := ⟨fUnit, ⟨[At.ofDword 0 15 12], 16⟩, .value 0, 0⟩)
    (by simp [catalogFields]) (hget _ (by simp [catalogFields])) ⟨15, 12⟩ rfl
  have k3 := field_number L hlen (f := ⟨fModule, ⟨[At.ofDword 0 22 16], 8⟩, .value 0, 0⟩)
    (by simp [catalogFields]) (hget _ (by simp [catalogFields])) ⟨22, 16⟩ rfl
  have k4 := field_number L hlen (f := subtypeF 1) (by simp [catalogFields])
    (hget _ (by simp [catalogFields])) ⟨29, 24⟩ rfl
  obtain ⟨w, r', rfl⟩ : ∃ w r', r = w :: r' := by
    cases r with
    | nil => simp at hlen; omega
    | cons w r' => exact ⟨w, r', rfl⟩
  have hw := w.isLt
  simp [storageNat, expected, lastNamed, typeF, subtypeF, Dflt.val?, MField.bits, At.ofDword] at k0 k1 k2 k3 k4
  refine ⟨w.toNat, w.isLt, ?_, by omega, by omega, by omega, by omega, by omega⟩
  have hmem : memory (w :: r') = leBytes 4 w.toNat ++ memory r' := by simp [memory]
  simp only [catalogRecord, hsz, hn, hr, Option.bind_eq_bind, Option.bind_some, hmem]
  have hp := packAll_spec (leBytes 4 id :: args.map fun a => packBytes a.1 a.2) (by
    intro c hc
    rcases List.mem_cons.mp hc with rfl | hc
    · rw [leBytes_length]
    · obtain ⟨a, -, rfl⟩ := List.mem_map.mp hc
      rw [packBytes_length]
      rcases packSize_cases a.1 with h | h <;> rw [h])
    (leBytes 4 w.toNat) (memory r') (by
      rw [memory_length]
      simp only [List.length_cons] at hlen
      simp only [List.map_cons, leBytes_length, List.sum_cons, List.map_map, Function.comp_def,
        packBytes_length]
      have := h4 args
      omega)
  rw [leBytes_length] at hp
  simpa using hp

/-! ## Version records -/

theorem bitWidth_le {v k : Nat} (h : bitWidth v ≤ k) : v < 2 ^ k := by
  rw [bitWidth] at h
  split at h
  · next h0 => rw [h0]; exact Nat.two_pow_pos k
  · next h0 => exact (Nat.log2_lt h0).mp (by omega)

/-- The build id in the one word of the compact record. -/
theorem compact32_value (N x : Nat) (hx : x < 2 ^ 22)
    (h : ∀ i, x.testBit i = match (⟨[At.ofDword 0 31 30, At.ofDword 0 23 4], 32⟩ : Fld).positions[i]? with
      | some p => N.testBit p
      | none => false) : N / 2 ^ 4 % 2 ^ 20 + 2 ^ 20 * (N / 2 ^ 30 % 4) = x := by
  apply Nat.eq_of_testBit_eq
  intro i
  rw [Nat.add_comm, Nat.testBit_two_pow_mul_add _ (Nat.mod_lt _ (Nat.two_pow_pos 20))]
  have hpos : ∀ i < 22, (⟨[At.ofDword 0 31 30, At.ofDword 0 23 4], 32⟩ : Fld).positions[i]? =
      some (if i < 20 then i + 4 else i - 20 + 30) := by decide
  by_cases h22 : i < 22
  · rw [h i, hpos i h22]
    dsimp only
    rw [show 4 = 2 ^ 2 from rfl, Nat.testBit_mod_two_pow, Nat.testBit_mod_two_pow, Nat.testBit_div_two_pow,
      Nat.testBit_div_two_pow]
    split
    · next h20 => simp [h20]
    · next h20 => simp [show i - 20 < 2 from by omega]
  · rw [Nat.testBit_lt_two_pow (x := x) (Nat.lt_of_lt_of_le hx (Nat.pow_le_pow_right (by decide) (by omega))),
      if_neg (by omega), show 4 = 2 ^ 2 from rfl, Nat.testBit_mod_two_pow]
    simp [show ¬ i - 20 < 2 from by omega]

/-- The build id in the two words of the compact record. -/
theorem compact64_value (N x : Nat) (hx : x < 2 ^ 54) (hN : N < 2 ^ 64)
    (h : ∀ i, x.testBit i =
      match (⟨[At.ofDword 1 31 0, At.ofDword 0 31 30, At.ofDword 0 23 4], 64⟩ : Fld).positions[i]? with
      | some p => N.testBit p
      | none => false) :
    N / 2 ^ 4 % 2 ^ 20 + 2 ^ 20 * (N / 2 ^ 30 % 4) + 2 ^ 22 * (N / 2 ^ 32) = x := by
  apply Nat.eq_of_testBit_eq
  intro i
  have h1 : N / 2 ^ 4 % 2 ^ 20 + 2 ^ 20 * (N / 2 ^ 30 % 4) < 2 ^ 22 := by omega
  rw [Nat.add_comm, Nat.testBit_two_pow_mul_add _ h1, Nat.add_comm,
    Nat.testBit_two_pow_mul_add _ (Nat.mod_lt _ (Nat.two_pow_pos 20))]
  have hpos : ∀ i < 54,
      (⟨[At.ofDword 1 31 0, At.ofDword 0 31 30, At.ofDword 0 23 4], 64⟩ : Fld).positions[i]? =
      some (if i < 20 then i + 4 else if i < 22 then i - 20 + 30 else i - 22 + 32) := by decide
  by_cases h54 : i < 54
  · rw [h i, hpos i h54]
    dsimp only
    rw [show 4 = 2 ^ 2 from rfl, Nat.testBit_mod_two_pow, Nat.testBit_mod_two_pow, Nat.testBit_div_two_pow,
      Nat.testBit_div_two_pow, Nat.testBit_div_two_pow]
    by_cases h20 : i < 20
    · simp [h20, show i < 22 from by omega]
    · by_cases h22 : i < 22
      · simp [h20, h22, show i - 20 < 2 from by omega]
      · simp [h20, h22]
  · rw [Nat.testBit_lt_two_pow (x := x) (Nat.lt_of_lt_of_le hx (Nat.pow_le_pow_right (by decide) (by omega))),
      if_neg (by omega), Nat.testBit_div_two_pow,
      Nat.testBit_lt_two_pow (Nat.lt_of_lt_of_le hN (Nat.pow_le_pow_right (by decide) (by omega)))]

theorem readVersion_compact32 {v : Nat} (hv : v < 2 ^ 22) : ∃ bs,
    (construct 32 (storageSize 32 compact32Fields) compact32Fields [(fBuildId, v)]).map memory = some bs ∧
    readVersion bs = some (v, []) := by
  rw [show storageSize 32 compact32Fields = 1 from by decide]
  obtain ⟨r, hr, hlen, hget⟩ := C17_construction compact32_layout [(fBuildId, v)] (by
    simp [compact32Fields, fBuildId])
  have k0 := field_number compact32_layout hlen (f := typeF 0) (by simp [compact32Fields])
    (hget _ (by simp [compact32Fields])) ⟨3, 0⟩ rfl
  have k1 := field_number compact32_layout hlen (f := subtypeF 0) (by simp [compact32Fields])
    (hget _ (by simp [compact32Fields])) ⟨29, 24⟩ rfl
  have k2 := field_bits compact32_layout hlen
    (f := ⟨fBuildId, ⟨[At.ofDword 0 31 30, At.ofDword 0 23 4], 32⟩, .value 0, 0⟩)
    (by simp [compact32Fields]) (hget _ (by simp [compact32Fields]))
  have hb : expected [(fBuildId, v)]
      ⟨fBuildId, ⟨[At.ofDword 0 31 30, At.ofDword 0 23 4], 32⟩, .value 0, 0⟩ %
      2 ^ MField.bits ⟨fBuildId, ⟨[At.ofDword 0 31 30, At.ofDword 0 23 4], 32⟩, .value 0, 0⟩ = v := by
    rw [show MField.bits ⟨fBuildId, ⟨[At.ofDword 0 31 30, At.ofDword 0 23 4], 32⟩, .value 0, 0⟩ = 22
      from by decide]
    simp only [expected, lastNamed, List.reverse_cons, List.reverse_nil, List.nil_append, List.find?,
      Option.map_some, beq_self_eq_true]
    exact Nat.mod_eq_of_lt hv
  rw [hb] at k2
  refine ⟨memory r, by rw [hr]; rfl, ?_⟩
  have hml : (memory r).length = 4 := by rw [memory_length, hlen]
  have hN := fromLe_memory (.inr rfl) r
  rw [readVersion, List.take_of_length_le (by omega), hN]
  have hval := compact32_value _ _ hv k2
  simp [expected, lastNamed, typeF, subtypeF, Dflt.val?, MField.bits, At.ofDword] at k0 k1
  rw [if_neg (by omega), if_pos ⟨by omega, hml⟩, hval]

theorem readVersion_compact64 {v : Nat} (hv : v < 2 ^ 54) : ∃ bs,
    (construct 32 (storageSize 32 compact64Fields) compact64Fields [(fBuildId, v)]).map memory = some bs ∧
    readVersion bs = some (v, []) := by
  rw [show storageSize 32 compact64Fields = 2 from by decide]
  obtain ⟨r, hr, hlen, hget⟩ := C17_construction compact64_layout [(fBuildId, v)] (by
    simp [compact64Fields, fBuildId])
  have k0 := field_number compact64_layout hlen (f := typeF 0) (by simp [compact64Fields])
    (hget _ (by simp [compact64Fields])) ⟨3, 0⟩ rfl
  have k1 := field_number compact64_layout hlen (f := subtypeF 1) (by simp [compact64Fields])
    (hget _ (by simp [compact64Fields])) ⟨29, 24⟩ rfl
  have k2 := field_bits compact64_layout hlen
    (f := ⟨fBuildId, ⟨[At.ofDword 1 31 0, At.ofDword 0 31 30, At.ofDword 0 23 4], 64⟩, .value 0, 0⟩)
    (by simp [compact64Fields]) (hget _ (by simp [compact64Fields]))
  have hb : expected [(fBuildId, v)]
      ⟨fBuildId, ⟨[At.ofDword 1 31 0, At.ofDword 0 31 30, At.ofDword 0 23 4], 64⟩, .value 0, 0⟩ %
      2 ^ MField.bits ⟨fBuildId, ⟨[At.ofDword 1 31 0, At.ofDword 0 31 30, At.ofDword 0 23 4], 64⟩,
        .value 0, 0⟩ = v := by
    rw [show MField.bits ⟨fBuildId, ⟨[At.ofDword 1 31 0, At.ofDword 0 31 30, At.ofDword 0 23 4], 64⟩,
      .value 0, 0⟩ = 54 from by decide]
    simp only [expected, lastNamed, List.reverse_cons, List.reverse_nil, List.nil_append, List.find?,
      Option.map_some, beq_self_eq_true]
    exact Nat.mod_eq_of_lt hv
  rw [hb] at k2
  refine ⟨memory r, by rw [hr]; rfl, ?_⟩
  have hml : (memory r).length = 8 := by rw [memory_length, hlen]
  have hN := fromLe_memory (.inr rfl) r
  have hlt := fromLe_lt (memory r) (memory_lt r)
  rw [hml, hN] at hlt
  have hval := compact64_value _ _ hv (by norm_num at hlt ⊢; exact hlt) k2
  rw [readVersion, fromLe_take _ (memory_lt r) 4 (by omega), fromLe_drop _ (memory_lt r) 4 (by omega), hN]
  simp [expected, lastNamed, typeF, subtypeF, Dflt.val?, MField.bits, At.ofDword] at k0 k1
  rw [if_neg (by norm_num; omega), if_neg (by omega), if_pos ⟨by norm_num; omega, hml⟩]
  congr 2
  rw [← hval]
  norm_num
  omega

/-- The long record: header, build id and text. -/
theorem normalRecord_spec (v : Nat) (s : List Nat) : ∃ h : List Nat, h.length = 6 ∧ (∀ b ∈ h, b < 256) ∧
    normalRecord v s = some (h ++ (leBytes 8 v ++ s)) ∧ fromLe h % 16 = 0 ∧ fromLe h / 2 ^ 24 % 64 = 2 ∧
    fromLe h / 2 ^ 32 = (s.length + 8) % 2 ^ 16 := by
  have hsz : storageSize 8 normalFields = 6 := by decide
  have L : Layout 8 (6 + (s.length + 8)) normalFields := layout_grow normal_layout (by omega)
  obtain ⟨r, hr, hlen, hget⟩ := C17_construction L [(fPayloadLen, s.length + 8)] (by
    simp [normalFields, fPayloadLen])
  have k0 := field_number L hlen (f := typeF 0) (by simp [normalFields])
    (hget _ (by simp [normalFields])) ⟨3, 0⟩ rfl
  have k1 := field_number L hlen (f := subtypeF 2) (by simp [normalFields])
    (hget _ (by simp [normalFields])) ⟨29, 24⟩ rfl
  have k2 := field_number L hlen (f := ⟨fPayloadLen, ⟨[At.ofDword 1 15 0], 16⟩, .value 0, 0⟩)
    (by simp [normalFields]) (hget _ (by simp [normalFields])) ⟨47, 32⟩ rfl
  have hml : (memory r).length = 6 + (s.length + 8) := by rw [memory_length, hlen]; omega
  have hN := fromLe_memory (.inl rfl) r
  simp [expected, lastNamed, typeF, subtypeF, Dflt.val?, MField.bits, At.ofDword] at k0 k1 k2
  -- the header, and the room for the build id and the text
  obtain ⟨h, m1, m2, hm, hh, h1, h2⟩ : ∃ h m1 m2 : List Nat, memory r = h ++ (m1 ++ m2) ∧ h.length = 6 ∧
      m1.length = 8 ∧ m2.length = s.length := by
    refine ⟨(memory r).take 6, ((memory r).drop 6).take 8, ((memory r).drop 6).drop 8, by
      rw [List.take_append_drop, List.take_append_drop], ?_, ?_, ?_⟩
    all_goals simp; omega
  have ht : h = (memory r).take 6 := by rw [hm, ← hh, List.take_left]
  have hf : fromLe h = storageNat r % 256 ^ 6 := by
    rw [ht, fromLe_take _ (memory_lt r) 6 (by omega), hN]
  refine ⟨h, hh, fun b hb => memory_lt r b (List.mem_of_mem_take (ht ▸ hb)), ?_, ?_, ?_, ?_⟩
  · simp only [normalRecord, hsz, hr, Option.bind_eq_bind, Option.bind_some, hm]
    have c1 := memcpy_at h m1 m2 (leBytes 8 v) (by rw [leBytes_length, h1])
    have c2 := memcpy_at (h ++ leBytes 8 v) m2 [] s (by rw [h2])
    rw [hh] at c1
    simp only [List.length_append, hh, leBytes_length, List.append_assoc, List.append_nil] at c2
    rw [c1, Option.bind_some, c2]
  all_goals rw [hf]; norm_num; omega

theorem readVersion_normal {v : Nat} (hv : v < 2 ^ 64) (s : List Nat) : ∃ bs,
    normalRecord v s = some bs ∧
    readVersion bs = if s.length + 8 < 2 ^ 16 then some (v, s) else none := by
  obtain ⟨h, hh, hb, hr, k0, k1, k2⟩ := normalRecord_spec v s
  refine ⟨_, hr, ?_⟩
  have e1 : (h ++ (leBytes 8 v ++ s)).take 4 = h.take 4 := by
    rw [List.take_append_of_le_length (by omega)]
  have e2 : ((h ++ (leBytes 8 v ++ s)).drop 4).take 2 = h.drop 4 := by
    rw [List.drop_append_of_le_length (by omega), List.take_append_of_le_length (by simp; omega),
      List.take_of_length_le (by simp; omega)]
  have e3 : ((h ++ (leBytes 8 v ++ s)).drop 6).take 8 = leBytes 8 v := by
    rw [← hh, List.drop_left]
    exact List.take_left' (leBytes_length 8 v)
  have e4 : (h ++ (leBytes 8 v ++ s)).drop 14 = s := by
    rw [← List.append_assoc, show 14 = (h ++ leBytes 8 v).length from by simp [hh, leBytes_length],
      List.drop_left]
  have el : (h ++ (leBytes 8 v ++ s)).length = 6 + (s.length + 8) := by
    simp [hh, leBytes_length]; omega
  rw [readVersion]
  have hv' : v % 256 ^ 8 = v := Nat.mod_eq_of_lt (by norm_num at hv ⊢; exact hv)
  rw [e1, e2, e3, e4, el, fromLe_take _ hb 4 (by omega), fromLe_drop _ hb 4 (by omega),
    fromLe_leBytes, hv']
  rw [if_neg (by norm_num; omega), if_neg (by norm_num; omega), if_neg (by norm_num; omega)]
  split
  · rw [if_pos (by norm_num; omega)]
  · rw [if_neg (by norm_num; omega)]

end Verif.Log
