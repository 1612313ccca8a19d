import Verif.Bits.FieldLemmas
/-!
# Properties C09–C16: reading and writing fields
-/
namespace Verif.Bits

/-- Element widths for which the location arithmetic is exact. -/
def Narrow (W : Nat) : Prop := W = 8 ∨ W = 16 ∨ W = 32

theorem size_le_sum {ats : List At} {a : At} (h : a ∈ ats) : a.size ≤ (ats.map At.size).sum := by
  induction ats with
  | nil => simp at h
  | cons b bs ih =>
    simp only [List.mem_cons] at h
    simp only [List.map_cons, List.sum_cons]
    rcases h with rfl | h
    · omega
    · have := ih h; omega

theorem mem_fld_positions (f : Fld) (p : Nat) : p ∈ f.positions ↔ ∃ a ∈ f.ats, a.lsb ≤ p ∧ p ≤ a.msb := by
  simp only [Fld.positions, List.mem_flatten, List.mem_map, List.mem_reverse]
  constructor
  · rintro ⟨_, ⟨a, ha, rfl⟩, hp⟩; exact ⟨a, ha, (mem_positions p).1 hp⟩
  · rintro ⟨a, ha, hp⟩; exact ⟨_, ⟨a, ha, rfl⟩, (mem_positions p).2 hp⟩

theorem valid_le {a : At} (h : a.valid = true) : a.lsb ≤ a.msb ∧ a.size ≤ 64 := by
  simp only [At.valid, Bool.and_eq_true, decide_eq_true_eq] at h; omega

theorem Fld.Legal.locOk {f : Fld} (h : f.Legal) {W n : Nat} (hW0 : 0 < W)
    (hal : ∀ a ∈ f.ats, baseIndex W a.loc * W = a.loc.index * 32)
    (hin : f.Within (n * W)) : ∀ a ∈ f.ats, LocOk W f.EW a n := by
  intro a ha
  have hv := valid_le (h.1 a ha)
  refine ⟨hW0, hal a ha, hv.1, Nat.le_trans (size_le_sum ha) h.2.1, ?_⟩
  exact hin _ ((mem_fld_positions f _).2 ⟨a, ha, hv.1, Nat.le_refl _⟩)

theorem Narrow.pos {W : Nat} (h : Narrow W) : 0 < W := by rcases h with h | h | h <;> omega

theorem Narrow.aligned {W : Nat} (h : Narrow W) (f : Fld) :
    ∀ a ∈ f.ats, baseIndex W a.loc * W = a.loc.index * 32 :=
  fun a _ => baseIndex_aligned h a.loc

theorem Narrow.le {W : Nat} (h : Narrow W) (EW : Nat) : W ≤ promoted EW := by
  simp only [promoted]; rcases h with h | h | h <;> omega

theorem positions_total {f : Fld} (h : f.Legal) : f.positions.length = (f.ats.map At.size).sum := by
  simp only [Fld.positions]
  have : ∀ ats : List At, (∀ a ∈ ats, a.lsb ≤ a.msb) →
      (ats.reverse.map At.positions).flatten.length = (ats.map At.size).sum := by
    intro ats
    induction ats with
    | nil => simp
    | cons a as ih =>
      intro hl
      have h1 := ih (fun c hc => hl c (by simp [hc]))
      simp only [List.reverse_cons, List.map_append, List.flatten_append, List.length_append,
        List.map_cons, List.map_nil, List.flatten_cons, List.flatten_nil, List.append_nil,
        List.sum_cons, h1, positions_length (hl a (by simp))]
      omega
  exact this f.ats (fun a ha => (valid_le (h.1 a ha)).1)

theorem extract_spec {W : Nat} {f : Fld} {r : List (BitVec W)} (hok : ∀ a ∈ f.ats, LocOk W f.EW a r.length)
    (h : f.Legal) : ∃ v, f.extract W r = some v ∧ ∀ i, v.getLsbD i = f.specBit r i := by
  obtain ⟨v, hv, hb⟩ := extractField_spec f.ats [] (0 : BitVec f.EW) hok (by simpa using h.2.1)
    (by intro i; simp [bitOf])
  refine ⟨v, hv, fun i => ?_⟩
  rw [hb, List.append_nil]; rfl

theorem insert_spec {W : Nat} {f : Fld} {r : List (BitVec W)} {v : BitVec f.EW}
    (hW : W ≤ promoted f.EW) (hok : ∀ a ∈ f.ats, LocOk W f.EW a r.length) :
    ∃ r', f.insert W r v = some r' ∧ r'.length = r.length ∧
      (∀ p, p ∉ f.positions → bitAt r' p = bitAt r p) ∧
      (f.NonOverlapping → ∀ i p, f.positions[i]? = some p → bitAt r' p = v.getLsbD i) := by
  have := insertGoField_spec r.length hW f.ats.reverse r v rfl (fun a ha => hok a (by simpa using ha))
  simpa [Fld.insert, insertField, Fld.NonOverlapping, Fld.positions] using this

/-! ## C11 -/

/-- C11: a legal field read from storage of 8, 16 or 32-bit elements that contains its bits gives
exactly the bits at its positions, lowest first. -/
theorem C11_reads_declared_bits {W : Nat} (hW : Narrow W) (f : Fld) (hf : f.Legal)
    (r : List (BitVec W)) (hin : f.Within (r.length * W)) :
    ∃ v, f.extract W r = some v ∧ ∀ i, v.getLsbD i = f.specBit r i :=
  extract_spec (hf.locOk hW.pos (hW.aligned f) hin) hf

/-- The storage as one number, first element least significant. -/
def storageNat {W : Nat} : List (BitVec W) → Nat
  | [] => 0
  | e :: r => e.toNat + 2 ^ W * storageNat r

theorem testBit_storageNat {W : Nat} (hW : 0 < W) (r : List (BitVec W)) (p : Nat) :
    (storageNat r).testBit p = bitAt r p := by
  induction r generalizing p with
  | nil => simp [storageNat, bitAt]
  | cons e r ih =>
    simp only [storageNat]
    rw [Nat.add_comm, Nat.testBit_two_pow_mul_add _ e.isLt]
    by_cases hp : p < W
    · have h1 : p / W = 0 := Nat.div_eq_of_lt hp
      have h2 : p % W = p := Nat.mod_eq_of_lt hp
      rw [if_pos hp]
      simp [bitAt, h1, h2, BitVec.getLsbD]
    · have h1 : p / W = (p - W) / W + 1 := by
        rw [← Nat.add_div_right _ hW]; congr 1; omega
      have h2 : p % W = (p - W) % W := by
        rw [← Nat.add_mod_right (p - W) W]; congr 1; omega
      rw [if_neg hp, ih]
      simp [bitAt, h1, h2]

/-- C11 as arithmetic, for a field with one location: the storage seen as one number, divided by
`2^lsb`, modulo `2^size`. -/
theorem C11_reads_number {W : Nat} (hW : Narrow W) (a : At) (EW : Nat)
    (hf : (Fld.mk [a] EW).Legal) (r : List (BitVec W)) (hin : a.msb < r.length * W) :
    ∃ v, (Fld.mk [a] EW).extract W r = some v ∧
      v.toNat = storageNat r / 2 ^ a.lsb % 2 ^ (a.msb + 1 - a.lsb) := by
  have hle := (valid_le (hf.1 a (by simp))).1
  obtain ⟨v, hv, hb⟩ := C11_reads_declared_bits hW ⟨[a], EW⟩ hf r (by
    intro p hp
    rw [mem_fld_positions] at hp
    obtain ⟨a', ha', h1, h2⟩ := hp
    simp only [List.mem_singleton] at ha'
    subst ha'; omega)
  refine ⟨v, hv, Nat.eq_of_testBit_eq fun i => ?_⟩
  have := hb i
  rw [BitVec.getLsbD] at this
  rw [this, Nat.testBit_mod_two_pow, Nat.testBit_div_two_pow, testBit_storageNat hW.pos]
  simp only [Fld.specBit, Fld.positions, List.reverse_cons, List.reverse_nil, List.nil_append,
    List.map_cons, List.map_nil, List.flatten_cons, List.flatten_nil, List.append_nil,
    positions_getElem? hle, At.size]
  by_cases hi : i < a.msb - a.lsb + 1
  · have : i < a.msb + 1 - a.lsb := by omega
    simp [hi, this, Nat.add_comm]
  · have : ¬ i < a.msb + 1 - a.lsb := by omega
    simp [hi, this]

/-- A split field: bits 33..30 are the high part, bits 7..4 the low part. -/
def exSplit : Fld := ⟨[⟨33, 30⟩, ⟨7, 4⟩], 8⟩

theorem exSplit_legal : exSplit.Legal := by simp [Fld.Legal, exSplit, At.valid, At.size]

example : (Fld.extract 8 ⟨[⟨33, 30⟩, ⟨7, 4⟩], 8⟩ [0xA0#8, 0, 0, 0xC0#8, 0x02#8]) = some 0xBA#8 := by decide

example : exSplit.Legal ∧ exSplit.NonOverlapping ∧ exSplit.Within (5 * 8) ∧ Narrow 8 :=
  ⟨exSplit_legal, by unfold Fld.NonOverlapping; decide, by unfold Fld.Within; decide, .inl rfl⟩

/-! ## C10 -/

/-- C10: writing a field keeps every bit outside its locations (even if the field's own locations
overlap), and the storage size. -/
theorem C10_write_frame {W : Nat} (hW : Narrow W) (f : Fld) (hf : f.Legal)
    (r : List (BitVec W)) (hin : f.Within (r.length * W)) (v : BitVec f.EW) :
    ∃ r', f.insert W r v = some r' ∧ r'.length = r.length ∧
      ∀ p, p ∉ f.positions → bitAt r' p = bitAt r p := by
  obtain ⟨r', h1, h2, h3, _⟩ := insert_spec (v := v) (hW.le f.EW)
    (hf.locOk hW.pos (hW.aligned f) hin)
  exact ⟨r', h1, h2, h3⟩

theorem specBit_congr {W : Nat} (g : Fld) (r r' : List (BitVec W))
    (h : ∀ p ∈ g.positions, bitAt r' p = bitAt r p) (i : Nat) : g.specBit r' i = g.specBit r i := by
  simp only [Fld.specBit]
  cases hp : g.positions[i]? with
  | none => rfl
  | some p => exact h p (List.mem_of_getElem? hp)

/-- C10: another field that shares no bit reads the same before and after. -/
theorem C10_other_field_unchanged {W : Nat} (hW : Narrow W) (f g : Fld) (hf : f.Legal)
    (hg : g.Legal) (hd : f.Disjoint g) (r : List (BitVec W)) (hin : f.Within (r.length * W))
    (hing : g.Within (r.length * W)) (v : BitVec f.EW) :
    ∃ r', f.insert W r v = some r' ∧ g.extract W r' = g.extract W r ∧
      (g.extract W r).isSome := by
  obtain ⟨r', h1, h2, h3⟩ := C10_write_frame hW f hf r hin v
  obtain ⟨x, hx, hxb⟩ := C11_reads_declared_bits hW g hg r hing
  obtain ⟨y, hy, hyb⟩ := C11_reads_declared_bits hW g hg r' (by rw [h2]; exact hing)
  refine ⟨r', h1, ?_, by simp [hx]⟩
  rw [hx, hy]
  congr 1
  apply BitVec.eq_of_getLsbD_eq
  intro i _
  rw [hxb, hyb]
  exact specBit_congr g r r' (fun p hp => h3 p (fun hp' => hd p hp' hp)) i

example : exSplit.Disjoint ⟨[⟨29, 8⟩], 32⟩ := by unfold Fld.Disjoint; decide

/-! ## C09 -/

theorem canHold_iff {f : Fld} (hf : f.Legal) (v : BitVec f.EW) :
    f.canHold v = true ↔ v.toNat < 2 ^ f.positions.length := by
  rw [positions_total hf]
  simp only [Fld.canHold, decide_eq_true_eq]
  split
  · next h => simp [h, Nat.two_pow_pos]
  · next h => rw [← Nat.log2_lt h]; exact Nat.succ_le_iff

/-- C09: after writing `v`, reading gives `v` reduced to the number of bits of the field. -/
theorem C09_write_read {W : Nat} (hW : Narrow W) (f : Fld) (hf : f.Legal)
    (hno : f.NonOverlapping) (r : List (BitVec W)) (hin : f.Within (r.length * W))
    (v : BitVec f.EW) :
    ∃ r' v', f.insert W r v = some r' ∧ f.extract W r' = some v' ∧
      v'.toNat = v.toNat % 2 ^ f.positions.length := by
  obtain ⟨r', h1, h2, _, h4⟩ := insert_spec (v := v) (hW.le f.EW)
    (hf.locOk hW.pos (hW.aligned f) hin)
  obtain ⟨y, hy, hyb⟩ := C11_reads_declared_bits hW f hf r' (by rw [h2]; exact hin)
  refine ⟨r', y, h1, hy, Nat.eq_of_testBit_eq fun i => ?_⟩
  have hb := hyb i
  rw [BitVec.getLsbD] at hb
  rw [hb, Nat.testBit_mod_two_pow]
  simp only [Fld.specBit]
  cases hp : f.positions[i]? with
  | none =>
    have : ¬ i < f.positions.length := by simpa using hp
    simp [this]
  | some p =>
    have : i < f.positions.length := by
      by_contra hn
      rw [List.getElem?_eq_none (by omega)] at hp
      simp at hp
    simp only [this, decide_true, Bool.true_and]
    exact h4 hno i p hp

/-- C09: a value that the field reports it can hold is read back exactly. -/
theorem C09_write_read_fits {W : Nat} (hW : Narrow W) (f : Fld) (hf : f.Legal)
    (hno : f.NonOverlapping) (r : List (BitVec W)) (hin : f.Within (r.length * W))
    (v : BitVec f.EW) (hv : f.canHold v = true) :
    ∃ r', f.insert W r v = some r' ∧ f.extract W r' = some v := by
  obtain ⟨r', v', h1, h2, h3⟩ := C09_write_read hW f hf hno r hin v
  rw [Nat.mod_eq_of_lt ((canHold_iff hf v).1 hv)] at h3
  have : v' = v := BitVec.eq_of_toNat_eq h3
  subst this
  exact ⟨r', h1, h2⟩

example : Fld.insert 8 ⟨[⟨33, 30⟩, ⟨7, 4⟩], 8⟩ [0xFF#8, 0xFF#8, 0xFF#8, 0xFF#8, 0xFF#8] 0x5A#8 =
      some [0xAF#8, 0xFF#8, 0xFF#8, 0x7F#8, 0xFD#8] := by decide

/-! ## C12 -/

/-- C12 is violated: a one-bit field just past the end passes the fit check, and reading or writing
it touches an element that does not exist. -/
theorem C12_violated : ∃ f : Fld, f.Legal ∧ f.fitsInside 32 1 = true ∧
    f.extract 32 [0#32] = none ∧ f.insert 32 [0#32] 1 = none :=
  ⟨⟨[⟨32, 32⟩], 32⟩, by simp [Fld.Legal, At.valid, At.size], by decide, by decide, by decide⟩

theorem extractField_none {W EW : Nat} {r : List (BitVec W)} {l : Loc}
    (h : r.length ≤ baseIndex W l + l.msb / W) : l.extract W EW r = none := by
  have hn : r[baseIndex W l + l.msb / W]? = none := List.getElem?_eq_none h
  simp only [Loc.extract, Option.map_eq_none_iff, extractGo]
  split
  · simp [hn]
  · split
    · simp [hn]
    · simp [hn]

/-- C12: the defect is not accidental: *every* one-location field whose top bit is the bit just past
the storage passes the check and is read out of bounds. -/
theorem C12_violated_everywhere {W : Nat} (hW : Narrow W) (a : At) (EW : Nat)
    (hf : (Fld.mk [a] EW).Legal) (r : List (BitVec W)) (hend : a.msb = W * r.length) :
    (Fld.mk [a] EW).fitsInside W r.length = true ∧ (Fld.mk [a] EW).extract W r = none := by
  have hv := valid_le (hf.1 a (by simp))
  have hm := loc_msb hv.1
  have hb := baseIndex_aligned hW a.loc
  constructor
  · simp only [Fld.fitsInside, Loc.fitsInside, List.map_cons, List.map_nil, List.all_cons,
      List.all_nil, Bool.and_true, decide_eq_true_eq]
    omega
  · have : a.loc.extract W EW r = none := by
      apply extractField_none
      have h2 : (baseIndex W a.loc * W + a.loc.msb) / W = r.length := by
        rw [hb, hm, hend, Nat.mul_div_cancel_left _ hW.pos]
      rw [Nat.add_comm, Nat.add_mul_div_right _ _ hW.pos] at h2
      omega
    simp [Fld.extract, extractField, this]

/-- C12 (partial): a legal field that passes the check and has no location whose top bit is exactly
the bit after the end is always accessed inside the storage. Missing: exactly that boundary, where
the claim fails (`C12_violated_everywhere`). -/
theorem C12_fits_inside_partial {W : Nat} (hW : Narrow W) (f : Fld) (hf : f.Legal)
    (r : List (BitVec W)) (hfit : f.fitsInside W r.length = true)
    (hend : ∀ a ∈ f.ats, a.msb ≠ W * r.length) (v : BitVec f.EW) :
    (f.extract W r).isSome ∧ (f.insert W r v).isSome := by
  have hin : f.Within (r.length * W) := by
    intro p hp
    obtain ⟨a, ha, h1, h2⟩ := (mem_fld_positions f p).1 hp
    simp only [Fld.fitsInside, List.all_map, List.all_eq_true, Function.comp, Loc.fitsInside,
      decide_eq_true_eq] at hfit
    have := hfit a ha
    rw [loc_msb (valid_le (hf.1 a ha)).1] at this
    have := hend a ha
    rw [Nat.mul_comm]; omega
  obtain ⟨x, hx, _⟩ := C11_reads_declared_bits hW f hf r hin
  obtain ⟨y, hy, _⟩ := C10_write_frame hW f hf r hin v
  simp [hx, hy]

example : exSplit.fitsInside 8 5 = true := by decide

/-! ## C13 -/

/-- `storage_size<Fields...>::in<T>` (`msg/message.hpp` 189-193). -/
def storageSize (W : Nat) (fs : List Fld) : Nat := (fs.map (·.extentIn W)).foldl max 0

theorem le_foldl_max (xs : List Nat) (x acc : Nat) (h : x ≤ acc ∨ x ∈ xs) : x ≤ xs.foldl max acc := by
  induction xs generalizing acc with
  | nil => simpa using h
  | cons y ys ih =>
    apply ih
    simp only [List.mem_cons] at h
    rcases h with h | rfl | h
    · left; omega
    · left; omega
    · right; exact h

theorem extentIn_ok {W : Nat} (hW : Narrow W) {a : At} (hl : a.lsb ≤ a.msb) :
    a.msb < a.loc.extentIn W * W := by
  have h1 := loc_msb hl
  have h2 : a.loc.msb + 1 = a.loc.lsb + a.loc.size := by
    simp only [Loc.msb, loc_size, At.size]; omega
  rcases hW with rfl | rfl | rfl <;> simp only [Loc.extentIn] <;> omega

/-- C13: in the storage the library computes for a message every bit of every field exists, so
every access succeeds. -/
theorem C13_default_storage_big_enough {W : Nat} (hW : Narrow W) (fs : List Fld) (f : Fld)
    (hmem : f ∈ fs) (hf : f.Legal) (r : List (BitVec W)) (hr : r.length = storageSize W fs)
    (v : BitVec f.EW) :
    f.Within (r.length * W) ∧ (f.extract W r).isSome ∧ (f.insert W r v).isSome := by
  have hin : f.Within (r.length * W) := by
    intro p hp
    obtain ⟨a, ha, h1, h2⟩ := (mem_fld_positions f p).1 hp
    have h3 := extentIn_ok hW (valid_le (hf.1 a ha)).1
    have h4 : a.loc.extentIn W ≤ f.extentIn W :=
      le_foldl_max _ _ _ (.inr (by simp only [List.mem_map]; exact ⟨a.loc, ⟨a, ha, rfl⟩, rfl⟩))
    have h5 : f.extentIn W ≤ storageSize W fs :=
      le_foldl_max _ _ _ (.inr (by simp only [List.mem_map]; exact ⟨f, hmem, rfl⟩))
    have h6 : a.loc.extentIn W * W ≤ r.length * W :=
      Nat.mul_le_mul_right _ (by omega)
    omega
  obtain ⟨x, hx, _⟩ := C11_reads_declared_bits hW f hf r hin
  obtain ⟨y, hy, _⟩ := C10_write_frame hW f hf r hin v
  exact ⟨hin, by simp [hx], by simp [hy]⟩

/-- C13: and it is no bigger than needed: with one element less, some field has a bit outside. -/
theorem C13_default_storage_minimal {W : Nat} (hW : Narrow W) (fs : List Fld)
    (hfs : ∀ f ∈ fs, f.Legal) (hpos : 0 < storageSize W fs) :
    ∃ f ∈ fs, ¬ f.Within ((storageSize W fs - 1) * W) := by
  have attained : ∀ (xs : List Nat) (acc : Nat), acc < xs.foldl max acc → xs.foldl max acc ∈ xs := by
    intro xs
    induction xs with
    | nil => intro acc h; simp at h
    | cons y ys ih =>
      intro acc h
      simp only [List.foldl_cons] at h ⊢
      by_cases hy : max acc y < ys.foldl max (max acc y)
      · exact List.mem_cons_of_mem _ (ih _ hy)
      · have h1 : max acc y ≤ ys.foldl max (max acc y) := le_foldl_max _ _ _ (.inl (Nat.le_refl _))
        have h2 : ys.foldl max (max acc y) = y := by omega
        rw [h2]; exact List.mem_cons_self
  obtain ⟨f, hf, hfe⟩ := List.mem_map.1 (attained _ 0 hpos)
  have hfp : 0 < f.extentIn W := by
    have : storageSize W fs = f.extentIn W := hfe.symm
    omega
  obtain ⟨l, hl, hle⟩ := List.mem_map.1 (attained _ 0 hfp)
  obtain ⟨a, ha, rfl⟩ := List.mem_map.1 hl
  refine ⟨f, hf, fun hw => ?_⟩
  have hav := (valid_le ((hfs f hf).1 a ha)).1
  have h1 := hw a.msb ((mem_fld_positions f _).2 ⟨a, ha, hav, Nat.le_refl _⟩)
  have h2 : storageSize W fs = a.loc.extentIn W := by
    have e1 : storageSize W fs = f.extentIn W := hfe.symm
    have e2 : f.extentIn W = a.loc.extentIn W := hle.symm
    omega
  rw [h2] at h1
  have h3 := loc_msb hav
  have h4 : a.loc.msb + 1 = a.loc.lsb + a.loc.size := by
    simp only [Loc.msb, loc_size, At.size]; omega
  rcases hW with rfl | rfl | rfl <;> simp only [Loc.extentIn] at h1 <;> omega

example : storageSize 32 [exSplit, ⟨[⟨5, 5⟩], 8⟩] = 2 ∧ storageSize 8 [exSplit] = 5 := by decide

/-! ## C14 -/

/-- C14: the same bits seen through elements of another width give the same value. -/
theorem C14_read_independent_of_width {W W' : Nat} (hW : Narrow W) (hW' : Narrow W') (f : Fld)
    (hf : f.Legal) (r : List (BitVec W)) (r' : List (BitVec W')) (hs : SameBits r r')
    (hin : f.Within (r.length * W)) :
    f.extract W r = f.extract W' r' ∧ (f.extract W r).isSome := by
  obtain ⟨x, hx, hxb⟩ := C11_reads_declared_bits hW f hf r hin
  obtain ⟨y, hy, hyb⟩ := C11_reads_declared_bits hW' f hf r' (by
    rw [Nat.mul_comm, ← hs.1, Nat.mul_comm]; exact hin)
  refine ⟨?_, by simp [hx]⟩
  rw [hx, hy]
  congr 1
  apply BitVec.eq_of_getLsbD_eq
  intro i _
  rw [hxb, hyb]
  simp only [Fld.specBit]
  cases f.positions[i]? with
  | none => rfl
  | some p => exact hs.2 p

/-- C14: writing through either width leaves the same bits. -/
theorem C14_write_independent_of_width {W W' : Nat} (hW : Narrow W) (hW' : Narrow W') (f : Fld)
    (hf : f.Legal) (hno : f.NonOverlapping) (r : List (BitVec W)) (r' : List (BitVec W'))
    (hs : SameBits r r') (hin : f.Within (r.length * W)) (v : BitVec f.EW) :
    ∃ s s', f.insert W r v = some s ∧ f.insert W' r' v = some s' ∧ SameBits s s' := by
  have hin' : f.Within (r'.length * W') := by
    rw [Nat.mul_comm, ← hs.1, Nat.mul_comm]; exact hin
  obtain ⟨s, h1, h2, h3, h4⟩ := insert_spec (v := v) (hW.le f.EW)
    (hf.locOk hW.pos (hW.aligned f) hin)
  obtain ⟨s', h1', h2', h3', h4'⟩ := insert_spec (v := v) (hW'.le f.EW)
    (hf.locOk hW'.pos (hW'.aligned f) hin')
  refine ⟨s, s', h1, h1', by rw [h2, h2']; exact hs.1, fun p => ?_⟩
  by_cases hp : p ∈ f.positions
  · obtain ⟨i, hi⟩ := List.mem_iff_getElem?.1 hp
    rw [h4 hno i p hi, h4' hno i p hi]
  · rw [h3 p hp, h3' p hp, hs.2]

/-- Two 16-bit elements hold the same bits as one 32-bit element. -/
example : SameBits [0x5678#16, 0x1234#16] [0x12345678#32] := by
  refine ⟨by decide, fun p => ?_⟩
  rw [← testBit_storageNat (by decide), ← testBit_storageNat (by decide)]
  rfl

/-! ## C15 -/

theorem insideInt_within {f : Fld} {W : Nat} (h : f.InsideInt W) : f.Within (1 * W) := by
  intro p hp
  obtain ⟨a, ha, h1, h2⟩ := (mem_fld_positions f p).1 hp
  have := h a ha
  omega

theorem bitAt_one {W : Nat} (u : BitVec W) (p : Nat) (hp : p < W) : bitAt [u] p = u.getLsbD p := by
  simp [bitAt, Nat.div_eq_of_lt hp, Nat.mod_eq_of_lt hp]

/-- C15 (partial) for 8, 16 and 32-bit integers: reading gives the bits of the integer at the
field's positions. Missing: 64-bit integers, see `C15_violated_read` and `C15_u64_low_partial`. -/
theorem C15_read_int_partial {W : Nat} (hW : Narrow W) (f : Fld) (hf : f.Legal)
    (hi : f.InsideInt W) (u : BitVec W) :
    ∃ v, f.extractInt W u = some v ∧
      ∀ i, v.getLsbD i = match f.positions[i]? with
        | some p => u.getLsbD p
        | none => false := by
  obtain ⟨v, hv, hb⟩ := C11_reads_declared_bits hW f hf [u] (insideInt_within hi)
  refine ⟨v, hv, fun i => ?_⟩
  rw [hb]
  simp only [Fld.specBit]
  cases hp : f.positions[i]? with
  | none => rfl
  | some p =>
    have := insideInt_within hi p (List.mem_of_getElem? hp)
    exact bitAt_one u p (by omega)

/-- C15 (partial) for 8, 16 and 32-bit integers: writing stores the value's bits at the field's
positions and keeps all others. Missing: 64-bit integers. -/
theorem C15_write_int_partial {W : Nat} (hW : Narrow W) (f : Fld) (hf : f.Legal)
    (hno : f.NonOverlapping) (hi : f.InsideInt W) (u : BitVec W) (v : BitVec f.EW) :
    ∃ u', f.insertInt W u v = some u' ∧
      (∀ i p, f.positions[i]? = some p → u'.getLsbD p = v.getLsbD i) ∧
      ∀ p, p ∉ f.positions → u'.getLsbD p = u.getLsbD p := by
  obtain ⟨r', h1, h2, h3, h4⟩ := insert_spec (r := [u]) (v := v) (hW.le f.EW)
    (hf.locOk hW.pos (hW.aligned f) (insideInt_within hi))
  match r', h2 with
  | [u'], _ =>
    refine ⟨u', by simp [Fld.insertInt, h1], fun i p hp => ?_, fun p hp => ?_⟩
    · have := insideInt_within hi p (List.mem_of_getElem? hp)
      rw [← bitAt_one u' p (by omega)]
      exact h4 hno i p hp
    · by_cases hpw : p < W
      · rw [← bitAt_one u' p hpw, ← bitAt_one u p hpw]; exact h3 p hp
      · rw [BitVec.getLsbD_of_ge _ _ (by omega), BitVec.getLsbD_of_ge _ _ (by omega)]

/-- C15 is violated for 64-bit integers: a field at bits 39..32 reads bits 7..0. -/
theorem C15_violated_read : ∃ (f : Fld) (u : BitVec 64), f.Legal ∧ f.InsideInt 64 ∧
    f.extractInt 64 u = some 0x11 ∧ u.extractLsb' 32 8 = 0xAA#8 :=
  ⟨⟨[⟨39, 32⟩], 8⟩, 0xAA00000011#64, by simp [Fld.Legal, At.valid, At.size],
    by simp [Fld.InsideInt], by decide, by decide⟩

/-- C15 is violated for 64-bit integers: writing a field at bits 39..32 overwrites bits 7..0. -/
theorem C15_violated_write : ∃ (f : Fld) (v : BitVec f.EW), f.Legal ∧ f.InsideInt 64 ∧
    f.insertInt 64 0#64 v = some 0xAA#64 :=
  ⟨⟨[⟨39, 32⟩], 8⟩, 0xAA#8, by simp [Fld.Legal, At.valid, At.size],
    by simp [Fld.InsideInt], by decide⟩

/-- C15 is violated for 64-bit integers even for a field starting in the low half: the value of a
narrow field that crosses bit 31 is cut off. -/
theorem C15_violated_write_crossing : ∃ (f : Fld) (v : BitVec f.EW), f.Legal ∧ f.InsideInt 64 ∧
    f.canHold v = true ∧ (f.insertInt 64 0#64 v).bind (f.extractInt 64) ≠ some v :=
  ⟨⟨[⟨35, 28⟩], 8⟩, 0xFF#8, by simp [Fld.Legal, At.valid, At.size],
    by simp [Fld.InsideInt], by decide, by decide⟩

theorem u64_aligned {f : Fld} (hlow : ∀ a ∈ f.ats, a.lsb < 32) :
    ∀ a ∈ f.ats, baseIndex 64 a.loc * 64 = a.loc.index * 32 := by
  intro a ha
  have : a.loc.index = 0 := by simp only [At.loc]; exact Nat.div_eq_of_lt (hlow a ha)
  simp [baseIndex, this]

/-- C15 (partial) for 64-bit integers: reading is right when every location starts in the low 32
bits. Missing: locations starting at bit 32 or above (`C15_violated_read`). -/
theorem C15_u64_low_partial (f : Fld) (hf : f.Legal) (hi : f.InsideInt 64)
    (hlow : ∀ a ∈ f.ats, a.lsb < 32) (u : BitVec 64) :
    ∃ v, f.extractInt 64 u = some v ∧
      ∀ i, v.getLsbD i = match f.positions[i]? with
        | some p => u.getLsbD p
        | none => false := by
  obtain ⟨v, hv, hb⟩ := extract_spec (r := [u])
    (hf.locOk (by decide) (u64_aligned hlow) (insideInt_within hi)) hf
  refine ⟨v, hv, fun i => ?_⟩
  rw [hb]
  simp only [Fld.specBit]
  cases hp : f.positions[i]? with
  | none => rfl
  | some p =>
    have := insideInt_within hi p (List.mem_of_getElem? hp)
    exact bitAt_one u p (by omega)

/-- C15 (partial) for 64-bit integers: writing is right for 64-bit values when every location
starts in the low 32 bits. Missing: `C15_violated_write`, `C15_violated_write_crossing`. -/
theorem C15_u64_write_low_partial (f : Fld) (hf : f.Legal) (hE : f.EW = 64)
    (hno : f.NonOverlapping) (hi : f.InsideInt 64) (hlow : ∀ a ∈ f.ats, a.lsb < 32)
    (u : BitVec 64) (v : BitVec f.EW) :
    ∃ u', f.insertInt 64 u v = some u' ∧
      (∀ i p, f.positions[i]? = some p → u'.getLsbD p = v.getLsbD i) ∧
      ∀ p, p ∉ f.positions → u'.getLsbD p = u.getLsbD p := by
  obtain ⟨r', h1, h2, h3, h4⟩ := insert_spec (r := [u]) (v := v)
    (by simp only [promoted]; omega)
    (hf.locOk (by decide) (u64_aligned hlow) (insideInt_within hi))
  match r', h2 with
  | [u'], _ =>
    refine ⟨u', by simp [Fld.insertInt, h1], fun i p hp => ?_, fun p hp => ?_⟩
    · have := insideInt_within hi p (List.mem_of_getElem? hp)
      rw [← bitAt_one u' p (by omega)]
      exact h4 hno i p hp
    · by_cases hpw : p < 64
      · rw [← bitAt_one u' p hpw, ← bitAt_one u p hpw]; exact h3 p hp
      · rw [BitVec.getLsbD_of_ge _ _ (by omega), BitVec.getLsbD_of_ge _ _ (by omega)]

example : (Fld.mk [⟨13, 10⟩] 8).extractInt 16 0x3C00#16 = some 0xF#8 := by decide

/-! ## C16 -/

/-- C16: with all element accesses inside the storage, no shift is undefined: reading and writing
a legal field never reaches the undefined outcome (elements of 8, 16, 32 bits). -/
theorem C16_no_undefined_shift {W : Nat} (hW : Narrow W) (f : Fld) (hf : f.Legal)
    (r : List (BitVec W)) (hin : f.Within (r.length * W)) (v : BitVec f.EW) :
    (f.extract W r).isSome ∧ (f.insert W r v).isSome := by
  obtain ⟨x, hx, _⟩ := C11_reads_declared_bits hW f hf r hin
  obtain ⟨y, hy, _⟩ := C10_write_frame hW f hf r hin v
  simp [hx, hy]

theorem loc_extract_defined {W EW : Nat} {l : Loc} {r : List (BitVec W)}
    (ok : Ok W (extractT W EW) l r.length) : (l.extract W EW r).isSome := by
  have hm : l.lsb ≤ l.msb := by have := ok.size_pos; simp only [Loc.msb]; omega
  obtain ⟨v, hv, _⟩ := extractGo_spec ok (l.msb / W + 1) l.msb 0
    (Nat.lt_of_lt_of_le (Nat.lt_succ_self _) (Nat.le_add_right _ _)) hm (.inl rfl)
    (by intro i; simp)
  rw [Loc.extract, hv]; rfl

theorem loc_insert_defined64 {EW : Nat} (hE : EW = 8 ∨ EW = 16 ∨ EW = 32 ∨ EW = 64) {l : Loc}
    {r : List (BitVec 64)} (e : BitVec EW) (he : ∀ i, l.size ≤ i → e.getLsbD i = false)
    (hlsb : l.lsb < 32) (hs0 : 0 < l.size) (hs : l.size ≤ EW)
    (hin : baseIndex 64 l * 64 + l.msb < r.length * 64) :
    ∃ r', l.insert 64 EW r e = some r' ∧ r'.length = r.length := by
  have hmsb : l.msb = l.lsb + l.size - 1 := rfl
  by_cases hE64 : EW = 64
  · subst hE64
    have ok : Ok 64 (promoted 64) l r.length := ⟨by omega, by simp [promoted], hs0, by
      simp only [promoted]; omega, hin⟩
    obtain ⟨r', hr', hlen, _⟩ := insertGo_spec r.length ok (l.msb / 64 + 1) l.lsb r
      (e.setWidth (promoted 64)) rfl
      (Nat.lt_of_lt_of_le (Nat.lt_succ_self _) (Nat.le_add_right _ _)) (Nat.le_refl _)
      (by omega) (.inl rfl) (by
        intro i hi
        rw [BitVec.getLsbD_setWidth, he i (by omega)]; simp)
    exact ⟨r', hr', hlen⟩
  · have hE' : EW ≤ 32 := by omega
    have h1 : l.lsb / 64 = 0 := Nat.div_eq_of_lt (by omega)
    have h2 : l.msb / 64 = 0 := Nat.div_eq_of_lt (by omega)
    have h3 : l.lsb % 64 = l.lsb := Nat.mod_eq_of_lt (by omega)
    have hb : baseIndex 64 l < r.length := by omega
    have hp : l.lsb < promoted EW := by simp only [promoted]; omega
    simp only [Loc.insert, insertGo, h1, h2, h3, Nat.add_zero, if_true]
    rw [List.getElem?_eq_getElem hb, shl, if_pos hp]
    exact ⟨_, rfl, by simp⟩

/-- C16 for 64-bit elements (where the values are not always right, C15): the element numbers the
code computes exist, so no shift is undefined. -/
theorem C16_no_undefined_shift_u64 (f : Fld) (hf : f.Legal) (r : List (BitVec 64))
    (hin : ∀ a ∈ f.ats, baseIndex 64 a.loc * 64 + a.loc.msb < r.length * 64) (v : BitVec f.EW) :
    (f.extract 64 r).isSome ∧ (f.insert 64 r v).isSome := by
  have hlegal := hf.2.2
  have hsz : ∀ a ∈ f.ats, 0 < a.loc.size ∧ a.loc.size ≤ f.EW ∧ a.loc.lsb < 32 := fun a ha =>
    ⟨by simp [loc_size, At.size], Nat.le_trans (size_le_sum ha) hf.2.1, Nat.mod_lt _ (by decide)⟩
  constructor
  · have key : ∀ (ats : List At) (raw : BitVec f.EW), (∀ a ∈ ats, a ∈ f.ats) →
        ∃ x, (ats.map At.loc).foldlM (fun raw l => do
          let raw ← l.unfold raw
          let x ← l.extract 64 f.EW r
          return raw ||| x) raw = some x := by
      intro ats
      induction ats with
      | nil => intro raw _; exact ⟨raw, rfl⟩
      | cons a as ih =>
        intro raw hmem
        have ha := hmem a (by simp)
        obtain ⟨u, hu, _⟩ := unfold_spec a.loc raw (hsz a ha).2.1
        have hx : (a.loc.extract 64 f.EW r).isSome := loc_extract_defined ⟨by omega, by
          simp only [extractT, promoted]; omega, (hsz a ha).1, by
          have := (hsz a ha).2.1
          simp only [extractT, promoted]; omega, hin a ha⟩
        obtain ⟨x, hx⟩ := Option.isSome_iff_exists.1 hx
        obtain ⟨y, hy⟩ := ih (u ||| x) (fun b hb => hmem b (by simp [hb]))
        refine ⟨y, ?_⟩
        rw [List.map_cons, List.foldlM_cons, hu, ← hy]
        simp [hx]
    obtain ⟨x, hx⟩ := key f.ats 0 (fun _ h => h)
    rw [Option.isSome_iff_exists]
    exact ⟨x, hx⟩
  · have key : ∀ (ats : List At) (s : List (BitVec 64)) (raw : BitVec f.EW), s.length = r.length →
        (∀ a ∈ ats, a ∈ f.ats) → ∃ s', insertGoField 64 f.EW (ats.map At.loc) s raw = some s' := by
      intro ats
      induction ats with
      | nil => intro s raw _ _; exact ⟨s, rfl⟩
      | cons a as ih =>
        intro s raw hlen hmem
        have ha := hmem a (by simp)
        obtain ⟨u, hu, _⟩ := fold_spec a.loc raw (hsz a ha).2.1
        obtain ⟨s1, hs1, hl1⟩ := loc_insert_defined64 (l := a.loc) (r := s) hlegal
          (raw &&& bitMask f.EW (a.loc.size - 1) 0) (by
            intro i hi
            rw [BitVec.getLsbD_and, getLsbD_bitMask _ _ _ _ (by have := hsz a ha; omega)]
            have h1 : ¬ i ≤ a.loc.size - 1 := by have := (hsz a ha).1; omega
            simp [h1]) (hsz a ha).2.2 (hsz a ha).1 (hsz a ha).2.1
            (by rw [hlen]; exact hin a ha)
        obtain ⟨y, hy⟩ := ih s1 u (by omega) (fun b hb => hmem b (by simp [hb]))
        refine ⟨y, ?_⟩
        simp [insertGoField, hs1, hu, hy]
    obtain ⟨x, hx⟩ := key f.ats.reverse r v rfl (fun _ h => by simpa using h)
    rw [Option.isSome_iff_exists]
    exact ⟨x, by rw [Fld.insert, insertField, ← List.map_reverse]; exact hx⟩

/-- A legal field crossing an element border of 64-bit storage; its accesses are defined. -/
example : (∀ a ∈ (Fld.mk [⟨90, 30⟩] 64).ats,
      baseIndex 64 a.loc * 64 + a.loc.msb < [0#64, 0#64].length * 64) ∧
    (Fld.mk [⟨90, 30⟩] 64).Legal := by
  constructor
  · decide
  · simp [Fld.Legal, At.valid, At.size]

end Verif.Bits
