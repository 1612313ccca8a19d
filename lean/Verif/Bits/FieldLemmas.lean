import Verif.Bits.Lemmas
/-! Helper lemmas: fields with several locations. -/
namespace Verif.Bits

/-- Legal location seen through elements of `W` bits, all bits inside `n` elements. -/
structure LocOk (W EW : Nat) (a : At) (n : Nat) : Prop where
  W_pos : 0 < W
  aligned : baseIndex W a.loc * W = a.loc.index * 32
  le : a.lsb ≤ a.msb
  size_le : a.size ≤ EW
  inside : a.msb < n * W

theorem baseIndex_aligned {W : Nat} (hW : W = 8 ∨ W = 16 ∨ W = 32) (l : Loc) :
    baseIndex W l * W = l.index * 32 := by
  rcases hW with rfl | rfl | rfl <;> simp [baseIndex] <;> omega

theorem loc_base (a : At) : a.loc.index * 32 + a.loc.lsb = a.lsb := by
  simp only [At.loc]; omega

theorem loc_size (a : At) : a.loc.size = a.size := rfl

theorem loc_msb {a : At} (h : a.lsb ≤ a.msb) : a.loc.index * 32 + a.loc.msb = a.msb := by
  simp only [At.loc, Loc.msb, At.size]; omega

theorem LocOk.ok {W EW : Nat} {a : At} {n TW : Nat} (h : LocOk W EW a n) (hE : EW ≤ TW)
    (hW : W ≤ TW) : Ok W TW a.loc n where
  W_pos := h.W_pos
  W_le := hW
  size_pos := by simp [loc_size, At.size]
  size_le := by rw [loc_size]; exact Nat.le_trans h.size_le hE
  inside := by rw [h.aligned, loc_msb h.le]; exact h.inside

theorem Loc_extract_spec {W EW : Nat} {a : At} {r : List (BitVec W)}
    (h : LocOk W EW a r.length) :
    ∃ v, a.loc.extract W EW r = some v ∧
      ∀ i, v.getLsbD i = (decide (i < a.size) && bitAt r (a.lsb + i)) := by
  have hW : W ≤ extractT W EW := by simp only [extractT, promoted]; omega
  have hE : EW ≤ extractT W EW := by simp only [extractT, promoted]; omega
  have ok := h.ok hE hW
  have hm : a.loc.lsb ≤ a.loc.msb := by
    have := ok.size_pos; simp only [Loc.msb]; omega
  obtain ⟨v, hv, hb⟩ := extractGo_spec ok (a.loc.msb / W + 1) a.loc.msb 0
    (Nat.lt_of_lt_of_le (Nat.lt_succ_self _) (Nat.le_add_right _ _)) hm (.inl rfl)
    (by intro i; simp)
  refine ⟨v.setWidth EW, by rw [Loc.extract, hv]; rfl, fun i => ?_⟩
  rw [BitVec.getLsbD_setWidth, hb, h.aligned, ← Nat.add_assoc, loc_base, loc_size]
  by_cases hi : i < a.size
  · have : i < EW := Nat.lt_of_lt_of_le hi h.size_le
    simp [hi, this]
  · simp [hi]

theorem Loc_insert_spec {W EW : Nat} {a : At} {r : List (BitVec W)} {e : BitVec EW}
    (h : LocOk W EW a r.length) (hW : W ≤ promoted EW)
    (he : ∀ i, a.size ≤ i → e.getLsbD i = false) :
    ∃ r', a.loc.insert W EW r e = some r' ∧ r'.length = r.length ∧
      ∀ p, bitAt r' p = if a.lsb ≤ p ∧ p ≤ a.msb then e.getLsbD (p - a.lsb) else bitAt r p := by
  have hE : EW ≤ promoted EW := by simp only [promoted]; omega
  have ok := h.ok hE hW
  have hm : a.loc.lsb ≤ a.loc.msb := by
    have := ok.size_pos; simp only [Loc.msb]; omega
  have hbase := loc_base a
  have hmsb := loc_msb h.le
  have hval : ∀ i, (e.setWidth (promoted EW)).getLsbD i = e.getLsbD i := by
    intro i
    rw [BitVec.getLsbD_setWidth]
    by_cases hi : i < EW
    · have : i < promoted EW := by omega
      simp [this]
    · rw [BitVec.getLsbD_of_ge e _ (by omega)]; simp
  obtain ⟨r', hr', hlen, hb⟩ := insertGo_spec r.length ok (a.loc.msb / W + 1) a.loc.lsb r
    (e.setWidth (promoted EW)) rfl (Nat.lt_of_lt_of_le (Nat.lt_succ_self _) (Nat.le_add_right _ _)) (Nat.le_refl _) hm (.inl rfl) (by
      intro i hi
      rw [hval]; apply he
      simp only [At.size]; omega)
  refine ⟨r', hr', hlen, fun p => ?_⟩
  rw [hb, h.aligned, hbase, hmsb, hval]

/-- Bit `i` of a list of positions. -/
def bitOf {W : Nat} (r : List (BitVec W)) (P : List Nat) (i : Nat) : Bool :=
  match P[i]? with
  | some p => bitAt r p
  | none => false

theorem positions_length {a : At} (h : a.lsb ≤ a.msb) : a.positions.length = a.size := by
  simp [At.positions, At.size]; omega

theorem positions_getElem? {a : At} (h : a.lsb ≤ a.msb) (i : Nat) :
    a.positions[i]? = if i < a.size then some (a.lsb + i) else none := by
  simp only [At.positions, At.size]
  rw [show a.msb + 1 - a.lsb = a.msb - a.lsb + 1 by omega]
  by_cases hi : i < a.msb - a.lsb + 1
  · simp [hi]
  · simp only [hi, if_false, List.getElem?_map, Option.map_eq_none_iff]
    rw [List.getElem?_eq_none]; simp; omega

theorem mem_positions {a : At} (p : Nat) : p ∈ a.positions ↔ a.lsb ≤ p ∧ p ≤ a.msb := by
  simp only [At.positions, List.mem_map, List.mem_range]
  constructor
  · rintro ⟨i, hi, rfl⟩; omega
  · rintro ⟨h1, h2⟩; exact ⟨p - a.lsb, by omega, by omega⟩

theorem unfold_spec {EW : Nat} (l : Loc) (v : BitVec EW) (hl : l.size ≤ EW) :
    ∃ v', l.unfold v = some v' ∧
      ∀ i, v'.getLsbD i = (decide (i < EW) && !decide (i < l.size) && v.getLsbD (i - l.size)) := by
  simp only [Loc.unfold]
  split
  · next h =>
    refine ⟨0, rfl, fun i => ?_⟩
    by_cases hi : i < EW <;> simp [hi, h]
  · next h =>
    have hE : EW ≤ promoted EW := by simp only [promoted]; omega
    rw [shl, if_pos (by omega)]
    refine ⟨_, rfl, fun i => ?_⟩
    rw [BitVec.getLsbD_setWidth, BitVec.getLsbD_shiftLeft, BitVec.getLsbD_setWidth]
    by_cases hi : i < EW
    · have h1 : i < promoted EW := by omega
      have h2 : i - l.size < promoted EW := by omega
      simp [hi, h1, h2]
    · simp [hi]

theorem fold_spec {EW : Nat} (l : Loc) (v : BitVec EW) (hl : l.size ≤ EW) :
    ∃ v', l.fold v = some v' ∧ ∀ i, v'.getLsbD i = v.getLsbD (l.size + i) := by
  simp only [Loc.fold]
  split
  · next h =>
    refine ⟨0, rfl, fun i => ?_⟩
    rw [BitVec.getLsbD_of_ge v _ (by omega)]; simp
  · next h =>
    have hE : EW ≤ promoted EW := by simp only [promoted]; omega
    rw [shr, if_pos (by omega)]
    refine ⟨_, rfl, fun i => ?_⟩
    rw [BitVec.getLsbD_setWidth, BitVec.getLsbD_ushiftRight, BitVec.getLsbD_setWidth]
    by_cases hi : l.size + i < EW
    · have h1 : l.size + i < promoted EW := by omega
      have h2 : i < EW := by omega
      simp [h1, h2]
    · rw [BitVec.getLsbD_of_ge v _ (by omega)]; simp

theorem extractField_spec {W EW : Nat} {r : List (BitVec W)} (ats : List At) :
    ∀ (P : List Nat) (raw : BitVec EW), (∀ a ∈ ats, LocOk W EW a r.length) →
      (ats.map At.size).sum + P.length ≤ EW → (∀ i, raw.getLsbD i = bitOf r P i) →
      ∃ v, (ats.map At.loc).foldlM (fun raw l => do
          let raw ← l.unfold raw
          let x ← l.extract W EW r
          return raw ||| x) raw = some v ∧
        ∀ i, v.getLsbD i = bitOf r ((ats.reverse.map At.positions).flatten ++ P) i := by
  induction ats with
  | nil => intro P raw _ _ h; exact ⟨raw, rfl, by simpa using h⟩
  | cons a as ih =>
    intro P raw hok hsum hraw
    have ha := hok a (by simp)
    simp only [List.map_cons, List.sum_cons] at hsum
    obtain ⟨u, hu, hub⟩ := unfold_spec a.loc raw (by rw [loc_size]; omega)
    obtain ⟨x, hx, hxb⟩ := Loc_extract_spec ha
    simp only [List.map_cons, List.foldlM_cons, hu, hx, Option.bind_eq_bind, Option.bind_some]
    have hlen := positions_length ha.le
    obtain ⟨v, hv, hvb⟩ := ih (a.positions ++ P) (u ||| x) (fun c hc => hok c (by simp [hc]))
      (by simp only [List.length_append, hlen]; omega) (by
        intro i
        rw [BitVec.getLsbD_or, hub, hxb, loc_size, hraw]
        simp only [bitOf, List.getElem?_append, hlen, positions_getElem? ha.le]
        by_cases hi : i < a.size
        · simp [hi]
        · simp only [hi]
          by_cases hi2 : i < EW
          · simp [hi2]
          · have : P[i - a.size]? = none := by
              rw [List.getElem?_eq_none]; omega
            simp [this])
    refine ⟨v, hv, fun i => ?_⟩
    rw [hvb]
    simp

theorem insertGoField_spec {W EW : Nat} (n : Nat) (hW : W ≤ promoted EW) (ats : List At) :
    ∀ (r : List (BitVec W)) (raw : BitVec EW), r.length = n → (∀ a ∈ ats, LocOk W EW a n) →
      ∃ r', insertGoField W EW (ats.map At.loc) r raw = some r' ∧ r'.length = n ∧
        (∀ p, p ∉ (ats.map At.positions).flatten → bitAt r' p = bitAt r p) ∧
        ((ats.map At.positions).flatten.Nodup →
          ∀ i p, (ats.map At.positions).flatten[i]? = some p → bitAt r' p = raw.getLsbD i) := by
  induction ats with
  | nil => intro r raw hn _; exact ⟨r, rfl, hn, by simp, by simp⟩
  | cons a as ih =>
    intro r raw hn hok
    have ha := hok a (by simp)
    have hmask : ∀ i, (raw &&& bitMask EW (a.size - 1) 0).getLsbD i =
        (raw.getLsbD i && decide (i < a.size)) := by
      intro i
      have := ha.size_le
      have h1 : 0 < a.size := by simp [At.size]
      rw [BitVec.getLsbD_and, getLsbD_bitMask _ _ _ _ (by omega)]
      congr 1
      simp; omega
    obtain ⟨r1, hr1, hlen1, hb1⟩ := Loc_insert_spec (e := raw &&& bitMask EW (a.size - 1) 0)
      (by rw [hn]; exact ha : LocOk W EW a r.length) hW
      (by intro i hi; rw [hmask]; simp; omega)
    obtain ⟨raw', hf, hfb⟩ := fold_spec a.loc raw (by rw [loc_size]; exact ha.size_le)
    obtain ⟨r', hr', hlen', hframe, hwrite⟩ := ih r1 raw' (by omega) (fun c hc => hok c (by simp [hc]))
    refine ⟨r', ?_, hlen', ?_, ?_⟩
    · simp only [List.map_cons, insertGoField, loc_size, hr1, hf, Option.bind_eq_bind,
        Option.bind_some]
      exact hr'
    · intro p hp
      simp only [List.map_cons, List.flatten_cons, List.mem_append, not_or, mem_positions] at hp
      rw [hframe p hp.2, hb1, if_neg hp.1]
    · intro hnd i p hip
      simp only [List.map_cons, List.flatten_cons] at hnd hip
      rw [List.nodup_append] at hnd
      obtain ⟨hn1, hn2, hn3⟩ := hnd
      rw [List.getElem?_append, positions_length ha.le] at hip
      split at hip
      · next hi =>
        have hpm : p ∈ a.positions := List.mem_of_getElem? hip
        rw [hframe p (fun h => hn3 p hpm p h rfl), hb1, if_pos ((mem_positions p).1 hpm), hmask]
        rw [positions_getElem? ha.le, if_pos hi] at hip
        have : p - a.lsb = i := by simp at hip; omega
        simp [this, hi]
      · next hi =>
        rw [hwrite hn2 (i - a.size) p hip, hfb, loc_size]
        congr 1; omega

end Verif.Bits
