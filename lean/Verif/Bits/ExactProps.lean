import Verif.Bits.Props
import Mathlib.Data.List.Pairwise
import Mathlib.Data.List.Nodup
import Mathlib.Tactic.ByContra

/-!
# C15: what fields of 64-bit integers really do

`Index` counts 32-bit words, so `BaseIndex` of a location in the high half of a 64-bit integer is 0
(include/msg/field.hpp:106-107, 152-153), and the location is used 32 bits lower than declared.
-/

namespace Verif.Bits

/-- Where a location of a 64-bit integer really is: the high half is taken for the low half. -/
def At.low (a : At) : At := if 32 ≤ a.lsb then ⟨a.msb - 32, a.lsb - 32⟩ else a

/-- The field with all its locations where they really are. -/
def Fld.low (f : Fld) : Fld := ⟨f.ats.map At.low, f.EW⟩

theorem extractGo_congr {W TW : Nat} {l l' : Loc} (hb : baseIndex W l = baseIndex W l')
    (hs : l.size = l'.size) (hl : l.lsb = l'.lsb) (r : List (BitVec W)) :
    ∀ (fuel cur : Nat) (v : BitVec TW), extractGo W TW l r fuel cur v = extractGo W TW l' r fuel cur v := by
  have hm : l.msb = l'.msb := by simp only [Loc.msb, hs, hl]
  intro fuel
  induction fuel with
  | zero => intro cur v; rfl
  | succ n ih => intro cur v; simp only [extractGo, hb, hl, hm, ih]

theorem extract_congr {W EW : Nat} {l l' : Loc} (hb : baseIndex W l = baseIndex W l')
    (hs : l.size = l'.size) (hl : l.lsb = l'.lsb) (r : List (BitVec W)) :
    l.extract W EW r = l'.extract W EW r := by
  have hm : l.msb = l'.msb := by simp only [Loc.msb, hs, hl]
  simp only [Loc.extract, hm, extractGo_congr hb hs hl]

theorem At.low_size {a : At} (h : a.lsb ≤ a.msb) : a.low.size = a.size := by
  simp only [At.low]; split <;> simp only [At.size]; omega

theorem At.low_le {a : At} (h : a.lsb ≤ a.msb) : a.low.lsb ≤ a.low.msb := by
  simp only [At.low]; split <;> (try dsimp only) <;> omega

theorem At.low_lsb {a : At} (h : a.lsb ≤ a.msb) (hm : a.msb < 64) : a.low.lsb < 32 := by
  simp only [At.low]; split <;> (try dsimp only) <;> omega

theorem At.low_msb {a : At} (hm : a.msb < 64) : a.low.msb < 64 := by
  simp only [At.low]; split <;> (try dsimp only) <;> omega

theorem At.low_loc_lsb {a : At} (h : a.lsb ≤ a.msb) (hm : a.msb < 64) : a.loc.lsb = a.low.lsb := by
  simp only [At.low]; split <;> simp only [At.loc] <;> omega

theorem base_zero {a : At} (h : a.lsb ≤ a.msb) (hm : a.msb < 64) : baseIndex 64 a.loc = 0 := by
  simp only [baseIndex, At.loc]; omega

theorem At.low_of_lt {a : At} (h : a.lsb < 32) : a.low = a := by
  simp only [At.low]; rw [if_neg (by omega)]

theorem loc_low {a : At} (h : a.lsb ≤ a.msb) (hm : a.msb < 64) :
    baseIndex 64 a.loc = baseIndex 64 a.low.loc ∧ a.loc.size = a.low.loc.size ∧
      a.loc.lsb = a.low.loc.lsb := by
  refine ⟨?_, ?_, ?_⟩
  · rw [base_zero h hm, base_zero (At.low_le h) (At.low_msb hm)]
  · rw [loc_size, loc_size, At.low_size h]
  · rw [At.low_loc_lsb h hm]
    have := At.low_lsb h hm
    simp only [At.loc]; omega

theorem sizes_low {ats : List At} (h : ∀ a ∈ ats, a.lsb ≤ a.msb) :
    ((ats.map At.low).map At.size).sum = (ats.map At.size).sum := by
  induction ats with
  | nil => rfl
  | cons a as ih =>
    simp only [List.map_cons, List.sum_cons]
    rw [ih (fun b hb => h b (by simp [hb])), At.low_size (h a (by simp))]

theorem Fld.Legal.low {f : Fld} (h : f.Legal) : f.low.Legal := by
  refine ⟨?_, ?_, h.2.2⟩
  · intro a ha
    simp only [Fld.low, List.mem_map] at ha
    obtain ⟨b, hb, rfl⟩ := ha
    obtain ⟨h1, h2⟩ := valid_le (h.1 b hb)
    simp only [At.valid, Bool.and_eq_true, decide_eq_true_eq]
    exact ⟨by rw [At.low_size h1]; exact h2, At.low_le h1⟩
  · show ((f.ats.map At.low).map At.size).sum ≤ f.EW
    rw [sizes_low (fun a ha => (valid_le (h.1 a ha)).1)]
    exact h.2.1

theorem InsideInt.low {f : Fld} (h : f.InsideInt 64) : f.low.InsideInt 64 := by
  intro a ha
  simp only [Fld.low, List.mem_map] at ha
  obtain ⟨b, hb, rfl⟩ := ha
  exact At.low_msb (h b hb)

theorem low_starts_low {f : Fld} (hf : f.Legal) (h : f.InsideInt 64) : ∀ a ∈ f.low.ats, a.lsb < 32 := by
  intro a ha
  simp only [Fld.low, List.mem_map] at ha
  obtain ⟨b, hb, rfl⟩ := ha
  exact At.low_lsb (valid_le (hf.1 b hb)).1 (h b hb)

theorem extractField_low {EW : Nat} (r : List (BitVec 64)) (ats : List At)
    (hle : ∀ a ∈ ats, a.lsb ≤ a.msb ∧ a.msb < 64) :
    ∀ raw : BitVec EW,
      (ats.map At.loc).foldlM (fun raw l => do
        let raw ← l.unfold raw
        let x ← l.extract 64 EW r
        return raw ||| x) raw =
      ((ats.map At.low).map At.loc).foldlM (fun raw l => do
        let raw ← l.unfold raw
        let x ← l.extract 64 EW r
        return raw ||| x) raw := by
  induction ats with
  | nil => intro raw; rfl
  | cons a as ih =>
    intro raw
    obtain ⟨h1, h2⟩ := hle a (by simp)
    obtain ⟨hb, hs, hl⟩ := loc_low h1 h2
    have hu : ∀ raw : BitVec EW, a.loc.unfold raw = a.low.loc.unfold raw := by
      intro raw; simp only [Loc.unfold, hs]
    simp only [List.map_cons, List.foldlM_cons, hu, extract_congr hb hs hl]
    congr 1
    funext raw'
    exact ih (fun b hb => hle b (by simp [hb])) raw'

theorem extractInt_low (f : Fld) (hf : f.Legal) (hi : f.InsideInt 64) (u : BitVec 64) :
    f.extractInt 64 u = f.low.extractInt 64 u := by
  simp only [Fld.extractInt, Fld.extract, extractField]
  exact extractField_low [u] f.ats (fun a ha => ⟨(valid_le (hf.1 a ha)).1, hi a ha⟩) 0

/-- C15 exactly, reading from 64-bit integers: every location that starts at bit 32 or above is
read 32 bits too low, all others are read where they are. -/
theorem C15_u64_read_exact (f : Fld) (hf : f.Legal) (hi : f.InsideInt 64) (u : BitVec 64) :
    ∃ v, f.extractInt 64 u = some v ∧
      ∀ i, v.getLsbD i = ((f.low.positions[i]?).map u.getLsbD).getD false := by
  obtain ⟨v, hv, hb⟩ := C15_u64_low_partial f.low hf.low (InsideInt.low hi) (low_starts_low hf hi) u
  refine ⟨v, by rw [extractInt_low f hf hi]; exact hv, fun i => (hb i).trans ?_⟩
  cases f.low.positions[i]? <;> rfl

/-! ## writing -/

/-- One location: the bits of the value from bit 32 on are lost unless the field is 64 bits wide. -/
theorem Loc_insert_u64 {EW : Nat} (hE : EW = 8 ∨ EW = 16 ∨ EW = 32 ∨ EW = 64) {a : At}
    (hle : a.lsb ≤ a.msb) (hm : a.msb < 64) (u : BitVec 64) (e : BitVec EW)
    (he : ∀ i, a.size ≤ i → e.getLsbD i = false) :
    ∃ u', a.loc.insert 64 EW [u] e = some [u'] ∧
      ∀ p, u'.getLsbD p = if a.low.lsb ≤ p ∧ p ≤ a.low.msb then
        (e.getLsbD (p - a.low.lsb) && decide (p < promoted EW)) else u.getLsbD p := by
  have hb := base_zero hle hm
  have hlsb := At.low_loc_lsb hle hm
  have h32 := At.low_lsb hle hm
  have h64 := At.low_msb hm
  have hsz := At.low_size hle
  have hll := At.low_le hle
  have hmsb : a.loc.msb = a.low.msb := by
    simp only [Loc.msb, hlsb, loc_size, ← hsz]
    simp only [At.size]; omega
  have hp : a.low.lsb < promoted EW := by simp only [promoted]; omega
  have h1 : a.low.lsb / 64 = 0 := Nat.div_eq_of_lt (by omega)
  have h2 : a.low.msb / 64 = 0 := Nat.div_eq_of_lt (by omega)
  have h3 : a.low.lsb % 64 = a.low.lsb := Nat.mod_eq_of_lt (by omega)
  have h4 : a.low.msb % 64 = a.low.msb := Nat.mod_eq_of_lt (by omega)
  have hEp : EW ≤ promoted EW := by simp only [promoted]; omega
  have hP64 : promoted EW ≤ 64 := by simp only [promoted]; omega
  refine ⟨(u &&& ~~~(bitMask 64 a.low.msb a.low.lsb)) |||
    ((e.setWidth (promoted EW)) <<< a.low.lsb).setWidth 64, ?_, fun p => ?_⟩
  · simp [Loc.insert, insertGo, hb, hlsb, hmsb, h1, h2, h3, h4, shl, hp]
  · have hev : ∀ i, (e.setWidth (promoted EW)).getLsbD i = e.getLsbD i := by
      intro i
      rw [BitVec.getLsbD_setWidth]
      by_cases hi : i < EW
      · have : i < promoted EW := by omega
        simp [this]
      · rw [BitVec.getLsbD_of_ge e _ (by omega)]; simp
    by_cases hp64 : p < 64
    · rw [BitVec.getLsbD_or, BitVec.getLsbD_and, BitVec.getLsbD_not, BitVec.getLsbD_setWidth,
        BitVec.getLsbD_shiftLeft, getLsbD_bitMask _ _ _ _ h64, hev]
      by_cases hin : a.low.lsb ≤ p ∧ p ≤ a.low.msb
      · rw [if_pos hin]
        have : ¬ p < a.low.lsb := by omega
        simp [hp64, hin, this, Bool.and_comm]
      · rw [if_neg hin]
        by_cases hlt : p < a.low.lsb
        · have hd : ¬ (a.low.lsb ≤ p) := by omega
          simp [hlt, hd, hp64]
        · have hd : ¬ (p ≤ a.low.msb) := by omega
          rw [he (p - a.low.lsb) (by rw [← hsz]; simp only [At.size]; omega)]
          simp [hd, hp64]
    · rw [if_neg (by omega), BitVec.getLsbD_of_ge _ _ (by omega), BitVec.getLsbD_of_ge _ _ (by omega)]

theorem insertGoField_u64 {EW : Nat} (hE : EW = 8 ∨ EW = 16 ∨ EW = 32 ∨ EW = 64) (ats : List At) :
    ∀ (u : BitVec 64) (raw : BitVec EW),
      (∀ a ∈ ats, a.lsb ≤ a.msb ∧ a.msb < 64 ∧ a.size ≤ EW) →
      ∃ u', insertGoField 64 EW (ats.map At.loc) [u] raw = some [u'] ∧
        (∀ p, p ∉ ((ats.map At.low).map At.positions).flatten → u'.getLsbD p = u.getLsbD p) ∧
        (((ats.map At.low).map At.positions).flatten.Nodup →
          ∀ i p, ((ats.map At.low).map At.positions).flatten[i]? = some p →
            u'.getLsbD p = (raw.getLsbD i && decide (p < promoted EW))) := by
  induction ats with
  | nil => intro u raw _; exact ⟨u, rfl, by simp, by simp⟩
  | cons a as ih =>
    intro u raw hok
    obtain ⟨hle, hm, hs⟩ := hok a (by simp)
    have hll := At.low_le hle
    have hsz := At.low_size hle
    have hmask : ∀ i, (raw &&& bitMask EW (a.size - 1) 0).getLsbD i =
        (raw.getLsbD i && decide (i < a.size)) := by
      intro i
      have h1 : 0 < a.size := by simp [At.size]
      rw [BitVec.getLsbD_and, getLsbD_bitMask _ _ _ _ (by omega)]
      congr 1
      simp; omega
    obtain ⟨u1, hr1, hb1⟩ := Loc_insert_u64 hE hle hm u (raw &&& bitMask EW (a.size - 1) 0)
      (by intro i hi; rw [hmask]; simp; omega)
    obtain ⟨raw', hf, hfb⟩ := fold_spec a.loc raw (by rw [loc_size]; exact hs)
    obtain ⟨u', hr', hframe, hwrite⟩ := ih u1 raw' (fun c hc => hok c (by simp [hc]))
    refine ⟨u', ?_, ?_, ?_⟩
    · simp only [List.map_cons, insertGoField, loc_size, hr1, hf, Option.bind_eq_bind,
        Option.bind_some]
      exact hr'
    · intro p hp
      simp only [List.map_cons, List.flatten_cons, List.mem_append, not_or, mem_positions] at hp
      rw [hframe p hp.2, hb1, if_neg hp.1]
    · intro hnd i p hip
      simp only [List.map_cons, List.flatten_cons] at hnd hip
      rw [List.nodup_append] at hnd
      obtain ⟨hn1, hn2, hn3⟩ := hnd
      rw [List.getElem?_append, positions_length hll, hsz] at hip
      split at hip
      · next hi =>
        have hpm : p ∈ a.low.positions := List.mem_of_getElem? hip
        rw [hframe p (fun h => hn3 p hpm p h rfl), hb1, if_pos ((mem_positions p).1 hpm), hmask]
        rw [positions_getElem? hll, hsz, if_pos hi] at hip
        have : p - a.low.lsb = i := by simp at hip; omega
        simp [this, hi]
      · next hi =>
        rw [hwrite hn2 (i - a.size) p hip, hfb, loc_size]
        congr 2; omega

/-- C15 exactly, writing to 64-bit integers: every location that starts at bit 32 or above is
written 32 bits too low, and of a field of 8, 16 or 32 bits nothing but zeroes gets to bit 32 and
above. All bits that are not at these positions are kept. -/
theorem C15_u64_write_exact (f : Fld) (hf : f.Legal) (hi : f.InsideInt 64) (u : BitVec 64)
    (v : BitVec f.EW) :
    ∃ u', f.insertInt 64 u v = some u' ∧
      (∀ p, p ∉ f.low.positions → u'.getLsbD p = u.getLsbD p) ∧
      (f.low.NonOverlapping → ∀ i p, f.low.positions[i]? = some p →
        u'.getLsbD p = (v.getLsbD i && (decide (p < 32) || decide (f.EW = 64)))) := by
  obtain ⟨u', h1, h2, h3⟩ := insertGoField_u64 hf.2.2 f.ats.reverse u v (fun a ha => by
    have ha' : a ∈ f.ats := by simpa using ha
    exact ⟨(valid_le (hf.1 a ha')).1, hi a ha', Nat.le_trans (size_le_sum ha') hf.2.1⟩)
  have hpos : (((f.ats.reverse).map At.low).map At.positions).flatten = f.low.positions := by
    simp [Fld.positions, Fld.low, List.map_reverse]
  rw [hpos] at h2 h3
  refine ⟨u', ?_, h2, fun hno i p hp => ?_⟩
  · have : f.insert 64 [u] v = some [u'] := by
      simp only [Fld.insert, insertField, ← List.map_reverse]; exact h1
    simp [Fld.insertInt, this]
  · rw [h3 hno i p hp]
    have hin := insideInt_within (InsideInt.low hi) p (List.mem_of_getElem? hp)
    congr 1
    rw [Bool.eq_iff_iff]
    simp only [Bool.or_eq_true, decide_eq_true_eq]
    have := hf.2.2
    simp only [promoted]
    omega

/-! ## when reading and writing are right -/

theorem low_eq_self {f : Fld} (h : ∀ a ∈ f.ats, a.lsb < 32) : f.low = f := by
  obtain ⟨ats, EW⟩ := f
  simp only [Fld.low, Fld.mk.injEq, and_true]
  conv => rhs; rw [← List.map_id ats]
  exact List.map_congr_left fun a ha => At.low_of_lt (h a ha)

theorem flatten_lengths (xs : List At) (h : ∀ a ∈ xs, a.lsb ≤ a.msb) :
    ((xs.map At.low).map At.positions).flatten.length = (xs.map At.positions).flatten.length := by
  induction xs with
  | nil => rfl
  | cons a as ih =>
    simp only [List.map_cons, List.flatten_cons, List.length_append]
    rw [ih (fun b hb => h b (by simp [hb])), positions_length (At.low_le (h a (by simp))),
      positions_length (h a (by simp)), At.low_size (h a (by simp))]

/-- A location's lowest bit has the same number in the field and in the field as it really is. -/
theorem lowest_bit {f : Fld} (hf : f.Legal) {a : At} (ha : a ∈ f.ats) :
    ∃ i : Nat, f.positions[i]? = some a.lsb ∧ f.low.positions[i]? = some a.low.lsb := by
  obtain ⟨xs, ys, hxy⟩ := List.append_of_mem (List.mem_reverse.2 ha)
  have hle : ∀ b ∈ f.ats, b.lsb ≤ b.msb := fun b hb => (valid_le (hf.1 b hb)).1
  have hx : ∀ b ∈ xs, b.lsb ≤ b.msb := fun b hb => hle b (by
    rw [← List.mem_reverse, hxy]; simp [hb])
  refine ⟨(xs.map At.positions).flatten.length, ?_, ?_⟩
  · simp only [Fld.positions, hxy, List.map_append, List.map_cons, List.flatten_append,
      List.flatten_cons]
    rw [List.getElem?_append_right (Nat.le_refl _), Nat.sub_self,
      List.getElem?_append_left (by rw [positions_length (hle a ha)]; simp [At.size]),
      positions_getElem? (hle a ha)]
    simp [At.size]
  · have hr : f.low.ats.reverse = (xs ++ a :: ys).map At.low := by
      rw [← hxy]; simp [Fld.low]
    simp only [Fld.positions, hr, List.map_append, List.map_cons, List.flatten_append,
      List.flatten_cons]
    rw [← flatten_lengths xs hx, List.getElem?_append_right (Nat.le_refl _), Nat.sub_self,
      List.getElem?_append_left (by rw [positions_length (At.low_le (hle a ha))]; simp [At.size]),
      positions_getElem? (At.low_le (hle a ha))]
    simp [At.size]

/-- C15 exactly: a field is read right from all 64-bit integers just when all its locations start
below bit 32. -/
theorem C15_u64_read_iff (f : Fld) (hf : f.Legal) (hi : f.InsideInt 64) :
    (∀ u : BitVec 64, ∃ v, f.extractInt 64 u = some v ∧
      ∀ i p, f.positions[i]? = some p → v.getLsbD i = u.getLsbD p) ↔
    ∀ a ∈ f.ats, a.lsb < 32 := by
  constructor
  · intro h a ha
    by_contra hn
    obtain ⟨i, h1, h2⟩ := lowest_bit hf ha
    have hm := hi a ha
    have hle := (valid_le (hf.1 a ha)).1
    obtain ⟨v, hv, hb⟩ := h (BitVec.twoPow 64 a.lsb)
    obtain ⟨v', hv', hb'⟩ := C15_u64_read_exact f hf hi (BitVec.twoPow 64 a.lsb)
    have : v = v' := Option.some.inj (hv.symm.trans hv')
    subst this
    have e1 := hb i _ h1
    have e2 := hb' i
    rw [h2, e1] at e2
    have hl := At.low_lsb hle hm
    have hne : a.lsb ≠ a.low.lsb := by omega
    simp [BitVec.getLsbD_twoPow, hne] at e2
    omega
  · intro h u
    obtain ⟨v, hv, hb⟩ := C15_u64_low_partial f hf hi h u
    exact ⟨v, hv, fun i p hp => by rw [hb, hp]⟩

theorem getElem?_positions_lt {f : Fld} (hf : f.Legal) {i p : Nat} (h : f.positions[i]? = some p) :
    i < f.EW := by
  have h1 := (List.getElem?_eq_some_iff.1 h).1
  rw [positions_total hf] at h1
  exact Nat.lt_of_lt_of_le h1 hf.2.1

/-- Bits of the high half that a field really touches are in locations that start in the low half. -/
theorem high_low {f : Fld} (hi : f.InsideInt 64) {p : Nat} (hp : p ∈ f.low.positions)
    (h32 : 32 ≤ p) : ∃ b ∈ f.ats, b.lsb < 32 ∧ b.lsb ≤ p ∧ p ≤ b.msb := by
  rw [mem_fld_positions] at hp
  obtain ⟨b', hb', h1, h2⟩ := hp
  simp only [Fld.low, List.mem_map] at hb'
  obtain ⟨b, hb, rfl⟩ := hb'
  have hm := hi b hb
  by_cases hl : b.lsb < 32
  · rw [At.low_of_lt hl] at h1 h2
    exact ⟨b, hb, hl, h1, h2⟩
  · simp only [At.low] at h1 h2
    rw [if_pos (by omega)] at h1 h2
    dsimp only at h1 h2
    omega

theorem NonOverlapping.disjoint {f : Fld} (h : f.NonOverlapping) {a b : At} (ha : a ∈ f.ats)
    (hb : b ∈ f.ats) (hne : a ≠ b) {p : Nat} (h1 : p ∈ a.positions) : p ∉ b.positions := by
  intro h2
  rw [Fld.NonOverlapping, Fld.positions, List.nodup_flatten] at h
  have hd := h.2
  rw [List.pairwise_map] at hd
  have : Std.Symm (fun x y : At => List.Disjoint x.positions y.positions) :=
    ⟨fun _ _ hxy _ h1 h2 => hxy h2 h1⟩
  have := hd.forall (List.mem_reverse.2 ha) (List.mem_reverse.2 hb) hne
  exact this h1 h2

/-- C15 exactly: a field without overlaps is written right to all 64-bit integers just when all its
locations start below bit 32 and, unless the field's type has 64 bits, also end below bit 32. -/
theorem C15_u64_write_iff (f : Fld) (hf : f.Legal) (hno : f.NonOverlapping) (hi : f.InsideInt 64) :
    (∀ (u : BitVec 64) (v : BitVec f.EW), ∃ u', f.insertInt 64 u v = some u' ∧
      (∀ i p, f.positions[i]? = some p → u'.getLsbD p = v.getLsbD i) ∧
      ∀ p, p ∉ f.positions → u'.getLsbD p = u.getLsbD p) ↔
    ∀ a ∈ f.ats, a.lsb < 32 ∧ (f.EW = 64 ∨ a.msb < 32) := by
  constructor
  · intro h
    have hlow : ∀ a ∈ f.ats, a.lsb < 32 := by
      intro a ha
      by_contra hn
      obtain ⟨i, h1, h2⟩ := lowest_bit hf ha
      have hm := hi a ha
      have hle := (valid_le (hf.1 a ha)).1
      obtain ⟨u', hu', hw, _⟩ := h 0 (BitVec.allOnes _)
      obtain ⟨u'', hu'', hk, _⟩ := C15_u64_write_exact f hf hi 0 (BitVec.allOnes _)
      have : u' = u'' := Option.some.inj (hu'.symm.trans hu'')
      subst this
      have e1 := hw i _ h1
      have hnot : a.lsb ∉ f.low.positions := by
        intro hmem
        obtain ⟨b, hb, hb1, hb2, hb3⟩ := high_low hi hmem (by omega)
        have hne : a ≠ b := by rintro rfl; omega
        exact NonOverlapping.disjoint hno ha hb hne ((mem_positions _).2 ⟨Nat.le_refl _, hle⟩)
          ((mem_positions _).2 ⟨hb2, hb3⟩)
      have e2 := hk _ hnot
      rw [e1] at e2
      have := getElem?_positions_lt hf h1
      simp [this] at e2
    intro a ha
    refine ⟨hlow a ha, ?_⟩
    by_contra hn
    simp only [not_or, Nat.not_lt] at hn
    have hs := low_eq_self hlow
    have hmem : 32 ∈ f.positions := by
      rw [mem_fld_positions]; exact ⟨a, ha, by have := hlow a ha; omega, hn.2⟩
    obtain ⟨i, hip⟩ := List.mem_iff_getElem?.1 hmem
    obtain ⟨u', hu', hw, _⟩ := h 0 (BitVec.allOnes _)
    obtain ⟨u'', hu'', _, hk⟩ := C15_u64_write_exact f hf hi 0 (BitVec.allOnes _)
    have : u' = u'' := Option.some.inj (hu'.symm.trans hu'')
    subst this
    have e2 := hk (by rw [hs]; exact hno) i 32 (by rw [hs]; exact hip)
    rw [hw i 32 hip] at e2
    have := getElem?_positions_lt hf hip
    simp [this, hn.1] at e2
  · intro h u v
    have hs := low_eq_self (fun a ha => (h a ha).1)
    obtain ⟨u', h1, h2, h3⟩ := C15_u64_write_exact f hf hi u v
    rw [hs] at h2 h3
    refine ⟨u', h1, fun i p hp => ?_, h2⟩
    rw [h3 hno i p hp]
    have hmem := List.mem_of_getElem? hp
    rw [mem_fld_positions] at hmem
    obtain ⟨a, ha, _, ha2⟩ := hmem
    have hor : p < 32 ∨ f.EW = 64 := by
      rcases (h a ha).2 with h | h
      · exact .inr h
      · exact .inl (by omega)
    rcases hor with h | h <;> simp [h]

/-- A field in both halves of a 64-bit integer: the high half is read from the low half. -/
example : (Fld.mk [⟨39, 32⟩, ⟨15, 8⟩] 16).extractInt 64 0xAA_0000_BBCC#64 = some 0xCCBB#16 ∧
    (Fld.mk [⟨39, 32⟩, ⟨15, 8⟩] 16).low = ⟨[⟨7, 0⟩, ⟨15, 8⟩], 16⟩ := ⟨by decide, by rfl⟩

/-- Writing a byte at bits 35..28 gets its low half to 31..28 and clears the rest. -/
example : (Fld.mk [⟨35, 28⟩] 8).insertInt 64 (BitVec.allOnes 64) 0xFF#8 =
    some 0xFFFFFFF0FFFFFFFF#64 := by decide

/-- A 64-bit field that crosses bit 32 meets the condition of `C15_u64_write_iff`. -/
example : (Fld.mk [⟨40, 20⟩] 64).Legal ∧ (Fld.mk [⟨40, 20⟩] 64).InsideInt 64 ∧
    (Fld.mk [⟨40, 20⟩] 64).NonOverlapping ∧
    ∀ a ∈ (Fld.mk [⟨40, 20⟩] 64).ats, a.lsb < 32 ∧ ((Fld.mk [⟨40, 20⟩] 64).EW = 64 ∨ a.msb < 32) := by
  refine ⟨by simp [Fld.Legal, At.valid, At.size], by simp [Fld.InsideInt], ?_, by simp⟩
  simp only [Fld.NonOverlapping]; decide

end Verif.Bits
