import Verif.Object.BitLemmas
import Verif.Message.Props
/-!
# Definitions with overlapping fields

Some theorems on bits and messages are about fields that share no bits. Here are those which hold when fields, or
the locations of one field, share bits.
-/

/-! ## C14 -/

namespace Verif.Bits

/-- A write when locations may share bits: the last location written counts. -/
theorem insertGoField_last {W EW : Nat} (n : Nat) (hW : W ≤ promoted EW) (ats : List At) :
    ∀ (r : List (BitVec W)) (raw : BitVec EW), r.length = n → (∀ a ∈ ats, LocOk W EW a n) →
      ∃ r', insertGoField W EW (ats.map At.loc) r raw = some r' ∧ r'.length = n ∧
        (∀ p, p ∉ (ats.map At.positions).flatten → bitAt r' p = bitAt r p) ∧
          ∀ i p, (ats.map At.positions).flatten[i]? = some p →
            (∀ j, i < j → (ats.map At.positions).flatten[j]? ≠ some p) → bitAt r' p = raw.getLsbD i := by
  induction ats with
  | nil => intro r raw hn _; exact ⟨r, rfl, hn, by simp, by simp⟩
  | cons a as ih =>
    intro r raw hn hok
    have ha := hok a (by simp)
    have hmask : ∀ i, (raw &&& bitMask EW (a.size - 1) 0).getLsbD i =
        (raw.getLsbD i && decide (i < a.size)) := by
      intro i
      have := ha.size_le
      have h1 : 0 < a.size := by simp [At.size]
      rw [BitVec.getLsbD_and, getLsbD_bitMask _ _ _ _ (by omega)]
      congr 1
      simp; omega
    obtain ⟨r1, hr1, hlen1, hb1⟩ := Loc_insert_spec (e := raw &&& bitMask EW (a.size - 1) 0)
      (by rw [hn]; exact ha : LocOk W EW a r.length) hW
      (by intro i hi; rw [hmask]; simp; omega)
    obtain ⟨raw', hf, hfb⟩ := fold_spec a.loc raw (by rw [loc_size]; exact ha.size_le)
    obtain ⟨r', hr', hlen', hframe, hwrite⟩ := ih r1 raw' (by omega) (fun c hc => hok c (by simp [hc]))
    refine ⟨r', ?_, hlen', ?_, ?_⟩
    · simp only [List.map_cons, insertGoField, loc_size, hr1, hf, Option.bind_eq_bind,
        Option.bind_some]
      exact hr'
    · intro p hp
      simp only [List.map_cons, List.flatten_cons, List.mem_append, not_or, mem_positions] at hp
      rw [hframe p hp.2, hb1, if_neg hp.1]
    · intro i p hip hlast
      simp only [List.map_cons, List.flatten_cons] at hip hlast
      have hpl := positions_length ha.le
      rw [List.getElem?_append, hpl] at hip
      split at hip
      · next hi =>
        have hpm : p ∈ a.positions := List.mem_of_getElem? hip
        have hno : p ∉ (as.map At.positions).flatten := by
          intro h
          obtain ⟨j, hj⟩ := List.mem_iff_getElem?.1 h
          refine hlast (a.size + j) (by omega) ?_
          rw [List.getElem?_append, hpl, if_neg (by omega), Nat.add_sub_cancel_left]
          exact hj
        rw [hframe p hno, hb1, if_pos ((mem_positions p).1 hpm), hmask]
        rw [positions_getElem? ha.le, if_pos hi] at hip
        have : p - a.lsb = i := by simp at hip; omega
        simp [this, hi]
      · next hi =>
        rw [hwrite (i - a.size) p hip fun j hj h => hlast (a.size + j) (by omega) (by
          rw [List.getElem?_append, hpl, if_neg (by omega), Nat.add_sub_cancel_left]; exact h), hfb, loc_size]
        congr 1; omega

theorem insert_last {W : Nat} {f : Fld} {r : List (BitVec W)} {v : BitVec f.EW}
    (hW : W ≤ promoted f.EW) (hok : ∀ a ∈ f.ats, LocOk W f.EW a r.length) :
    ∃ r', f.insert W r v = some r' ∧ r'.length = r.length ∧
      (∀ p, p ∉ f.positions → bitAt r' p = bitAt r p) ∧
      ∀ i p, f.positions[i]? = some p → (∀ j, i < j → f.positions[j]? ≠ some p) → bitAt r' p = v.getLsbD i := by
  have := insertGoField_last r.length hW f.ats.reverse r v rfl (fun a ha => hok a (by simpa using ha))
  simpa [Fld.insert, insertField, Fld.positions] using this

/-- The last place of a member. -/
theorem last_index {l : List Nat} {p : Nat} (h : p ∈ l) : ∃ i : Nat, l[i]? = some p ∧ ∀ j, i < j → l[j]? ≠ some p := by
  induction l with
  | nil => cases h
  | cons x l ih =>
    by_cases hl : p ∈ l
    · obtain ⟨i, h1, h2⟩ := ih hl
      refine ⟨i + 1, by simpa using h1, fun j hj => ?_⟩
      obtain ⟨k, rfl⟩ : ∃ k, j = k + 1 := ⟨j - 1, by omega⟩
      simpa using h2 k (by omega)
    · rcases List.mem_cons.1 h with rfl | h
      · refine ⟨0, by simp, fun j hj e => ?_⟩
        obtain ⟨k, rfl⟩ : ∃ k, j = k + 1 := ⟨j - 1, by omega⟩
        exact hl (List.mem_of_getElem? (by simpa using e))
      · exact absurd h hl

/-- C14: writing through either width leaves the same bits, also when the locations of the field share bits. -/
theorem C14_write_any {W W' : Nat} (hW : Narrow W) (hW' : Narrow W') (f : Fld)
    (hf : f.Legal) (r : List (BitVec W)) (r' : List (BitVec W'))
    (hs : SameBits r r') (hin : f.Within (r.length * W)) (v : BitVec f.EW) :
    ∃ s s', f.insert W r v = some s ∧ f.insert W' r' v = some s' ∧ SameBits s s' := by
  have hin' : f.Within (r'.length * W') := by
    rw [Nat.mul_comm, ← hs.1, Nat.mul_comm]; exact hin
  obtain ⟨s, h1, h2, h3, h4⟩ := insert_last (v := v) (hW.le f.EW)
    (hf.locOk hW.pos (hW.aligned f) hin)
  obtain ⟨s', h1', h2', h3', h4'⟩ := insert_last (v := v) (hW'.le f.EW)
    (hf.locOk hW'.pos (hW'.aligned f) hin')
  refine ⟨s, s', h1, h1', by rw [h2, h2']; exact hs.1, fun p => ?_⟩
  by_cases hp : p ∈ f.positions
  · obtain ⟨i, hi, hl⟩ := last_index hp
    rw [h4 i p hi hl, h4' i p hi hl]
  · rw [h3 p hp, h3' p hp, hs.2]

example : (Fld.mk [⟨7, 4⟩, ⟨5, 2⟩] 8).insert 8 [0#8, 0#8, 0#8, 0#8] 0x95#8 = some [0x94#8, 0#8, 0#8, 0#8] ∧
    (Fld.mk [⟨7, 4⟩, ⟨5, 2⟩] 8).insert 32 [0#32] 0x95#8 = some [0x94#32] := by decide

end Verif.Bits

/-! ## C18, C22, C59 -/

namespace Verif.Message
open Verif.Bits Verif.Object

variable {W : Nat} {fs : List MField}

theorem read_within (hW : Narrow W) {f : MField} (hf : f.fld.Legal) {r : List (BitVec W)}
    (h : f.fld.Within (r.length * W)) : read W f.fld r = some (valueAt (bitAt r) 0 f) :=
  (read_row hW hf).2 ⟨h, rfl⟩

theorem read_congr (hW : Narrow W) {f : MField} (hf : f.fld.Legal) {r s : List (BitVec W)}
    (hl : s.length = r.length) (h : f.fld.Within (r.length * W))
    (hb : ∀ p ∈ f.fld.positions, bitAt s p = bitAt r p) : read W f.fld s = read W f.fld r := by
  rw [read_within hW hf h, read_within hW hf (hl ▸ h)]
  rw [valueAt, valueAt]
  congr 2
  apply List.map_congr_left
  intro p hp
  simpa using hb p hp

/-- One write, whatever the other fields are. -/
theorem put_any (hW : Narrow W) (hd : GoodDef fs) {f : MField} (hf : f ∈ fs) (r : List (BitVec W))
    (hin : FitsIn fs (r.length * W)) (v : Nat) :
    ∃ r', put W f.fld r v = some r' ∧ r'.length = r.length ∧
      read W f.fld r' = some (v % 2 ^ f.bits) ∧
      ∀ p, p ∉ f.fld.positions → bitAt r' p = bitAt r p := by
  have L := hd.2 f hf
  obtain ⟨r', v', h1, h2, h3⟩ := C09_write_read hW f.fld L.1 L.2 r (hin f hf) (BitVec.ofNat f.fld.EW v)
  obtain ⟨r'', h4, h5, h6⟩ := C10_write_frame hW f.fld L.1 r (hin f hf) (BitVec.ofNat f.fld.EW v)
  have e : r'' = r' := by rw [h1] at h4; exact (Option.some.inj h4).symm
  subst e
  refine ⟨r'', h1, h5, ?_, h6⟩
  rw [read, h2, Option.map_some, h3, bits_eq L.1, BitVec.toNat_ofNat, Nat.mod_mod_of_dvd]
  rw [← bits_eq L.1]
  exact Nat.pow_dvd_pow 2 (bits_le L.1)

theorem setValues_frame (hW : Narrow W) (hd : GoodDef fs) (vs : List (Nat × Nat)) :
    ∀ (r : List (BitVec W)), FitsIn fs (r.length * W) → (∀ nv ∈ vs, nv.1 ∈ fs.map (·.name)) →
    ∃ r', setValues W fs r vs = some r' ∧ r'.length = r.length ∧
      ∀ p, (∀ f ∈ fs, (∃ nv ∈ vs, nv.1 = f.name) → p ∉ f.fld.positions) → bitAt r' p = bitAt r p := by
  induction vs with
  | nil => intro r _ _; exact ⟨r, rfl, rfl, fun _ _ => rfl⟩
  | cons nv vs ih =>
    intro r hin hvs
    obtain ⟨f, hf, hfn⟩ := List.mem_map.1 (hvs nv (by simp))
    obtain ⟨r1, h1, h2, h3, h4⟩ := put_any hW hd hf r hin nv.2
    obtain ⟨r2, k1, k2, k3⟩ := ih r1 (h2 ▸ hin) (fun x hx => hvs x (by simp [hx]))
    refine ⟨r2, ?_, by omega, fun p hp => ?_⟩
    · have : set1 W fs r nv = some r1 := by
        simp only [set1, ← hfn, find_eq hd.1 hf]; exact h1
      simp only [setValues, List.foldlM_cons, this]
      exact k1
    · rw [k3 p fun g hg ⟨x, hx, e⟩ => hp g hg ⟨x, by simp [hx], e⟩, h4 p (hp f hf ⟨nv, by simp, hfn.symm⟩)]

theorem get_eq (hd : GoodDef fs) {f : MField} (hf : f ∈ fs) (r : List (BitVec W)) :
    get W fs r f.name = read W f.fld r := by simp [get, find_eq hd.1 hf]

/-- C18, for definitions in which fields may overlap: a field that shares no bit with a named one is as before; a
named field has the value it was given, unless a field that shares a bit with it was named later; bits of no named
field are as before. -/
theorem C18_set_overlapping (hW : Narrow W) (hd : GoodDef fs) (r : List (BitVec W))
    (hin : FitsIn fs (r.length * W)) (vs : List (Nat × Nat)) (hvs : ∀ nv ∈ vs, nv.1 ∈ fs.map (·.name)) :
    ∃ r', setValues W fs r vs = some r' ∧ r'.length = r.length ∧
      (∀ f ∈ fs, (∀ g ∈ fs, (∃ nv ∈ vs, nv.1 = g.name) → f.fld.Disjoint g.fld) →
        get W fs r' f.name = get W fs r f.name) ∧
      (∀ f ∈ fs, ∀ (pre : List (Nat × Nat)) (v : Nat) (post : List (Nat × Nat)), vs = pre ++ (f.name, v) :: post →
        (∀ g ∈ fs, (∃ nv ∈ post, nv.1 = g.name) → f.fld.Disjoint g.fld) →
        get W fs r' f.name = some (v % 2 ^ f.bits)) ∧
      ∀ p, (∀ f ∈ fs, (∃ nv ∈ vs, nv.1 = f.name) → p ∉ f.fld.positions) → bitAt r' p = bitAt r p := by
  obtain ⟨r', h1, h2, h3⟩ := setValues_frame hW hd vs r hin hvs
  refine ⟨r', h1, h2, fun f hf hdis => ?_, ?_, h3⟩
  · rw [get_eq hd hf, get_eq hd hf]
    exact read_congr hW (hd.2 f hf).1 h2 (hin f hf) fun p hp => h3 p fun g hg hn => hdis g hg hn p hp
  · rintro f hf pre v post rfl hdis
    obtain ⟨a, a1, a2, _⟩ := setValues_frame hW hd pre r hin fun nv hnv => hvs nv (by simp [hnv])
    obtain ⟨b, b1, b2, b3, _⟩ := put_any hW hd hf a (a2 ▸ hin) v
    obtain ⟨c, c1, c2, c3⟩ := setValues_frame hW hd post b (by rw [b2, a2]; exact hin)
      fun nv hnv => hvs nv (by simp [hnv])
    have e : setValues W fs r (pre ++ (f.name, v) :: post) = some c := by
      rw [setValues, List.foldlM_append]
      rw [setValues] at a1
      rw [a1]
      show List.foldlM (set1 W fs) a ((f.name, v) :: post) = some c
      rw [List.foldlM_cons]
      have : set1 W fs a (f.name, v) = some b := by
        simp only [set1, find_eq hd.1 hf]; exact b1
      rw [this]
      exact c1
    rw [h1] at e
    cases e
    rw [get_eq hd hf, ← b3]
    exact read_congr hW (hd.2 f hf).1 c2 (by rw [b2, a2]; exact hin f hf)
      fun p hp => c3 p fun g hg hn => hdis g hg hn p hp

/-- Two views of a word, as in an overlay. -/
def exOverlay : List MField := [⟨0, ⟨[⟨15, 0⟩], 16⟩, .without, 0⟩, ⟨1, ⟨[⟨7, 0⟩], 8⟩, .without, 0⟩, ⟨2, ⟨[⟨23, 16⟩], 8⟩, .without, 0⟩]

example : (setValues 32 exOverlay [0xFFFFFFFF#32] [(0, 0x1234), (1, 0x56)]).map
    (fun r => (get 32 exOverlay r 0, get 32 exOverlay r 1, get 32 exOverlay r 2)) =
      some (some 0x1256, some 0x56, some 0xFF) := by decide

/-- C22, for definitions in which fields may overlap. -/
theorem C22_equiv_overlapping (hW : Narrow W) (hn : (fs.map (·.name)).Nodup) (hl : ∀ f ∈ fs, f.fld.Legal)
    (a b : List (BitVec W)) (ha : FitsIn fs (a.length * W)) (hb : FitsIn fs (b.length * W)) :
    (equiv W fs a b = true ↔ ∀ f ∈ fs, get W fs a f.name = get W fs b f.name) ∧
      (equiv W fs a b = true ↔ ∀ p, (∃ f ∈ fs, p ∈ f.fld.positions) → bitAt a p = bitAt b p) := by
  refine ⟨by simp [equiv], ?_⟩
  simp only [equiv, List.all_eq_true, decide_eq_true_eq]
  have key : ∀ f ∈ fs, get W fs a f.name = get W fs b f.name ↔ ∀ p ∈ f.fld.positions, bitAt a p = bitAt b p := by
    intro f hf
    obtain ⟨x, hx, hxb⟩ := read_bits hW f (hl f hf) a (ha f hf)
    obtain ⟨y, hy, hyb⟩ := read_bits hW f (hl f hf) b (hb f hf)
    simp only [get, find_eq hn hf, Option.bind_eq_bind, Option.bind_some, hx, hy, Option.some.injEq]
    constructor
    · rintro rfl p hp
      obtain ⟨i, hi⟩ := List.mem_iff_getElem?.1 hp
      have h1 := hxb i
      have h2 := hyb i
      rw [h1] at h2
      simpa only [Fld.specBit, hi] using h2
    · intro h
      exact Nat.eq_of_testBit_eq fun i => by rw [hxb, hyb]; exact specBit_congr _ _ _ h i
  constructor
  · rintro h p ⟨f, hf, hp⟩
    exact (key f hf).1 (h f hf) p hp
  · intro h f hf
    exact (key f hf).2 fun p hp => h p ⟨f, hf, hp⟩

example : equiv 32 exOverlay [0xA0000000#32] [0xB0000000#32] = true ∧
    equiv 32 exOverlay [0xA0000000#32] [0xB0000001#32] = false := by decide

/-- C59, for definitions in which fields may overlap. -/
theorem C59_copy_overlapping (hW : Narrow W) (hd : GoodDef fs) (n : Nat) (hin : FitsIn fs (n * W))
    (s : List (BitVec W)) (vs : List (Nat × Nat)) (hvs : ∀ nv ∈ vs, nv.1 ∈ fs.map (·.name)) :
    ∃ r, constructFrom W n fs s vs = some r ∧ r.length = n ∧
      (∀ f ∈ fs, (∀ g ∈ fs, (∃ nv ∈ vs, nv.1 = g.name) → f.fld.Disjoint g.fld) →
        ∃ x, get W fs r f.name = some x ∧ ∀ i, x.testBit i = f.fld.specBit s i) ∧
      ∀ f ∈ fs, ∀ (pre : List (Nat × Nat)) (v : Nat) (post : List (Nat × Nat)), vs = pre ++ (f.name, v) :: post →
        (∀ g ∈ fs, (∃ nv ∈ post, nv.1 = g.name) → f.fld.Disjoint g.fld) →
        get W fs r f.name = some (v % 2 ^ f.bits) := by
  have hl : (s.take (min s.length n) ++ List.replicate (n - min s.length n) (0 : BitVec W)).length
      = n := by simp; omega
  obtain ⟨r, h1, h2, h3, h4, _⟩ := C18_set_overlapping hW hd _ (by rw [hl]; exact hin) vs hvs
  refine ⟨r, h1, by rw [h2, hl], fun f hf hdis => ?_, h4⟩
  rw [h3 f hf hdis, get_eq hd hf]
  obtain ⟨x, hx, hxb⟩ := read_bits hW f (hd.2 f hf).1 _ (by rw [hl]; exact hin f hf)
  refine ⟨x, hx, fun i => ?_⟩
  rw [hxb]
  refine specBit_congr _ _ _ (fun p hp => ?_) i
  have hpn := hin f hf p hp
  have hk : p / W < n := (Nat.div_lt_iff_lt_mul hW.pos).2 hpn
  simp only [bitAt]
  by_cases hs : p / W < s.length
  · rw [List.getElem?_append_left (by rw [List.length_take]; omega), List.getElem?_take, if_pos (by omega)]
  · rw [List.getElem?_append_right (by rw [List.length_take]; omega), List.getElem?_eq_none (l := s) (by omega),
      List.getElem?_replicate, List.length_take, if_pos (by omega)]
    simp

example : (constructFrom 32 1 exOverlay [0xAABBCCDD#32, 5#32] [(1, 0x11)]).map
    (fun r => (get 32 exOverlay r 0, get 32 exOverlay r 1, get 32 exOverlay r 2)) =
      some (some 0xCC11, some 0x11, some 0xBB) := by decide

end Verif.Message
