import Verif.Message.Spec
import Verif.Bits.Props
namespace Verif.Message
open Verif.Bits

variable {W n : Nat} {fs : List MField}

theorem find_eq (hn : (fs.map (·.name)).Nodup) {f : MField} (hf : f ∈ fs) :
    find fs f.name = some f := by
  induction fs with
  | nil => simp at hf
  | cons g gs ih =>
    simp only [List.map_cons, List.nodup_cons, List.mem_map, not_exists, not_and] at hn
    simp only [List.mem_cons] at hf
    rcases hf with rfl | hf
    · simp [find]
    · have : g.name ≠ f.name := fun h => hn.1 f hf h.symm
      simp only [find, List.find?_cons, beq_eq_false_iff_ne.2 this]
      exact ih hn.2 hf

theorem find_none {m : Nat} (h : m ∉ fs.map (·.name)) : find fs m = none := by
  simp only [find, List.find?_eq_none, beq_iff_eq]
  intro f hf he
  exact h (List.mem_map.2 ⟨f, hf, he⟩)

theorem name_inj (hn : (fs.map (·.name)).Nodup) {f g : MField} (hf : f ∈ fs) (hg : g ∈ fs)
    (h : f.name = g.name) : f = g := by
  have h1 := find_eq hn hf
  rw [h, find_eq hn hg] at h1
  exact (Option.some.inj h1).symm

theorem Layout.narrow (L : Layout W n fs) : Narrow W := L.width

theorem bits_eq {f : MField} (h : f.fld.Legal) : f.bits = f.fld.positions.length := by
  rw [positions_total h, MField.bits]
  congr 1
  apply List.map_congr_left
  intro a ha
  have := valid_le (h.1 a ha)
  simp only [At.size]; omega

theorem bits_le {f : MField} (h : f.fld.Legal) : f.bits ≤ f.fld.EW := by
  rw [bits_eq h, positions_total h]; exact h.2.1

/-- One write: it succeeds, keeps the size, gives the value to its own field, and keeps all other
bits. -/
theorem put_spec (L : Layout W n fs) {f : MField} (hf : f ∈ fs) (r : List (BitVec W))
    (hr : r.length = n) (v : Nat) :
    ∃ r', put W f.fld r v = some r' ∧ r'.length = n ∧
      read W f.fld r' = some (v % 2 ^ f.bits) ∧
      (∀ p, p ∉ f.fld.positions → bitAt r' p = bitAt r p) ∧
      ∀ g ∈ fs, g.name ≠ f.name → read W g.fld r' = read W g.fld r := by
  have hin : f.fld.Within (r.length * W) := hr ▸ L.inside f hf
  obtain ⟨r', v', h1, h2, h3⟩ := C09_write_read L.narrow f.fld (L.legal f hf) (L.self f hf) r hin
    (BitVec.ofNat f.fld.EW v)
  obtain ⟨r'', h4, h5, h6⟩ := C10_write_frame L.narrow f.fld (L.legal f hf) r hin
    (BitVec.ofNat f.fld.EW v)
  have e : r'' = r' := by rw [h1] at h4; exact (Option.some.inj h4).symm
  subst e
  refine ⟨r'', h1, by omega, ?_, h6, fun g hg hne => ?_⟩
  · rw [read, h2, Option.map_some, h3, bits_eq (L.legal f hf), BitVec.toNat_ofNat,
      Nat.mod_mod_of_dvd]
    rw [← bits_eq (L.legal f hf)]
    exact Nat.pow_dvd_pow 2 (bits_le (L.legal f hf))
  · obtain ⟨s, h7, h8, _⟩ := C10_other_field_unchanged L.narrow f.fld g.fld (L.legal f hf)
      (L.legal g hg) (L.apart f hf g hg (Ne.symm hne)) r hin (hr ▸ L.inside g hg)
      (BitVec.ofNat f.fld.EW v)
    have e : s = r'' := by rw [h1] at h7; exact (Option.some.inj h7).symm
    subst e
    rw [read, read, h8]

theorem lastNamed_append (vs : List (Nat × Nat)) (nv : Nat × Nat) (m : Nat) :
    lastNamed (vs ++ [nv]) m = if nv.1 = m then some nv.2 else lastNamed vs m := by
  simp only [lastNamed, List.reverse_append, List.reverse_cons, List.reverse_nil, List.nil_append,
    List.singleton_append, List.find?_cons]
  by_cases h : nv.1 = m
  · simp [h]
  · rw [if_neg h, beq_eq_false_iff_ne.2 h]

theorem lastNamed_cons (nv : Nat × Nat) (vs : List (Nat × Nat)) (m : Nat) :
    lastNamed (nv :: vs) m = match lastNamed vs m with
      | some v => some v
      | none => if nv.1 = m then some nv.2 else none := by
  simp only [lastNamed, List.reverse_cons, List.find?_append]
  cases h : List.find? (fun x => x.1 == m) vs.reverse with
  | some x => simp
  | none =>
    by_cases hm : nv.1 = m
    · simp [hm]
    · simp [hm]

theorem setValues_spec (L : Layout W n fs) (vs : List (Nat × Nat)) :
    ∀ (r : List (BitVec W)), r.length = n → (∀ nv ∈ vs, nv.1 ∈ fs.map (·.name)) →
    ∃ r', setValues W fs r vs = some r' ∧ r'.length = n ∧
      (∀ f ∈ fs, read W f.fld r' = match lastNamed vs f.name with
        | some v => some (v % 2 ^ f.bits)
        | none => read W f.fld r) ∧
      ∀ p, (∀ f ∈ fs, (∃ nv ∈ vs, nv.1 = f.name) → p ∉ f.fld.positions) →
        bitAt r' p = bitAt r p := by
  induction vs with
  | nil =>
    intro r hr _
    exact ⟨r, rfl, hr, fun f _ => by simp [lastNamed], fun _ _ => rfl⟩
  | cons nv vs ih =>
    intro r hr hvs
    obtain ⟨f, hf, hfn⟩ := List.mem_map.1 (hvs nv (by simp))
    obtain ⟨r1, h1, h2, h3, h4, h5⟩ := put_spec L hf r hr nv.2
    obtain ⟨r2, k1, k2, k3, k4⟩ := ih r1 h2 (fun x hx => hvs x (by simp [hx]))
    refine ⟨r2, ?_, k2, fun g hg => ?_, fun p hp => ?_⟩
    · have : set1 W fs r nv = some r1 := by
        simp only [set1, ← hfn, find_eq L.names hf]; exact h1
      simp only [setValues, List.foldlM_cons, this]
      exact k1
    · rw [k3 g hg, lastNamed_cons]
      cases lastNamed vs g.name with
      | some v => rfl
      | none =>
        simp only
        by_cases hg' : nv.1 = g.name
        · have : g = f := name_inj L.names hg hf (by rw [hfn, hg'])
          subst this
          simp [hg', h3]
        · rw [if_neg hg']
          exact h5 g hg (by rw [hfn]; exact Ne.symm hg')
    · rw [k4 p (fun g hg ⟨x, hx, hxe⟩ => hp g hg ⟨x, by simp [hx], hxe⟩)]
      exact h4 p (hp f hf ⟨nv, by simp, hfn.symm⟩)

theorem setDefaults_spec (L : Layout W n fs) (gs : List MField) :
    ∀ (r : List (BitVec W)), r.length = n → (∀ g ∈ gs, g ∈ fs) →
    ∃ r', setDefaults W fs r (gs.map (·.name)) = some r' ∧ r'.length = n ∧
      (∀ f ∈ fs, f ∈ gs → ∀ d, f.dflt.val? = some d → read W f.fld r' = some (d % 2 ^ f.bits)) ∧
      (∀ f ∈ fs, (f ∉ gs ∨ f.dflt.val? = none) → read W f.fld r' = read W f.fld r) ∧
      ∀ p, (∀ f ∈ gs, f.dflt.val? ≠ none → p ∉ f.fld.positions) → bitAt r' p = bitAt r p := by
  induction gs with
  | nil =>
    intro r hr _
    exact ⟨r, rfl, hr, by simp, fun _ _ _ => rfl, fun _ _ => rfl⟩
  | cons g gs ih =>
    intro r hr hgs
    have hg := hgs g (by simp)
    obtain ⟨r1, h1, h2, h3, h4, h5⟩ : ∃ r1, setDefault W fs r g.name = some r1 ∧ r1.length = n ∧
        (∀ d, g.dflt.val? = some d → read W g.fld r1 = some (d % 2 ^ g.bits)) ∧
        (∀ f ∈ fs, (f ≠ g ∨ g.dflt.val? = none) → read W f.fld r1 = read W f.fld r) ∧
        ∀ p, (g.dflt.val? ≠ none → p ∉ g.fld.positions) → bitAt r1 p = bitAt r p := by
      simp only [setDefault, find_eq L.names hg, Option.bind_eq_bind, Option.bind_some]
      cases hd : g.dflt.val? with
      | none => exact ⟨r, rfl, hr, by simp, fun _ _ _ => rfl, fun _ _ => rfl⟩
      | some d =>
        obtain ⟨r1, h1, h2, h3, h4, h5⟩ := put_spec L hg r hr d
        refine ⟨r1, h1, h2, fun d' hd' => by cases hd'; exact h3, fun f hf hne => ?_,
          fun p hp => h4 p (hp (by simp))⟩
        rcases hne with hne | hne
        · exact h5 f hf (fun h => hne (name_inj L.names hf hg h))
        · simp at hne
    obtain ⟨r2, k1, k2, k3, k4, k5⟩ := ih r1 h2 (fun x hx => hgs x (by simp [hx]))
    refine ⟨r2, ?_, k2, fun f hf hmem d hd => ?_, fun f hf hor => ?_, fun p hp => ?_⟩
    · simp only [setDefaults, List.map_cons, List.foldlM_cons, h1]
      exact k1
    · by_cases hin : f ∈ gs
      · exact k3 f hf hin d hd
      · have : f = g := by simpa [hin] using hmem
        subst this
        rw [k4 f hf (.inl hin)]
        exact h3 d hd
    · have hor' : f ∉ gs ∨ f.dflt.val? = none := by
        rcases hor with h | h
        · exact .inl (fun h' => h (by simp [h']))
        · exact .inr h
      rw [k4 f hf hor']
      apply h4 f hf
      rcases hor with h | h
      · exact .inl (fun h' => h (by simp [h']))
      · by_cases hfg : f = g
        · exact .inr (hfg ▸ h)
        · exact .inl hfg
    · rw [k5 p (fun f hf => hp f (by simp [hf])), h5 p (hp g (by simp))]

theorem bitAt_replicate (n p : Nat) : bitAt (List.replicate n (0 : BitVec W)) p = false := by
  simp only [bitAt, List.getElem?_replicate]
  split
  · next e h =>
    split at h
    · cases h; simp
    · cases h
  · rfl

theorem read_bits (hW : Narrow W) (f : MField) (hf : f.fld.Legal) (r : List (BitVec W))
    (hin : f.fld.Within (r.length * W)) :
    ∃ x, read W f.fld r = some x ∧ ∀ i, x.testBit i = f.fld.specBit r i := by
  obtain ⟨v, hv, hb⟩ := C11_reads_declared_bits hW f.fld hf r hin
  exact ⟨v.toNat, by simp [read, hv], fun i => by rw [← hb]; rfl⟩

theorem read_zero (L : Layout W n fs) {f : MField} (hf : f ∈ fs) :
    read W f.fld (List.replicate n (0 : BitVec W)) = some 0 := by
  obtain ⟨x, hx, hb⟩ := read_bits L.narrow f (L.legal f hf) (List.replicate n (0 : BitVec W))
    (by simpa using L.inside f hf)
  rw [hx]
  congr 1
  apply Nat.eq_of_testBit_eq
  intro i
  rw [hb, Nat.zero_testBit]
  simp only [Fld.specBit]
  split
  · exact bitAt_replicate n _
  · rfl

/-! ### sorting and unique names -/

theorem insertBy_perm {α : Type} (lt : α → α → Bool) (x : α) (ys : List α) :
    (insertBy lt x ys).Perm (x :: ys) := by
  induction ys with
  | nil => simp [insertBy]
  | cons y ys ih =>
    simp only [insertBy]
    split
    · exact (ih.cons y).trans (List.Perm.swap x y ys)
    · exact List.Perm.refl _

theorem sortBy_perm {α : Type} (lt : α → α → Bool) (xs : List α) : (sortBy lt xs).Perm xs := by
  induction xs with
  | nil => simp [sortBy]
  | cons x xs ih =>
    exact (insertBy_perm lt x _).trans (ih.cons x)

theorem mem_sortBy {α : Type} {lt : α → α → Bool} {xs : List α} {x : α} :
    x ∈ sortBy lt xs ↔ x ∈ xs := (sortBy_perm lt xs).mem_iff

theorem mem_uniqueNames {f : MField} : ∀ {fs : List MField}, f ∈ uniqueNames fs → f ∈ fs := by
  intro fs
  induction fs with
  | nil => simp [uniqueNames]
  | cons g gs ih =>
    simp only [uniqueNames, List.mem_cons, List.mem_filter]
    rintro (h | ⟨h, _⟩)
    · exact .inl h
    · exact .inr (ih h)

theorem uniqueNames_nodup (fs : List MField) : ((uniqueNames fs).map (·.name)).Nodup := by
  induction fs with
  | nil => simp [uniqueNames]
  | cons g gs ih =>
    simp only [uniqueNames, List.map_cons, List.nodup_cons, List.mem_map, List.mem_filter,
      bne_iff_ne, ne_eq]
    refine ⟨fun ⟨f, ⟨_, hne⟩, he⟩ => hne he, ?_⟩
    exact List.Nodup.sublist (List.filter_sublist.map _) ih

theorem uniqueNames_of_nodup : ∀ {fs : List MField}, (fs.map (·.name)).Nodup →
    uniqueNames fs = fs := by
  intro fs
  induction fs with
  | nil => simp [uniqueNames]
  | cons g gs ih =>
    intro h
    simp only [List.map_cons, List.nodup_cons] at h
    simp only [uniqueNames, ih h.2, List.cons.injEq, true_and, List.filter_eq_self, bne_iff_ne]
    intro f hf he
    exact h.1 (List.mem_map.2 ⟨f, hf, he⟩)

theorem names_nodup_sortBy {lt : MField → MField → Bool} (h : (fs.map (·.name)).Nodup) :
    ((sortBy lt fs).map (·.name)).Nodup :=
  ((sortBy_perm lt fs).map _).nodup_iff.2 h

/-- A message accepted by the name check has exactly the given fields. -/
theorem message_mem {out : List MField} (h : message fs = some out) (f : MField) :
    f ∈ out ↔ f ∈ fs := by
  simp only [message] at h
  split at h
  · next hn =>
    cases h
    rw [uniqueByName, uniqueNames_of_nodup (names_nodup_sortBy hn), mem_sortBy]
  · simp at h

theorem message_nodup {out : List MField} (h : message fs = some out) :
    (out.map (·.name)).Nodup := by
  simp only [message] at h
  split at h
  · cases h; exact uniqueNames_nodup _
  · simp at h

/-! ### shifting -/

theorem positions_shiftedBy (f : MField) (k : Nat) :
    (f.shiftedBy k).fld.positions = f.fld.positions.map (· + k) := by
  simp only [Fld.positions, MField.shiftedBy, ← List.map_reverse, List.map_map, List.map_flatten]
  congr 1
  apply List.map_congr_left
  intro a _
  simp only [Function.comp, At.positions, At.shiftedBy, List.map_map]
  have : a.msb + k + 1 - (a.lsb + k) = a.msb + 1 - a.lsb := by omega
  rw [this]
  apply List.map_congr_left
  intro i _
  simp only [Function.comp]; omega

theorem legal_shiftedBy {f : MField} (h : f.fld.Legal) (k : Nat) : (f.shiftedBy k).fld.Legal := by
  obtain ⟨h1, h2, h3⟩ := h
  refine ⟨?_, ?_, h3⟩
  · intro a ha
    simp only [MField.shiftedBy, List.mem_map] at ha
    obtain ⟨b, hb, rfl⟩ := ha
    have := valid_le (h1 b hb)
    have e : (b.shiftedBy k).size = b.size := by simp only [At.size, At.shiftedBy]; omega
    have e2 : (b.shiftedBy k).lsb ≤ (b.shiftedBy k).msb := by simp only [At.shiftedBy]; omega
    simp [At.valid, e, e2, this.2]
  · simp only [MField.shiftedBy, List.map_map]
    have : (f.fld.ats.map (At.size ∘ fun x => x.shiftedBy k)) = f.fld.ats.map At.size := by
      apply List.map_congr_left
      intro a _
      simp only [Function.comp, At.size, At.shiftedBy]; omega
    rw [this]; exact h2

/-- Any unsigned element type. -/
def AnyWidth (A : Nat) : Prop := A = 8 ∨ A = 16 ∨ A = 32 ∨ A = 64

theorem extentIn_ok' {A : Nat} (hA : AnyWidth A) {a : At} (hl : a.lsb ≤ a.msb) :
    a.msb < a.loc.extentIn A * A := by
  have h1 := loc_msb hl
  have h2 : a.loc.msb + 1 = a.loc.lsb + a.loc.size := by
    simp only [Loc.msb, loc_size, At.size]; omega
  rcases hA with rfl | rfl | rfl | rfl <;> simp only [Loc.extentIn] <;> omega

/-- Every bit of a message is below its size. -/
theorem within_storageSize {A : Nat} (hA : AnyWidth A) {m : List MField} {f : MField} (hf : f ∈ m)
    (hl : f.fld.Legal) : f.fld.Within (storageSize A m * A) := by
  intro p hp
  obtain ⟨a, ha, h1, h2⟩ := (mem_fld_positions f.fld p).1 hp
  have h3 := extentIn_ok' hA (valid_le (hl.1 a ha)).1
  have h4 : a.loc.extentIn A ≤ f.fld.extentIn A :=
    le_foldl_max _ _ _ (.inr (by simp only [List.mem_map]; exact ⟨a.loc, ⟨a, ha, rfl⟩, rfl⟩))
  have h5 : f.fld.extentIn A ≤ storageSize A m :=
    le_foldl_max _ _ _ (.inr (by simp only [List.mem_map]; exact ⟨f, hf, rfl⟩))
  have h6 : a.loc.extentIn A * A ≤ storageSize A m * A := Nat.mul_le_mul_right _ (by omega)
  omega

/-! ### packing -/

/-- Offset of message `i`: the sizes of the messages before it. -/
def offset (A : Nat) (ms : List (List MField)) (i : Nat) : Nat :=
  ((ms.take i).map (storageSize A)).sum

theorem partialSums_getElem? (acc : Nat) (xs : List Nat) (i : Nat) (h : i < xs.length) :
    (partialSums acc xs)[i]? = some (acc + (xs.take (i + 1)).sum) := by
  induction xs generalizing acc i with
  | nil => simp at h
  | cons x xs ih =>
    cases i with
    | zero => simp [partialSums]
    | succ i =>
      simp only [partialSums, List.getElem?_cons_succ, List.take_succ_cons, List.sum_cons]
      rw [ih (acc + x) i (by simpa using h)]
      congr 1
      omega

theorem msgOffsets_getElem? (A : Nat) (ms : List (List MField)) (i : Nat) (h : i ≤ ms.length) :
    (msgOffsets A ms)[i]? = some (offset A ms i) := by
  cases i with
  | zero => simp [msgOffsets, offset]
  | succ i =>
    simp only [msgOffsets, List.getElem?_cons_succ]
    rw [partialSums_getElem? _ _ _ (by simp; omega), offset, List.map_take]
    simp

theorem shiftedMsgs_getElem? (A : Nat) (ms : List (List MField)) (i : Nat) (m : List MField)
    (h : ms[i]? = some m) :
    (shiftedMsgs A ms)[i]? = some (m.map (·.shiftedBy (offset A ms i * A))) := by
  have hi : i < ms.length := by
    by_contra hn
    rw [List.getElem?_eq_none (by omega)] at h
    simp at h
  simp only [shiftedMsgs, List.getElem?_zipWith, msgOffsets_getElem? A ms i (by omega),
    List.getElem?_append_left hi, h]

theorem partialSums_length (acc : Nat) (xs : List Nat) : (partialSums acc xs).length = xs.length := by
  induction xs generalizing acc with
  | nil => rfl
  | cons x xs ih => simp [partialSums, ih]

theorem mem_shiftedMsgs {A : Nat} {ms : List (List MField)} {g : MField}
    (h : g ∈ (shiftedMsgs A ms).flatten) :
    ∃ (i : Nat) (m : List MField) (f : MField), ms[i]? = some m ∧ f ∈ m ∧ g = f.shiftedBy (offset A ms i * A) := by
  obtain ⟨l, hl, hg⟩ := List.mem_flatten.1 h
  obtain ⟨i, hi⟩ := List.mem_iff_getElem?.1 hl
  have hlen : i < (shiftedMsgs A ms).length := by
    by_contra hn
    rw [List.getElem?_eq_none (by omega)] at hi
    simp at hi
  simp only [shiftedMsgs, List.length_zipWith, msgOffsets, List.length_cons, partialSums_length,
    List.length_map, List.length_append, List.length_nil] at hlen
  by_cases him : i < ms.length
  · have hm := List.getElem?_eq_getElem him
    rw [shiftedMsgs_getElem? A ms i _ hm] at hi
    cases hi
    obtain ⟨f, hf, rfl⟩ := List.mem_map.1 hg
    exact ⟨i, _, f, hm, hf, rfl⟩
  · have : i = ms.length := by omega
    subst this
    simp only [shiftedMsgs, List.getElem?_zipWith, msgOffsets_getElem? A ms _ (Nat.le_refl _),
      List.getElem?_append_right (Nat.le_refl _), Nat.sub_self, List.getElem?_cons_zero,
      List.map_nil, Option.some.injEq] at hi
    subst hi
    simp at hg

theorem shifted_mem {A : Nat} {ms : List (List MField)} {i : Nat} {m : List MField} {f : MField}
    (hm : ms[i]? = some m) (hf : f ∈ m) :
    f.shiftedBy (offset A ms i * A) ∈ (shiftedMsgs A ms).flatten := by
  refine List.mem_flatten.2 ⟨_, List.mem_of_getElem? (shiftedMsgs_getElem? A ms i m hm), ?_⟩
  exact List.mem_map.2 ⟨f, hf, rfl⟩

theorem offset_succ {A : Nat} {ms : List (List MField)} {i : Nat} {m : List MField}
    (hm : ms[i]? = some m) : offset A ms (i + 1) = offset A ms i + storageSize A m := by
  have hi : i < ms.length := by
    by_contra hn
    rw [List.getElem?_eq_none (by omega)] at hm
    simp at hm
  rw [List.getElem?_eq_getElem hi, Option.some.injEq] at hm
  simp only [offset, List.take_succ_eq_append_getElem hi, hm, List.map_append, List.map_cons,
    List.map_nil, List.sum_append, List.sum_cons, List.sum_nil, Nat.add_zero]

theorem offset_mono {A : Nat} {ms : List (List MField)} {i j : Nat} (h : i ≤ j) :
    offset A ms i ≤ offset A ms j := by
  obtain ⟨k, rfl⟩ := Nat.exists_eq_add_of_le h
  simp only [offset, List.take_add, List.map_append, List.sum_append]
  omega

end Verif.Message
