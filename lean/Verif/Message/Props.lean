import Verif.Message.Lemmas
/-!
# Properties C17–C22, C59–C62: messages
-/
namespace Verif.Message
open Verif.Bits

variable {W n : Nat} {fs : List MField}

/-! ## C17 -/

/-- C17: after construction from named values every field reads its (last) named value, else its
default, else zero, reduced to the field's bits. -/
theorem C17_construction (L : Layout W n fs) (vs : List (Nat × Nat))
    (hvs : ∀ nv ∈ vs, nv.1 ∈ fs.map (·.name)) :
    ∃ r, construct W n fs vs = some r ∧ r.length = n ∧
      ∀ f ∈ fs, get W fs r f.name = some (expected vs f % 2 ^ f.bits) := by
  obtain ⟨r1, h1, h2, h3, h4, _⟩ := setDefaults_spec L fs (List.replicate n 0) (by simp)
    (fun _ h => h)
  obtain ⟨r2, k1, k2, k3, _⟩ := setValues_spec L vs r1 h2 hvs
  refine ⟨r2, by rw [construct, h1]; exact k1, k2, fun f hf => ?_⟩
  simp only [get, find_eq L.names hf, Option.bind_eq_bind, Option.bind_some, k3 f hf, expected]
  cases lastNamed vs f.name with
  | some v => rfl
  | none =>
    cases hd : f.dflt.val? with
    | some d => exact h3 f hf hf d hd
    | none =>
      rw [h4 f hf (.inr hd), read_zero L hf]
      simp

/-- Bits of the storage that belong to no field are zero after construction. -/
theorem C17_padding_zero (L : Layout W n fs) (vs : List (Nat × Nat))
    (hvs : ∀ nv ∈ vs, nv.1 ∈ fs.map (·.name)) (p : Nat)
    (hp : ∀ f ∈ fs, p ∉ f.fld.positions) :
    ∃ r, construct W n fs vs = some r ∧ bitAt r p = false := by
  obtain ⟨r1, h1, h2, _, _, h5⟩ := setDefaults_spec L fs (List.replicate n 0) (by simp)
    (fun _ h => h)
  obtain ⟨r2, k1, k2, _, k4⟩ := setValues_spec L vs r1 h2 hvs
  refine ⟨r2, by rw [construct, h1]; exact k1, ?_⟩
  rw [k4 p (fun f hf _ => hp f hf), h5 p (fun f hf _ => hp f hf), bitAt_replicate]

/-- Three fields: a byte with default 7, a split field with a required value, a word without
default. -/
def exFields : List MField :=
  [⟨0, ⟨[⟨7, 0⟩], 8⟩, .value 7, 0⟩, ⟨1, ⟨[⟨31, 28⟩, ⟨11, 8⟩], 16⟩, .const 0xA5, 0⟩,
   ⟨2, ⟨[⟨63, 32⟩], 32⟩, .without, 0⟩]

theorem exFields_layout : Layout 32 2 exFields where
  width := by simp
  names := by decide
  legal := by simp [exFields, Fld.Legal, At.valid, At.size]
  self := by unfold Fld.NonOverlapping; decide
  apart := by unfold Fld.Disjoint; decide
  inside := by unfold Fld.Within; decide

example : construct 32 2 exFields [(2, 0xDEADBEEF), (0, 0x101), (0, 0x1FF)] =
    some [0xA00005FF#32, 0xDEADBEEF#32] := by decide +kernel

/-! ## C18 -/

/-- C18: `set` gives each named field its last value and leaves every other field, and every bit
outside the named fields, as it was. -/
theorem C18_set_changes_only_named (L : Layout W n fs) (r : List (BitVec W)) (hr : r.length = n)
    (vs : List (Nat × Nat)) (hvs : ∀ nv ∈ vs, nv.1 ∈ fs.map (·.name)) :
    ∃ r', setValues W fs r vs = some r' ∧ r'.length = n ∧
      (∀ f ∈ fs, ∀ v, lastNamed vs f.name = some v →
        get W fs r' f.name = some (v % 2 ^ f.bits)) ∧
      (∀ f ∈ fs, lastNamed vs f.name = none → get W fs r' f.name = get W fs r f.name) ∧
      ∀ p, (∀ f ∈ fs, (∃ nv ∈ vs, nv.1 = f.name) → p ∉ f.fld.positions) →
        bitAt r' p = bitAt r p := by
  obtain ⟨r', k1, k2, k3, k4⟩ := setValues_spec L vs r hr hvs
  refine ⟨r', k1, k2, fun f hf v hv => ?_, fun f hf hv => ?_, k4⟩
  · simp [get, find_eq L.names hf, k3 f hf, hv]
  · simp [get, find_eq L.names hf, k3 f hf, hv]

/-- C18: setting by name without a value stores the defaults of the named fields only. -/
theorem C18_set_defaults (L : Layout W n fs) (r : List (BitVec W)) (hr : r.length = n)
    (gs : List MField) (hgs : ∀ g ∈ gs, g ∈ fs) :
    ∃ r', setDefaults W fs r (gs.map (·.name)) = some r' ∧ r'.length = n ∧
      (∀ f ∈ gs, ∀ d, f.dflt.val? = some d → get W fs r' f.name = some (d % 2 ^ f.bits)) ∧
      ∀ f ∈ fs, (f ∉ gs ∨ f.dflt.val? = none) → get W fs r' f.name = get W fs r f.name := by
  obtain ⟨r', h1, h2, h3, h4, _⟩ := setDefaults_spec L gs r hr hgs
  refine ⟨r', h1, h2, fun f hf d hd => ?_, fun f hf h => ?_⟩
  · simp [get, find_eq L.names (hgs f hf), h3 f (hgs f hf) hf d hd]
  · simp [get, find_eq L.names hf, h4 f hf h]

example : setValues 32 exFields [0xFFFFFFFF#32, 0#32] [(1, 0x3C)] = some [0x3FFFFCFF#32, 0#32] := by
  decide +kernel

/-! ## C59 -/

/-- C59: an owning message copied from the storage of a message reads the same in every field that
is not named, and the named value in every named one; bits beyond the source are zero. -/
theorem C59_copy (L : Layout W n fs) (s : List (BitVec W)) (vs : List (Nat × Nat))
    (hvs : ∀ nv ∈ vs, nv.1 ∈ fs.map (·.name)) :
    ∃ r, constructFrom W n fs s vs = some r ∧ r.length = n ∧
      ∀ f ∈ fs, match lastNamed vs f.name with
        | some v => get W fs r f.name = some (v % 2 ^ f.bits)
        | none => ∃ x, get W fs r f.name = some x ∧ ∀ i, x.testBit i = f.fld.specBit s i := by
  have hl : (s.take (min s.length n) ++ List.replicate (n - min s.length n) (0 : BitVec W)).length
      = n := by simp; omega
  obtain ⟨r', k1, k2, k3, _⟩ := setValues_spec L vs _ hl hvs
  refine ⟨r', k1, k2, fun f hf => ?_⟩
  have hk := k3 f hf
  have hg : get W fs r' f.name = read W f.fld r' := by
    simp [get, find_eq L.names hf]
  rw [hg]
  cases hv : lastNamed vs f.name with
  | some v => rw [hv] at hk; exact hk
  | none =>
    rw [hv] at hk
    rw [hk]
    obtain ⟨x, hx, hb⟩ := read_bits L.narrow f (L.legal f hf) _ (by rw [hl]; exact L.inside f hf)
    refine ⟨x, hx, fun i => ?_⟩
    rw [hb]
    simp only [Fld.specBit]
    cases hp : f.fld.positions[i]? with
    | none => rfl
    | some p =>
      have hpi := L.inside f hf p (List.mem_of_getElem? hp)
      have hq : p / W < n := Nat.div_lt_of_lt_mul (by rw [Nat.mul_comm]; exact hpi)
      simp only [bitAt]
      by_cases hs : p / W < s.length
      · have : p / W < min s.length n := by omega
        rw [List.getElem?_append_left (by simp; omega), List.getElem?_take_of_lt this]
      · rw [List.getElem?_append_right (by simp; omega), List.getElem?_eq_none (l := s) (by omega),
          List.getElem?_replicate]
        split
        · next h =>
          split at h
          · cases h; simp
          · cases h
        · rfl

example : constructFrom 8 2 [⟨0, ⟨[⟨7, 0⟩], 8⟩, .without, 0⟩, ⟨1, ⟨[⟨15, 8⟩], 8⟩, .without, 0⟩]
    [0x11#8, 0x22#8, 0x33#8] [(1, 0x44)] = some [0x11#8, 0x44#8] := by decide +kernel

/-! ## C19 -/

theorem mem_uniqueNames_iff (fs : List MField) (f : MField) :
    f ∈ uniqueNames fs ↔ find fs f.name = some f := by
  induction fs with
  | nil => simp [uniqueNames, find]
  | cons g gs ih =>
    simp only [uniqueNames, List.mem_cons, List.mem_filter, bne_iff_ne, ne_eq, find,
      List.find?_cons, ih]
    by_cases h : g.name = f.name
    · simp [h]
      constructor
      · rintro rfl; rfl
      · intro h; exact h.symm
    · have h' : f.name ≠ g.name := fun x => h x.symm
      have hb : (g.name == f.name) = false := by simpa using h
      rw [hb]
      simp only [h', not_false_eq_true, and_true]
      constructor
      · rintro (rfl | h)
        · exact absurd rfl h'
        · exact h
      · exact .inr

theorem extend_mem_cases {base new : List MField} {f : MField} (h : f ∈ extend base new) :
    f ∈ new ∨ f ∈ base := by
  have := mem_uniqueNames h
  rw [mem_sortBy] at this
  simpa using this

/-- C19: in an extended message each name occurs once. -/
theorem C19_names_unique (base new : List MField) : ((extend base new).map (·.name)).Nodup :=
  uniqueNames_nodup _

theorem find_isSome_of_mem {fs : List MField} {f : MField} (h : f ∈ fs) :
    ∃ g ∈ fs, g.name = f.name ∧ find fs f.name = some g := by
  cases hg : find fs f.name with
  | none =>
    simp only [find, List.find?_eq_none] at hg
    exact absurd (by simp) (hg f h)
  | some g =>
    refine ⟨g, List.mem_of_find?_eq_some hg, ?_, rfl⟩
    simpa using List.find?_some hg

/-- C19: every name of the base and of the new fields is present, and base fields whose name is not
among the new fields are kept unchanged. -/
theorem C19_base_kept (base new : List MField) (hb : (base.map (·.name)).Nodup) :
    (∀ f ∈ new ++ base, ∃ g ∈ extend base new, g.name = f.name) ∧
    ∀ f ∈ base, f.name ∉ new.map (·.name) → f ∈ extend base new := by
  have key : ∀ f ∈ new ++ base, ∃ g ∈ extend base new, g.name = f.name := by
    intro f hf
    have hf' : f ∈ sortBy (fun a b => decide (sortKey a < sortKey b)) (new ++ base) :=
      mem_sortBy.2 hf
    obtain ⟨g, hg, hn, hfind⟩ := find_isSome_of_mem hf'
    refine ⟨g, ?_, hn⟩
    rw [extend, uniqueByName, mem_uniqueNames_iff, hn, hfind]
  refine ⟨key, fun f hf hn => ?_⟩
  obtain ⟨g, hg, hgn⟩ := key f (by simp [hf])
  rcases extend_mem_cases hg with h | h
  · exact absurd (List.mem_map.2 ⟨g, h, hgn⟩) hn
  · rwa [← name_inj hb h hf hgn]

theorem sortBy_sorted (k : MField → Nat) (fs : List MField) :
    (sortBy (fun a b => decide (k a < k b)) fs).Pairwise (fun a b => k a ≤ k b) := by
  induction fs with
  | nil => simp [sortBy]
  | cons x xs ih =>
    have step : ∀ ys : List MField, ys.Pairwise (fun a b => k a ≤ k b) →
        (insertBy (fun a b => decide (k a < k b)) x ys).Pairwise (fun a b => k a ≤ k b) := by
      intro ys
      induction ys with
      | nil => simp [insertBy]
      | cons y ys ih2 =>
        intro hy
        rw [List.pairwise_cons] at hy
        simp only [insertBy, decide_eq_true_eq]
        split
        · next hlt =>
          rw [List.pairwise_cons]
          refine ⟨fun z hz => ?_, ih2 hy.2⟩
          have := (insertBy_perm _ x ys).mem_iff.1 hz
          rcases List.mem_cons.1 this with rfl | h
          · omega
          · exact hy.1 z h
        · next hlt =>
          rw [List.pairwise_cons]
          refine ⟨fun z hz => ?_, List.pairwise_cons.2 hy⟩
          rcases List.mem_cons.1 hz with rfl | h
          · omega
          · have := hy.1 z h; omega
    exact step _ ih

theorem insertBy_filter (k : MField → Nat) (p : MField → Bool) (x : MField) (ys : List MField)
    (hy : ys.Pairwise (fun a b => k a ≤ k b)) :
    (insertBy (fun a b => decide (k a < k b)) x ys).filter p =
      if p x then insertBy (fun a b => decide (k a < k b)) x (ys.filter p) else ys.filter p := by
  induction ys with
  | nil => simp [insertBy, List.filter_cons]
  | cons y ys ih =>
    rw [List.pairwise_cons] at hy
    have ih := ih hy.2
    simp only [insertBy, decide_eq_true_eq]
    split
    · next hlt =>
      rw [List.filter_cons, ih, List.filter_cons]
      by_cases hpy : p y = true
      · by_cases hpx : p x = true
        · simp [hpy, hpx, insertBy, hlt]
        · simp [hpy, hpx]
      · simp [hpy]
    · next hlt =>
      rw [List.filter_cons]
      split
      · next hpx =>
        -- x goes in front of everything that is left
        cases hf : (y :: ys).filter p with
        | nil => simp [insertBy]
        | cons z zs =>
          have hz : z ∈ y :: ys := (List.mem_filter.1 (hf ▸ List.mem_cons_self)).1
          have : ¬ k z < k x := by
            rcases List.mem_cons.1 hz with rfl | h
            · exact hlt
            · have := hy.1 z h; omega
          simp [insertBy, this]
      · rfl

theorem sortBy_filter (k : MField → Nat) (p : MField → Bool) (fs : List MField) :
    (sortBy (fun a b => decide (k a < k b)) fs).filter p =
      sortBy (fun a b => decide (k a < k b)) (fs.filter p) := by
  induction fs with
  | nil => rfl
  | cons x xs ih =>
    have h1 : sortBy (fun a b => decide (k a < k b)) (x :: xs) =
      insertBy (fun a b => decide (k a < k b)) x (sortBy (fun a b => decide (k a < k b)) xs) := rfl
    rw [h1, insertBy_filter k p x _ (sortBy_sorted k xs), ih, List.filter_cons]
    split <;> rfl

theorem filter_name_of_nodup {fs : List MField} (h : (fs.map (·.name)).Nodup) (m : Nat) :
    fs.filter (fun f => f.name == m) = (find fs m).toList := by
  induction fs with
  | nil => simp [find]
  | cons g gs ih =>
    simp only [List.map_cons, List.nodup_cons] at h
    have ih := ih h.2
    simp only [List.filter_cons, find, List.find?_cons]
    by_cases hg : g.name = m
    · have hn : find gs m = none := find_none (hg ▸ h.1)
      simp [hg, ih, hn]
    · have hb : (g.name == m) = false := by simpa using hg
      rw [hb]
      simpa [find] using ih

/-- C19 is violated: the field added to override a base field is dropped when it starts at a higher
bit than the base field of the same name. -/
theorem C19_violated : ∃ (base new : List MField) (f : MField), (base.map (·.name)).Nodup ∧
    (new.map (·.name)).Nodup ∧ f ∈ new ∧ f.fld.Legal ∧ f ∉ extend base new :=
  ⟨[⟨0, ⟨[⟨7, 0⟩], 32⟩, .value 0, 0⟩], [⟨0, ⟨[⟨15, 8⟩], 32⟩, .value 1, 0⟩],
    ⟨0, ⟨[⟨15, 8⟩], 32⟩, .value 1, 0⟩, by decide, by decide, by decide,
    by simp [Fld.Legal, At.valid, At.size], by decide⟩

theorem new_field_present_iff (base new : List MField) (hb : (base.map (·.name)).Nodup)
    (hn : (new.map (·.name)).Nodup) (f : MField) (hf : f ∈ new) :
    f ∈ extend base new ↔ ∀ b ∈ base, b.name = f.name → sortKey f ≤ sortKey b := by
  rw [extend, uniqueByName, mem_uniqueNames_iff]
  have h1 : ∀ xs : List MField, find xs f.name = (xs.filter (fun g => g.name == f.name)).head? := by
    intro xs; simp [find]
  rw [h1, sortBy_filter, List.filter_append, filter_name_of_nodup hn, filter_name_of_nodup hb,
    find_eq hn hf]
  cases hbf : find base f.name with
  | none =>
    simp only [Option.toList, List.append_nil, sortBy, List.foldr_cons, List.foldr_nil, insertBy,
      List.head?_cons, true_iff]
    intro b hb' hbn
    simp only [find, List.find?_eq_none] at hbf
    exact absurd (by simpa using hbn) (hbf b hb')
  | some b =>
    have hbm : b ∈ base := List.mem_of_find?_eq_some hbf
    have hbn : b.name = f.name := by simpa using List.find?_some hbf
    simp only [Option.toList, List.singleton_append, sortBy, List.foldr_cons, List.foldr_nil,
      insertBy, decide_eq_true_eq]
    constructor
    · intro h b' hb' hbn'
      have : b' = b := name_inj hb hb' hbm (by rw [hbn', hbn])
      subst this
      split at h
      · next hlt =>
        simp only [List.head?_cons, Option.some.injEq] at h
        subst h; exact Nat.le_refl _
      · omega
    · intro h
      have := h b hbm hbn
      rw [if_neg (by omega)]
      rfl

/-- The sort key is the field's lowest bit. -/
theorem startsAt_sortKey {f : MField} (hl : f.fld.Legal) (hloc : f.located = true) :
    f.StartsAt (sortKey f) := by
  have hmin : ∀ (as : List At) (k : Nat),
      (as.foldl (fun k b => min k b.lsb) k = k ∨
        ∃ a ∈ as, as.foldl (fun k b => min k b.lsb) k = a.lsb) ∧
      as.foldl (fun k b => min k b.lsb) k ≤ k ∧
      ∀ a ∈ as, as.foldl (fun k b => min k b.lsb) k ≤ a.lsb := by
    intro as
    induction as with
    | nil => intro k; simp
    | cons a as ih =>
      intro k
      obtain ⟨h1, h2, h3⟩ := ih (min k a.lsb)
      simp only [List.foldl_cons]
      refine ⟨?_, by omega, ?_⟩
      · rcases h1 with h | ⟨c, hc, h⟩
        · by_cases hka : k ≤ a.lsb
          · exact .inl (by rw [h]; omega)
          · exact .inr ⟨a, by simp, by rw [h]; omega⟩
        · exact .inr ⟨c, by simp [hc], h⟩
      · intro c hc
        rcases List.mem_cons.1 hc with rfl | hc
        · omega
        · exact h3 c hc
  have key : (∃ a ∈ f.fld.ats, sortKey f = a.lsb) ∧ ∀ a ∈ f.fld.ats, sortKey f ≤ a.lsb := by
    simp only [MField.located] at hloc
    simp only [sortKey]
    cases hats : f.fld.ats with
    | nil => simp [hats] at hloc
    | cons a as =>
      obtain ⟨h1, h2, h3⟩ := hmin as a.lsb
      simp only
      refine ⟨?_, ?_⟩
      · rcases h1 with h | ⟨c, hc, h⟩
        · exact ⟨a, by simp, h⟩
        · exact ⟨c, by simp [hc], h⟩
      · intro c hc
        rcases List.mem_cons.1 hc with rfl | hc
        · exact h2
        · exact h3 c hc
  refine ⟨?_, fun p hp => ?_⟩
  · obtain ⟨a, ha, he⟩ := key.1
    rw [mem_fld_positions]
    refine ⟨a, ha, by omega, ?_⟩
    have := valid_le (hl.1 a ha)
    omega
  · rw [mem_fld_positions] at hp
    obtain ⟨a, ha, h1, h2⟩ := hp
    have := key.2 a ha
    omega

theorem StartsAt_unique {f : MField} {j k : Nat} (h : f.StartsAt j) (h' : f.StartsAt k) : j = k := by
  have := h.2 k h'.1
  have := h'.2 j h.1
  omega

/-- C19 (partial): exactly when the override works. A new field is present as given if and only if
no base field of the same name starts at a lower bit. Missing: the other case, where the claim
fails. -/
theorem C19_new_field_present_partial (base new : List MField) (hb : (base.map (·.name)).Nodup)
    (hn : (new.map (·.name)).Nodup)
    (hlegal : ∀ f ∈ new ++ base, f.fld.Legal ∧ f.located = true) (f : MField) (hf : f ∈ new) :
    f ∈ extend base new ↔
      ∀ b ∈ base, b.name = f.name → ∀ j k, f.StartsAt j → b.StartsAt k → j ≤ k := by
  rw [new_field_present_iff base new hb hn f hf]
  have hfs := startsAt_sortKey (hlegal f (by simp [hf])).1 (hlegal f (by simp [hf])).2
  refine forall_congr' fun b => forall_congr' fun hbm => forall_congr' fun _ => ?_
  have hbs := startsAt_sortKey (hlegal b (by simp [hbm])).1 (hlegal b (by simp [hbm])).2
  constructor
  · intro h j k hj hk
    rw [StartsAt_unique hj hfs, StartsAt_unique hk hbs]; exact h
  · intro h; exact h _ _ hfs hbs

example : extend [⟨0, ⟨[⟨7, 0⟩], 32⟩, .value 0, 0⟩, ⟨1, ⟨[⟨15, 8⟩], 32⟩, .value 0, 0⟩]
      [⟨1, ⟨[⟨15, 8⟩], 32⟩, .const 1, 0⟩] =
    [⟨0, ⟨[⟨7, 0⟩], 32⟩, .value 0, 0⟩, ⟨1, ⟨[⟨15, 8⟩], 32⟩, .const 1, 0⟩] := by decide

/-! ## C60 -/

/-- C60 is violated: two fields that start at the same bit keep their declaration order, so the two
definitions differ. -/
theorem C60_violated : ∃ fs gs : List MField, fs.Perm gs ∧ (fs.map (·.name)).Nodup ∧
    message fs ≠ message gs :=
  ⟨[⟨0, ⟨[⟨7, 0⟩], 8⟩, .without, 0⟩, ⟨1, ⟨[⟨3, 0⟩], 8⟩, .without, 0⟩],
   [⟨1, ⟨[⟨3, 0⟩], 8⟩, .without, 0⟩, ⟨0, ⟨[⟨7, 0⟩], 8⟩, .without, 0⟩], by decide, by decide, by decide⟩

/-- C60 (partial): when no two fields start at the same bit, definitions that differ only by
declaration order are the same. Missing: fields with equal lowest bit (`C60_violated`). -/
theorem C60_declaration_order_irrelevant_partial (fs gs : List MField) (h : fs.Perm gs)
    (hlegal : ∀ f ∈ fs, f.fld.Legal ∧ f.located = true)
    (hk : ∀ f ∈ fs, ∀ g ∈ fs, ∀ k, f.StartsAt k → g.StartsAt k → f = g) :
    message fs = message gs := by
  replace hk : ∀ f ∈ fs, ∀ g ∈ fs, sortKey f = sortKey g → f = g := fun f hf g hg he =>
    hk f hf g hg (sortKey f) (startsAt_sortKey (hlegal f hf).1 (hlegal f hf).2)
      (he ▸ startsAt_sortKey (hlegal g hg).1 (hlegal g hg).2)
  have hn : (fs.map (·.name)).Nodup ↔ (gs.map (·.name)).Nodup := (h.map _).nodup_iff
  have hs : sortBy (fun a b => decide (sortKey a < sortKey b)) fs =
      sortBy (fun a b => decide (sortKey a < sortKey b)) gs := by
    apply List.Perm.eq_of_pairwise (le := fun a b => sortKey a ≤ sortKey b) _
      (sortBy_sorted sortKey fs) (sortBy_sorted sortKey gs)
      ((sortBy_perm _ fs).trans (h.trans (sortBy_perm _ gs).symm))
    intro a b ha hb h1 h2
    exact hk a (mem_sortBy.1 ha) b (h.mem_iff.2 (mem_sortBy.1 hb)) (by omega)
  simp only [message, uniqueByName, hs, hn]

/-- C60: the fields of a message are listed by rising lowest bit. -/
theorem C60_fields_in_order (fs out : List MField) (h : message fs = some out)
    (hlegal : ∀ f ∈ fs, f.fld.Legal ∧ f.located = true) :
    out.Pairwise (fun f g => ∀ j k, f.StartsAt j → g.StartsAt k → j ≤ k) := by
  have hmem := message_mem h
  simp only [message] at h
  split at h
  · next hn =>
    cases h
    rw [uniqueByName, uniqueNames_of_nodup (names_nodup_sortBy hn)] at hmem ⊢
    refine (sortBy_sorted sortKey fs).imp_of_mem fun {f g} hf hg hle j k hj hk => ?_
    have hf := hlegal f ((hmem f).1 hf)
    have hg := hlegal g ((hmem g).1 hg)
    rw [StartsAt_unique hj (startsAt_sortKey hf.1 hf.2), StartsAt_unique hk
      (startsAt_sortKey hg.1 hg.2)]
    exact hle
  · cases h

example : message exFields = message exFields.reverse := by decide

/-! ## C20 -/

/-- C20: fields of different messages of a pack share no bit. -/
theorem C20_pack_disjoint {A : Nat} (hA : AnyWidth A) (ms : List (List MField))
    (hl : ∀ m ∈ ms, ∀ f ∈ m, f.fld.Legal) (out : List MField) (h : pack A ms = some out)
    (i j : Nat) (m m' : List MField) (f g : MField) (hi : ms[i]? = some m) (hj : ms[j]? = some m')
    (hf : f ∈ m) (hg : g ∈ m') (hij : i ≠ j) :
    f.shiftedBy (offset A ms i * A) ∈ out ∧ g.shiftedBy (offset A ms j * A) ∈ out ∧
      (f.shiftedBy (offset A ms i * A)).fld.Disjoint (g.shiftedBy (offset A ms j * A)).fld := by
  refine ⟨(message_mem h _).2 (shifted_mem hi hf), (message_mem h _).2 (shifted_mem hj hg), ?_⟩
  intro p hp hp'
  rw [positions_shiftedBy, List.mem_map] at hp hp'
  obtain ⟨q, hq, rfl⟩ := hp
  obtain ⟨q', hq', he⟩ := hp'
  have w1 := within_storageSize hA hf (hl m (List.mem_of_getElem? hi) f hf) q hq
  have w2 := within_storageSize hA hg (hl m' (List.mem_of_getElem? hj) g hg) q' hq'
  have key : ∀ (a b : Nat) (x : List MField), ms[a]? = some x → a < b →
      offset A ms a * A + storageSize A x * A ≤ offset A ms b * A := by
    intro a b x hx hab
    have := offset_mono (A := A) (ms := ms) (i := a + 1) (j := b) hab
    rw [offset_succ hx] at this
    rw [← Nat.add_mul]
    exact Nat.mul_le_mul_right _ this
  rcases Nat.lt_or_gt_of_ne hij with hlt | hlt
  · have := key i j m hi hlt; omega
  · have := key j i m' hj hlt; omega

/-- C20: the pack consists of exactly the fields of its messages, each moved by the sizes of the
messages before it. -/
theorem C20_pack_fields {A : Nat} (ms : List (List MField)) (out : List MField)
    (h : pack A ms = some out) (g : MField) :
    g ∈ out ↔ ∃ (i : Nat) (m : List MField) (f : MField), ms[i]? = some m ∧ f ∈ m ∧
      g = f.shiftedBy (offset A ms i * A) := by
  rw [message_mem h]
  constructor
  · exact mem_shiftedMsgs
  · rintro ⟨i, m, f, hm, hf, rfl⟩; exact shifted_mem hm hf

/-- C20: a field of the pack reads from the storage what the field of the unpacked message reads
from its slice of the storage. -/
theorem C20_pack_reads_slice {A W V : Nat} (hA : AnyWidth A) (hW : Narrow W) (hV : Narrow V)
    (ms : List (List MField)) (i : Nat) (m : List MField) (f : MField) (hi : ms[i]? = some m)
    (hf : f ∈ m) (hl : f.fld.Legal) (r : List (BitVec W)) (s : List (BitVec V))
    (hr : offset A ms (i + 1) * A ≤ r.length * W) (hs : storageSize A m * A ≤ s.length * V)
    (hslice : ∀ p, p < storageSize A m * A → bitAt s p = bitAt r (offset A ms i * A + p)) :
    read W (f.shiftedBy (offset A ms i * A)).fld r = read V f.fld s ∧
      (read V f.fld s).isSome := by
  have w := within_storageSize hA hf hl
  have hin : (f.shiftedBy (offset A ms i * A)).fld.Within (r.length * W) := by
    intro p hp
    rw [positions_shiftedBy, List.mem_map] at hp
    obtain ⟨q, hq, rfl⟩ := hp
    have := w q hq
    rw [offset_succ hi, Nat.add_mul] at hr
    omega
  obtain ⟨x, hx, hxb⟩ := read_bits hW (f.shiftedBy (offset A ms i * A)) (legal_shiftedBy hl _) r hin
  obtain ⟨y, hy, hyb⟩ := read_bits hV f hl s (fun p hp => by have := w p hp; omega)
  rw [hx, hy]
  refine ⟨congrArg some (Nat.eq_of_testBit_eq fun b => ?_), rfl⟩
  rw [hxb, hyb]
  simp only [Fld.specBit, positions_shiftedBy, List.getElem?_map]
  cases hp : f.fld.positions[b]? with
  | none => rfl
  | some p =>
    simp only [Option.map_some]
    rw [hslice p (w p (List.mem_of_getElem? hp)), Nat.add_comm]

/-- Two messages packed on byte borders: 6 bits and 8 bits become bytes 0 and 1. -/
example : pack 8 [[⟨0, ⟨[⟨5, 0⟩], 32⟩, .without, 0⟩], [⟨1, ⟨[⟨7, 0⟩], 32⟩, .without, 0⟩]] =
    some [⟨0, ⟨[⟨5, 0⟩], 32⟩, .without, 0⟩, ⟨1, ⟨[⟨15, 8⟩], 32⟩, .without, 0⟩] := by decide

/-! ## C21 -/

theorem shiftedBy_zero (f : MField) : f.shiftedBy 0 = f := by
  simp [MField.shiftedBy, At.shiftedBy]

theorem defaultLocated_legal {f : MField}
    (h : f.fld.EW = 8 ∨ f.fld.EW = 16 ∨ f.fld.EW = 32 ∨ f.fld.EW = 64) :
    f.defaultLocated.fld.Legal := by
  refine ⟨?_, ?_, h⟩
  · have h2 : f.fld.EW ≤ 64 := by omega
    simp [MField.defaultLocated, At.valid, At.size, h2]
  · simp only [MField.defaultLocated, List.map_cons, List.map_nil, List.sum_cons, List.sum_nil,
      At.size]
    omega

/-- C21: in a relaxed message the located fields stay as given; every other field gets a location
as wide as its type; its bits are shared with no other field. -/
theorem C21_relaxed (fs out : List MField) (h : relaxed fs = some out)
    (hl : ∀ f ∈ fs, f.fld.Legal) :
    (∀ f ∈ fs, f.located = true → f ∈ out) ∧
    (∀ f ∈ fs, f.located = false → ∃ k, f.defaultLocated.shiftedBy k ∈ out ∧
      (f.defaultLocated.shiftedBy k).fld.positions = (List.range f.fld.EW).map (· + k)) ∧
    (∀ f ∈ fs, f.located = false → ∀ f' ∈ out, f'.name = f.name →
      ∀ g' ∈ out, g'.name ≠ f.name → f'.fld.Disjoint g'.fld) ∧
    (out.map (·.name)).Nodup ∧
    ∀ g ∈ out, ∃ f ∈ fs, g.name = f.name ∧ g.fld.EW = f.fld.EW ∧ g.dflt = f.dflt ∧
      g.rest = f.rest := by
  simp only [relaxed, Option.bind_eq_bind] at h
  obtain ⟨loc, hloc, h⟩ := Option.bind_eq_some_iff.1 h
  set auto := sortBy (fun a b => decide (b.fld.EW < a.fld.EW)) (fs.filter (fun f => !f.located))
    with hauto
  set ms := loc :: auto.map (fun f => [f.defaultLocated]) with hms
  have hA : AnyWidth 8 := .inl rfl
  have hmemloc : ∀ f, f ∈ loc ↔ f ∈ fs ∧ f.located = true := fun f => by
    rw [message_mem hloc, List.mem_filter]
  have hmemauto : ∀ f, f ∈ auto ↔ f ∈ fs ∧ f.located = false := fun f => by
    rw [hauto, mem_sortBy, List.mem_filter]; simp
  have hlegal : ∀ m ∈ ms, ∀ f ∈ m, f.fld.Legal := by
    intro m hm f hf
    rcases List.mem_cons.1 hm with rfl | hm
    · exact hl f ((hmemloc f).1 hf).1
    · obtain ⟨g, hg, rfl⟩ := List.mem_map.1 hm
      rw [List.mem_singleton] at hf
      subst hf
      exact defaultLocated_legal (hl g ((hmemauto g).1 hg).1).2.2
  have hsucc : ∀ (i : Nat) (m : List MField), ms[i + 1]? = some m →
      ∃ f ∈ auto, auto[i]? = some f ∧ m = [f.defaultLocated] := by
    intro i m hm
    simp only [hms, List.getElem?_cons_succ, List.getElem?_map, Option.map_eq_some_iff] at hm
    obtain ⟨f, hf, rfl⟩ := hm
    exact ⟨f, List.mem_of_getElem? hf, hf, rfl⟩
  have hnames : (out.map (·.name)).Nodup := message_nodup h
  have hlocated : ∀ f ∈ fs, f.located = true → f ∈ out := by
    intro f hf hloc'
    have := (C20_pack_fields ms out h f).2 ⟨0, loc, f, by simp [hms], (hmemloc f).2 ⟨hf, hloc'⟩, by
      simp [offset, shiftedBy_zero]⟩
    exact this
  have hplaced : ∀ f ∈ fs, f.located = false → ∃ k, f.defaultLocated.shiftedBy k ∈ out ∧
      (f.defaultLocated.shiftedBy k).fld.positions = (List.range f.fld.EW).map (· + k) := by
    intro f hf hn
    obtain ⟨i, hi⟩ := List.mem_iff_getElem?.1 ((hmemauto f).2 ⟨hf, hn⟩)
    refine ⟨offset 8 ms (i + 1) * 8, (C20_pack_fields ms out h _).2 ⟨i + 1, [f.defaultLocated],
      f.defaultLocated, by simp [hms, hi], by simp, rfl⟩, ?_⟩
    rw [positions_shiftedBy]
    have hEW := (hl f hf).2.2
    congr 1
    simp only [Fld.positions, MField.defaultLocated, List.reverse_cons, List.reverse_nil,
      List.nil_append, List.map_cons, List.map_nil, List.flatten_cons, List.flatten_nil,
      List.append_nil, At.positions]
    have : f.fld.EW - 1 + 1 - 0 = f.fld.EW := by omega
    rw [this]
    simp
  refine ⟨hlocated, hplaced, ?_, hnames, ?_⟩
  · intro f hf hn f' hf' hfn g' hg' hgn
    obtain ⟨i, m, a, hi, ha, rfl⟩ := (C20_pack_fields ms out h f').1 hf'
    obtain ⟨j, m', b, hj, hb, rfl⟩ := (C20_pack_fields ms out h g').1 hg'
    by_cases hij : i = j
    · subst hij
      rw [hi] at hj
      cases hj
      cases i with
      | zero =>
        -- then f' is a located field with the name of an unlocated one
        exfalso
        have hi : loc = m := by simpa [hms] using hi
        subst hi
        have ha' := (hmemloc a).1 ha
        obtain ⟨k, hk, _⟩ := hplaced f hf hn
        have e : f.defaultLocated.shiftedBy k = a := by
          apply name_inj hnames hk (hlocated a ha'.1 ha'.2)
          exact hfn.symm
        -- both would be in the pack twice under one name
        obtain ⟨i', hi'⟩ := List.mem_iff_getElem?.1 ((hmemauto f).2 ⟨hf, hn⟩)
        have hdis := (C20_pack_disjoint hA ms hlegal out h 0 (i' + 1) loc [f.defaultLocated] a
          f.defaultLocated (by simp [hms]) (by simp [hms, hi']) ha (by simp) (by omega))
        have e2 : a.shiftedBy (offset 8 ms 0 * 8) =
            f.defaultLocated.shiftedBy (offset 8 ms (i' + 1) * 8) :=
          name_inj hnames hdis.1 hdis.2.1 hfn
        have hpos : offset 8 ms (i' + 1) * 8 ∈
            (f.defaultLocated.shiftedBy (offset 8 ms (i' + 1) * 8)).fld.positions := by
          rw [mem_fld_positions]
          refine ⟨⟨f.fld.EW - 1 + offset 8 ms (i' + 1) * 8, 0 + offset 8 ms (i' + 1) * 8⟩, ?_, ?_⟩
          · simp [MField.shiftedBy, MField.defaultLocated, At.shiftedBy]
          · simp
        exact hdis.2.2 _ (e2 ▸ hpos) hpos
      | succ i =>
        obtain ⟨c, _, _, rfl⟩ := hsucc i m hi
        rw [List.mem_singleton] at ha hb
        subst ha; subst hb
        exact absurd hfn hgn
    · exact (C20_pack_disjoint hA ms hlegal out h i j m m' a b hi hj ha hb hij).2.2
  · intro g hg
    obtain ⟨i, m, a, hi, ha, rfl⟩ := (C20_pack_fields ms out h g).1 hg
    cases i with
    | zero =>
      have hi : loc = m := by simpa [hms] using hi
      subst hi
      exact ⟨a, ((hmemloc a).1 ha).1, rfl, rfl, rfl, rfl⟩
    | succ i =>
      obtain ⟨c, hc, _, rfl⟩ := hsucc i m hi
      rw [List.mem_singleton] at ha
      subst ha
      exact ⟨c, ((hmemauto c).1 hc).1, rfl, rfl, rfl, rfl⟩

/-- One located byte and two unlocated fields: the wider one is placed first. -/
example : relaxed [⟨0, ⟨[], 8⟩, .without, 0⟩, ⟨1, ⟨[⟨7, 0⟩], 8⟩, .without, 0⟩, ⟨2, ⟨[], 16⟩, .without, 0⟩] =
    some [⟨1, ⟨[⟨7, 0⟩], 8⟩, .without, 0⟩, ⟨2, ⟨[⟨23, 8⟩], 16⟩, .without, 0⟩,
      ⟨0, ⟨[⟨31, 24⟩], 8⟩, .without, 0⟩] := by decide

/-! ## C22 -/

/-- C22: equivalence is agreement on the bits of every field, so bits of no field do not matter. -/
theorem C22_equiv_iff (L : Layout W n fs) (a b : List (BitVec W)) (ha : a.length = n)
    (hb : b.length = n) :
    equiv W fs a b = true ↔ ∀ f ∈ fs, ∀ i, f.fld.specBit a i = f.fld.specBit b i := by
  simp only [equiv, List.all_eq_true, decide_eq_true_eq]
  apply forall_congr'; intro f
  apply forall_congr'; intro hf
  obtain ⟨x, hx, hxb⟩ := read_bits L.narrow f (L.legal f hf) a (by rw [ha]; exact L.inside f hf)
  obtain ⟨y, hy, hyb⟩ := read_bits L.narrow f (L.legal f hf) b (by rw [hb]; exact L.inside f hf)
  simp only [get, find_eq L.names hf, Option.bind_eq_bind, Option.bind_some, hx, hy,
    Option.some.injEq]
  constructor
  · rintro rfl i; rw [← hxb, ← hyb]
  · intro h; exact Nat.eq_of_testBit_eq fun i => by rw [hxb, hyb, h]

/-- C22: equivalence ignores bits that belong to no field. -/
theorem C22_ignores_padding (L : Layout W n fs) (a b : List (BitVec W)) (ha : a.length = n)
    (hb : b.length = n)
    (h : ∀ p, (∃ f ∈ fs, p ∈ f.fld.positions) → bitAt a p = bitAt b p) :
    equiv W fs a b = true := by
  rw [C22_equiv_iff L a b ha hb]
  intro f hf i
  exact specBit_congr _ _ _ (fun p hp => h p ⟨f, hf, hp⟩) i

/-- C22: messages that are equivalent but differ in a field's bit do not exist: a difference in any
bit of any field is noticed. -/
theorem C22_notices_difference (L : Layout W n fs) (a b : List (BitVec W)) (ha : a.length = n)
    (hb : b.length = n) (f : MField) (hf : f ∈ fs) (p : Nat) (hp : p ∈ f.fld.positions)
    (hd : bitAt a p ≠ bitAt b p) : equiv W fs a b = false := by
  rw [← Bool.not_eq_true, C22_equiv_iff L a b ha hb]
  intro h
  obtain ⟨i, hi⟩ := List.mem_iff_getElem?.1 hp
  have := h f hf i
  simp only [Fld.specBit, hi] at this
  exact hd this

/-- C22: equivalence is an equivalence relation. -/
theorem C22_equivalence (W : Nat) (fs : List MField) (a b c : List (BitVec W)) :
    equiv W fs a a = true ∧ (equiv W fs a b = true → equiv W fs b a = true) ∧
      (equiv W fs a b = true → equiv W fs b c = true → equiv W fs a c = true) := by
  simp only [equiv, List.all_eq_true, decide_eq_true_eq]
  exact ⟨fun _ _ => trivial, fun h f hf => (h f hf).symm, fun h k f hf => (h f hf).trans (k f hf)⟩

example : equiv 32 exFields [0xA00005FF#32, 0#32] [0xA0FF05FF#32, 0#32] = true ∧
    equiv 32 exFields [0xA00005FF#32, 0#32] [0xA00004FF#32, 0#32] = false := by
  decide +kernel

/-! ## C61 -/

/-- C61: a renamed field reads under its new name what it read under its old one, other fields read
as before, and the old name is gone. -/
theorem C61_rename (fs out : List MField) (old new : Nat) (hn : (fs.map (·.name)).Nodup)
    (h : renameField fs old new = some out) (r : List (BitVec W)) :
    get W out r new = get W fs r old ∧
    (∀ m, m ≠ old → m ≠ new → get W out r m = get W fs r m) ∧
    (old ≠ new → get W out r old = none) ∧
    (out.map (·.name)).Nodup ∧ ∃ f ∈ fs, f.name = old := by
  have hfil := filter_name_of_nodup hn old
  simp only [renameField] at h
  split at h
  · cases h
  next hany =>
  rw [hfil] at h
  cases hf : find fs old with
  | none => rw [hf] at h; cases h
  | some f =>
    rw [hf] at h
    simp only [Option.toList] at h
    have hmem := message_mem h
    have hnd : (out.map (·.name)).Nodup := message_nodup h
    have hfm : f ∈ fs := List.mem_of_find?_eq_some hf
    have hfn : f.name = old := by simpa using List.find?_some hf
    have hfindm : ∀ m g, g ∈ out → g.name = m → find out m = some g := by
      rintro m g hg rfl; exact find_eq hnd hg
    refine ⟨?_, fun m h1 h2 => ?_, fun hne => ?_, hnd, f, hfm, hfn⟩
    · have := hfindm new { f with name := new } ((hmem _).2 (by simp)) rfl
      simp [get, this, hf]
    · simp only [get]
      cases hg : find fs m with
      | none =>
        have : find out m = none := by
          apply find_none
          rintro hm
          obtain ⟨g, hgo, hgn⟩ := List.mem_map.1 hm
          have hgo := (hmem g).1 hgo
          simp only [List.mem_append, List.mem_filter, List.mem_singleton] at hgo
          rcases hgo with hgo | rfl
          · have := find_eq hn hgo.1
            rw [show g.name = m from hgn, hg] at this
            cases this
          · exact h2 hgn.symm
        rw [this]
      | some g =>
        have hgm : g ∈ fs := List.mem_of_find?_eq_some hg
        have hgn : g.name = m := by simpa using List.find?_some hg
        have := hfindm m g ((hmem g).2 (by simp [hgm, hgn, h1])) hgn
        rw [this]
    · have : find out old = none := by
        apply find_none
        intro hm
        obtain ⟨g, hgo, hgn⟩ := List.mem_map.1 hm
        have hgo := (hmem g).1 hgo
        simp only [List.mem_append, List.mem_filter, List.mem_singleton] at hgo
        rcases hgo with hgo | rfl
        · simp [hgn] at hgo
        · exact hne hgn.symm
      simp [get, this]

example : renameField exFields 1 9 = some
    [⟨0, ⟨[⟨7, 0⟩], 8⟩, .value 7, 0⟩, ⟨9, ⟨[⟨31, 28⟩, ⟨11, 8⟩], 16⟩, .const 0xA5, 0⟩,
     ⟨2, ⟨[⟨63, 32⟩], 32⟩, .without, 0⟩] := by decide

/-! ## C62 -/

theorem setOk_names {vs : List (Nat × Nat)} (h : setOk fs vs = true) :
    ∀ nv ∈ vs, nv.1 ∈ fs.map (·.name) := by
  intro nv hnv
  have := List.all_eq_true.1 h nv hnv
  revert this
  cases hf : find fs nv.1 with
  | none => simp
  | some f =>
    intro _
    exact List.mem_map.2 ⟨f, List.mem_of_find?_eq_some hf, by simpa using List.find?_some hf⟩

theorem setOk_not_named (L : Layout W n fs) {vs : List (Nat × Nat)} (h : setOk fs vs = true)
    {f : MField} (hf : f ∈ fs) (hm : f.dflt.isMutable = false) : lastNamed vs f.name = none := by
  have : ∀ nv ∈ vs, nv.1 ≠ f.name := by
    intro nv hnv he
    have := List.all_eq_true.1 h nv hnv
    rw [he, find_eq L.names hf] at this
    simp [hm] at this
  induction vs with
  | nil => rfl
  | cons a as ih =>
    rw [lastNamed_cons, ih (by
      simp only [setOk, List.all_cons, Bool.and_eq_true] at h ⊢; exact h.2)
      (fun nv hnv => this nv (List.mem_cons_of_mem _ hnv))]
    simp [this a (by simp)]

/-- One `set` call keeps what an immutable field reads, or stores its default again. -/
theorem SetOp.run_immutable (L : Layout W n fs) (op : SetOp) (hop : op.ok fs = true)
    (r : List (BitVec W)) (hr : r.length = n) :
    ∃ r', op.run W fs r = some r' ∧ r'.length = n ∧ ∀ f ∈ fs, f.dflt.isMutable = false →
      get W fs r' f.name = get W fs r f.name ∨
      ∃ d, f.dflt.val? = some d ∧ get W fs r' f.name = some (d % 2 ^ f.bits) := by
  cases op with
  | values vs =>
    obtain ⟨r', h1, h2, _, h4, _⟩ := C18_set_changes_only_named L r hr vs (setOk_names hop)
    exact ⟨r', h1, h2, fun f hf hm => .inl (h4 f hf (setOk_not_named L hop hf hm))⟩
  | names ns =>
    have hgs : ∃ gs : List MField, gs.map (·.name) = ns ∧ ∀ g ∈ gs, g ∈ fs := by
      replace hop : ∀ m ∈ ns, (find fs m).isSome = true := List.all_eq_true.1 hop
      clear hr
      induction ns with
      | nil => exact ⟨[], rfl, by simp⟩
      | cons m ms ih =>
        obtain ⟨gs, h1, h2⟩ := ih (fun m hm => hop m (List.mem_cons_of_mem _ hm))
        obtain ⟨f, hf⟩ := Option.isSome_iff_exists.1 (hop m (by simp))
        refine ⟨f :: gs, ?_, ?_⟩
        · rw [List.map_cons, h1]
          congr 1
          simpa using List.find?_some hf
        · intro g hg
          rcases List.mem_cons.1 hg with rfl | hg
          · exact List.mem_of_find?_eq_some hf
          · exact h2 g hg
    obtain ⟨gs, rfl, hgs⟩ := hgs
    obtain ⟨r', h1, h2, h3, h4⟩ := C18_set_defaults L r hr gs hgs
    refine ⟨r', h1, h2, fun f hf _ => ?_⟩
    by_cases hg : f ∈ gs
    · cases hd : f.dflt.val? with
      | none => exact .inl (h4 f hf (.inr hd))
      | some d => exact .inr ⟨d, rfl, h3 f hg d hd⟩
    · exact .inl (h4 f hf (.inl hg))

theorem runOps_immutable (L : Layout W n fs) (ops : List SetOp)
    (hops : ∀ op ∈ ops, op.ok fs = true) (r : List (BitVec W)) (hr : r.length = n) :
    ∃ r', runOps W fs r ops = some r' ∧ r'.length = n ∧ ∀ f ∈ fs, f.dflt.isMutable = false →
      get W fs r' f.name = get W fs r f.name ∨
      ∃ d, f.dflt.val? = some d ∧ get W fs r' f.name = some (d % 2 ^ f.bits) := by
  induction ops generalizing r with
  | nil => exact ⟨r, rfl, hr, fun _ _ _ => .inl rfl⟩
  | cons op ops ih =>
    obtain ⟨r1, h1, h2, h3⟩ := op.run_immutable L (hops op (by simp)) r hr
    obtain ⟨r2, k1, k2, k3⟩ := ih (fun o ho => hops o (List.mem_cons_of_mem _ ho)) r1 h2
    refine ⟨r2, by rw [runOps, List.foldlM_cons, h1]; exact k1, k2, fun f hf hm => ?_⟩
    rcases k3 f hf hm with h | h
    · rcases h3 f hf hm with h' | ⟨d, hd, h'⟩
      · exact .inl (h.trans h')
      · exact .inr ⟨d, hd, h.trans h'⟩
    · exact .inr h

/-- C62: through construction and any history of `set` calls that compile, a field with a required
value reads that value. -/
theorem C62_required_value_persists (L : Layout W n fs) (vs : List (Nat × Nat)) (ops : List SetOp)
    (hc : constructOk fs vs = true) (hops : ∀ op ∈ ops, op.ok fs = true) :
    ∃ r r', construct W n fs vs = some r ∧ runOps W fs r ops = some r' ∧
      ∀ f ∈ fs, ∀ v, f.dflt = .const v → get W fs r' f.name = some (v % 2 ^ f.bits) := by
  have hs : setOk fs vs = true := by
    simp only [constructOk, Bool.and_eq_true] at hc; exact hc.2
  obtain ⟨r, h1, h2, h3⟩ := C17_construction L vs (setOk_names hs)
  obtain ⟨r', k1, _, k3⟩ := runOps_immutable L ops hops r h2
  refine ⟨r, r', h1, k1, fun f hf v hv => ?_⟩
  have hm : f.dflt.isMutable = false := by rw [hv]; rfl
  rcases k3 f hf hm with h | ⟨d, hd, h⟩
  · rw [h, h3 f hf, expected, setOk_not_named L hs hf hm, hv]; rfl
  · rw [h]
    rw [hv] at hd
    cases hd
    rfl

/-- C62: after a construction that compiles every field reads its named value or its default; only
a field declared `uninitialized` reads zero for lack of both. -/
theorem C62_nothing_left_unset (L : Layout W n fs) (vs : List (Nat × Nat))
    (hc : constructOk fs vs = true) (f : MField) (hf : f ∈ fs) (hu : f.dflt ≠ .uninit) :
    ∃ r v, construct W n fs vs = some r ∧ get W fs r f.name = some (v % 2 ^ f.bits) ∧
      (lastNamed vs f.name = some v ∨ (lastNamed vs f.name = none ∧ f.dflt.val? = some v)) := by
  have hs : setOk fs vs = true := by
    simp only [constructOk, Bool.and_eq_true] at hc; exact hc.2
  obtain ⟨r, h1, h2, h3⟩ := C17_construction L vs (setOk_names hs)
  refine ⟨r, expected vs f, h1, h3 f hf, ?_⟩
  cases hl : lastNamed vs f.name with
  | some v => simp [expected, hl]
  | none =>
    refine .inr ⟨rfl, ?_⟩
    cases hd : f.dflt.val? with
    | some d => simp [expected, hl, hd]
    | none =>
      exfalso
      simp only [constructOk, Bool.and_eq_true, List.all_eq_true, Bool.or_eq_true] at hc
      have hw : f.dflt = .without := by
        cases hx : f.dflt <;> simp_all [Dflt.val?]
      rcases hc.1 f hf with h | h
      · rw [hw] at h; cases h
      · simp only [List.any_eq_true, beq_iff_eq] at h
        obtain ⟨nv, hnv, hne⟩ := h
        clear hs h1 h2 h3 hc hd
        induction vs with
        | nil => simp at hnv
        | cons a as ih =>
          rw [lastNamed_cons] at hl
          rcases List.mem_cons.1 hnv with rfl | hm
          · cases h2 : lastNamed as f.name <;> simp [h2, hne] at hl
          · refine ih ?_ hm
            cases h2 : lastNamed as f.name with
            | none => rfl
            | some v => simp [h2] at hl

example : constructOk exFields [(2, 5)] = true ∧ constructOk exFields [(0, 5)] = false ∧
    (SetOp.values [(0, 1), (2, 9)]).ok exFields = true ∧ (SetOp.names [1]).ok exFields = true ∧
    (SetOp.values [(1, 1)]).ok exFields = false := by decide
example : (construct 32 2 exFields [(2, 5)]).bind (fun r => runOps 32 exFields r
    [.values [(0, 1), (2, 9)], .names [1, 0]]) = some [0xA0000507#32, 9#32] := by decide +kernel

end Verif.Message
