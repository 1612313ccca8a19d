import Verif.Object.Spec
import Verif.Message.Props

/-! Lemmas: accesses that succeed stay inside; writes at the level of rows of bits. -/
namespace Verif.Object
open Verif.Bits Verif.Message

theorem insertGo_reach {W TW : Nat} {l : Loc} : ∀ (fuel cur : Nat) (r r' : List (BitVec W)) (value : BitVec TW),
    insertGo W TW l fuel cur r value = some r' →
    r'.length = r.length ∧ baseIndex W l + l.msb / W < r.length := by
  intro fuel
  induction fuel with
  | zero => intro cur r r' value h; simp [insertGo] at h
  | succ fuel ih =>
    intro cur r r' value h
    simp only [insertGo] at h
    split at h
    · next hc =>
      simp only [Option.bind_eq_bind, Option.bind_eq_some_iff, Option.pure_def, Option.some.injEq] at h
      obtain ⟨e, he, _, _, rfl⟩ := h
      have := (List.getElem?_eq_some_iff.1 he).1
      simp; omega
    · split at h
      · simp only [Option.bind_eq_bind, Option.bind_eq_some_iff] at h
        obtain ⟨e, he, m, hm, sh, hsh, v, hv, h⟩ := h
        simpa using ih _ _ _ _ h
      · simp only [Option.bind_eq_bind, Option.bind_eq_some_iff] at h
        obtain ⟨e, he, v, hv, h⟩ := h
        simpa using ih _ _ _ _ h

theorem insertGoField_reach {W EW : Nat} : ∀ (ls : List Loc) (r r' : List (BitVec W)) (raw : BitVec EW),
    insertGoField W EW ls r raw = some r' →
    r'.length = r.length ∧ ∀ l ∈ ls, baseIndex W l + l.msb / W < r.length := by
  intro ls
  induction ls with
  | nil => intro r r' raw h; cases h; simp
  | cons l ls ih =>
    intro r r' raw h
    simp only [insertGoField, Option.bind_eq_bind, Option.bind_eq_some_iff] at h
    obtain ⟨r1, h1, raw', _, h3⟩ := h
    obtain ⟨e1, e2⟩ := insertGo_reach _ _ _ _ _ h1
    obtain ⟨e3, e4⟩ := ih _ _ _ h3
    refine ⟨by omega, ?_⟩
    intro l' hl'
    rcases List.mem_cons.1 hl' with rfl | hl'
    · exact e2
    · rw [← e1]; exact e4 l' hl'

theorem reach_within {W : Nat} (hW : Narrow W) {f : Fld} (hf : f.Legal) {n : Nat}
    (h : ∀ a ∈ f.ats, baseIndex W a.loc + a.loc.msb / W < n) : f.Within (n * W) := by
  intro p hp
  obtain ⟨a, ha, h1, h2⟩ := (mem_fld_positions f p).1 hp
  have hv := valid_le (hf.1 a ha)
  have hm := loc_msb hv.1
  have hb := baseIndex_aligned hW a.loc
  have := h a ha
  have h3 : (baseIndex W a.loc * W + a.loc.msb) / W < n := by
    rw [Nat.add_comm, Nat.add_mul_div_right _ _ hW.pos]; omega
  have := (Nat.div_lt_iff_lt_mul hW.pos).1 h3
  omega

theorem insert_within {W : Nat} (hW : Narrow W) {f : Fld} (hf : f.Legal) {r r' : List (BitVec W)}
    {v : BitVec f.EW} (h : f.insert W r v = some r') : f.Within (r.length * W) := by
  obtain ⟨_, h2⟩ := insertGoField_reach _ _ _ _ h
  exact reach_within hW hf fun a ha => h2 _ (by simp; exact ⟨a, ha, rfl⟩)

theorem extract_within {W : Nat} (hW : Narrow W) {f : Fld} (hf : f.Legal) {r : List (BitVec W)}
    {v : BitVec f.EW} (h : f.extract W r = some v) : f.Within (r.length * W) := by
  have key : ∀ (ls : List Loc) (raw v : BitVec f.EW), ls.foldlM (fun raw l => do
      let raw ← l.unfold raw
      let x ← l.extract W f.EW r
      return raw ||| x) raw = some v → ∀ l ∈ ls, baseIndex W l + l.msb / W < r.length := by
    intro ls
    induction ls with
    | nil => simp
    | cons l ls ih =>
      intro raw v h
      simp only [List.foldlM_cons, Option.bind_eq_bind, Option.bind_eq_some_iff, Option.pure_def,
        Option.some.injEq] at h
      obtain ⟨_, ⟨_, _, x, hx, rfl⟩, h⟩ := h
      intro l' hl'
      rcases List.mem_cons.1 hl' with rfl | hl'
      · by_contra hc
        rw [extractField_none (by omega)] at hx
        cases hx
      · exact ih _ _ h l' hl'
  exact reach_within hW hf fun a ha => key _ _ _ h _ (List.mem_map.2 ⟨a, ha, rfl⟩)

theorem idxOf_getElem? {l : List Nat} {p : Nat} (h : p ∈ l) : l[l.idxOf p]? = some p := by
  rw [List.getElem?_eq_some_iff]
  exact ⟨List.idxOf_lt_length_of_mem h, List.getElem_idxOf _⟩

/-- A write that succeeds is inside, and changes the bits the specification changes. -/
theorem put_row {W : Nat} (hW : Narrow W) {f : MField} (hf : f.fld.Legal) (hno : f.fld.NonOverlapping)
    {r r' : List (BitVec W)} {v : Nat} (h : put W f.fld r v = some r') :
    f.fld.Within (r.length * W) ∧ r'.length = r.length ∧ bitAt r' = writeAt (bitAt r) 0 f v := by
  have hin := insert_within hW hf h
  obtain ⟨r'', h1, h2, h3, h4⟩ := insert_spec (v := BitVec.ofNat f.fld.EW v) (hW.le f.fld.EW)
    (hf.locOk hW.pos (hW.aligned f.fld) hin)
  rw [put, h1] at h
  cases h
  refine ⟨hin, h2, funext fun p => ?_⟩
  simp only [writeAt, Nat.zero_le, true_and, Nat.sub_zero]
  split
  · next hp =>
    have hi := List.idxOf_lt_length_of_mem hp
    rw [h4 hno _ p (idxOf_getElem? hp), BitVec.getLsbD_ofNat]
    have : f.fld.positions.length ≤ f.fld.EW := by rw [positions_total hf]; exact hf.2.1
    simp; omega
  · next hp => exact h3 p hp

theorem put_defined {W : Nat} (hW : Narrow W) {f : MField} (hf : f.fld.Legal)
    {r : List (BitVec W)} (v : Nat) (h : f.fld.Within (r.length * W)) : ∃ r', put W f.fld r v = some r' := by
  obtain ⟨r', h1, _⟩ := insert_spec (v := BitVec.ofNat f.fld.EW v) (hW.le f.fld.EW)
    (hf.locOk hW.pos (hW.aligned f.fld) h)
  exact ⟨r', h1⟩

theorem number_testBit : ∀ (l : List Bool) (i : Nat), (number l).testBit i = (l[i]?).getD false := by
  intro l
  induction l with
  | nil => simp [number]
  | cons b l ih =>
    intro i
    cases i with
    | zero => cases b <;> simp [number, Nat.testBit_zero, Nat.add_mod]
    | succ i =>
      have : (number (b :: l)) / 2 = number l := by cases b <;> simp [number] <;> omega
      rw [Nat.testBit_succ, this, ih]; simp

/-- A read that succeeds is inside and gives the number of the specification. -/
theorem read_row {W : Nat} (hW : Narrow W) {f : MField} (hf : f.fld.Legal) {r : List (BitVec W)} {v : Nat} :
    read W f.fld r = some v ↔ f.fld.Within (r.length * W) ∧ v = valueAt (bitAt r) 0 f := by
  have aux : ∀ v, f.fld.Within (r.length * W) → read W f.fld r = some v → v = valueAt (bitAt r) 0 f := by
    intro v hin h
    obtain ⟨x, hx, hb⟩ := read_bits hW f hf r hin
    rw [hx] at h; cases h
    apply Nat.eq_of_testBit_eq
    intro i
    rw [hb, valueAt, number_testBit, Fld.specBit]
    simp only [Nat.zero_add, List.getElem?_map]
    cases f.fld.positions[i]? <;> rfl
  constructor
  · intro h
    have hin : f.fld.Within (r.length * W) := by
      simp only [Message.read, Option.map_eq_some_iff] at h
      obtain ⟨x, hx, _⟩ := h
      exact extract_within hW hf hx
    exact ⟨hin, aux v hin h⟩
  · rintro ⟨hin, rfl⟩
    obtain ⟨x, hx, _⟩ := read_bits hW f hf r hin
    rw [hx, aux x hin hx]

theorem named_eq (fs : List MField) (n : Nat) : named fs n = find fs n := by
  simp only [named, find]
  congr 1

theorem find_mem {fs : List MField} {n : Nat} {f : MField} (h : find fs n = some f) : f ∈ fs ∧ f.name = n :=
  ⟨List.mem_of_find?_eq_some h, by simpa using List.find?_some h⟩

/-- The fields that are given values, inside a storage of so many bits. -/
def InsideAll (fs : List MField) (size : Nat) (vs : List (Nat × Nat)) : Prop :=
  ∀ nv ∈ vs, ∃ f, named fs nv.1 = some f ∧ f.fld.Within size

theorem setValues_row {W : Nat} (hW : Narrow W) {fs : List MField} (hg : GoodDef fs) :
    ∀ (vs : List (Nat × Nat)) (r r' : List (BitVec W)), setValues W fs r vs = some r' →
      InsideAll fs (r.length * W) vs ∧ r'.length = r.length ∧ bitAt r' = writesAt (bitAt r) 0 fs vs := by
  intro vs
  induction vs with
  | nil => intro r r' h; cases h; exact ⟨(by intro _ h; cases h), rfl, rfl⟩
  | cons nv vs ih =>
    intro r r' h
    simp only [setValues, List.foldlM_cons, Option.bind_eq_bind, Option.bind_eq_some_iff] at h
    obtain ⟨r1, h1, h2⟩ := h
    simp only [set1, Option.bind_eq_bind, Option.bind_eq_some_iff] at h1
    obtain ⟨f, hf, h1⟩ := h1
    obtain ⟨hl, hno⟩ := hg.2 f (find_mem hf).1
    obtain ⟨e1, e2, e3⟩ := put_row hW hl hno h1
    obtain ⟨e4, e5, e6⟩ := ih r1 r' h2
    refine ⟨?_, by omega, ?_⟩
    · intro mv hmv
      rcases List.mem_cons.1 hmv with rfl | hmv
      · exact ⟨f, by rw [named_eq]; exact hf, e1⟩
      · rw [← e2]; exact e4 mv hmv
    · rw [e6, e3]; simp only [writesAt, named_eq, hf]

theorem setDefaults_values {W : Nat} {fs : List MField} :
    ∀ (ns : List Nat) (r : List (BitVec W)), (∀ n ∈ ns, (find fs n).isSome) →
      setDefaults W fs r ns = setValues W fs r (defaultsOf fs ns) := by
  intro ns
  induction ns with
  | nil => intro r _; rfl
  | cons n ns ih =>
    intro r h
    obtain ⟨f, hf⟩ := Option.isSome_iff_exists.1 (h n (by simp))
    have ih' := fun r => ih r fun m hm => h m (List.mem_cons_of_mem _ hm)
    cases hd : f.dflt with
    | value d =>
      have e1 : defaultsOf fs (n :: ns) = (n, d) :: defaultsOf fs ns := by
        simp [defaultsOf, named_eq, hf, hd]
      rw [e1]
      simp only [setDefaults, setValues, List.foldlM_cons, setDefault, set1, hf, Option.bind_eq_bind,
        Option.bind_some, hd, Dflt.val?]
      exact congrArg _ (funext ih')
    | const d =>
      have e1 : defaultsOf fs (n :: ns) = (n, d) :: defaultsOf fs ns := by
        simp [defaultsOf, named_eq, hf, hd]
      rw [e1]
      simp only [setDefaults, setValues, List.foldlM_cons, setDefault, set1, hf, Option.bind_eq_bind,
        Option.bind_some, hd, Dflt.val?]
      exact congrArg _ (funext ih')
    | without =>
      have e1 : defaultsOf fs (n :: ns) = defaultsOf fs ns := by simp [defaultsOf, named_eq, hf, hd]
      rw [e1, ← ih' r]
      simp only [setDefaults, List.foldlM_cons, setDefault, hf, Option.bind_eq_bind, Option.bind_some, hd,
        Dflt.val?]
    | uninit =>
      have e1 : defaultsOf fs (n :: ns) = defaultsOf fs ns := by simp [defaultsOf, named_eq, hf, hd]
      rw [e1, ← ih' r]
      simp only [setDefaults, List.foldlM_cons, setDefault, hf, Option.bind_eq_bind, Option.bind_some, hd,
        Dflt.val?]

/-! ## Rows and windows -/

theorem writesAt_low (fs : List MField) (lo : Nat) : ∀ (vs : List (Nat × Nat)) (row : Nat → Bool) (q : Nat),
    q < lo → writesAt row lo fs vs q = row q := by
  intro vs
  induction vs with
  | nil => intro row q _; rfl
  | cons nv vs ih =>
    intro row q hq
    simp only [writesAt]
    cases named fs nv.1 with
    | none => exact ih row q hq
    | some f =>
      simp only []
      rw [ih _ q hq, writeAt, if_neg (by omega)]

theorem writesAt_high (fs : List MField) (lo size : Nat) : ∀ (vs : List (Nat × Nat)) (row : Nat → Bool) (q : Nat),
    InsideAll fs size vs → lo + size ≤ q → writesAt row lo fs vs q = row q := by
  intro vs
  induction vs with
  | nil => intro row q _ _; rfl
  | cons nv vs ih =>
    intro row q hin hq
    obtain ⟨f, hf, hw⟩ := hin nv (by simp)
    simp only [writesAt, hf]
    rw [ih _ q (fun mv hmv => hin mv (by simp [hmv])) hq, writeAt, if_neg]
    rintro ⟨_, hp⟩
    have := hw _ hp
    omega

theorem writesAt_shift (fs : List MField) (lo : Nat) : ∀ (vs : List (Nat × Nat)) (row : Nat → Bool) (p : Nat),
    writesAt row lo fs vs (lo + p) = writesAt (fun p => row (lo + p)) 0 fs vs p := by
  intro vs
  induction vs with
  | nil => intro row p; rfl
  | cons nv vs ih =>
    intro row p
    simp only [writesAt]
    cases named fs nv.1 with
    | none => exact ih row p
    | some f =>
      simp only []
      rw [ih]
      congr 1
      funext p
      simp [writeAt]

theorem writesAt_congr (fs : List MField) (lo : Nat) : ∀ (vs : List (Nat × Nat)) (row row' : Nat → Bool) (q : Nat),
    row q = row' q → writesAt row lo fs vs q = writesAt row' lo fs vs q := by
  intro vs
  induction vs with
  | nil => intro row row' q h; exact h
  | cons nv vs ih =>
    intro row row' q h
    simp only [writesAt]
    cases named fs nv.1 with
    | none => exact ih row row' q h
    | some f =>
      simp only []
      apply ih
      simp only [writeAt]
      split
      · rfl
      · exact h

/-! ## Lists of elements as rows -/

variable {W : Nat}

theorem bitAt_outside (hW : 0 < W) (r : List (BitVec W)) {q : Nat} (h : r.length * W ≤ q) : bitAt r q = false := by
  have : r.length ≤ q / W := (Nat.le_div_iff_mul_le hW).2 h
  simp [bitAt, List.getElem?_eq_none this]

theorem bitAt_take (hW : 0 < W) (r : List (BitVec W)) (n q : Nat) :
    bitAt (r.take n) q = (decide (q < n * W) && bitAt r q) := by
  simp only [bitAt, List.getElem?_take]
  by_cases h : q / W < n
  · rw [if_pos h, decide_eq_true ((Nat.div_lt_iff_lt_mul hW).1 h)]; simp
  · rw [if_neg h, decide_eq_false (fun hc => h ((Nat.div_lt_iff_lt_mul hW).2 hc))]; simp

theorem bitAt_drop (hW : 0 < W) (r : List (BitVec W)) (n q : Nat) :
    bitAt (r.drop n) q = bitAt r (n * W + q) := by
  have h1 : (n * W + q) / W = n + q / W := by
    rw [Nat.add_comm, Nat.add_mul_div_right _ _ hW, Nat.add_comm]
  have h2 : (n * W + q) % W = q % W := by rw [Nat.add_comm, Nat.add_mul_mod_self_right]
  simp only [bitAt, List.getElem?_drop, h1, h2]

theorem bitAt_append (hW : 0 < W) (r r' : List (BitVec W)) (q : Nat) :
    bitAt (r ++ r') q = if q < r.length * W then bitAt r q else bitAt r' (q - r.length * W) := by
  simp only [bitAt]
  by_cases h : q < r.length * W
  · rw [if_pos h, List.getElem?_append_left ((Nat.div_lt_iff_lt_mul hW).2 h)]
  · have hle : r.length ≤ q / W := (Nat.le_div_iff_mul_le hW).2 (by omega)
    rw [if_neg h, List.getElem?_append_right hle]
    obtain ⟨k, rfl⟩ : ∃ k, q = k + r.length * W := ⟨q - r.length * W, by omega⟩
    have h1 : (k + r.length * W) / W - r.length = k / W := by
      rw [Nat.add_mul_div_right _ _ hW, Nat.add_sub_cancel]
    rw [h1, Nat.add_sub_cancel, Nat.add_mul_mod_self_right]

theorem map_cast_self (r : List (BitVec W)) (h : W = W) : r.map (·.cast h) = r := by
  simp

end Verif.Object
