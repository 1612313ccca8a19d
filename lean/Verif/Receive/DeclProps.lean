import Verif.Receive.SelfProps
/-!
# C95, C96: what a field declaration declares
-/
namespace Verif.Receive
open Verif.Match Verif.Message Verif.Bits

variable {N : Numbering} {env : Env} {W : Nat}

theorem lastGiven_append {α : Type} (g : Opt → Option α) (opts : List Opt) (o : Opt) (a : α) :
    lastGiven g (opts ++ [o]) a = (g o).getD (lastGiven g opts a) := by
  simp only [lastGiven, List.filterMap_append, List.filterMap_cons, List.filterMap_nil]
  cases g o <;> simp

theorem field_snoc (name : Nat) (t : IntTy) (opts : List Opt) (o : Opt) :
    field N name t (opts ++ [o]) = declare N (field N name t opts) o := by
  simp [field]

/-- C95: the name of a field is the last one given. -/
theorem C95_name (name : Nat) (t : IntTy) (opts : List Opt) :
    (field N name t opts).name = lastGiven Opt.name? opts name := by
  induction opts using List.reverseRecOn with
  | nil => rfl
  | append_singleton os o ih =>
    rw [field_snoc, lastGiven_append, ← ih]
    cases o <;> rfl

/-- C95: the value type of a field is the last one given; no other option changes it. -/
theorem C95_type (name : Nat) (t : IntTy) (opts : List Opt) :
    ty N (field N name t opts) = lastGiven Opt.type? opts t := by
  induction opts using List.reverseRecOn with
  | nil => simp [field, newField, ty, lastGiven]
  | append_singleton os o ih =>
    rw [field_snoc, lastGiven_append, ← ih]
    cases o <;> simp [declare, Opt.type?, ty, setMatcher, signed, N.rest_ok, MField.shiftedBy]

theorem declare_ats (f : MField) (o : Opt) (h : o.place? = none) :
    (declare N f o).fld.ats = f.fld.ats.map fun a => ⟨a.msb + o.shift, a.lsb + o.shift⟩ := by
  cases o <;> simp [Opt.place?] at h <;>
    simp [declare, setMatcher, Opt.shift, MField.shiftedBy, At.shiftedBy]

theorem fold_ats (post : List Opt) (f : MField) (h : ∀ o ∈ post, o.place? = none) :
    (post.foldl (declare N) f).fld.ats =
      f.fld.ats.map fun a => ⟨a.msb + (post.map Opt.shift).sum, a.lsb + (post.map Opt.shift).sum⟩ := by
  induction post generalizing f with
  | nil => simp
  | cons o os ih =>
    rw [List.foldl_cons, ih _ (fun p hp => h p (by simp [hp])), declare_ats f o (h o (by simp))]
    simp [Nat.add_assoc]

/-- C95: the place of a field is the last one given, moved by all shifts after that. -/
theorem C95_place (name : Nat) (t : IntTy) (pre : List Opt) (ats : List At) (post : List Opt)
    (h : ∀ o ∈ post, o.place? = none) :
    (field N name t (pre ++ .located ats :: post)).fld.ats =
      ats.map fun a => ⟨a.msb + (post.map Opt.shift).sum, a.lsb + (post.map Opt.shift).sum⟩ := by
  rw [field_append, fold_ats post _ h]
  rfl

/-- C95: a field that is never located has no place. -/
theorem C95_no_place (name : Nat) (t : IntTy) (opts : List Opt) (h : ∀ o ∈ opts, o.place? = none) :
    (field N name t opts).fld.ats = [] := by
  rw [field, fold_ats opts _ h]
  rfl

/-- What the initialisation of a field type is: whether there is a value and whether it may change. -/
def initOf (N : Numbering) (f : MField) : Init :=
  match f.dflt with
  | .value n => .value (toInt (signed N f) (BitVec.ofNat f.fld.EW n))
  | .const n => .fixed (toInt (signed N f) (BitVec.ofNat f.fld.EW n))
  | .without => .given
  | .uninit => .nothing

theorem raw_back (s : Bool) {w : Nat} (hw : 0 < w) (v : Int) (hv : IntTy.InRange ⟨w, s⟩ v) :
    toInt s (BitVec.ofNat w (raw w v)) = v := by
  rw [raw, BitVec.ofNat_toNat, BitVec.setWidth_eq]
  exact toInt_ofInt s hw v hv

theorem declare_init (f : MField) (o : Opt) (i : Init) (ho : o.init? = some i)
    (hw : 0 < f.fld.EW) (hi : i.Typed (ty N f)) : initOf N (declare N f o) = i := by
  cases o <;> simp only [Opt.init?, reduceCtorEq, Option.some.injEq] at ho <;> subst ho <;>
    simp only [initOf, declare]
  · exact congrArg _ (raw_back _ hw _ hi)
  · exact congrArg _ (raw_back _ hw _ hi)
  · simp only [setMatcher, signed_mk]
    exact congrArg _ (raw_back _ hw _ hi)

theorem fold_init (post : List Opt) (f : MField)
    (h : ∀ o ∈ post, o.init? = none ∧ o.type? = none) :
    initOf N (post.foldl (declare N) f) = initOf N f := by
  induction post generalizing f with
  | nil => rfl
  | cons o os ih =>
    rw [List.foldl_cons, ih _ (fun p hp => h p (by simp [hp]))]
    have := h o (by simp)
    cases o <;> simp [Opt.init?, Opt.type?] at this <;>
      simp [declare, setMatcher, initOf, MField.shiftedBy, signed, N.rest_ok]

/-- C95 (partial): a field is initialised as the last option about it says, if the type is not changed
later. Missing: `C95_violated_new_type`. -/
theorem C95_default_partial (name : Nat) (t : IntTy) (pre : List Opt) (o : Opt) (post : List Opt)
    (i : Init) (ho : o.init? = some i) (hi : i.Typed (ty N (field N name t pre)))
    (hw : 0 < (ty N (field N name t pre)).bits)
    (h : ∀ o ∈ post, o.init? = none ∧ o.type? = none) :
    initOf N (field N name t (pre ++ o :: post)) = i := by
  rw [field_append, fold_init post _ h]
  exact declare_init _ o i ho hw hi

theorem fold_matcher (post : List Opt) (f : MField)
    (h : ∀ o ∈ post, o.asks = none ∧ o.type? = none) :
    matcher N (post.foldl (declare N) f) = matcher N f := by
  induction post generalizing f with
  | nil => rfl
  | cons o os ih =>
    rw [List.foldl_cons, ih _ (fun p hp => h p (by simp [hp]))]
    have := h o (by simp)
    cases o <;> simp [Opt.asks, Opt.type?] at this <;>
      simp [declare, matcher, MField.shiftedBy]

/-- C95 (partial): the condition of a field is the one asked for last, if the type is not changed later:
the field admits what it admitted right after that option (which is what C89 says). Missing:
`C95_violated_new_type`. -/
theorem C95_condition_partial (name : Nat) (t : IntTy) (pre : List Opt) (o : Opt) (post : List Opt)
    (h : ∀ o ∈ post, o.asks = none ∧ o.type? = none) (d : Data W) :
    accepts N env W d (plainMatcher N [field N name t (pre ++ o :: post)]) =
      accepts N env W d (plainMatcher N [declare N (field N name t pre) o]) := by
  simp only [plainMatcher, List.map_cons, List.map_nil]
  rw [field_append, fold_matcher post _ h]

/-- C95: what a new type does instead: the field admits everything and is initialised with zero. -/
theorem C95_new_type (name : Nat) (t : IntTy) (pre : List Opt) (t' : IntTy) (post : List Opt)
    (h : ∀ o ∈ post, o.asks = none) (d : Data W) :
    accepts N env W d (plainMatcher N [field N name t (pre ++ .newType t' :: post)]) = some true ∧
    ((∀ o ∈ post, o.init? = none ∧ o.type? = none) →
      initOf N (field N name t (pre ++ .newType t' :: post)) = .value 0) := by
  rw [field_append]
  constructor
  · have : matcher N (post.foldl (declare N) (declare N (field N name t pre) (.newType t'))) = .always :=
      fold_free post _ (by simp [declare]) h
    simp only [plainMatcher, List.map_cons, List.map_nil, this]
    have h2 : (Handler.constructPlain 0 [M.always]).matcher = (M.always : M RLeaf) := by decide
    rw [h2]
    cases d <;> simp [accepts, compiles, fieldsOf, evalM]
  · intro h2
    rw [fold_init post _ h2]
    simp only [initOf, declare, signed_mk]
    simp [toInt]

/-- C95 violated: `with_new_type` drops the condition and the default of the field. The field of value 5
with `with_required<5>` admits only 5; with another type of the same size it admits everything. -/
theorem C95_violated_new_type (N : Numbering) (env : Env) :
    accepts N env 8 (.raw [6#8]) (plainMatcher N [field N 0 u8 [.located [⟨7, 0⟩], .required 5]]) =
      some false ∧
    accepts N env 8 (.raw [6#8])
      (plainMatcher N [field N 0 u8 [.located [⟨7, 0⟩], .required 5, .newType ⟨8, true⟩]]) = some true ∧
    initOf N (field N 0 u8 [.located [⟨7, 0⟩], .required 5]) = .fixed 5 ∧
    initOf N (field N 0 u8 [.located [⟨7, 0⟩], .required 5, .newType ⟨8, true⟩]) = .value 0 := by
  have hty : (ty N (field N 0 u8 [.located [⟨7, 0⟩]])).InRange 5 := by
    rw [C95_type]; decide
  have h0 := exByte_ok N
  refine ⟨?_, (C95_new_type 0 u8 [.located [⟨7, 0⟩], .required 5] ⟨8, true⟩ [] (by simp) _).1, ?_,
    (C95_new_type (W := 8) (env := env) 0 u8 [.located [⟨7, 0⟩], .required 5] ⟨8, true⟩ [] (by simp)
      (.raw [])).2 (by simp)⟩
  · have := C89_exact_partial (env := env) (.inl rfl) (exByte N) (.required 5) (.eq 5) rfl hty trivial h0.1
      [6#8] h0.2.1
    rw [h0.2.2.2] at this
    refine this.trans ?_
    show some (decide (held false ⟨[⟨7, 0⟩], 8⟩ [6#8] = 5)) = some false
    decide
  · exact C95_default_partial 0 u8 [.located [⟨7, 0⟩]] (.required 5) [] (.fixed 5) rfl hty
      (by rw [C95_type]; decide) (by simp)

/-- A declaration with options of all kinds. -/
example :
    let opts : List Opt := [.equalTo 3, .newName 4, .newType ⟨16, true⟩, .located [⟨9, 2⟩], .greaterThan (-3),
      .default (-2), .shiftedBy 5, .shiftedBy 1]
    (field N 0 u8 opts).name = 4 ∧ ty N (field N 0 u8 opts) = ⟨16, true⟩ ∧
    (field N 0 u8 opts).fld.ats = [⟨15, 8⟩] ∧ initOf N (field N 0 u8 opts) = .value (-2) := by
  refine ⟨?_, ?_, ?_, ?_⟩
  · rw [C95_name]; decide
  · rw [C95_type]; decide
  · exact C95_place 0 u8 [.equalTo 3, .newName 4, .newType ⟨16, true⟩] [⟨9, 2⟩]
      [.greaterThan (-3), .default (-2), .shiftedBy 5, .shiftedBy 1] (by decide)
  · exact C95_default_partial 0 u8 [.equalTo 3, .newName 4, .newType ⟨16, true⟩, .located [⟨9, 2⟩],
      .greaterThan (-3)] (.default (-2)) [.shiftedBy 5, .shiftedBy 1] (.value (-2)) rfl
      (by rw [C95_type]; show IntTy.InRange _ _; decide) (by rw [C95_type]; decide) (by decide)

/-! ### C96 -/

theorem fieldOk_snoc (name : Nat) (t : IntTy) (opts : List Opt) (o : Opt) :
    fieldOk N name t (opts ++ [o]) = (fieldOk N name t opts && allowed (field N name t opts) o) := by
  simp only [fieldOk, List.length_append, List.length_singleton, List.range_succ, List.all_append,
    List.all_cons, List.all_nil, Bool.and_true]
  congr 1
  · rw [Bool.eq_iff_iff, List.all_eq_true, List.all_eq_true]
    refine forall_congr' fun i => forall_congr' fun hi => ?_
    have hi := List.mem_range.1 hi
    rw [List.getElem?_append_left hi, List.take_append_of_le_length (Nat.le_of_lt hi)]
  · simp

theorem fixed_compatible {f : MField} {v w : Int} (hf : initOf N f = .fixed v)
    (hw : 0 < f.fld.EW) (hn : ∀ n, f.dflt = .const n → n < 2 ^ f.fld.EW)
    (hr : (ty N f).InRange w) : compatible f.fld.EW f.dflt w = decide (v = w) := by
  simp only [initOf] at hf
  split at hf <;> simp only [reduceCtorEq, Init.fixed.injEq] at hf
  next n hd =>
  rw [hd, compatible]
  rw [Bool.eq_iff_iff, beq_iff_eq, decide_eq_true_iff]
  have hb := raw_back (signed N f) hw w hr
  constructor
  · rintro rfl; rw [hb] at hf; exact hf.symm
  · rintro rfl
    have hinj : BitVec.ofNat f.fld.EW n = BitVec.ofNat f.fld.EW (raw f.fld.EW v) := by
      rw [← hb] at hf
      cases hs : signed N f <;> simp only [hs, toInt, if_true, Bool.false_eq_true, if_false] at hf
      · exact BitVec.eq_of_toNat_eq (by exact_mod_cast hf)
      · exact BitVec.eq_of_toInt_eq hf
    have h2 := congrArg BitVec.toNat hinj
    rw [BitVec.toNat_ofNat, BitVec.toNat_ofNat, Nat.mod_eq_of_lt (hn n hd),
      Nat.mod_eq_of_lt (show raw f.fld.EW v < _ from BitVec.isLt _)] at h2
    exact h2.symm

theorem const_lt (name : Nat) (t : IntTy) (opts : List Opt) (n : Nat)
    (h : (field N name t opts).dflt = .const n) : n < 2 ^ (field N name t opts).fld.EW := by
  induction opts using List.reverseRecOn with
  | nil => simp [field, newField] at h
  | append_singleton os o ih =>
    rw [field_snoc] at h ⊢
    cases o <;> simp only [declare, setMatcher, MField.shiftedBy, Dflt.const.injEq, reduceCtorEq] at h ⊢ <;>
      first
      | exact ih h
      | (subst h; exact BitVec.isLt _)

theorem fixed_ok (name : Nat) (t : IntTy) (pre : List Opt) (o : Opt) (mid : List Opt) (v : Int)
    (ho : o.init? = some (.fixed v)) (hv : (lastGiven Opt.type? pre t).InRange v)
    (hb : 0 < (lastGiven Opt.type? pre t).bits)
    (hmid : ∀ o ∈ mid, o.init? = none ∧ o.type? = none) (w : Int)
    (hw : (lastGiven Opt.type? pre t).InRange w) :
    compatible (field N name t (pre ++ o :: mid)).fld.EW (field N name t (pre ++ o :: mid)).dflt w =
      decide (v = w) := by
  have h4 : ty N (field N name t (pre ++ o :: mid)) = lastGiven Opt.type? pre t := by
    rw [C95_type]
    have hm : mid.filterMap Opt.type? = [] := by
      rw [List.filterMap_eq_nil_iff]; exact fun p hp => (hmid p hp).2
    have ho' : o.type? = none := by cases o <;> simp [Opt.init?] at ho <;> rfl
    simp [lastGiven, hm, ho']
  rw [← C95_type (N := N) name] at hv hb
  refine fixed_compatible (C95_default_partial name t pre o mid (.fixed v) ho hv hb hmid) ?_
    (const_lt name t _) (h4 ▸ hw)
  rw [C95_type, ← h4] at hb
  exact hb

/-- C96 (partial): when the value of a field is fixed, asking for equality compiles exactly for that
value. Missing: `C96_violated_later`, `C96_violated_bound`. -/
theorem C96_equal_partial (name : Nat) (t : IntTy) (pre : List Opt) (o : Opt) (mid : List Opt) (v : Int)
    (ho : o.init? = some (.fixed v)) (hv : (lastGiven Opt.type? pre t).InRange v)
    (hb : 0 < (lastGiven Opt.type? pre t).bits)
    (hmid : ∀ o ∈ mid, o.init? = none ∧ o.type? = none) (w : Int)
    (hw : (lastGiven Opt.type? pre t).InRange w)
    (h : fieldOk N name t (pre ++ o :: mid) = true) :
    fieldOk N name t ((pre ++ o :: mid) ++ [.equalTo w]) = true ↔ v = w := by
  rw [fieldOk_snoc, h, Bool.true_and, allowed, fixed_ok name t pre o mid v ho hv hb hmid w hw,
    decide_eq_true_iff]

/-- C96 (partial): when the value of a field is fixed, asking for one of several values compiles exactly
when it is among them. Missing: as above. -/
theorem C96_in_partial (name : Nat) (t : IntTy) (pre : List Opt) (o : Opt) (mid : List Opt) (v : Int)
    (ho : o.init? = some (.fixed v)) (hv : (lastGiven Opt.type? pre t).InRange v)
    (hb : 0 < (lastGiven Opt.type? pre t).bits)
    (hmid : ∀ o ∈ mid, o.init? = none ∧ o.type? = none) (ws : List Int)
    (hw : ∀ w ∈ ws, (lastGiven Opt.type? pre t).InRange w)
    (h : fieldOk N name t (pre ++ o :: mid) = true) :
    fieldOk N name t ((pre ++ o :: mid) ++ [.in ws]) = true ↔ v ∈ ws := by
  rw [fieldOk_snoc, h, Bool.true_and, allowed, List.any_eq_true]
  constructor
  · rintro ⟨w, hm, hc⟩
    rw [fixed_ok name t pre o mid v ho hv hb hmid w (hw w hm), decide_eq_true_iff] at hc
    exact hc ▸ hm
  · intro hm
    exact ⟨v, hm, by rw [fixed_ok name t pre o mid v ho hv hb hmid v hv]; simp⟩

example : fieldOk N 0 u8 ([.located [⟨7, 0⟩]] ++ .constDefault 5 :: [.shiftedBy 8] ++ [.in [3, 5]]) = true ∧
    fieldOk N 0 u8 ([.located [⟨7, 0⟩]] ++ .constDefault 5 :: [.shiftedBy 8] ++ [.equalTo 6]) = false := by
  have h0 : fieldOk N 0 u8 ([.located [⟨7, 0⟩]] ++ .constDefault 5 :: [.shiftedBy 8]) = true := rfl
  constructor
  · exact (C96_in_partial 0 u8 [.located [⟨7, 0⟩]] (.constDefault 5) [.shiftedBy 8] 5 rfl (by decide)
      (by decide) (by decide) [3, 5] (by decide) h0).2 (by decide)
  · rw [Bool.eq_false_iff]
    intro h
    have := (C96_equal_partial 0 u8 [.located [⟨7, 0⟩]] (.constDefault 5) [.shiftedBy 8] 5 rfl (by decide)
      (by decide) (by decide) 6 (by decide) h0).1 h
    exact absurd this (by decide)

/-- A message of one byte that is fixed, as it is built. -/
theorem construct_six (e : Nat) :
    construct 8 1 [⟨0, ⟨[⟨7, 0⟩], 8⟩, .const 6, e⟩] [] = some [6#8] := by
  simp only [construct, setDefaults, setDefault, find, Dflt.val?, setValues, List.map_cons,
    List.map_nil, List.foldlM_cons, List.foldlM_nil, List.find?_cons_of_pos, beq_self_eq_true,
    Option.bind_eq_bind, Option.bind_some]
  decide

/-- C96 violated: when the value is fixed after the condition was given, nothing is checked. The message
built by the library is refused by its own definition. -/
theorem C96_violated_later (N : Numbering) (env : Env) :
    fieldOk N 0 u8 [.located [⟨7, 0⟩], .equalTo 5, .constDefault 6] = true ∧
    construct 8 1 [field N 0 u8 [.located [⟨7, 0⟩], .equalTo 5, .constDefault 6]] [] = some [6#8] ∧
    accepts N env 8 (.raw [6#8])
      (plainMatcher N [field N 0 u8 [.located [⟨7, 0⟩], .equalTo 5, .constDefault 6]]) = some false := by
  have h0 := exByte_ok N
  refine ⟨rfl, construct_six _, ?_⟩
  rw [show [Opt.located [⟨7, 0⟩], .equalTo 5, .constDefault 6] =
      [.located [⟨7, 0⟩]] ++ .equalTo 5 :: [.constDefault 6] from rfl,
    C95_condition_partial 0 u8 [.located [⟨7, 0⟩]] (.equalTo 5) [.constDefault 6] (by decide)]
  have := C89_exact_partial (env := env) (.inl rfl) (exByte N) (.equalTo 5) (.eq 5) rfl
    (by rw [h0.2.2.1]; show IntTy.InRange _ _; decide) trivial h0.1 [6#8] h0.2.1
  rw [h0.2.2.2] at this
  refine this.trans ?_
  show some (decide (held false ⟨[⟨7, 0⟩], 8⟩ [6#8] = 5)) = some false
  decide

/-- C96 violated: bounds are not checked at all. -/
theorem C96_violated_bound (N : Numbering) (env : Env) :
    fieldOk N 0 u8 [.located [⟨7, 0⟩], .constDefault 6, .greaterThan 7] = true ∧
    construct 8 1 [field N 0 u8 [.located [⟨7, 0⟩], .constDefault 6, .greaterThan 7]] [] = some [6#8] ∧
    accepts N env 8 (.raw [6#8])
      (plainMatcher N [field N 0 u8 [.located [⟨7, 0⟩], .constDefault 6, .greaterThan 7]]) =
        some false := by
  have h0 := exByte_ok N
  refine ⟨rfl, construct_six _, ?_⟩
  have hs : signed N (field N 0 u8 [.located [⟨7, 0⟩], .constDefault 6]) = false :=
    congrArg IntTy.signed (C95_type (N := N) 0 u8 [.located [⟨7, 0⟩], .constDefault 6])
  have := C89_exact_partial (env := env) (.inl rfl)
    (field N 0 u8 [.located [⟨7, 0⟩], .constDefault 6]) (.greaterThan 7) (.gt 7) rfl
    (by rw [C95_type]; show IntTy.InRange _ _; decide) trivial h0.1 [6#8] h0.2.1
  rw [hs] at this
  refine this.trans ?_
  show some (decide (held false ⟨[⟨7, 0⟩], 8⟩ [6#8] > 7)) = some false
  decide

end Verif.Receive
