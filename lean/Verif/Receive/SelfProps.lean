import Verif.Receive.DefProps
/-!
# C92: messages built by the library satisfy their own required fields
-/
namespace Verif.Receive
open Verif.Match Verif.Message Verif.Bits

variable {N : Numbering} {env : Env} {W n : Nat}

/-- The field was declared with `with_required<v>`, `v` a value of the type, and only options allowed by
`later` after that. -/
def Required (N : Numbering) (later : Opt → Bool) (f : MField) (v : Int) : Prop :=
  ∃ name t pre post, f = field N name t (pre ++ .required v :: post) ∧
    (ty N (field N name t pre)).InRange v ∧ ∀ p ∈ post, later p = true

/-- The value fits in the bits of the field: it is a natural number of so many bits, or the field is as
wide as its type. -/
def Fits (f : MField) (v : Int) : Prop := (0 ≤ v ∧ v < 2 ^ f.bits) ∨ f.bits = f.fld.EW

theorem Required.asks {later later' : Opt → Bool} {f : MField} {v : Int} (h : Required N later f v)
    (hl : ∀ o, later o = true → later' o = true) : Asks N later' f (.eq v) := by
  obtain ⟨name, t, pre, post, rfl, h1, h2⟩ := h
  exact .inr ⟨name, t, pre, .required v, post, rfl, rfl, h1, fun p hp => hl p (h2 p hp)⟩

/-- Options that change neither condition nor default. -/
def movesOrRenames (o : Opt) : Bool := o.moves || o.renames

theorem fold_dflt (opts : List Opt) (f : MField) (h : ∀ o ∈ opts, movesOrRenames o = true) :
    (opts.foldl (declare N) f).dflt = f.dflt ∧ (opts.foldl (declare N) f).fld.EW = f.fld.EW ∧
      signed N (opts.foldl (declare N) f) = signed N f := by
  induction opts generalizing f with
  | nil => exact ⟨rfl, rfl, rfl⟩
  | cons o os ih =>
    have h1 : (declare N f o).dflt = f.dflt ∧ (declare N f o).fld.EW = f.fld.EW ∧
        signed N (declare N f o) = signed N f := by
      have := h o (by simp)
      cases o <;> simp [movesOrRenames, Opt.moves, Opt.renames] at this <;> exact ⟨rfl, rfl, rfl⟩
    have h2 := ih (declare N f o) (fun p hp => h p (by simp [hp]))
    simp only [List.foldl_cons]
    exact ⟨h2.1.trans h1.1, h2.2.1.trans h1.2.1, h2.2.2.trans h1.2.2⟩

theorem Required.dflt {later : Opt → Bool} {f : MField} {v : Int} (h : Required N later f v)
    (hl : ∀ o, later o = true → movesOrRenames o = true) :
    f.dflt = .const (raw f.fld.EW v) ∧ (ty N f).InRange v := by
  obtain ⟨name, t, pre, post, rfl, h1, h2⟩ := h
  rw [field_append]
  have h3 := fold_dflt (N := N) post (declare N (field N name t pre) (.required v))
    (fun p hp => hl p (h2 p hp))
  have h4 := declare_asks_same (N := N) (field N name t pre) (.required v) _ rfl
  constructor
  · rw [h3.1, h3.2.1]; rfl
  · simpa only [ty, h3.2.1, h3.2.2, h4.1, h4.2.2] using h1

theorem toInt_ofInt (s : Bool) {w : Nat} (hw : 0 < w) (v : Int) (hv : IntTy.InRange ⟨w, s⟩ v) :
    toInt s (BitVec.ofInt w v) = v := by
  simp only [IntTy.InRange, IntTy.lo, IntTy.hi] at hv
  obtain ⟨k, rfl⟩ : ∃ k, w = k + 1 := ⟨w - 1, by omega⟩
  have hp : (2 : Int) ^ (k + 1) = 2 * 2 ^ k := by rw [pow_succ]; ring
  simp only [Nat.add_sub_cancel] at hv
  cases s with
  | false =>
    simp only [Bool.false_eq_true, if_false] at hv
    simp only [toInt, Bool.false_eq_true, if_false, BitVec.toNat_ofInt]
    rw [Int.toNat_of_nonneg (Int.emod_nonneg _ (by positivity))]
    apply Int.emod_eq_of_lt hv.1
    push_cast; omega
  | true =>
    simp only [if_true] at hv
    simp only [toInt, if_true, BitVec.toInt_ofInt]
    apply Int.bmod_eq_of_le
    · push_cast; rw [hp]; omega
    · push_cast; rw [hp]; omega

/-- A field that reads as its required value modulo its width holds the required value. -/
theorem held_required (hW : Narrow W) (fs : List MField) (hn : (fs.map (·.name)).Nodup) (f : MField)
    (hf : f ∈ fs) (hl : f.fld.Legal) (r : List (BitVec W)) (hin : f.fld.Within (r.length * W))
    (v : Int) (hv : (ty N f).InRange v) (hfit : Fits f v)
    (hg : Message.get W fs r f.name = some (raw f.fld.EW v % 2 ^ f.bits)) :
    held (signed N f) f.fld r = v := by
  have h0 : 0 < f.fld.EW := by rcases hl.2.2 with h | h | h | h <;> omega
  obtain ⟨x, hx, _⟩ := C11_reads_declared_bits hW f.fld hl r hin
  have h1 := (value_held (N := N) hW f hl r hin).1
  simp only [value, hx, Option.map_some, Option.some.injEq] at h1
  rw [← h1]
  simp only [Message.get, find_eq hn hf, Option.bind_eq_bind, Option.bind_some, Message.read, hx, Option.map_some,
    Option.some.injEq] at hg
  have hraw : raw f.fld.EW v % 2 ^ f.bits = raw f.fld.EW v := by
    rcases hfit with ⟨h2, h3⟩ | h2
    · apply Nat.mod_eq_of_lt
      have hle : (2 : Int) ^ f.bits ≤ 2 ^ f.fld.EW :=
        pow_le_pow_right₀ (by norm_num) (bits_le hl)
      have : (v % ((2 ^ f.fld.EW : Nat) : Int)) = v := by
        apply Int.emod_eq_of_lt h2
        push_cast; omega
      rw [raw, BitVec.toNat_ofInt, this]
      zify
      rw [Int.toNat_of_nonneg h2]; exact h3
    · rw [h2]; exact Nat.mod_eq_of_lt (BitVec.isLt _)
  rw [hraw] at hg
  have : x = BitVec.ofInt f.fld.EW v := BitVec.eq_of_toNat_eq hg
  rw [this]
  exact toInt_ofInt _ h0 v hv

/-- C92 (partial): a message built by the library, whatever values were given and whatever was set
afterwards, is accepted by a callback for its own definition, if all conditions of the definition are
required values and they fit in their fields. Missing: `C92_violated_width`, `C92_violated_negative`. -/
theorem C92_object_partial (L : Layout W n fs) (req : MField → Option Int)
    (hr : ∀ f ∈ fs, (∃ v, req f = some v ∧ Required N Opt.moves f v ∧ Fits f v) ∨
      (req f = none ∧ Asks N keepsName f .any))
    (vs : List (Nat × Nat)) (ops : List SetOp) (hc : constructOk fs vs = true)
    (hops : ∀ op ∈ ops, op.ok fs = true) :
    ∃ r r', construct W n fs vs = some r ∧ runOps W fs r ops = some r' ∧
      accepts N env W (.msg fs r') (plainMatcher N fs) = some true := by
  obtain ⟨r, r', h1, h2, h3⟩ := C62_required_value_persists L vs ops hc hops
  refine ⟨r, r', h1, h2, ?_⟩
  have hs : setOk fs vs = true := by
    simp only [constructOk, Bool.and_eq_true] at hc; exact hc.2
  have hlen : r'.length = n := by
    obtain ⟨r2, k1, k2, _⟩ := C17_construction L vs (setOk_names hs)
    rw [h1] at k1; cases k1
    obtain ⟨r3, k3, k4, _⟩ := runOps_immutable L ops hops r k2
    rw [h2] at k3; cases k3; exact k4
  have hin : ∀ f ∈ fs, f.fld.Within (r'.length * W) := fun f hf => by
    rw [hlen]; exact L.inside f hf
  rw [C88_object_partial L.narrow fs L.names (fun f => match req f with
      | some v => .eq v
      | none => .any) (by
    intro f hf
    rcases hr f hf with ⟨v, hv, hq, _⟩ | ⟨hv, ha⟩
    · rw [hv]; exact ⟨hq.asks (fun o ho => by simp [keepsName, ho]), trivial⟩
    · rw [hv]; exact ⟨ha, trivial⟩) L.legal r' hin]
  simp only [Option.some.injEq, List.all_eq_true]
  intro f hf
  rcases hr f hf with ⟨v, hv, hq, hfit⟩ | ⟨hv, ha⟩
  · have hd := hq.dflt (fun o ho => by simp [movesOrRenames, ho])
    rw [hv]
    simp only [Cond.holds, decide_eq_true_eq]
    exact held_required L.narrow fs L.names f hf (L.legal f hf) r' (hin f hf) v hd.2 hfit
      (h3 f hf _ hd.1)
  · rw [hv]; rfl

/-- C92 (partial): the same for the raw storage of the message, if no option moves a required field
after `with_required`. Missing: as above, and moved fields (`C90_violated_relaxed_raw`). -/
theorem C92_raw_partial (L : Layout W n fs) (req : MField → Option Int)
    (hr : ∀ f ∈ fs, (∃ v, req f = some v ∧ Required N Opt.renames f v ∧ Fits f v) ∨
      (req f = none ∧ Asks N staysPut f .any))
    (vs : List (Nat × Nat)) (ops : List SetOp) (hc : constructOk fs vs = true)
    (hops : ∀ op ∈ ops, op.ok fs = true) :
    ∃ r r', construct W n fs vs = some r ∧ runOps W fs r ops = some r' ∧
      accepts N env W (.raw r') (plainMatcher N fs) = some true := by
  obtain ⟨r, r', h1, h2, h3⟩ := C62_required_value_persists L vs ops hc hops
  refine ⟨r, r', h1, h2, ?_⟩
  have hs : setOk fs vs = true := by
    simp only [constructOk, Bool.and_eq_true] at hc; exact hc.2
  have hlen : r'.length = n := by
    obtain ⟨r2, k1, k2, _⟩ := C17_construction L vs (setOk_names hs)
    rw [h1] at k1; cases k1
    obtain ⟨r3, k3, k4, _⟩ := runOps_immutable L ops hops r k2
    rw [h2] at k3; cases k3; exact k4
  have hin : ∀ f ∈ fs, f.fld.Within (r'.length * W) := fun f hf => by
    rw [hlen]; exact L.inside f hf
  rw [C88_raw_partial L.narrow fs (fun f => match req f with
      | some v => .eq v
      | none => .any) (by
    intro f hf
    rcases hr f hf with ⟨v, hv, hq, _⟩ | ⟨hv, ha⟩
    · rw [hv]; exact ⟨hq.asks (fun o ho => by simp [staysPut, ho]), trivial⟩
    · rw [hv]; exact ⟨ha, trivial⟩) L.legal r' hin]
  simp only [Option.some.injEq, List.all_eq_true]
  intro f hf
  rcases hr f hf with ⟨v, hv, hq, hfit⟩ | ⟨hv, ha⟩
  · have hd := hq.dflt (fun o ho => by simp [movesOrRenames, ho])
    rw [hv]
    simp only [Cond.holds, decide_eq_true_eq]
    exact held_required L.narrow fs L.names f hf (L.legal f hf) r' (hin f hf) v hd.2 hfit
      (h3 f hf _ hd.1)
  · rw [hv]; rfl

/-- A required value that needs more bits than the field has: `u8`, bits 3..0, value 31. -/
def exWide (N : Numbering) : MField := field N 0 u8 ([.located [⟨3, 0⟩]] ++ .required 31 :: [])

/-- A negative required value in a field narrower than its type: `i8`, bits 3..0, value -1. -/
def exNeg (N : Numbering) : MField :=
  field N 0 ⟨8, true⟩ ([.located [⟨3, 0⟩]] ++ .required (-1) :: [])

/-- C92 violated: a required value with more bits than the field is accepted by the compiler; the
message built by the library is refused by its own definition, as object and as raw storage. -/
theorem C92_violated_width (N : Numbering) (env : Env) :
    Required N Opt.moves (exWide N) 31 ∧ construct 8 1 [exWide N] [] = some [15#8] ∧
    accepts N env 8 (.msg [exWide N] [15#8]) (plainMatcher N [exWide N]) = some false ∧
    accepts N env 8 (.raw [15#8]) (plainMatcher N [exWide N]) = some false := by
  have ht : ty N (field N 0 u8 [.located [⟨3, 0⟩]]) = u8 :=
    typed_u8 (by simp [field, declare, newField, u8]) rfl
  have hs : signed N (field N 0 u8 [.located [⟨3, 0⟩]]) = false := by
    simp [field, declare, newField, u8]
  have hs' : signed N (exWide N) = false := by
    simp [exWide, field, declare, newField, setMatcher, signed, N.rest_ok, u8]
  have hm : matcher N (exWide N) = condMatcher N (field N 0 u8 [.located [⟨3, 0⟩]]) (.eq 31) := by
    simp [exWide, field, declare, setMatcher, condMatcher, matcher, N.rest_ok]
  have hty : (Cond.eq 31).Typed (ty N (field N 0 u8 [.located [⟨3, 0⟩]])) := by
    rw [ht]; show IntTy.InRange _ _; decide
  refine ⟨⟨0, u8, [.located [⟨3, 0⟩]], [], rfl, hty, by simp⟩, ?_, ?_, ?_⟩
  · have h : ∀ e : Nat, construct 8 1 [⟨0, ⟨[⟨3, 0⟩], 8⟩, .const 31, e⟩] [] = some [15#8] := by
      intro e
      simp only [construct, setDefaults, setDefault, find, Dflt.val?, setValues, List.map_cons,
        List.map_nil, List.foldlM_cons, List.foldlM_nil, List.find?_cons_of_pos, beq_self_eq_true,
        Option.bind_eq_bind, Option.bind_some]
      decide
    exact h _
  · refine single_accepts (x := 15) hm ?_ (by rw [ht]; decide) hty trivial
    have : find [exWide N] (field N 0 u8 [.located [⟨3, 0⟩]]).name = some (exWide N) := rfl
    rw [extractField, this, Option.bind_some, value, hs']
    show (Fld.extract 8 ⟨[⟨3, 0⟩], 8⟩ [15#8]).map (toInt false) = some 15
    decide
  · refine single_accepts (x := 15) hm ?_ (by rw [ht]; decide) hty trivial
    rw [extractField, value, hs]
    show (Fld.extract 8 ⟨[⟨3, 0⟩], 8⟩ [15#8]).map (toInt false) = some 15
    decide

/-- C92 violated: a negative required value in a field narrower than its type is read back as a
positive one; the message built by the library is refused by its own definition. -/
theorem C92_violated_negative (N : Numbering) (env : Env) :
    Required N Opt.moves (exNeg N) (-1) ∧ construct 8 1 [exNeg N] [] = some [15#8] ∧
    accepts N env 8 (.msg [exNeg N] [15#8]) (plainMatcher N [exNeg N]) = some false := by
  have hs : signed N (field N 0 ⟨8, true⟩ [.located [⟨3, 0⟩]]) = true := by
    simp [field, declare, newField]
  have ht : ty N (field N 0 ⟨8, true⟩ [.located [⟨3, 0⟩]]) = ⟨8, true⟩ := by
    simp only [ty, hs]; rfl
  have hs' : signed N (exNeg N) = true := by
    simp [exNeg, field, declare, newField, setMatcher, signed, N.rest_ok]
  have hm : matcher N (exNeg N) =
      condMatcher N (field N 0 ⟨8, true⟩ [.located [⟨3, 0⟩]]) (.eq (-1)) := by
    simp [exNeg, field, declare, setMatcher, condMatcher, matcher, N.rest_ok]
  have hty : (Cond.eq (-1)).Typed (ty N (field N 0 ⟨8, true⟩ [.located [⟨3, 0⟩]])) := by
    rw [ht]; show IntTy.InRange _ _; decide
  refine ⟨⟨0, ⟨8, true⟩, [.located [⟨3, 0⟩]], [], rfl, hty, by simp⟩, ?_, ?_⟩
  · have h : ∀ e : Nat, construct 8 1 [⟨0, ⟨[⟨3, 0⟩], 8⟩, .const 255, e⟩] [] = some [15#8] := by
      intro e
      simp only [construct, setDefaults, setDefault, find, Dflt.val?, setValues, List.map_cons,
        List.map_nil, List.foldlM_cons, List.foldlM_nil, List.find?_cons_of_pos, beq_self_eq_true,
        Option.bind_eq_bind, Option.bind_some]
      decide
    have he : raw 8 (-1) = 255 := by decide
    show construct 8 1 [⟨0, ⟨[⟨3, 0⟩], 8⟩, .const (raw 8 (-1)), (exNeg N).rest⟩] [] = _
    rw [he]
    exact h _
  · refine single_accepts (x := 15) hm ?_ (by rw [ht]; decide) hty trivial
    have : find [exNeg N] (field N 0 ⟨8, true⟩ [.located [⟨3, 0⟩]]).name = some (exNeg N) := rfl
    rw [extractField, this, Option.bind_some, value, hs']
    show (Fld.extract 8 ⟨[⟨3, 0⟩], 8⟩ [15#8]).map (toInt true) = some 15
    decide

/-- The hypotheses of the two partial theorems: a definition with a free byte and a required one. -/
example : Layout 8 2 [exByte N, field N 1 u8 ([.located [⟨15, 8⟩]] ++ .required 5 :: [])] ∧
    Required N Opt.moves (field N 1 u8 ([.located [⟨15, 8⟩]] ++ .required 5 :: [])) 5 ∧
    Required N Opt.renames (field N 1 u8 ([.located [⟨15, 8⟩]] ++ .required 5 :: [])) 5 ∧
    Fits (field N 1 u8 ([.located [⟨15, 8⟩]] ++ .required 5 :: [])) 5 ∧
    constructOk [exByte N, field N 1 u8 ([.located [⟨15, 8⟩]] ++ .required 5 :: [])] [(0, 77)] = true ∧
    SetOp.ok [exByte N, field N 1 u8 ([.located [⟨15, 8⟩]] ++ .required 5 :: [])]
      (.values [(0, 3)]) = true := by
  have hty : (ty N (field N 1 u8 [.located [⟨15, 8⟩]])).InRange 5 := by
    rw [typed_u8 (by simp [field, declare, newField, u8]) rfl]; decide
  have hq : ∀ later, Required N later (field N 1 u8 ([.located [⟨15, 8⟩]] ++ .required 5 :: [])) 5 :=
    fun later => ⟨1, u8, [.located [⟨15, 8⟩]], [], rfl, hty, by simp⟩
  refine ⟨?_, hq _, hq _, .inr rfl, rfl, rfl⟩
  have key : ∀ e d e', Layout 8 2 [⟨0, ⟨[⟨7, 0⟩], 8⟩, .value 0, e⟩, ⟨1, ⟨[⟨15, 8⟩], 8⟩, d, e'⟩] := by
    intro e d e'
    refine ⟨.inl rfl, by simp, ?_, ?_, ?_, ?_⟩
    · simp [Fld.Legal, At.valid, At.size]
    · simp only [List.mem_cons, List.not_mem_nil, or_false, Fld.NonOverlapping]
      rintro f (rfl | rfl) <;> dsimp only <;> decide
    · simp only [List.mem_cons, List.not_mem_nil, or_false, Fld.Disjoint]
      rintro f (rfl | rfl) g (rfl | rfl) hne
      · exact absurd rfl hne
      · dsimp only; decide
      · dsimp only; decide
      · exact absurd rfl hne
    · simp only [List.mem_cons, List.not_mem_nil, or_false, Fld.Within]
      rintro f (rfl | rfl) <;> dsimp only <;> decide
  exact key _ _ _

end Verif.Receive
