import Verif.Receive.DeclProps
/-! # How each declaration initialises its field, and which declarations compile -/
namespace Verif.Receive
open Verif.Match Verif.Message Verif.Bits

variable {N : Numbering}

/-! ## Specification -/

/-- What an option says about the initialisation of the field, as the library takes it: a new type means zero. -/
def Opt.says? : Opt → Option Init
  | .newType _ => some (.value 0)
  | o => o.init?

/-- The values in an option are values of the type. -/
def Opt.Typed (t : IntTy) : Opt → Prop
  | .default v | .constDefault v | .required v | .equalTo v => t.InRange v
  | .in vs => ∀ v ∈ vs, t.InRange v
  | _ => True

/-- The values in the options are values of the type that the field has at that point. -/
def TypedOpts (t : IntTy) (opts : List Opt) : Prop :=
  ∀ pre o post, opts = pre ++ o :: post →
    o.Typed (lastGiven Opt.type? pre t) ∧ 0 < (lastGiven Opt.type? pre t).bits

/-- A field initialised like this can be asked for this. -/
def Init.Admits : Init → Opt → Prop
  | .fixed v, .equalTo w => v = w
  | .fixed v, .in ws => v ∈ ws
  | _, .in ws => ws ≠ []
  | _, _ => True

/-! ## Properties -/

theorem TypedOpts.init {t : IntTy} {os : List Opt} {o : Opt} (h : TypedOpts t (os ++ [o])) : TypedOpts t os :=
  fun pre p post e => h pre p (post ++ [o]) (by rw [e]; simp)

theorem TypedOpts.last {t : IntTy} {os : List Opt} {o : Opt} (h : TypedOpts t (os ++ [o])) :
    o.Typed (lastGiven Opt.type? os t) ∧ 0 < (lastGiven Opt.type? os t).bits := h os o [] rfl

/-- **C95** (part) How a field is initialised, for every declaration: as the last option about it says, where a new
type counts as an option that asks for zero. -/
theorem C95_default_exact (name : Nat) (t : IntTy) (opts : List Opt) (h : TypedOpts t opts) :
    initOf N (field N name t opts) = lastGiven Opt.says? opts (.value 0) := by
  induction opts using List.reverseRecOn with
  | nil => simp [field, newField, initOf, lastGiven, toInt]
  | append_singleton os o ih =>
    have hl := h.last
    rw [field_snoc, lastGiven_append, ← ih h.init]
    rw [← C95_type (N := N) name] at hl
    cases hs : o.init? with
    | some i =>
      have : o.says? = some i := by cases o <;> simp_all [Opt.init?, Opt.says?]
      rw [this, Option.getD_some]
      refine declare_init _ o i hs hl.2 ?_
      cases o <;> simp [Opt.init?] at hs <;> subst hs <;> simp [Init.Typed] <;> exact hl.1
    | none =>
      cases ht : o.type? with
      | some u =>
        cases o <;> simp [Opt.type?] at ht
        simp [Opt.says?, declare, initOf, toInt]
      | none =>
        have : o.says? = none := by cases o <;> simp_all [Opt.init?, Opt.says?, Opt.type?]
        rw [this, Option.getD_none]
        exact fold_init [o] (field N name t os) (by simp [hs, ht])

theorem allowed_exact (name : Nat) (t : IntTy) (os : List Opt) (o : Opt) (h : TypedOpts t (os ++ [o])) :
    allowed (field N name t os) o = true ↔ (lastGiven Opt.says? os (.value 0)).Admits o := by
  have hl := h.last
  have hd := C95_default_exact (N := N) name t os h.init
  rw [← C95_type (N := N) name] at hl
  have hc : ∀ w, (ty N (field N name t os)).InRange w →
      (compatible (field N name t os).fld.EW (field N name t os).dflt w = true ↔
        ∀ v, lastGiven Opt.says? os (.value 0) = .fixed v → v = w) := by
    intro w hw
    cases hi : initOf N (field N name t os) with
    | fixed v =>
      rw [fixed_compatible hi hl.2 (const_lt name t os) hw, decide_eq_true_iff, ← hd, hi]
      simp
    | _ =>
      have : compatible (field N name t os).fld.EW (field N name t os).dflt w = true := by
        cases hx : (field N name t os).dflt <;> simp [initOf, hx] at hi <;> rfl
      rw [this, ← hd, hi]
      simp
  cases o with
  | equalTo w =>
    rw [allowed, hc w hl.1]
    cases lastGiven Opt.says? os (.value 0) <;> simp [Init.Admits]
  | «in» ws =>
    rw [allowed, List.any_eq_true]
    have : (∃ w ∈ ws, compatible (field N name t os).fld.EW (field N name t os).dflt w = true) ↔
        ∃ w ∈ ws, ∀ v, lastGiven Opt.says? os (.value 0) = .fixed v → v = w :=
      ⟨fun ⟨w, a, b⟩ => ⟨w, a, (hc w (hl.1 w a)).1 b⟩, fun ⟨w, a, b⟩ => ⟨w, a, (hc w (hl.1 w a)).2 b⟩⟩
    rw [this]
    have hne : (∃ w, w ∈ ws) ↔ ¬ ws = [] := by cases ws <;> simp
    cases lastGiven Opt.says? os (.value 0) <;> simp [Init.Admits, hne]
  | _ => cases lastGiven Opt.says? os (.value 0) <;> simp [Init.Admits, allowed]

/-- **C96** (part) Which declarations compile: exactly those in which each `with_equal_to` and `with_in` admits the
value that is fixed at that point, if one is, and no `with_in` is empty. -/
theorem C96_exact (name : Nat) (t : IntTy) (opts : List Opt) (h : TypedOpts t opts) :
    fieldOk N name t opts = true ↔
      ∀ pre o post, opts = pre ++ o :: post → (lastGiven Opt.says? pre (.value 0)).Admits o := by
  induction opts using List.reverseRecOn with
  | nil => simp [fieldOk]
  | append_singleton os o ih =>
    rw [fieldOk_snoc, Bool.and_eq_true, ih h.init, allowed_exact name t os o h]
    constructor
    · rintro ⟨h1, h2⟩ pre p post e
      rcases List.eq_nil_or_concat post with rfl | ⟨post', q, rfl⟩
      · obtain ⟨rfl, e2⟩ := List.append_inj' e rfl
        cases e2
        exact h2
      · rw [List.concat_eq_append, ← List.cons_append, ← List.append_assoc] at e
        obtain ⟨e1, _⟩ := List.append_inj' e rfl
        exact h1 pre p post' e1
    · intro h1
      exact ⟨fun pre p post e => h1 pre p (post ++ [o]) (by rw [e]; simp), h1 os o [] rfl⟩

/-- A declaration with a value that is fixed, dropped by a new type, and fixed again. -/
example : TypedOpts u8 [.constDefault 6, .in [6, 7], .newType ⟨8, true⟩, .equalTo (-1), .required 9] := by
  intro pre o post h
  match pre, h with
  | [], h => cases h; simp only [Opt.Typed]; decide
  | [_], h => cases h; simp only [Opt.Typed]; decide
  | [_, _], h => cases h; simp only [Opt.Typed]; decide
  | [_, _, _], h => cases h; simp only [Opt.Typed]; decide
  | [_, _, _, _], h => cases h; simp only [Opt.Typed]; decide
  | _ :: _ :: _ :: _ :: _ :: _, h => simp at h
example : lastGiven Opt.says? [.constDefault 6, .in [6, 7], .newType ⟨8, true⟩, .equalTo (-1)] (.value 0) = .value 0 ∧
    lastGiven Opt.says? [.constDefault 6, .in [6, 7]] (.value 0) = .fixed 6 := by decide

end Verif.Receive
