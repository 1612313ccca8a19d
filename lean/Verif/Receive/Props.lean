import Verif.Receive.Lemmas
/-!
# C88, C89: conditions of field declarations on concrete data

All statements are for every numbering `N` of types (`Verif.Receive.Numbering` shows one).
-/
namespace Verif.Receive
open Verif.Match Verif.Message Verif.Bits

variable {N : Numbering} {env : Env} {W : Nat}

/-! ## C88 -/

/-- C88 (partial): on raw storage a callback accepts exactly when every field, where the message has
it, satisfies the condition of its declaration, if no option after the condition moves the field.
Missing: `C88_violated_located_later`. -/
theorem C88_raw_partial (hW : Narrow W) (fs : List MField) (cond : MField → Cond)
    (h : ∀ f ∈ fs, Asks N staysPut f (cond f) ∧ (cond f).NotLt) (hl : ∀ f ∈ fs, f.fld.Legal)
    (r : List (BitVec W)) (hin : ∀ f ∈ fs, f.fld.Within (r.length * W)) :
    accepts N env W (.raw r) (plainMatcher N fs) =
      some (fs.all fun f => (cond f).holds env (held (signed N f) f.fld r)) :=
  plain_accepts fs _ fun f hf =>
    have hc := raw_cond (env := env) hW (h f hf).1 (hl f hf) (hin f hf)
    ⟨hc.1, hc.2.1, hc.2.2 (h f hf).2⟩

/-- C88 (partial): on a message object a callback accepts exactly when every field, where the message
has it, satisfies the condition of its declaration, if no option after the condition renames the
field; it may be moved. Missing: `C88_violated_renamed_later`. -/
theorem C88_object_partial (hW : Narrow W) (fs : List MField) (hn : (fs.map (·.name)).Nodup)
    (cond : MField → Cond) (h : ∀ f ∈ fs, Asks N keepsName f (cond f) ∧ (cond f).NotLt)
    (hl : ∀ f ∈ fs, f.fld.Legal) (r : List (BitVec W))
    (hin : ∀ f ∈ fs, f.fld.Within (r.length * W)) :
    accepts N env W (.msg fs r) (plainMatcher N fs) =
      some (fs.all fun f => (cond f).holds env (held (signed N f) f.fld r)) :=
  plain_accepts fs _ fun f hf =>
    have hc := view_cond (env := env) hW hn hf (h f hf).1 (hl f hf) (hin f hf)
    ⟨hc.1, hc.2.1, hc.2.2 (h f hf).2⟩

/-- The 8-bit unsigned type. -/
def u8 : IntTy := ⟨8, false⟩

/-- `field<"0", u8>::located<7..0>::with_greater_than<5>` and
`field<"1", u8>::located<15..8>::with_in<1, 3>::with_default<3>`. -/
def exDecl (N : Numbering) : List MField :=
  [field N 0 u8 ([.located [⟨7, 0⟩]] ++ .greaterThan 5 :: []),
   field N 1 u8 ([.located [⟨15, 8⟩]] ++ .in [1, 3] :: [.default 3])]

/-- Its conditions. -/
def exCond (f : MField) : Cond := if f.name = 0 then .gt 5 else .oneOf [1, 3]

theorem typed_u8 {f : MField} (h1 : signed N f = false) (h2 : f.fld.EW = 8) : ty N f = u8 := by
  simp [ty, h1, h2, u8]

example : (∀ f ∈ exDecl N, Asks N staysPut f (exCond f) ∧ (exCond f).NotLt) ∧
    (∀ f ∈ exDecl N, Asks N keepsName f (exCond f)) ∧ (∀ f ∈ exDecl N, f.fld.Legal) ∧
    ((exDecl N).map (·.name)).Nodup ∧ (∀ f ∈ exDecl N, f.fld.Within ([9#8, 3#8].length * 8)) ∧
    accepts N env 8 (.raw [9#8, 3#8]) (plainMatcher N (exDecl N)) = some true ∧
    accepts N env 8 (.raw [9#8, 2#8]) (plainMatcher N (exDecl N)) = some false ∧
    accepts N env 8 (.raw [5#8, 3#8]) (plainMatcher N (exDecl N)) = some false := by
  have ha : ∀ later : Opt → Bool, later (.default 3) = true →
      ∀ f ∈ exDecl N, Asks N later f (exCond f) := by
    intro later hd f hf
    simp only [exDecl, List.mem_cons, List.not_mem_nil, or_false] at hf
    rcases hf with rfl | rfl
    · refine .inr ⟨0, u8, [.located [⟨7, 0⟩]], .greaterThan 5, [], rfl, rfl, ?_, by simp⟩
      rw [typed_u8 (by simp [field, declare, newField, u8]) rfl]
      show IntTy.InRange _ _; decide
    · refine .inr ⟨1, u8, [.located [⟨15, 8⟩]], .in [1, 3], [.default 3], rfl, rfl, ?_, by
        simpa using hd⟩
      rw [typed_u8 (by simp [field, declare, newField, u8]) rfl]
      show ∀ v ∈ [1, 3], IntTy.InRange _ _; decide
  have hl : ∀ f ∈ exDecl N, f.fld.Legal := by
    intro f hf
    simp only [exDecl, List.mem_cons, List.not_mem_nil, or_false] at hf
    rcases hf with rfl | rfl <;>
      simp [field, declare, newField, setMatcher, u8, Fld.Legal, At.valid, At.size]
  have hn : ∀ f ∈ exDecl N, (exCond f).NotLt := by
    intro f _; unfold exCond; split <;> trivial
  have hin : ∀ f ∈ exDecl N, f.fld.Within (2 * 8) := by
    intro f hf
    simp only [exDecl, List.mem_cons, List.not_mem_nil, or_false] at hf
    rcases hf with rfl | rfl
    · show (Fld.mk [⟨7, 0⟩] 8).Within 16
      unfold Fld.Within; decide
    · show (Fld.mk [⟨15, 8⟩] 8).Within 16
      unfold Fld.Within; decide
  have key : ∀ r : List (BitVec 8), r.length = 2 →
      accepts N env 8 (.raw r) (plainMatcher N (exDecl N)) =
        some (decide (held false ⟨[⟨7, 0⟩], 8⟩ r > 5) &&
          decide (held false ⟨[⟨15, 8⟩], 8⟩ r ∈ [1, 3])) := by
    intro r hr
    rw [C88_raw_partial (.inl rfl) (exDecl N) exCond (fun f hf => ⟨ha staysPut rfl f hf, hn f hf⟩) hl r
      (fun f hf => by rw [hr]; exact hin f hf)]
    simp [exDecl, exCond, field, declare, newField, setMatcher, Cond.holds, u8]
  refine ⟨fun f hf => ⟨ha _ rfl f hf, hn f hf⟩, ha _ rfl, hl, ?_, hin, ?_, ?_, ?_⟩
  · simp [exDecl, field, declare, newField, setMatcher]
  · rw [key _ rfl]; decide
  · rw [key _ rfl]; decide
  · rw [key _ rfl]; decide

/-- `field<"0", u8>::with_equal_to<5>::located<7..0>`: the condition before the location. -/
def exLate (N : Numbering) : MField := field N 0 u8 ([] ++ .equalTo 5 :: [.located [⟨7, 0⟩]])

theorem exLate_asks (N : Numbering) : Asks N keepsName (exLate N) (.eq 5) := by
  refine .inr ⟨0, u8, [], .equalTo 5, [.located [⟨7, 0⟩]], rfl, rfl, ?_, by simp [keepsName, Opt.moves]⟩
  rw [typed_u8 (by simp [field, newField, u8]) rfl]
  show IntTy.InRange _ _; decide

/-- C88 violated: if the location is given after the condition, raw storage is never accepted, although
the field holds 5; the message object over the same storage is. -/
theorem C88_violated_located_later (N : Numbering) (env : Env) :
    Asks N keepsName (exLate N) (.eq 5) ∧
    (∀ r : List (BitVec 8), accepts N env 8 (.raw r) (plainMatcher N [exLate N]) = some false) ∧
    held false (exLate N).fld [5#8] = 5 ∧
    accepts N env 8 (.msg [exLate N] [5#8]) (plainMatcher N [exLate N]) = some true := by
  refine ⟨exLate_asks N, fun r => ?_, by show held false ⟨[⟨7, 0⟩], 8⟩ _ = _; decide, ?_⟩
  · refine single_accepts (f0 := newField N 0 u8) (c := .eq 5) (x := 0) ?_ (value_unlocated _ rfl r) ?_ ?_
      trivial
    · simp [exLate, field, declare, setMatcher, condMatcher]
    · exact inRange_zero _
    · rw [typed_u8 (by simp [newField, u8]) rfl]
      show IntTy.InRange _ _; decide
  · rw [C88_object_partial (.inl rfl) [exLate N] (by simp) (fun _ => .eq 5)
      (by simpa using ⟨exLate_asks N, trivial⟩)
      (by simp [exLate, field, declare, newField, setMatcher, u8, Fld.Legal, At.valid, At.size]) _
      (by
        intro f hf
        rw [List.mem_singleton] at hf
        subst hf
        show (Fld.mk [⟨7, 0⟩] 8).Within 8
        unfold Fld.Within; decide)]
    simp only [List.all_cons, List.all_nil, Bool.and_true, Option.some.injEq]
    have : signed N (exLate N) = false := by
      simp [exLate, field, declare, newField, setMatcher, signed, N.rest_ok, u8]
    rw [this]
    show Cond.holds env (held false ⟨[⟨7, 0⟩], 8⟩ [5#8]) (.eq 5) = true
    simp only [Cond.holds]; decide

/-- `field<"0", u8>::located<7..0>::with_equal_to<5>::with_new_name<"1">`. -/
def exRenamed (N : Numbering) : MField :=
  field N 0 u8 ([.located [⟨7, 0⟩]] ++ .equalTo 5 :: [.newName 1])

/-- `field<"0", u8>::located<15..8>`. -/
def exOther (N : Numbering) : MField := field N 0 u8 [.located [⟨15, 8⟩]]

/-- C88 violated: if the field is renamed after the condition, a message object with that field does
not compile; and if the message has another field of the former name, that one is tested instead. -/
theorem C88_violated_renamed_later (N : Numbering) (env : Env) :
    Asks N staysPut (exRenamed N) (.eq 5) ∧
    (∀ r : List (BitVec 8), compiles N (.msg [exRenamed N] r) (plainMatcher N [exRenamed N]) = false) ∧
    held false (exRenamed N).fld [0#8, 5#8] = 0 ∧
    accepts N env 8 (.msg [exRenamed N, exOther N] [0#8, 5#8])
      (plainMatcher N [exRenamed N, exOther N]) = some true := by
  have hm : matcher N (exRenamed N) =
      condMatcher N (field N 0 u8 [.located [⟨7, 0⟩]]) (.eq 5) := by
    simp [exRenamed, field, declare, setMatcher, condMatcher]
  have ht : ty N (field N 0 u8 [.located [⟨7, 0⟩]]) = u8 :=
    typed_u8 (by simp [field, declare, newField, u8]) rfl
  refine ⟨?_, fun r => ?_, by show held false ⟨[⟨7, 0⟩], 8⟩ _ = _; decide, ?_⟩
  · refine .inr ⟨0, u8, [.located [⟨7, 0⟩]], .equalTo 5, [.newName 1], rfl, rfl, ?_, by
      simp [staysPut, Opt.renames]⟩
    rw [ht]; show IntTy.InRange _ _; decide
  · have : plainMatcher N [exRenamed N] = .leaf (.rel .eq (toField N (field N 0 u8
        [.located [⟨7, 0⟩]])) 5) := by
      simp [plainMatcher, Handler.constructPlain, hm, condMatcher, Match.all, simplify, simplifyAnd,
        implies, impliesL]
    rw [this]
    simp [compiles, fieldsOf, toField, N.field_ok, exRenamed, field, declare, newField, setMatcher,
      find]
  · have hval : extractField N 8 (.msg [exRenamed N, exOther N] [0#8, 5#8])
        (field N 0 u8 [.located [⟨7, 0⟩]]) = some 5 := by
      have : find [exRenamed N, exOther N] (field N 0 u8 [.located [⟨7, 0⟩]]).name =
          some (exOther N) := by
        simp [exRenamed, exOther, field, declare, newField, setMatcher, find]
      rw [extractField, this, Option.bind_some]
      have hs : signed N (exOther N) = false := by
        simp [exOther, field, declare, newField, u8]
      rw [value, hs]
      show (Fld.extract 8 ⟨[⟨15, 8⟩], 8⟩ [0#8, 5#8]).map (toInt false) = some 5
      decide
    have hc := cond_ok (env := env) hval (by rw [ht]; decide) (.eq 5) (by
      rw [ht]; show IntTy.InRange _ _; decide)
    refine (plain_accepts _ (fun _ => true) ?_).trans (by simp)
    intro f hf
    simp only [List.mem_cons, List.not_mem_nil, or_false] at hf
    rcases hf with rfl | rfl
    · rw [hm]; exact ⟨hc.1, hc.2.1, (hc.2.2 trivial).trans (by simp [Cond.holds])⟩
    · have : matcher N (exOther N) = .always := by simp [exOther, field, declare, newField]
      rw [this]; exact ⟨by simp, trivial, rfl⟩

/-! ## C89 -/

/-- C89 (partial): a field with an option such as `with_greater_than<V>` admits exactly the storage in
which it holds a number for which the option's name is true, for any field type and constants of its
type. Missing: `with_less_than`, `C89_violated`. -/
theorem C89_exact_partial (hW : Narrow W) (f : MField) (o : Opt) (c : Cond) (ho : o.asks = some c)
    (hc : c.Typed (ty N f)) (hlt : c.NotLt) (hf : f.fld.Legal) (r : List (BitVec W))
    (hin : f.fld.Within (r.length * W)) :
    accepts N env W (.raw r) (plainMatcher N [declare N f o]) =
      some (c.holds env (held (signed N f) f.fld r)) := by
  have hv := value_held (N := N) hW f hf r hin
  exact single_accepts (declare_asks f o c ho) hv.1 hv.2 hc hlt

/-- C89: what `with_less_than<V>` admits instead: the numbers less than or equal to `V`. -/
theorem C89_less_than_admits (hW : Narrow W) (f : MField) (v : Int) (hv : (ty N f).InRange v)
    (hf : f.fld.Legal) (r : List (BitVec W)) (hin : f.fld.Within (r.length * W)) :
    accepts N env W (.raw r) (plainMatcher N [declare N f (.lessThan v)]) =
      some (decide (held (signed N f) f.fld r ≤ v)) :=
  C89_exact_partial hW f (.lessThanOrEqualTo v) (.le v) rfl hv trivial hf r hin

/-- A byte field without a condition, and its declaration is legal for one byte of storage. -/
def exByte (N : Numbering) : MField := field N 0 u8 [.located [⟨7, 0⟩]]

theorem exByte_ok (N : Numbering) : (exByte N).fld.Legal ∧ (exByte N).fld.Within (1 * 8) ∧
    ty N (exByte N) = u8 ∧ signed N (exByte N) = false := by
  refine ⟨by simp [exByte, field, declare, newField, u8, Fld.Legal, At.valid, At.size], ?_,
    typed_u8 (by simp [exByte, field, declare, newField, u8]) rfl,
    by simp [exByte, field, declare, newField, u8]⟩
  show (Fld.mk [⟨7, 0⟩] 8).Within 8
  unfold Fld.Within; decide

example : (Opt.in [1, 200]).asks = some (.oneOf [1, 200]) ∧ (Cond.oneOf [1, 200]).Typed (ty N (exByte N)) ∧
    accepts N env 8 (.raw [200#8]) (plainMatcher N [declare N (exByte N) (.in [1, 200])]) = some true ∧
    accepts N env 8 (.raw [7#8]) (plainMatcher N [declare N (exByte N) (.greaterThanOrEqualTo 8)]) =
      some false := by
  have h := exByte_ok N
  have t1 : (Cond.oneOf [1, 200]).Typed (ty N (exByte N)) := by
    rw [h.2.2.1]; show ∀ v ∈ [1, 200], IntTy.InRange _ _; decide
  have t2 : (Cond.ge 8).Typed (ty N (exByte N)) := by
    rw [h.2.2.1]; show IntTy.InRange _ _; decide
  refine ⟨rfl, t1, ?_, ?_⟩
  · rw [C89_exact_partial (.inl rfl) (exByte N) (.in [1, 200]) _ rfl t1 trivial h.1 [200#8] h.2.1,
      h.2.2.2]
    show some (Cond.holds env (held false ⟨[⟨7, 0⟩], 8⟩ [200#8]) (.oneOf [1, 200])) = some true
    simp only [Cond.holds]; decide
  · rw [C89_exact_partial (.inl rfl) (exByte N) (.greaterThanOrEqualTo 8) _ rfl t2 trivial h.1 [7#8]
      h.2.1, h.2.2.2]
    show some (Cond.holds env (held false ⟨[⟨7, 0⟩], 8⟩ [7#8]) (.ge 8)) = some false
    simp only [Cond.holds]; decide

/-- C89 violated: `with_less_than<5>` admits a message whose field holds 5. -/
theorem C89_violated (N : Numbering) (env : Env) :
    (Opt.lessThan 5).asks = some (.lt 5) ∧ (Cond.lt 5).holds env (held false (exByte N).fld [5#8]) = false ∧
    accepts N env 8 (.raw [5#8]) (plainMatcher N [declare N (exByte N) (.lessThan 5)]) = some true := by
  have h := exByte_ok N
  refine ⟨rfl, ?_, ?_⟩
  · show Cond.holds env (held false ⟨[⟨7, 0⟩], 8⟩ [5#8]) (.lt 5) = false
    simp only [Cond.holds]; decide
  · rw [C89_less_than_admits (.inl rfl) (exByte N) 5 (by rw [h.2.2.1]; decide) h.1 [5#8]
      h.2.1, h.2.2.2]
    show some (decide (held false ⟨[⟨7, 0⟩], 8⟩ [5#8] ≤ 5)) = some true
    decide

end Verif.Receive
