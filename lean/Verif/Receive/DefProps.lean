import Verif.Receive.Props
/-!
# C90–C92: conditions in definitions made from other definitions, and in messages built from them
-/
namespace Verif.Receive
open Verif.Match Verif.Message Verif.Bits

variable {N : Numbering} {env : Env} {W : Nat}

/-! ## C90 -/

/-- C90 (partial): a message object of a packed definition is accepted exactly when every field of
every part, at its place in the pack, satisfies the condition of its declaration.
Missing: raw storage, `C90_violated_pack_raw`. -/
theorem C90_pack_object_partial (hW : Narrow W) {A : Nat} (ms : List (List MField))
    (out : List MField) (h : pack A ms = some out) (cond : MField → Cond)
    (hc : ∀ m ∈ ms, ∀ f ∈ m, Asks N keepsName f (cond f) ∧ (cond f).NotLt)
    (r : List (BitVec W)) (hl : ∀ g ∈ out, g.fld.Legal ∧ g.fld.Within (r.length * W)) :
    accepts N env W (.msg out r) (plainMatcher N out) = some true ↔
      ∀ (i : Nat) (m : List MField) (f : MField), ms[i]? = some m → f ∈ m →
        (cond f).holds env (held (signed N f) (f.shiftedBy (offset A ms i * A)).fld r) = true := by
  have hmem := C20_pack_fields ms out h
  rw [object_iff hW (message_nodup h) (by
    intro g hg
    obtain ⟨i, m, f, hm, hf, rfl⟩ := (hmem g).1 hg
    have := hc m (List.mem_of_getElem? hm) f hf
    exact ⟨cond f, asks_shifted this.1 _, this.2⟩) hl]
  constructor
  · intro ha i m f hm hf
    have := hc m (List.mem_of_getElem? hm) f hf
    exact ha _ ((hmem _).2 ⟨i, m, f, hm, hf, rfl⟩) (cond f) (asks_shifted this.1 _) this.2
  · intro ha g hg c hca hlt
    obtain ⟨i, m, f, hm, hf, rfl⟩ := (hmem g).1 hg
    have hf' := hc m (List.mem_of_getElem? hm) f hf
    have h1 := view_cond (env := env) hW (message_nodup h) hg (asks_shifted hf'.1 _) (hl _ hg).1
      (hl _ hg).2
    have h2 := view_cond (env := env) hW (message_nodup h) hg hca (hl _ hg).1 (hl _ hg).2
    rw [← h2.2.2 hlt, h1.2.2 hf'.2]
    exact ha i m f hm hf

/-- C90 (partial): a message object of a relaxed definition is accepted exactly when every field, where
it was placed, satisfies the condition of its declaration.
Missing: raw storage, `C90_violated_relaxed_raw`. -/
theorem C90_relaxed_object_partial (hW : Narrow W) (fs out : List MField) (h : relaxed fs = some out)
    (hlf : ∀ f ∈ fs, f.fld.Legal) (cond : MField → Cond)
    (hc : ∀ f ∈ fs, Asks N keepsName f (cond f) ∧ (cond f).NotLt)
    (r : List (BitVec W)) (hl : ∀ g ∈ out, g.fld.Legal ∧ g.fld.Within (r.length * W)) :
    accepts N env W (.msg out r) (plainMatcher N out) = some true ↔
      ∀ f ∈ fs, ∃ g ∈ out, g.name = f.name ∧
        (cond f).holds env (held (signed N f) g.fld r) = true := by
  obtain ⟨k1, k2, _, k4, k5⟩ := C21_relaxed fs out h hlf
  have hfrom : ∀ f ∈ fs, ∃ g ∈ out, g.name = f.name ∧ g.fld.EW = f.fld.EW ∧ g.dflt = f.dflt ∧
      g.rest = f.rest := by
    intro f hf
    cases hloc : f.located with
    | true => exact ⟨f, k1 f hf hloc, rfl, rfl, rfl, rfl⟩
    | false =>
      obtain ⟨k, hk, _⟩ := k2 f hf hloc
      exact ⟨_, hk, rfl, rfl, rfl, rfl⟩
  have hs : ∀ {f g : MField}, g.rest = f.rest → signed N g = signed N f := by
    intro f g hr; simp only [signed, hr]
  rw [object_iff hW k4 (by
    intro g hg
    obtain ⟨f, hf, e1, e2, e3, e4⟩ := k5 g hg
    exact ⟨cond f, asks_moved (hc f hf).1 e1 e2 e3 e4, (hc f hf).2⟩) hl]
  constructor
  · intro ha f hf
    obtain ⟨g, hg, e1, e2, e3, e4⟩ := hfrom f hf
    refine ⟨g, hg, e1, ?_⟩
    rw [← hs e4]
    exact ha g hg (cond f) (asks_moved (hc f hf).1 e1 e2 e3 e4) (hc f hf).2
  · intro ha g hg c hca hlt
    obtain ⟨f, hf, e1, e2, e3, e4⟩ := k5 g hg
    obtain ⟨g', hg', en, hh⟩ := ha f hf
    have : g' = g := name_inj k4 hg' hg (en.trans e1.symm)
    subst this
    have h1 := view_cond (env := env) hW k4 hg (asks_moved (hc f hf).1 e1 e2 e3 e4) (hl _ hg).1
      (hl _ hg).2
    have h2 := view_cond (env := env) hW k4 hg hca (hl _ hg).1 (hl _ hg).2
    rw [← h2.2.2 hlt, h1.2.2 (hc f hf).2, hs e4]
    exact hh

/-- C90 (partial): overlaying moves nothing, so that raw storage is accepted exactly when every field
of every part satisfies the condition of its declaration. Missing: packs and relaxed messages. -/
theorem C90_overlay_raw_partial (hW : Narrow W) (ms : List (List MField)) (out : List MField)
    (h : overlay ms = some out) (cond : MField → Cond)
    (hc : ∀ m ∈ ms, ∀ f ∈ m, Asks N staysPut f (cond f) ∧ (cond f).NotLt)
    (r : List (BitVec W)) (hl : ∀ m ∈ ms, ∀ f ∈ m, f.fld.Legal ∧ f.fld.Within (r.length * W)) :
    accepts N env W (.raw r) (plainMatcher N out) = some true ↔
      ∀ m ∈ ms, ∀ f ∈ m, (cond f).holds env (held (signed N f) f.fld r) = true := by
  have hmem : ∀ f, f ∈ out ↔ ∃ m ∈ ms, f ∈ m := fun f => by
    rw [message_mem h, List.mem_flatten]
  rw [C88_raw_partial hW out cond (fun f hf => by
      obtain ⟨m, hm, hf⟩ := (hmem f).1 hf; exact hc m hm f hf)
    (fun f hf => by obtain ⟨m, hm, hf⟩ := (hmem f).1 hf; exact (hl m hm f hf).1) r
    (fun f hf => by obtain ⟨m, hm, hf⟩ := (hmem f).1 hf; exact (hl m hm f hf).2)]
  simp only [Option.some.injEq, List.all_eq_true, hmem]
  constructor
  · intro hh m hm f hf; exact hh f ⟨m, hm, hf⟩
  · rintro hh f ⟨m, hm, hf⟩; exact hh m hm f hf

/-- `field<"1", u8>::located<7..0>::with_required<5>`. -/
def exReq (N : Numbering) : MField := field N 1 u8 ([.located [⟨7, 0⟩]] ++ .required 5 :: [])

theorem exReq_asks (N : Numbering) (later : Opt → Bool) : Asks N later (exReq N) (.eq 5) := by
  refine .inr ⟨1, u8, [.located [⟨7, 0⟩]], .required 5, [], rfl, rfl, ?_, by simp⟩
  rw [typed_u8 (by simp [field, declare, newField, u8]) rfl]
  show IntTy.InRange _ _; decide

theorem exByte_asks (N : Numbering) (later : Opt → Bool) : Asks N later (exByte N) .any :=
  .inl ⟨0, u8, [.located [⟨7, 0⟩]], rfl, by simp [Opt.asks], rfl⟩

theorem exPack (N : Numbering) :
    pack 8 [[exByte N], [exReq N]] = some [exByte N, (exReq N).shiftedBy 8] := by
  have h0 : shiftedMsgs 8 [[exByte N], [exReq N]] =
      [[exByte N], [(exReq N).shiftedBy 8], []] := rfl
  rw [pack, h0]; rfl

theorem exPack_legal (N : Numbering) : ∀ g ∈ [exByte N, (exReq N).shiftedBy 8],
    g.fld.Legal ∧ g.fld.Within (2 * 8) := by
  intro g hg
  simp only [List.mem_cons, List.not_mem_nil, or_false] at hg
  rcases hg with rfl | rfl
  · show Fld.Legal ⟨[⟨7, 0⟩], 8⟩ ∧ Fld.Within ⟨[⟨7, 0⟩], 8⟩ 16
    exact ⟨by simp [Fld.Legal, At.valid, At.size], by unfold Fld.Within; decide⟩
  · show Fld.Legal ⟨[⟨15, 8⟩], 8⟩ ∧ Fld.Within ⟨[⟨15, 8⟩], 8⟩ 16
    exact ⟨by simp [Fld.Legal, At.valid, At.size], by unfold Fld.Within; decide⟩

/-- The conditions of the two fields. -/
def exPackCond (f : MField) : Cond := if f.name = 0 then .any else .eq 5

/-- The hypotheses of `C90_pack_object_partial` for a pack of two messages, and its answers. -/
example : (∀ m ∈ [[exByte N], [exReq N]], ∀ f ∈ m,
      Asks N keepsName f (exPackCond f) ∧ (exPackCond f).NotLt) ∧
    accepts N env 8 (.msg [exByte N, (exReq N).shiftedBy 8] [0#8, 5#8])
      (plainMatcher N [exByte N, (exReq N).shiftedBy 8]) = some true ∧
    accepts N env 8 (.msg [exByte N, (exReq N).shiftedBy 8] [5#8, 0#8])
      (plainMatcher N [exByte N, (exReq N).shiftedBy 8]) ≠ some true := by
  have ha : ∀ m ∈ [[exByte N], [exReq N]], ∀ f ∈ m,
      Asks N keepsName f (exPackCond f) ∧ (exPackCond f).NotLt := by
    intro m hm f hf
    simp only [List.mem_cons, List.not_mem_nil, or_false] at hm
    rcases hm with rfl | rfl <;> rw [List.mem_singleton] at hf <;> subst hf
    · exact ⟨exByte_asks N _, trivial⟩
    · exact ⟨exReq_asks N _, trivial⟩
  refine ⟨ha, ?_, ?_⟩
  · rw [C90_pack_object_partial (.inl rfl) _ _ (exPack N) exPackCond ha [0#8, 5#8] (exPack_legal N)]
    intro i m f hm hf
    rcases i with _ | _ | i <;> simp only [List.getElem?_cons_zero, List.getElem?_cons_succ,
      List.getElem?_nil, Option.some.injEq, reduceCtorEq] at hm <;> subst hm <;>
      rw [List.mem_singleton] at hf <;> subst hf
    · rfl
    · have : signed N (exReq N) = false := by
        simp [exReq, field, declare, newField, setMatcher, signed, N.rest_ok, u8]
      rw [this]
      show Cond.holds env (held false ⟨[⟨15, 8⟩], 8⟩ [0#8, 5#8]) (.eq 5) = true
      simp only [Cond.holds]; decide
  · rw [Ne, C90_pack_object_partial (.inl rfl) _ _ (exPack N) exPackCond ha [5#8, 0#8]
      (exPack_legal N)]
    intro h
    have h := h 1 [exReq N] (exReq N) rfl (by simp)
    have hs : signed N (exReq N) = false := by
      simp [exReq, field, declare, newField, setMatcher, signed, N.rest_ok, u8]
    rw [hs] at h
    have h : Cond.holds env (held false ⟨[⟨15, 8⟩], 8⟩ [5#8, 0#8]) (.eq 5) = true := h
    simp only [Cond.holds] at h
    exact absurd h (by decide)

/-- C90 violated: on raw storage of a pack, the condition is tested at the place the field had before
packing. Storage whose field has the required value is refused, and storage whose field does not have it
is accepted. -/
theorem C90_violated_pack_raw (N : Numbering) (env : Env) :
    pack 8 [[exByte N], [exReq N]] = some [exByte N, (exReq N).shiftedBy 8] ∧
    held false ((exReq N).shiftedBy 8).fld [0#8, 5#8] = 5 ∧
    accepts N env 8 (.raw [0#8, 5#8]) (plainMatcher N [exByte N, (exReq N).shiftedBy 8]) =
      some false ∧
    held false ((exReq N).shiftedBy 8).fld [5#8, 0#8] = 0 ∧
    accepts N env 8 (.raw [5#8, 0#8]) (plainMatcher N [exByte N, (exReq N).shiftedBy 8]) =
      some true := by
  have hm : matcher N ((exReq N).shiftedBy 8) =
      condMatcher N (field N 1 u8 [.located [⟨7, 0⟩]]) (.eq 5) := by
    simp [exReq, field, declare, setMatcher, condMatcher, MField.shiftedBy, matcher, N.rest_ok]
  have ht : ty N (field N 1 u8 [.located [⟨7, 0⟩]]) = u8 :=
    typed_u8 (by simp [field, declare, newField, u8]) rfl
  have hs : signed N (field N 1 u8 [.located [⟨7, 0⟩]]) = false := by
    simp [field, declare, newField, u8]
  have key : ∀ (r : List (BitVec 8)) (x : Int), u8.InRange x →
      (Fld.extract 8 ⟨[⟨7, 0⟩], 8⟩ r).map (toInt false) = some x →
      accepts N env 8 (.raw r) (plainMatcher N [exByte N, (exReq N).shiftedBy 8]) =
        some (decide (x = 5)) := by
    intro r x hx hv
    have hval : extractField N 8 (.raw r) (field N 1 u8 [.located [⟨7, 0⟩]]) = some x := by
      rw [extractField, value, hs]; exact hv
    have hc := cond_ok (env := env) hval (by rw [ht]; exact hx) (.eq 5) (by
      rw [ht]; show IntTy.InRange _ _; decide)
    refine (plain_accepts _ (fun f => f.name == 0 || decide (x = 5)) ?_).trans ?_
    · intro f hf
      simp only [List.mem_cons, List.not_mem_nil, or_false] at hf
      rcases hf with rfl | rfl
      · have : matcher N (exByte N) = .always := by simp [exByte, field, declare, newField]
        rw [this]; exact ⟨by simp, trivial, rfl⟩
      · rw [hm]; exact ⟨hc.1, hc.2.1, (hc.2.2 trivial).trans rfl⟩
    · show some (_ && (_ && true)) = _
      simp only [Bool.and_true]
      rfl
  refine ⟨exPack N, ?_, ?_, ?_, ?_⟩
  · show held false ⟨[⟨15, 8⟩], 8⟩ _ = _; decide
  · exact key _ 0 (by decide) (by decide)
  · show held false ⟨[⟨15, 8⟩], 8⟩ _ = _; decide
  · exact key _ 5 (by decide) (by decide)

/-- `field<"0", u8>::with_required<5>`, without a location. -/
def exAuto (N : Numbering) : MField := field N 0 u8 ([] ++ .required 5 :: [])

/-- C90 violated: a relaxed message with a required field that has no location of its own accepts no raw
storage at all, not even that of a message built from the definition. -/
theorem C90_violated_relaxed_raw (N : Numbering) (env : Env) :
    relaxed [exAuto N] = some [(exAuto N).defaultLocated] ∧
    construct 8 1 [(exAuto N).defaultLocated] [] = some [5#8] ∧
    ∀ r : List (BitVec 8),
      accepts N env 8 (.raw r) (plainMatcher N [(exAuto N).defaultLocated]) = some false := by
  refine ⟨rfl, ?_, fun r => ?_⟩
  · have h : ∀ e : Nat, construct 8 1 [⟨0, ⟨[⟨7, 0⟩], 8⟩, .const 5, e⟩] [] = some [5#8] := by
      intro e
      simp only [construct, setDefaults, setDefault, find, Dflt.val?, setValues, List.map_cons,
        List.map_nil, List.foldlM_cons, List.foldlM_nil, List.find?_cons_of_pos, beq_self_eq_true,
        Option.bind_eq_bind, Option.bind_some]
      decide
    exact h _
  · refine single_accepts (f0 := newField N 0 u8) (c := .eq 5) (x := 0) ?_ (value_unlocated _ rfl r)
      (inRange_zero _) ?_ trivial
    · simp [exAuto, field, declare, setMatcher, condMatcher, MField.defaultLocated, matcher, N.rest_ok]
    · rw [typed_u8 (by simp [newField, u8]) rfl]
      show IntTy.InRange _ _; decide

theorem exAuto_asks (N : Numbering) (later : Opt → Bool) : Asks N later (exAuto N) (.eq 5) := by
  refine .inr ⟨0, u8, [], .required 5, [], rfl, rfl, ?_, by simp⟩
  rw [typed_u8 (by simp [field, newField, u8]) rfl]
  show IntTy.InRange _ _; decide

/-- The hypotheses of `C90_relaxed_object_partial`: the message object is accepted. -/
example : relaxed [exAuto N] = some [(exAuto N).defaultLocated] ∧ (exAuto N).fld.Legal ∧
    accepts N env 8 (.msg [(exAuto N).defaultLocated] [5#8])
      (plainMatcher N [(exAuto N).defaultLocated]) = some true := by
  have hl : (exAuto N).fld.Legal := by
    show Fld.Legal ⟨[], 8⟩; simp [Fld.Legal]
  refine ⟨rfl, hl, ?_⟩
  rw [C90_relaxed_object_partial (.inl rfl) [exAuto N] [(exAuto N).defaultLocated] rfl
    (by simpa using hl) (fun _ => .eq 5) (by simpa using ⟨exAuto_asks N _, trivial⟩) [5#8] (by
      intro g hg
      rw [List.mem_singleton] at hg
      subst hg
      show Fld.Legal ⟨[⟨7, 0⟩], 8⟩ ∧ Fld.Within ⟨[⟨7, 0⟩], 8⟩ 8
      exact ⟨by simp [Fld.Legal, At.valid, At.size], by unfold Fld.Within; decide⟩)]
  intro f hf
  rw [List.mem_singleton] at hf
  subst hf
  refine ⟨(exAuto N).defaultLocated, by simp, rfl, ?_⟩
  have : signed N (exAuto N) = false := by
    simp [exAuto, field, declare, newField, setMatcher, signed, N.rest_ok, u8]
  rw [this]
  show Cond.holds env (held false ⟨[⟨7, 0⟩], 8⟩ [5#8]) (.eq 5) = true
  simp only [Cond.holds]; decide

/-- The hypotheses of `C90_overlay_raw_partial`. -/
example : overlay [exDecl N, []] = some (exDecl N) ∧
    (∀ m ∈ [exDecl N, []], ∀ f ∈ m, Asks N staysPut f (exCond f)) := by
  refine ⟨rfl, ?_⟩
  intro m hm f hf
  simp only [List.mem_cons, List.not_mem_nil, or_false] at hm
  rcases hm with rfl | rfl
  · simp only [exDecl, List.mem_cons, List.not_mem_nil, or_false] at hf
    rcases hf with rfl | rfl
    · refine .inr ⟨0, u8, [.located [⟨7, 0⟩]], .greaterThan 5, [], rfl, rfl, ?_, by simp⟩
      rw [typed_u8 (by simp [field, declare, newField, u8]) rfl]
      show IntTy.InRange _ _; decide
    · refine .inr ⟨1, u8, [.located [⟨15, 8⟩]], .in [1, 3], [.default 3], rfl, rfl, ?_, by
        simp [staysPut, Opt.isDefault]⟩
      rw [typed_u8 (by simp [field, declare, newField, u8]) rfl]
      show ∀ v ∈ [1, 3], IntTy.InRange _ _; decide
  · simp at hf

/-! ## C91 -/

theorem rename_mem {fs out : List MField} {old new : Nat} (hn : (fs.map (·.name)).Nodup)
    (h : renameField fs old new = some out) :
    ∃ f ∈ fs, f.name = old ∧ ∀ g, g ∈ out ↔ (g ∈ fs ∧ g.name ≠ old) ∨ g = { f with name := new } := by
  simp only [renameField] at h
  split at h
  · cases h
  next hany =>
  rw [filter_name_of_nodup hn old] at h
  cases hf : find fs old with
  | none => rw [hf] at h; cases h
  | some f =>
    rw [hf] at h
    simp only [Option.toList] at h
    refine ⟨f, List.mem_of_find?_eq_some hf, by simpa using List.find?_some hf, fun g => ?_⟩
    rw [message_mem h]
    simp

/-- C91 (partial): renaming a field does not change which raw storage is accepted.
Missing: message objects, `C91_violated_object`. -/
theorem C91_raw_partial (hW : Narrow W) (fs out : List MField) (old new : Nat)
    (hn : (fs.map (·.name)).Nodup) (h : renameField fs old new = some out) (cond : MField → Cond)
    (hc : ∀ f ∈ fs, Asks N staysPut f (cond f) ∧ (cond f).NotLt) (r : List (BitVec W))
    (hl : ∀ f ∈ fs, f.fld.Legal ∧ f.fld.Within (r.length * W)) :
    accepts N env W (.raw r) (plainMatcher N out) = some true ↔
      ∀ f ∈ fs, (cond f).holds env (held (signed N f) f.fld r) = true := by
  obtain ⟨f, hf, rfl, hmem⟩ := rename_mem hn h
  have hren : Asks N staysPut { f with name := new } (cond f) :=
    asks_snoc (hc f hf).1 (o := .newName new) (by simp [staysPut, Opt.renames]) rfl
  have hl' : ∀ g ∈ out, g.fld.Legal ∧ g.fld.Within (r.length * W) := by
    intro g hg
    rcases (hmem g).1 hg with hg | rfl
    · exact hl g hg.1
    · exact hl f hf
  rw [raw_iff hW (by
    intro g hg
    rcases (hmem g).1 hg with hg | rfl
    · exact ⟨cond g, hc g hg.1⟩
    · exact ⟨cond f, hren, (hc f hf).2⟩) hl']
  constructor
  · intro ha g hg
    by_cases hgn : g.name = f.name
    · have : g = f := name_inj hn hg hf hgn
      subst this
      exact ha _ ((hmem _).2 (.inr rfl)) (cond g) hren (hc g hf).2
    · exact ha g ((hmem g).2 (.inl ⟨hg, hgn⟩)) (cond g) (hc g hg).1 (hc g hg).2
  · intro ha g hg c hca hlt
    have h2 := raw_cond (env := env) hW hca (hl' g hg).1 (hl' g hg).2
    rw [← h2.2.2 hlt]
    rcases (hmem g).1 hg with hg' | rfl
    · rw [(raw_cond (env := env) hW (hc g hg'.1).1 (hl' g hg).1 (hl' g hg).2).2.2 (hc g hg'.1).2]
      exact ha g hg'.1
    · rw [(raw_cond (env := env) hW hren (hl' _ hg).1 (hl' _ hg).2).2.2 (hc f hf).2]
      exact ha f hf

theorem asks_any_free {later later' : Opt → Bool} {f : MField} (h : Asks N later f .any) (new : Nat) :
    Asks N later' { f with name := new } .any := by
  rcases h with ⟨name, t, opts, rfl, h1, _⟩ | ⟨_, _, _, o, _, _, h1, _⟩
  · refine .inl ⟨name, t, opts ++ [.newName new], by simp [field, declare], fun p hp => ?_, rfl⟩
    rcases List.mem_append.1 hp with hp | hp
    · exact h1 p hp
    · rw [List.mem_singleton] at hp; rw [hp]; rfl
  · cases o <;> simp [Opt.asks] at h1

/-- C91 (partial): renaming a field that has no condition does not change which message objects are
accepted. Missing: fields with a condition, `C91_violated_object`. -/
theorem C91_object_partial (hW : Narrow W) (fs out : List MField) (old new : Nat)
    (hn : (fs.map (·.name)).Nodup) (h : renameField fs old new = some out) (cond : MField → Cond)
    (hc : ∀ f ∈ fs, Asks N keepsName f (cond f) ∧ (cond f).NotLt)
    (ho : ∀ f ∈ fs, f.name = old → cond f = .any) (r : List (BitVec W))
    (hl : ∀ f ∈ fs, f.fld.Legal ∧ f.fld.Within (r.length * W)) :
    accepts N env W (.msg out r) (plainMatcher N out) = some true ↔
      ∀ f ∈ fs, (cond f).holds env (held (signed N f) f.fld r) = true := by
  have hnd : (out.map (·.name)).Nodup := (C61_rename (W := W) fs out old new hn h r).2.2.2.1
  obtain ⟨f, hf, rfl, hmem⟩ := rename_mem hn h
  have hany := ho f hf rfl
  have hren : Asks N keepsName { f with name := new } .any :=
    asks_any_free (hany ▸ (hc f hf).1) new
  have hl' : ∀ g ∈ out, g.fld.Legal ∧ g.fld.Within (r.length * W) := by
    intro g hg
    rcases (hmem g).1 hg with hg | rfl
    · exact hl g hg.1
    · exact hl f hf
  rw [object_iff hW hnd (by
    intro g hg
    rcases (hmem g).1 hg with hg | rfl
    · exact ⟨cond g, hc g hg.1⟩
    · exact ⟨.any, hren, trivial⟩) hl']
  constructor
  · intro ha g hg
    by_cases hgn : g.name = f.name
    · have : g = f := name_inj hn hg hf hgn
      subst this
      rw [hany]; rfl
    · exact ha g ((hmem g).2 (.inl ⟨hg, hgn⟩)) (cond g) (hc g hg).1 (hc g hg).2
  · intro ha g hg c hca hlt
    have h2 := view_cond (env := env) hW hnd hg hca (hl' g hg).1 (hl' g hg).2
    rw [← h2.2.2 hlt]
    rcases (hmem g).1 hg with hg' | rfl
    · rw [(view_cond (env := env) hW hnd hg (hc g hg'.1).1 (hl' g hg).1 (hl' g hg).2).2.2
        (hc g hg'.1).2]
      exact ha g hg'.1
    · rw [(view_cond (env := env) hW hnd hg hren (hl' _ hg).1 (hl' _ hg).2).2.2 trivial]; rfl

/-- `field<"0", u8>::located<7..0>::with_equal_to<5>`. -/
def exFive (N : Numbering) : MField := field N 0 u8 ([.located [⟨7, 0⟩]] ++ .equalTo 5 :: [])

/-- C91 violated: with a condition on the renamed field, a callback for the renamed definition does
not compile for message objects. -/
theorem C91_violated_object (N : Numbering) :
    renameField [exFive N] 0 1 = some [exRenamed N] ∧
    ∀ r : List (BitVec 8), compiles N (.msg [exFive N] r) (plainMatcher N [exFive N]) = true ∧
      compiles N (.msg [exRenamed N] r) (plainMatcher N [exRenamed N]) = false := by
  refine ⟨rfl, fun r => ⟨?_, (C88_violated_renamed_later N ⟨fun _ _ => true, fun _ => true⟩).2.1 r⟩⟩
  have hm : matcher N (exFive N) = condMatcher N (field N 0 u8 [.located [⟨7, 0⟩]]) (.eq 5) := by
    simp [exFive, field, declare, setMatcher, condMatcher]
  have : plainMatcher N [exFive N] = .leaf (.rel .eq (toField N (field N 0 u8
      [.located [⟨7, 0⟩]])) 5) := by
    simp [plainMatcher, Handler.constructPlain, hm, condMatcher, Match.all, simplify, simplifyAnd,
      implies, impliesL]
  rw [this]
  simp [compiles, fieldsOf, toField, N.field_ok, exFive, field, declare, newField, setMatcher, find]

example : renameField [exByte N, exReq N] 1 7 = some [exByte N, { exReq N with name := 7 }] ∧
    renameField [exByte N, exReq N] 0 7 = some [exReq N, { exByte N with name := 7 }] ∧
    Asks N staysPut (exReq N) (.eq 5) ∧ Asks N keepsName (exByte N) .any :=
  ⟨rfl, rfl, exReq_asks N _, exByte_asks N _⟩

end Verif.Receive
