import Verif.Receive.Spec
import Verif.Handler.MixProps
import Verif.Message.Props
/-!
Helper lemmas for matching on concrete data.
-/
namespace Verif.Receive
open Verif.Match Verif.Message Verif.Bits

variable {N : Numbering} {env : Env} {W : Nat}

/-! ### Field types -/

@[simp] theorem signed_mk (n : Nat) (l : Fld) (d : Dflt) (s : Bool) (m : M RLeaf) :
    signed N ⟨n, l, d, N.rest s m⟩ = s := by simp [signed, N.rest_ok]

@[simp] theorem matcher_mk (n : Nat) (l : Fld) (d : Dflt) (s : Bool) (m : M RLeaf) :
    matcher N ⟨n, l, d, N.rest s m⟩ = m := by simp [matcher, N.rest_ok]

theorem field_inj {f g : MField} (h : N.field f = N.field g) : f = g := by
  have := N.field_ok f
  rw [h, N.field_ok] at this
  exact (Option.some.inj this).symm

theorem toField_inj {f g : MField} : toField N f = toField N g ↔ f = g := by
  constructor
  · intro h; exact field_inj (congrArg Field.name h)
  · rintro rfl; rfl

/-! ### Values -/

theorem inRange_toInt (s : Bool) {w : Nat} (v : BitVec w) :
    IntTy.InRange ⟨w, s⟩ (toInt s v) := by
  simp only [IntTy.InRange, IntTy.lo, IntTy.hi, toInt]
  cases s with
  | false =>
    simp only [Bool.false_eq_true, if_false]
    have := v.isLt
    constructor
    · omega
    · have h2 : ((v.toNat : Nat) : Int) < ((2 ^ w : Nat) : Int) := by exact_mod_cast this
      simp only [Nat.cast_pow, Nat.cast_ofNat] at h2
      omega
  | true =>
    simp only [if_true]
    have h1 := BitVec.le_toInt v
    have h2 := BitVec.toInt_lt (x := v)
    constructor
    · simpa using h1
    · omega

theorem toInt_held (s : Bool) (f : Fld) (r : List (BitVec W)) (v : BitVec f.EW)
    (h : ∀ i, v.getLsbD i = f.specBit r i) : toInt s v = held s f r := by
  have hn : v.toNat = Nat.ofBits (fun i : Fin f.EW => f.specBit r i) := by
    apply Nat.eq_of_testBit_eq
    intro i
    rw [Nat.testBit_ofBits]
    by_cases hi : i < f.EW
    · simp only [hi, dite_true, ← h]; exact (BitVec.getLsbD_eq_getElem hi ▸ rfl)
    · simp only [hi, dite_false]
      exact BitVec.getLsbD_of_ge v i (by omega)
  simp only [held, toInt, ← hn]
  cases s with
  | false => simp
  | true =>
    simp only [if_true, Bool.true_and, BitVec.toInt]
    by_cases h2 : 2 * v.toNat < 2 ^ f.EW
    · simp [h2, Nat.not_le.2 h2]
    · simp [h2, Nat.not_lt.1 h2]

theorem value_held (hW : Narrow W) (f : MField) (hf : f.fld.Legal) (r : List (BitVec W))
    (hin : f.fld.Within (r.length * W)) :
    value N W f r = some (held (signed N f) f.fld r) ∧
      (ty N f).InRange (held (signed N f) f.fld r) := by
  obtain ⟨v, hv, hb⟩ := C11_reads_declared_bits hW f.fld hf r hin
  have he := toInt_held (signed N f) f.fld r v hb
  refine ⟨by simp [value, hv, he], ?_⟩
  rw [← he]
  exact inRange_toInt _ v

/-! ### Evaluation on data agrees with evaluation on the message seen -/

/-- The term can be evaluated on the data. -/
def Readable (N : Numbering) (W : Nat) (d : Data W) : RLeaf → Prop
  | .rel _ g _ => ∃ f x, g = toField N f ∧ extractField N W d f = some x ∧ (ty N f).InRange x
  | .pred i => (∃ f p x, i = N.pred (.field f p) ∧ extractField N W d f = some x) ∨
      ∃ k, i = N.pred (.cond k)

theorem seen_val {d : Data W} {f : MField} {x : Int} (h : extractField N W d f = some x)
    (hx : (ty N f).InRange x) : (seen N env W d).val (toField N f) = x := by
  have : ∃ y, some x = some y ∧ (ty N f).InRange y := ⟨x, rfl, hx⟩
  simp only [seen, toField, N.field_ok, h]
  rw [if_pos ⟨trivial, this⟩]; rfl

theorem inRange_zero (t : IntTy) : t.InRange 0 := by
  simp only [IntTy.InRange, IntTy.lo, IntTy.hi]
  have h1 : (0 : Int) < 2 ^ (t.bits - 1) := by positivity
  have h2 : (0 : Int) < 2 ^ t.bits := by positivity
  split <;> constructor <;> omega

/-- The message seen is well typed. -/
theorem seen_wt (d : Data W) : (seen N env W d).WT := by
  intro g
  simp only [seen]
  split
  · split
    · next h =>
      obtain ⟨_, x, hx, hr⟩ := h
      rw [hx]; exact hr
    · exact inRange_zero _
  · exact inRange_zero _

theorem evalLeaf_seen {d : Data W} {a : RLeaf} (h : Readable N W d a) :
    evalLeaf N env W d a = some (revalLeaf a (seen N env W d)) := by
  cases a with
  | rel op g v =>
    obtain ⟨f, x, rfl, hx, hr⟩ := h
    simp only [evalLeaf, revalLeaf, seen_val hx hr]
    simp [toField, N.field_ok, hx]
  | pred i =>
    rcases h with ⟨f, p, x, rfl, hx⟩ | ⟨k, rfl⟩
    · simp [evalLeaf, revalLeaf, seen, N.pred_ok, hx]
    · simp [evalLeaf, revalLeaf, seen, N.pred_ok]

theorem evalM_seen {d : Data W} (m : M RLeaf) (h : LS (Readable N W d) m) :
    evalM N env W d m = some (eval revalLeaf m (seen N env W d)) := by
  induction m with
  | always => rfl
  | never => rfl
  | leaf a => exact evalLeaf_seen (by simpa using h)
  | not m ih => simp only [evalM, ih (by simpa using h), eval, Option.map_some]
  | and l r ihl ihr =>
    simp only [LS_and] at h
    simp only [evalM, ihl h.1, ihr h.2, eval, Option.bind_some]
    cases eval revalLeaf l (seen N env W d) <;> rfl
  | or l r ihl ihr =>
    simp only [LS_or] at h
    simp only [evalM, ihl h.1, ihr h.2, eval, Option.bind_some]
    cases eval revalLeaf l (seen N env W d) <;> rfl

theorem compiles_readable {d : Data W} (m : M RLeaf) (h : LS (Readable N W d) m) :
    compiles N d m = true := by
  cases d with
  | raw r => rfl
  | msg fs r =>
    have key : ∀ f x, extractField N W (.msg fs r) f = some x → (find fs f.name).isSome = true := by
      intro f x hx
      simp only [extractField] at hx
      cases hf : find fs f.name with
      | none => simp [hf] at hx
      | some g => rfl
    simp only [compiles]
    induction m with
    | always => rfl
    | never => rfl
    | leaf a =>
      simp only [LS_leaf] at h
      cases a with
      | rel op g v =>
        obtain ⟨f, x, rfl, hx, _⟩ := h
        simp [fieldsOf, toField, N.field_ok, key f x hx]
      | pred i =>
        rcases h with ⟨f, p, x, rfl, hx⟩ | ⟨k, rfl⟩
        · simp [fieldsOf, N.pred_ok, key f x hx]
        · simp [fieldsOf, N.pred_ok]
    | not m ih => simpa [fieldsOf] using ih (by simpa using h)
    | and l r ihl ihr =>
      simp only [LS_and] at h
      simp only [fieldsOf, List.all_append, ihl h.1, ihr h.2, Bool.and_self]
    | or l r ihl ihr =>
      simp only [LS_or] at h
      simp only [fieldsOf, List.all_append, ihl h.1, ihr h.2, Bool.and_self]

theorem accepts_seen {d : Data W} (m : M RLeaf) (h : LS (Readable N W d) m) :
    accepts N env W d m = some (eval revalLeaf m (seen N env W d)) := by
  rw [accepts, if_pos (compiles_readable m h), evalM_seen m h]

/-! ### The operators add no terms -/

/-- Truthfulness without events: only the closure under negation is left. -/
theorem closed_truthful {S : RLeaf → Prop} (h : ∀ a b, S a → relOps.neg a = some b → S b) :
    Truthful relOps (fun (_ : RLeaf) (_ : Empty) => true) S where
  neg_mem := h
  neg_eval _ _ e := e.elim
  impl_eval _ _ e := e.elim

theorem readable_neg (d : Data W) (a b : RLeaf) (ha : Readable N W d a)
    (h : relOps.neg a = some b) : Readable N W d b := by
  cases a with
  | pred => simp [relOps] at h
  | rel op g v =>
    simp only [relOps, Option.some.injEq] at h
    subst h; exact ha

theorem closed (d : Data W) :
    Truthful relOps (fun (_ : RLeaf) (_ : Empty) => true) (Readable N W d) :=
  closed_truthful (readable_neg d)

theorem LS_sop {S : RLeaf → Prop} (h : ∀ a b, S a → relOps.neg a = some b → S b) (m : M RLeaf)
    (hm : LS S m) : LS S (sop relOps m) :=
  Handler.sop_pres relOps (LS S) (fun _ _ => LS_or ..) (fun _ _ => LS_and ..)
    (fun a b hn => by
      simp only [LS_not, LS_and] at hn
      exact ⟨LS_negate (closed_truthful h).toNegTruthful hn.1,
        LS_negate (closed_truthful h).toNegTruthful hn.2⟩)
    (fun a b hn => by
      simp only [LS_not, LS_or] at hn
      exact ⟨LS_negate (closed_truthful h).toNegTruthful hn.1,
        LS_negate (closed_truthful h).toNegTruthful hn.2⟩) m hm

theorem LS_all {S : RLeaf → Prop} (h : ∀ a b, S a → relOps.neg a = some b → S b)
    (ms : List (M RLeaf)) (hm : ∀ m ∈ ms, LS S m) : LS S (Match.all relOps ms) :=
  (simplify_ok (closed_truthful h) _ (LS_foldl_and (by simp) hm)).1

theorem LS_opAnd {S : RLeaf → Prop} (h : ∀ a b, S a → relOps.neg a = some b → S b)
    {l r : M RLeaf} (hl : LS S l) (hr : LS S r) : LS S (opAnd relOps l r) :=
  (simplify_ok (closed_truthful h) _ ((LS_and ..).2 ⟨hl, hr⟩)).1

theorem LS_opOr {S : RLeaf → Prop} (h : ∀ a b, S a → relOps.neg a = some b → S b)
    {l r : M RLeaf} (hl : LS S l) (hr : LS S r) : LS S (opOr relOps l r) :=
  (simplify_ok (closed_truthful h) _ ((LS_or ..).2 ⟨hl, hr⟩)).1

theorem LS_opNot {S : RLeaf → Prop} (h : ∀ a b, S a → relOps.neg a = some b → S b)
    {m : M RLeaf} (hm : LS S m) : LS S (opNot relOps m) :=
  (simplify_ok (closed_truthful h) _ (LS_negate (closed_truthful h).toNegTruthful hm)).1

/-! ### The matcher an option makes -/

/-- The matcher made by the option asking for `c` on the field type `f`. -/
def condMatcher (N : Numbering) (f : MField) : Cond → M RLeaf
  | .any => .always
  | .eq v => .leaf (.rel .eq (toField N f) v)
  | .oneOf vs => inMatcher (toField N f) vs
  | .gt v => .leaf (.rel .gt (toField N f) v)
  | .ge v => .leaf (.rel .ge (toField N f) v)
  | .lt v => .leaf (.rel .le (toField N f) v)
  | .le v => .leaf (.rel .le (toField N f) v)
  | .sat p => .leaf (.pred (N.pred (.field f p)))

theorem declare_asks (f : MField) (o : Opt) (c : Cond) (h : o.asks = some c) :
    matcher N (declare N f o) = condMatcher N f c := by
  cases o <;> simp only [Opt.asks, Option.some.injEq, reduceCtorEq] at h <;> subst h <;>
    simp [declare, setMatcher, condMatcher]

theorem declare_asks_same (f : MField) (o : Opt) (c : Cond) (h : o.asks = some c) :
    (declare N f o).fld = f.fld ∧ (declare N f o).name = f.name ∧
      signed N (declare N f o) = signed N f := by
  cases o <;> simp only [Opt.asks, reduceCtorEq] at h <;> simp [declare, setMatcher]

theorem declare_quiet (f : MField) (o : Opt) (h : staysPut o = true ∨ keepsName o = true) :
    matcher N (declare N f o) = matcher N f ∧ signed N (declare N f o) = signed N f ∧
      (declare N f o).fld.EW = f.fld.EW := by
  cases o <;> simp [staysPut, keepsName, Opt.isDefault, Opt.renames, Opt.moves] at h <;>
    exact ⟨rfl, rfl, rfl⟩

theorem declare_staysPut (f : MField) (o : Opt) (h : staysPut o = true) :
    (declare N f o).fld = f.fld := by
  cases o <;> simp [staysPut, Opt.isDefault, Opt.renames] at h <;> rfl

theorem declare_keepsName (f : MField) (o : Opt) (h : keepsName o = true) :
    (declare N f o).name = f.name := by
  cases o <;> simp [keepsName, Opt.isDefault, Opt.moves] at h <;> rfl

theorem fold_quiet (opts : List Opt) (f : MField)
    (h : ∀ o ∈ opts, staysPut o = true ∨ keepsName o = true) :
    matcher N (opts.foldl (declare N) f) = matcher N f ∧
      signed N (opts.foldl (declare N) f) = signed N f ∧
      (opts.foldl (declare N) f).fld.EW = f.fld.EW := by
  induction opts generalizing f with
  | nil => exact ⟨rfl, rfl, rfl⟩
  | cons o os ih =>
    have h1 := declare_quiet (N := N) f o (h o (by simp))
    have h2 := ih (declare N f o) (fun p hp => h p (by simp [hp]))
    simp only [List.foldl_cons]
    exact ⟨h2.1.trans h1.1, h2.2.1.trans h1.2.1, h2.2.2.trans h1.2.2⟩

theorem fold_staysPut (opts : List Opt) (f : MField) (h : ∀ o ∈ opts, staysPut o = true) :
    (opts.foldl (declare N) f).fld = f.fld := by
  induction opts generalizing f with
  | nil => rfl
  | cons o os ih =>
    simp only [List.foldl_cons]
    rw [ih _ (fun p hp => h p (by simp [hp])), declare_staysPut f o (h o (by simp))]

theorem fold_keepsName (opts : List Opt) (f : MField) (h : ∀ o ∈ opts, keepsName o = true) :
    (opts.foldl (declare N) f).name = f.name := by
  induction opts generalizing f with
  | nil => rfl
  | cons o os ih =>
    simp only [List.foldl_cons]
    rw [ih _ (fun p hp => h p (by simp [hp])), declare_keepsName f o (h o (by simp))]

theorem fold_free (opts : List Opt) (f : MField) (hf : matcher N f = .always)
    (h : ∀ o ∈ opts, o.asks = none) : matcher N (opts.foldl (declare N) f) = .always := by
  induction opts generalizing f with
  | nil => exact hf
  | cons o os ih =>
    simp only [List.foldl_cons]
    refine ih _ ?_ (fun p hp => h p (by simp [hp]))
    have := h o (by simp)
    cases o <;> simp only [Opt.asks, reduceCtorEq] at this <;>
      first | exact hf | simp [declare]

theorem field_append (name : Nat) (t : IntTy) (pre : List Opt) (o : Opt) (post : List Opt) :
    field N name t (pre ++ o :: post) =
      post.foldl (declare N) (declare N (field N name t pre) o) := by
  simp [field]

/-- Where the matcher of a field comes from. -/
theorem asks_origin {later : Opt → Bool} {f : MField} {c : Cond} (h : Asks N later f c)
    (hl : ∀ o, later o = true → staysPut o = true ∨ keepsName o = true) :
    (matcher N f = .always ∧ c = .any) ∨
    ∃ f0, matcher N f = condMatcher N f0 c ∧ c.Typed (ty N f0) ∧ signed N f = signed N f0 ∧
      f.fld.EW = f0.fld.EW ∧
      ((∀ o, later o = true → staysPut o = true) → f.fld = f0.fld) ∧
      ((∀ o, later o = true → keepsName o = true) → f.name = f0.name) := by
  rcases h with ⟨name, t, opts, rfl, ho, rfl⟩ | ⟨name, t, pre, o, post, rfl, ho, ht, hp⟩
  · exact .inl ⟨fold_free opts _ (by simp [newField]) ho, rfl⟩
  · refine .inr ⟨field N name t pre, ?_⟩
    have h1 := fold_quiet (N := N) post (declare N (field N name t pre) o) (fun p hp' => hl p (hp p hp'))
    have h2 := declare_asks_same (N := N) (field N name t pre) o c ho
    rw [field_append]
    refine ⟨h1.1.trans (declare_asks _ o c ho), ht, h1.2.1.trans h2.2.2,
      h1.2.2.trans (by rw [h2.1]), fun hs => ?_, fun hk => ?_⟩
    · rw [fold_staysPut _ _ (fun p hp' => hs p (hp p hp')), h2.1]
    · rw [fold_keepsName _ _ (fun p hp' => hk p (hp p hp')), h2.2.1]

/-! ### The condition as evaluated -/

theorem mix_of_pos {m : M RLeaf} (h : PosTree m) : MixTree (fun _ => none) m := by
  induction m with
  | leaf a =>
    obtain ⟨ht, hn⟩ : PosLeaf a := h
    cases a with
    | pred => trivial
    | rel op f v => cases op <;> simp_all [MixTree, MixLeaf, RLeaf.Typed, RLeaf.IsNe]
  | not m =>
    refine LS.imp (S := OrderLeaf) (fun a ha => ?_) h
    cases a with
    | pred => trivial
    | rel op f v => cases op <;> simp_all [OrderLeaf, MixAny, RLeaf.Typed, RLeaf.IsEqNe]
  | and l r ihl ihr => exact ⟨ihl h.1, ihr h.2⟩
  | or l r ihl ihr => exact ⟨ihl h.1, ihr h.2⟩
  | _ => trivial

theorem inMatcher_readable {d : Data W} {f : MField} {x : Int} (h : extractField N W d f = some x)
    (hx : (ty N f).InRange x) (vs : List Int) :
    LS (Readable N W d) (inMatcher (toField N f) vs) := by
  induction vs with
  | nil => simp [inMatcher]
  | cons v vs ih =>
    exact LS_opOr (readable_neg d) ((LS_leaf ..).2 ⟨f, x, rfl, h, hx⟩) ih

theorem cond_ok {d : Data W} {f : MField} {x : Int} (h : extractField N W d f = some x)
    (hx : (ty N f).InRange x) (c : Cond) (hc : c.Typed (ty N f)) :
    LS (Readable N W d) (condMatcher N f c) ∧ PosTree (condMatcher N f c) ∧
      (c.NotLt → eval revalLeaf (condMatcher N f c) (seen N env W d) = c.holds env x) := by
  have hr : ∀ op v, Readable N W d (.rel op (toField N f) v) := fun _ _ => ⟨f, x, rfl, h, hx⟩
  cases c with
  | any => exact ⟨by simp [condMatcher], trivial, fun _ => rfl⟩
  | oneOf vs =>
    refine ⟨inMatcher_readable h hx vs, (inMatcher_ok (toField N f) vs hc).1, fun _ => ?_⟩
    have := (inMatcher_ok (toField N f) vs hc).2 ⟨seen N env W d, seen_wt d⟩
    simp only [Handler.eval_rev, seen_val h hx] at this
    exact this
  | sat p =>
    refine ⟨(LS_leaf ..).2 (.inl ⟨f, p, x, rfl, h⟩), ⟨trivial, fun h => h⟩, fun _ => ?_⟩
    simp [condMatcher, eval, revalLeaf, seen, N.pred_ok, h, Cond.holds]
  | lt v => exact ⟨(LS_leaf ..).2 (hr _ _), ⟨hc, fun h => h⟩, fun h => h.elim⟩
  | _ =>
    refine ⟨(LS_leaf ..).2 (hr _ _), ⟨hc, fun h => h⟩, fun _ => ?_⟩
    simp [condMatcher, eval, revalLeaf, seen_val h hx, RelOp.app, Cond.holds]

/-- Callback without a matcher of its own: if each field's matcher evaluates to `b f`, the callback
accepts exactly when all do. -/
theorem plain_accepts {d : Data W} (fs : List MField) (b : MField → Bool)
    (h : ∀ f ∈ fs, LS (Readable N W d) (matcher N f) ∧ PosTree (matcher N f) ∧
      eval revalLeaf (matcher N f) (seen N env W d) = b f) :
    accepts N env W d (plainMatcher N fs) = some (fs.all b) := by
  have hls : LS (Readable N W d) (plainMatcher N fs) := by
    refine LS_all (readable_neg d) _ ?_
    intro m hm
    obtain ⟨f, hf, rfl⟩ := List.mem_map.1 hm
    exact (h f hf).1
  rw [accepts_seen _ hls]
  have hs := simplify_mix (K := fun _ => none) _ (mix_foldl_and (fs.map (matcher N)) .always trivial (by
    intro m hm
    obtain ⟨f, hf, rfl⟩ := List.mem_map.1 hm
    exact mix_of_pos (h f hf).2.1))
  have := hs.2 ⟨seen N env W d, seen_wt d⟩
  rw [eval_foldl_and, Handler.eval_rev] at this
  simp only [plainMatcher, Handler.constructPlain, Match.all, this, eval, Bool.true_and,
    List.all_map, Option.some.injEq]
  rw [Bool.eq_iff_iff, List.all_eq_true, List.all_eq_true]
  refine forall_congr' fun f => ⟨fun hh hf => ?_, fun hh hf => ?_⟩
  · have := hh hf
    simp only [Function.comp, Handler.eval_rev] at this
    rw [(h f hf).2.2] at this; exact this
  · simp only [Function.comp, Handler.eval_rev]
    rw [(h f hf).2.2]; exact hh hf

theorem value_congr {f g : MField} (h : f.fld = g.fld) (hs : signed N f = signed N g)
    (r : List (BitVec W)) : value N W f r = value N W g r := by
  obtain ⟨n, l, d, e⟩ := f
  obtain ⟨n', l', d', e'⟩ := g
  simp only at h
  subst h
  simp only [value, hs]

/-- What the matcher of a field says about data from which the field it was made for can be read. -/
theorem field_cond {later : Opt → Bool} {f : MField} {c : Cond} (h : Asks N later f c)
    (hl : ∀ o, later o = true → staysPut o = true ∨ keepsName o = true) {d : Data W} {x : Int}
    (hx : (ty N f).InRange x)
    (he : ∀ f0 : MField, ((∀ o, later o = true → staysPut o = true) → f.fld = f0.fld) →
      ((∀ o, later o = true → keepsName o = true) → f.name = f0.name) →
      signed N f = signed N f0 → extractField N W d f0 = some x) :
    LS (Readable N W d) (matcher N f) ∧ PosTree (matcher N f) ∧
      (c.NotLt → eval revalLeaf (matcher N f) (seen N env W d) = c.holds env x) := by
  rcases asks_origin h hl with ⟨h1, rfl⟩ | ⟨f0, h1, h2, h3, h4, h5, h6⟩
  · rw [h1]; exact ⟨by simp, trivial, fun _ => rfl⟩
  · rw [h1]
    refine cond_ok (he f0 h5 h6 h3) ?_ c h2
    simpa only [ty, ← h3, ← h4] using hx

theorem raw_cond (hW : Narrow W) {f : MField} {c : Cond} (h : Asks N staysPut f c)
    (hf : f.fld.Legal) {r : List (BitVec W)} (hin : f.fld.Within (r.length * W)) :
    LS (Readable N W (.raw r)) (matcher N f) ∧ PosTree (matcher N f) ∧
      (c.NotLt → eval revalLeaf (matcher N f) (seen N env W (.raw r)) =
        c.holds env (held (signed N f) f.fld r)) := by
  have hv := value_held (N := N) hW f hf r hin
  refine field_cond h (fun _ => .inl) hv.2 (fun f0 h5 _ h3 => ?_)
  rw [extractField, ← hv.1]
  exact (value_congr (h5 fun _ => id) h3 r).symm

theorem view_cond (hW : Narrow W) {fs : List MField} (hn : (fs.map (·.name)).Nodup) {f : MField}
    (hm : f ∈ fs) {c : Cond} (h : Asks N keepsName f c) (hf : f.fld.Legal) {r : List (BitVec W)}
    (hin : f.fld.Within (r.length * W)) :
    LS (Readable N W (.msg fs r)) (matcher N f) ∧ PosTree (matcher N f) ∧
      (c.NotLt → eval revalLeaf (matcher N f) (seen N env W (.msg fs r)) =
        c.holds env (held (signed N f) f.fld r)) := by
  have hv := value_held (N := N) hW f hf r hin
  refine field_cond h (fun _ => .inr) hv.2 (fun f0 _ h6 _ => ?_)
  rw [extractField, ← h6 fun _ => id, find_eq hn hm, Option.bind_some, hv.1]

/-- A callback on a message with one field that has a condition, when the field type tested is
known. -/
theorem single_accepts {d : Data W} {f f0 : MField} {c : Cond} {x : Int}
    (hm : matcher N f = condMatcher N f0 c) (h : extractField N W d f0 = some x)
    (hx : (ty N f0).InRange x) (hc : c.Typed (ty N f0)) (hn : c.NotLt) :
    accepts N env W d (plainMatcher N [f]) = some (c.holds env x) := by
  have := plain_accepts (N := N) (env := env) (d := d) [f] (fun _ => c.holds env x) (by
    intro g hg
    rw [List.mem_singleton] at hg
    subst hg
    have := cond_ok (env := env) h hx c hc
    rw [hm]
    exact ⟨this.1, this.2.1, this.2.2 hn⟩)
  simpa using this

theorem value_unlocated (f : MField) (h : f.fld.ats = []) (r : List (BitVec W)) :
    value N W f r = some 0 := by
  obtain ⟨n, ⟨ats, ew⟩, d, e⟩ := f
  simp only at h
  subst h
  simp [value, Fld.extract, Bits.extractField, toInt]

/-! ### Definitions made from other definitions -/

theorem asks_snoc {later : Opt → Bool} {f : MField} {c : Cond} (h : Asks N later f c) {o : Opt}
    (ho : later o = true) (hn : o.asks = none) : Asks N later (declare N f o) c := by
  rcases h with ⟨name, t, opts, rfl, h1, rfl⟩ | ⟨name, t, pre, o', post, rfl, h1, h2, h3⟩
  · refine .inl ⟨name, t, opts ++ [o], by simp [field], fun p hp => ?_, rfl⟩
    rcases List.mem_append.1 hp with hp | hp
    · exact h1 p hp
    · rw [List.mem_singleton] at hp; rw [hp, hn]
  · refine .inr ⟨name, t, pre, o', post ++ [o], by simp [field], h1, h2, fun p hp => ?_⟩
    rcases List.mem_append.1 hp with hp | hp
    · exact h3 p hp
    · rw [List.mem_singleton] at hp; rw [hp, ho]

theorem asks_moved {f g : MField} {c : Cond} (h : Asks N keepsName f c) (hn : g.name = f.name)
    (he : g.fld.EW = f.fld.EW) (hd : g.dflt = f.dflt) (hr : g.rest = f.rest) :
    Asks N keepsName g c := by
  have : g = declare N f (.located g.fld.ats) := by
    obtain ⟨n, ⟨a, e⟩, d, r⟩ := g
    obtain ⟨n', ⟨a', e'⟩, d', r'⟩ := f
    simp only at hn he hd hr
    subst hn he hd hr
    rfl
  rw [this]
  exact asks_snoc h (by simp [keepsName, Opt.moves]) rfl

theorem asks_shifted {f : MField} {c : Cond} (h : Asks N keepsName f c) (k : Nat) :
    Asks N keepsName (f.shiftedBy k) c := asks_moved h rfl rfl rfl rfl

theorem object_iff (hW : Narrow W) {fs : List MField} (hn : (fs.map (·.name)).Nodup)
    (ho : ∀ g ∈ fs, ∃ c, Asks N keepsName g c ∧ c.NotLt) {r : List (BitVec W)}
    (hl : ∀ g ∈ fs, g.fld.Legal ∧ g.fld.Within (r.length * W)) :
    accepts N env W (.msg fs r) (plainMatcher N fs) = some true ↔
      ∀ g ∈ fs, ∀ c, Asks N keepsName g c → c.NotLt →
        c.holds env (held (signed N g) g.fld r) = true := by
  rw [plain_accepts fs (fun g => eval revalLeaf (matcher N g) (seen N env W (.msg fs r))) (by
    intro g hg
    obtain ⟨c, hc, _⟩ := ho g hg
    have := view_cond (env := env) hW hn hg hc (hl g hg).1 (hl g hg).2
    exact ⟨this.1, this.2.1, rfl⟩)]
  simp only [Option.some.injEq, List.all_eq_true]
  refine forall_congr' fun g => forall_congr' fun hg => ⟨fun h c hc hlt => ?_, fun h => ?_⟩
  · rw [← (view_cond (env := env) hW hn hg hc (hl g hg).1 (hl g hg).2).2.2 hlt]; exact h
  · obtain ⟨c, hc, hlt⟩ := ho g hg
    rw [(view_cond (env := env) hW hn hg hc (hl g hg).1 (hl g hg).2).2.2 hlt]; exact h c hc hlt

theorem raw_iff (hW : Narrow W) {fs : List MField}
    (ho : ∀ g ∈ fs, ∃ c, Asks N staysPut g c ∧ c.NotLt) {r : List (BitVec W)}
    (hl : ∀ g ∈ fs, g.fld.Legal ∧ g.fld.Within (r.length * W)) :
    accepts N env W (.raw r) (plainMatcher N fs) = some true ↔
      ∀ g ∈ fs, ∀ c, Asks N staysPut g c → c.NotLt →
        c.holds env (held (signed N g) g.fld r) = true := by
  rw [plain_accepts fs (fun g => eval revalLeaf (matcher N g) (seen N env W (.raw r))) (by
    intro g hg
    obtain ⟨c, hc, _⟩ := ho g hg
    have := raw_cond (env := env) hW hc (hl g hg).1 (hl g hg).2
    exact ⟨this.1, this.2.1, rfl⟩)]
  simp only [Option.some.injEq, List.all_eq_true]
  refine forall_congr' fun g => forall_congr' fun hg => ⟨fun h c hc hlt => ?_, fun h => ?_⟩
  · rw [← (raw_cond (env := env) hW hc (hl g hg).1 (hl g hg).2).2.2 hlt]; exact h
  · obtain ⟨c, hc, hlt⟩ := ho g hg
    rw [(raw_cond (env := env) hW hc (hl g hg).1 (hl g hg).2).2.2 hlt]; exact h c hc hlt

end Verif.Receive
