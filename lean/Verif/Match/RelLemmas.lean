import Verif.Match.Rel
import Verif.Match.SopLemmas
/-! Helper lemmas about relational leaves. -/
namespace Verif.Match

/-- Well-typed messages. -/
abbrev WMsg := { m : Msg // m.WT }

/-- Evaluation of leaves on well-typed messages. -/
def rev (a : RLeaf) (m : WMsg) : Bool := revalLeaf a m.1

/-- The constant of a comparison is a value of the field's type. -/
def RLeaf.Typed : RLeaf → Prop
  | .rel _ f v => f.ty.InRange v
  | .pred _ => True

/-- The leaf is a `!=` comparison. -/
def RLeaf.IsNe : RLeaf → Prop
  | .rel .ne _ _ => True
  | _ => False

/-- The leaf is a `==` or `!=` comparison. -/
def RLeaf.IsEqNe : RLeaf → Prop
  | .rel .ne _ _ => True
  | .rel .eq _ _ => True
  | _ => False

theorem app_inverse (op : RelOp) (a b : Int) : op.inverse.app a b = !(op.app a b) := by
  cases op <;> simp only [RelOp.inverse, RelOp.app] <;> grind

theorem rneg_eval (a b : RLeaf) (e : WMsg) (h : relOps.neg a = some b) : rev b e = !(rev a e) := by
  cases a with
  | pred => simp [relOps] at h
  | rel op f v =>
    simp only [relOps, Option.some.injEq] at h
    subst h
    exact app_inverse _ _ _

/-- The constant at which two `!=` comparisons on the same field differ is the only unsound case. -/
def NeClash : RLeaf → RLeaf → Prop
  | .rel .ne f x, .rel .ne g y => f = g ∧ x ≠ y
  | _, _ => False

theorem addOne_cases (t : IntTy) (y y' : Int) (h : addOne t y = some y') :
    y' = y + 1 ∨ (t.signed = false ∧ y' = (y + 1) % 2 ^ t.bits) := by
  simp only [addOne] at h
  split at h
  · left; simpa using h.symm
  · split at h
    · split at h
      · simp at h
      · left; simpa using h.symm
    · right; simp_all

theorem relImplies_sound (t : IntTy) (op op' : RelOp) (x y v : Int)
    (hx : t.InRange x) (hy : t.InRange y) (hv : t.InRange v)
    (hc : op = .ne → op' = .ne → x = y)
    (h : relImplies t op x op' y = true) (he : op.app v x = true) : op'.app v y = true := by
  have key : ∀ z z' : Int, t.InRange z → addOne t z = some z' → z' = z + 1 ∨ (z = t.hi ∧ z' = t.lo) := by
    intro z z' hz h
    rcases addOne_cases t z z' h with h | ⟨hs, h⟩
    · exact .inl h
    · simp only [IntTy.InRange, IntTy.lo, IntTy.hi, hs] at hz ⊢
      by_cases hzz : z = 2 ^ t.bits - 1
      · right; subst h; simp [hzz]
      · left; subst h
        exact Int.emod_eq_of_lt (by simp at hz; omega) (by simp at hz; omega)
  simp only [IntTy.InRange] at hv hx hy
  cases op <;> cases op' <;> simp only [relImplies, RelOp.app, Bool.or_eq_true, decide_eq_true_eq] at * <;>
    first
    | omega
    | (split at h
       · next z hz =>
         have := key _ _ (by assumption) hz
         simp only [decide_eq_true_eq] at h
         omega
       · simp at h)
    | simp_all

theorem rimpl_eval (a b : RLeaf) (e : WMsg) (ha : a.Typed) (hb : b.Typed) (hc : ¬ NeClash a b)
    (h : relOps.impl a b = true) (he : rev a e = true) : rev b e = true := by
  cases a with
  | pred i =>
    cases b with
    | pred j => simp_all [relOps, rev]
    | rel => simp [relOps] at h
  | rel op f x =>
    cases b with
    | pred j => simp [relOps] at h
    | rel op' g y =>
      simp only [relOps] at h
      split at h
      · next hfg =>
        subst hfg
        refine relImplies_sound f.ty op op' x y (e.1.val f) ha hb (e.2 f) ?_ h he
        intro h1 h2
        subst h1; subst h2
        simpa [NeClash] using hc
      · simp at h

/-- Leaves where each field is compared by `==`/`!=` with one constant only. -/
def OneConst (K : Field → Int) : RLeaf → Prop
  | .rel .eq f v => f.ty.InRange v ∧ v = K f
  | .rel .ne f v => f.ty.InRange v ∧ v = K f
  | .rel _ f v => f.ty.InRange v
  | .pred _ => True

theorem OneConst.typed {K : Field → Int} {a : RLeaf} (h : OneConst K a) : a.Typed := by
  cases a with
  | pred => trivial
  | rel op f v => cases op <;> first | exact h | exact h.1

theorem OneConst.noClash {K : Field → Int} {a b : RLeaf} (ha : OneConst K a) (hb : OneConst K b) :
    ¬ NeClash a b := by
  intro h
  cases a with
  | pred => exact h
  | rel op f v =>
    cases b with
    | pred => cases op <;> exact h
    | rel op' g w =>
      cases op <;> cases op' <;> simp only [OneConst, NeClash] at * <;> grind

theorem oneConst_truthful (K : Field → Int) : Truthful relOps rev (OneConst K) where
  neg_mem := by
    intro a b ha h
    cases a with
    | pred => simp [relOps] at h
    | rel op f v =>
      simp only [relOps, Option.some.injEq] at h
      subst h
      cases op <;> exact ha
  neg_eval a b e _ h := rneg_eval a b e h
  impl_eval a b e ha hb h he := rimpl_eval a b e ha.typed hb.typed (ha.noClash hb) h he

/-- Leaves that are inequalities or predicates. -/
def OrderLeaf (a : RLeaf) : Prop := a.Typed ∧ ¬ a.IsEqNe

theorem orderLeaf_truthful : Truthful relOps rev OrderLeaf where
  neg_mem := by
    intro a b ha h
    cases a with
    | pred => simp [relOps] at h
    | rel op f v =>
      simp only [relOps, Option.some.injEq] at h
      subst h
      cases op <;> simp_all [OrderLeaf, RLeaf.Typed, RLeaf.IsEqNe, RelOp.inverse]
  neg_eval a b e _ h := rneg_eval a b e h
  impl_eval a b e ha hb h he := by
    refine rimpl_eval a b e ha.1 hb.1 ?_ h he
    intro hc
    cases a with
    | pred => exact hc
    | rel op f v => cases op <;> simp_all [OrderLeaf, RLeaf.IsEqNe, NeClash]

/-! ### Trees without `!=` leaves -/

/-- Typed and not a `!=`. -/
def PosLeaf (a : RLeaf) : Prop := a.Typed ∧ ¬ a.IsNe

theorem typed_negate {m : M RLeaf} (h : LS RLeaf.Typed m) : LS RLeaf.Typed (negate relOps m) := by
  cases m with
  | leaf a =>
    cases a with
    | pred => simp [negate, relOps, RLeaf.Typed]
    | rel op f v => simpa [negate, relOps, RLeaf.Typed] using h
  | _ => simp_all [negate]

theorem reval_negate (m : M RLeaf) (e : WMsg) : eval rev (negate relOps m) e = !(eval rev m e) := by
  cases m with
  | leaf a =>
    cases a with
    | pred => simp [negate, relOps, eval]
    | rel op f v => exact app_inverse _ _ _
  | _ => simp [negate, eval]

theorem LS.imp {α : Type} {S T : α → Prop} {m : M α} (h : ∀ a, S a → T a) (hm : LS S m) : LS T m :=
  fun a ha => h a (hm a ha)

theorem noClash_left {a b : RLeaf} (h : ¬ a.IsNe) : ¬ NeClash a b := by
  intro hc
  cases a with
  | pred => exact hc
  | rel op f v => cases op <;> simp_all [RLeaf.IsNe, NeClash]

theorem noClash_right {a b : RLeaf} (h : ¬ b.IsNe) : ¬ NeClash a b := by
  intro hc
  cases a with
  | pred => exact hc
  | rel op f v =>
    cases b with
    | pred => cases op <;> exact hc
    | rel op' g w => cases op <;> cases op' <;> simp_all [RLeaf.IsNe, NeClash]

theorem implies_pos_left {x y : M RLeaf} (hx : LS PosLeaf x) (hy : LS RLeaf.Typed y)
    (hi : implies relOps x y = true) (e : WMsg) (he : eval rev x e = true) : eval rev y e = true :=
  implies_sound' x y e (fun a ha b hb h' he' =>
    rimpl_eval a b e (hx a ha).1 (hy b hb) (noClash_left (hx a ha).2) h' he') hi he

theorem implies_pos_right {x y : M RLeaf} (hx : LS RLeaf.Typed x) (hy : LS PosLeaf y)
    (hi : implies relOps x y = true) (e : WMsg) (he : eval rev x e = true) : eval rev y e = true :=
  implies_sound' x y e (fun a ha b hb h' he' =>
    rimpl_eval a b e (hx a ha) (hy b hb).1 (noClash_right (hy b hb).2) h' he') hi he

theorem cost_negate_eq {α : Type} (ops : LeafOps α) (m : M α) :
    (∃ k, m = .not k ∧ cost (negate ops m) + 1 = cost m) ∨ cost m ≤ cost (negate ops m) := by
  cases m with
  | not k => exact .inl ⟨k, rfl, rfl⟩
  | leaf a => right; simp only [negate]; split <;> simp [cost]
  | always => right; simp [negate, cost]
  | never => right; simp [negate, cost]
  | and l r => right; simp [negate, cost]
  | or l r => right; simp [negate, cost]

/-- de Morgan rewriting only happens when both operands are `not_t`. -/
theorem deMorganAnd_cases {α : Type} (ops : LeafOps α) (l r : M α) :
    deMorganAnd ops l r = .and l r ∨
      ∃ a b, l = .not a ∧ r = .not b ∧ deMorganAnd ops l r = .not (.or a b) := by
  simp only [deMorganAnd]
  split
  · next hc =>
    rw [show negate ops (.or (negate ops l) (negate ops r)) = .not (.or (negate ops l) (negate ops r)) from rfl] at hc ⊢
    simp only [cost] at hc
    rcases cost_negate_eq ops l with ⟨a, rfl, h1⟩ | h1 <;> rcases cost_negate_eq ops r with ⟨b, rfl, h2⟩ | h2
    · exact .inr ⟨a, b, rfl, rfl, rfl⟩
    all_goals omega
  · exact .inl rfl

theorem deMorganOr_cases {α : Type} (ops : LeafOps α) (l r : M α) :
    deMorganOr ops l r = .or l r ∨
      ∃ a b, l = .not a ∧ r = .not b ∧ deMorganOr ops l r = .not (.and a b) := by
  simp only [deMorganOr]
  split
  · next hc =>
    rw [show negate ops (.and (negate ops l) (negate ops r)) = .not (.and (negate ops l) (negate ops r)) from rfl] at hc ⊢
    simp only [cost] at hc
    rcases cost_negate_eq ops l with ⟨a, rfl, h1⟩ | h1 <;> rcases cost_negate_eq ops r with ⟨b, rfl, h2⟩ | h2
    · exact .inr ⟨a, b, rfl, rfl, rfl⟩
    all_goals omega
  · exact .inl rfl

theorem simplifyAnd_pos {l r : M RLeaf} (hl : LS PosLeaf l) (hr : LS PosLeaf r) :
    LS PosLeaf (simplifyAnd relOps l r) ∧
      ∀ e, eval rev (simplifyAnd relOps l r) e = (eval rev l e && eval rev r e) := by
  have hlt : LS RLeaf.Typed l := hl.imp fun _ h => h.1
  have hrt : LS RLeaf.Typed r := hr.imp fun _ h => h.1
  simp only [simplifyAnd]
  split
  · next hi =>
    refine ⟨hl, fun e => ?_⟩
    have := implies_pos_left hl hrt hi e
    cases hle : eval rev l e <;> simp_all
  · split
    · next hi =>
      refine ⟨hr, fun e => ?_⟩
      have := implies_pos_left hr hlt hi e
      cases hle : eval rev r e <;> simp_all
    · split
      · next hi =>
        refine ⟨by simp, fun e => ?_⟩
        simp only [Bool.or_eq_true] at hi
        rcases hi with hi | hi
        · have := implies_pos_left hl (typed_negate hrt) hi e
          rw [reval_negate] at this
          cases hle : eval rev l e <;> simp_all [eval]
        · have := implies_pos_left hr (typed_negate hlt) hi e
          rw [reval_negate] at this
          cases hle : eval rev r e <;> simp_all [eval]
      · rcases deMorganAnd_cases relOps l r with h | ⟨a, b, rfl, rfl, h⟩
        · rw [h]; simp [eval, hl, hr]
        · rw [h]; simp_all [eval]

theorem simplifyOr_pos {l r : M RLeaf} (hl : LS PosLeaf l) (hr : LS PosLeaf r) :
    LS PosLeaf (simplifyOr relOps l r) ∧
      ∀ e, eval rev (simplifyOr relOps l r) e = (eval rev l e || eval rev r e) := by
  have hlt : LS RLeaf.Typed l := hl.imp fun _ h => h.1
  have hrt : LS RLeaf.Typed r := hr.imp fun _ h => h.1
  simp only [simplifyOr]
  split
  · next hi =>
    refine ⟨hr, fun e => ?_⟩
    have := implies_pos_left hl hrt hi e
    cases hle : eval rev l e <;> simp_all
  · split
    · next hi =>
      refine ⟨hl, fun e => ?_⟩
      have := implies_pos_left hr hlt hi e
      cases hle : eval rev r e <;> simp_all
    · split
      · next hi =>
        refine ⟨by simp, fun e => ?_⟩
        simp only [Bool.or_eq_true] at hi
        rcases hi with hi | hi
        · have := implies_pos_right (typed_negate hlt) hr hi e
          rw [reval_negate] at this
          cases hle : eval rev l e <;> simp_all [eval]
        · have := implies_pos_right (typed_negate hrt) hl hi e
          rw [reval_negate] at this
          cases hle : eval rev r e <;> simp_all [eval]
      · rcases deMorganOr_cases relOps l r with h | ⟨a, b, rfl, rfl, h⟩
        · rw [h]; simp [eval, hl, hr]
        · rw [h]; simp_all [eval]

/-- Trees with no `!=` leaf and no `not_t` above a `==` leaf. -/
def PosTree : M RLeaf → Prop
  | .always => True | .never => True
  | .leaf a => PosLeaf a
  | .not m => LS OrderLeaf m
  | .and l r => PosTree l ∧ PosTree r
  | .or l r => PosTree l ∧ PosTree r

theorem OrderLeaf.pos {a : RLeaf} (h : OrderLeaf a) : PosLeaf a := by
  refine ⟨h.1, fun hn => h.2 ?_⟩
  cases a with
  | pred => exact hn
  | rel op f v => cases op <;> simp_all [RLeaf.IsNe, RLeaf.IsEqNe]

theorem PosTree.pos {m : M RLeaf} (h : PosTree m) : LS PosLeaf m := by
  induction m with
  | not m ih => simp only [PosTree] at h; simpa using h.imp fun _ => OrderLeaf.pos
  | _ => simp_all [PosTree]

theorem PosTree.of_order {m : M RLeaf} (h : LS OrderLeaf m) : PosTree m := by
  induction m with
  | leaf a => exact OrderLeaf.pos (by simpa using h)
  | _ => simp_all [PosTree]

theorem simplify_pos (m : M RLeaf) (hm : PosTree m) :
    PosTree (simplify relOps m) ∧ ∀ e, eval rev (simplify relOps m) e = eval rev m e := by
  fun_induction simplify relOps m with
  | case1 l r ihl ihr =>
    have hl := ihl hm.1
    have hr := ihr hm.2
    refine ⟨?_, fun e => by rw [(simplifyAnd_pos hl.1.pos hr.1.pos).2, hl.2, hr.2, eval]⟩
    simp only [simplifyAnd]
    repeat' split
    · exact hl.1
    · exact hr.1
    · trivial
    · rcases deMorganAnd_cases relOps (simplify relOps l) (simplify relOps r) with h | ⟨a, b, ha, hb, h⟩
      · rw [h]; exact ⟨hl.1, hr.1⟩
      · have h1 := hl.1; have h2 := hr.1
        rw [ha] at h1; rw [hb] at h2
        rw [h]; simp_all [PosTree]
  | case2 l r ihl ihr =>
    have hl := ihl hm.1
    have hr := ihr hm.2
    refine ⟨?_, fun e => by rw [(simplifyOr_pos hl.1.pos hr.1.pos).2, hl.2, hr.2, eval]⟩
    simp only [simplifyOr]
    repeat' split
    · exact hr.1
    · exact hl.1
    · trivial
    · rcases deMorganOr_cases relOps (simplify relOps l) (simplify relOps r) with h | ⟨a, b, ha, hb, h⟩
      · rw [h]; exact ⟨hl.1, hr.1⟩
      · have h1 := hl.1; have h2 := hr.1
        rw [ha] at h1; rw [hb] at h2
        rw [h]; simp_all [PosTree]
  | case3 => simp [eval, PosTree]
  | case4 => simp [eval, PosTree]
  | case5 m _ _ ih =>
    have hm : LS OrderLeaf m := hm
    have := simplify_ok orderLeaf_truthful m hm
    exact ⟨.of_order (LS_negate orderLeaf_truthful.toNegTruthful this.1), fun e => by rw [reval_negate, this.2, eval]⟩
  | case6 => exact ⟨hm, fun e => rfl⟩

end Verif.Match
