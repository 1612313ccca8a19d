import Verif.Match.RelLemmas
/-!
Helper lemmas about trees in which each field either has one `==`/`!=` constant or is used without
negated equalities. The class covers `OneConst` and `PosTree` and every mixture of them.

`K f = some k`: the only `==`/`!=` constant of `f` is `k`. `K f = none`: no `!=` on `f` and no `not`
above a `==` on `f`.
-/
namespace Verif.Match

variable {K : Field → Option Int}

/-- A leaf that may stand in positive position. -/
def MixLeaf (K : Field → Option Int) : RLeaf → Prop
  | .rel .eq f v => f.ty.InRange v ∧ (K f = none ∨ K f = some v)
  | .rel .ne f v => f.ty.InRange v ∧ K f = some v
  | .rel _ f v => f.ty.InRange v
  | .pred _ => True

/-- The negation of such a leaf. -/
def MixNeg (K : Field → Option Int) : RLeaf → Prop
  | .rel .eq f v => f.ty.InRange v ∧ K f = some v
  | .rel .ne f v => f.ty.InRange v ∧ (K f = none ∨ K f = some v)
  | .rel _ f v => f.ty.InRange v
  | .pred _ => True

/-- A leaf that may stand anywhere. -/
def MixAny (K : Field → Option Int) : RLeaf → Prop
  | .rel .eq f v => f.ty.InRange v ∧ K f = some v
  | .rel .ne f v => f.ty.InRange v ∧ K f = some v
  | .rel _ f v => f.ty.InRange v
  | .pred _ => True

/-- The class of trees. -/
def MixTree (K : Field → Option Int) : M RLeaf → Prop
  | .always => True | .never => True
  | .leaf a => MixLeaf K a
  | .not m => LS (MixAny K) m
  | .and l r => MixTree K l ∧ MixTree K r
  | .or l r => MixTree K l ∧ MixTree K r

theorem MixLeaf.typed {a : RLeaf} (h : MixLeaf K a) : a.Typed := by
  cases a with
  | pred => trivial
  | rel op f v => cases op <;> first | exact h | exact h.1

theorem MixNeg.typed {a : RLeaf} (h : MixNeg K a) : a.Typed := by
  cases a with
  | pred => trivial
  | rel op f v => cases op <;> first | exact h | exact h.1

theorem MixAny.leaf {a : RLeaf} (h : MixAny K a) : MixLeaf K a := by
  cases a with
  | pred => trivial
  | rel op f v => cases op <;> simp_all [MixAny, MixLeaf]

theorem MixAny.neg {a : RLeaf} (h : MixAny K a) : MixNeg K a := by
  cases a with
  | pred => trivial
  | rel op f v => cases op <;> simp_all [MixAny, MixNeg]

theorem mix_noClash {a b : RLeaf} (ha : MixLeaf K a) (hb : MixLeaf K b ∨ MixNeg K b) :
    ¬ NeClash a b ∧ ¬ NeClash b a := by
  cases a with
  | pred => cases b with
    | pred => exact ⟨fun h => h, fun h => h⟩
    | rel op f v => cases op <;> exact ⟨fun h => h, fun h => h⟩
  | rel op f v =>
    cases b with
    | pred => cases op <;> exact ⟨fun h => h, fun h => h⟩
    | rel op' g w =>
      cases op <;> cases op' <;> simp only [MixLeaf, MixNeg, NeClash] at * <;> grind

theorem mixAny_truthful (K : Field → Option Int) : Truthful relOps rev (MixAny K) where
  neg_mem := by
    intro a b ha h
    cases a with
    | pred => simp [relOps] at h
    | rel op f v =>
      simp only [relOps, Option.some.injEq] at h
      subst h
      cases op <;> simp_all [MixAny, RelOp.inverse]
  neg_eval a b e _ h := rneg_eval a b e h
  impl_eval a b e ha hb h he :=
    rimpl_eval a b e ha.leaf.typed hb.leaf.typed (mix_noClash ha.leaf (.inl hb.leaf)).1 h he

/-- Every leaf of the tree may be in positive position or is a negated one. -/
theorem MixTree.pos {m : M RLeaf} (h : MixTree K m) : LS (MixLeaf K) m := by
  induction m with
  | not m ih => simp only [MixTree] at h; simpa using h.imp fun _ => MixAny.leaf
  | _ => simp_all [MixTree]

theorem MixTree.of_any {m : M RLeaf} (h : LS (MixAny K) m) : MixTree K m := by
  induction m with
  | leaf a => exact MixAny.leaf (by simpa using h)
  | _ => simp_all [MixTree]

theorem MixTree.negate {m : M RLeaf} (h : MixTree K m) :
    LS (fun a => MixLeaf K a ∨ MixNeg K a) (negate relOps m) := by
  have hp := h.pos
  cases m with
  | leaf a =>
    cases a with
    | pred => simp [Match.negate, relOps, MixLeaf]
    | rel op f v =>
      simp only [MixTree] at h
      simp only [Match.negate, relOps, LS_leaf]
      cases op <;> simp_all [MixLeaf, MixNeg, RelOp.inverse]
  | not m => exact (show LS (MixLeaf K) m by simpa using hp).imp fun _ => .inl
  | always => simp [Match.negate]
  | never => simp [Match.negate]
  | and l r => exact (show LS (MixLeaf K) _ from hp).imp (fun _ => Or.inl)
  | or l r => exact (show LS (MixLeaf K) _ from hp).imp (fun _ => Or.inl)

theorem mix_typed {a : RLeaf} (h : MixLeaf K a ∨ MixNeg K a) : a.Typed :=
  h.elim MixLeaf.typed MixNeg.typed

theorem implies_mix_left {x y : M RLeaf} (hx : LS (MixLeaf K) x)
    (hy : LS (fun a => MixLeaf K a ∨ MixNeg K a) y)
    (hi : implies relOps x y = true) (e : WMsg) (he : eval rev x e = true) : eval rev y e = true :=
  implies_sound' x y e (fun a ha b hb h' he' =>
    rimpl_eval a b e (hx a ha).typed (mix_typed (hy b hb)) (mix_noClash (hx a ha) (hy b hb)).1
      h' he') hi he

theorem implies_mix_right {x y : M RLeaf} (hx : LS (fun a => MixLeaf K a ∨ MixNeg K a) x)
    (hy : LS (MixLeaf K) y)
    (hi : implies relOps x y = true) (e : WMsg) (he : eval rev x e = true) : eval rev y e = true :=
  implies_sound' x y e (fun a ha b hb h' he' =>
    rimpl_eval a b e (mix_typed (hx a ha)) (hy b hb).typed (mix_noClash (hy b hb) (hx a ha)).2
      h' he') hi he

theorem simplifyAnd_mix {l r : M RLeaf} (hl : MixTree K l) (hr : MixTree K r) :
    MixTree K (simplifyAnd relOps l r) ∧
      ∀ e, eval rev (simplifyAnd relOps l r) e = (eval rev l e && eval rev r e) := by
  have hl' := hl.pos
  have hr' := hr.pos
  have hlo : LS (fun a => MixLeaf K a ∨ MixNeg K a) l := hl'.imp fun _ => .inl
  have hro : LS (fun a => MixLeaf K a ∨ MixNeg K a) r := hr'.imp fun _ => .inl
  simp only [simplifyAnd]
  split
  · next hi =>
    refine ⟨hl, fun e => ?_⟩
    have := implies_mix_left hl' hro hi e
    cases hle : eval rev l e <;> simp_all
  · split
    · next hi =>
      refine ⟨hr, fun e => ?_⟩
      have := implies_mix_left hr' hlo hi e
      cases hle : eval rev r e <;> simp_all
    · split
      · next hi =>
        refine ⟨trivial, fun e => ?_⟩
        simp only [Bool.or_eq_true] at hi
        rcases hi with hi | hi
        · have := implies_mix_left hl' hr.negate hi e
          rw [reval_negate] at this
          cases hle : eval rev l e <;> simp_all [eval]
        · have := implies_mix_left hr' hl.negate hi e
          rw [reval_negate] at this
          cases hle : eval rev r e <;> simp_all [eval]
      · rcases deMorganAnd_cases relOps l r with h | ⟨a, b, rfl, rfl, h⟩
        · rw [h]; exact ⟨⟨hl, hr⟩, fun e => rfl⟩
        · rw [h]; simp_all [eval, MixTree]

theorem simplifyOr_mix {l r : M RLeaf} (hl : MixTree K l) (hr : MixTree K r) :
    MixTree K (simplifyOr relOps l r) ∧
      ∀ e, eval rev (simplifyOr relOps l r) e = (eval rev l e || eval rev r e) := by
  have hl' := hl.pos
  have hr' := hr.pos
  have hlo : LS (fun a => MixLeaf K a ∨ MixNeg K a) l := hl'.imp fun _ => .inl
  have hro : LS (fun a => MixLeaf K a ∨ MixNeg K a) r := hr'.imp fun _ => .inl
  simp only [simplifyOr]
  split
  · next hi =>
    refine ⟨hr, fun e => ?_⟩
    have := implies_mix_left hl' hro hi e
    cases hle : eval rev l e <;> simp_all
  · split
    · next hi =>
      refine ⟨hl, fun e => ?_⟩
      have := implies_mix_left hr' hlo hi e
      cases hle : eval rev r e <;> simp_all
    · split
      · next hi =>
        refine ⟨trivial, fun e => ?_⟩
        simp only [Bool.or_eq_true] at hi
        rcases hi with hi | hi
        · have := implies_mix_right hl.negate hr' hi e
          rw [reval_negate] at this
          cases hle : eval rev l e <;> simp_all [eval]
        · have := implies_mix_right hr.negate hl' hi e
          rw [reval_negate] at this
          cases hle : eval rev r e <;> simp_all [eval]
      · rcases deMorganOr_cases relOps l r with h | ⟨a, b, rfl, rfl, h⟩
        · rw [h]; exact ⟨⟨hl, hr⟩, fun e => rfl⟩
        · rw [h]; simp_all [eval, MixTree]

theorem simplify_mix (m : M RLeaf) (hm : MixTree K m) :
    MixTree K (simplify relOps m) ∧ ∀ e, eval rev (simplify relOps m) e = eval rev m e := by
  fun_induction simplify relOps m with
  | case1 l r ihl ihr =>
    have hl := ihl hm.1
    have hr := ihr hm.2
    have := simplifyAnd_mix hl.1 hr.1
    exact ⟨this.1, fun e => by rw [this.2, hl.2, hr.2, eval]⟩
  | case2 l r ihl ihr =>
    have hl := ihl hm.1
    have hr := ihr hm.2
    have := simplifyOr_mix hl.1 hr.1
    exact ⟨this.1, fun e => by rw [this.2, hl.2, hr.2, eval]⟩
  | case3 => simp [eval, MixTree]
  | case4 => simp [eval, MixTree]
  | case5 m _ _ ih =>
    have hm : LS (MixAny K) m := hm
    have := simplify_ok (mixAny_truthful K) m hm
    exact ⟨.of_any (LS_negate (mixAny_truthful K).toNegTruthful this.1),
      fun e => by rw [reval_negate, this.2, eval]⟩
  | case6 => exact ⟨hm, fun e => rfl⟩

theorem mix_foldl_and (ms : List (M RLeaf)) (a : M RLeaf) (ha : MixTree K a)
    (h : ∀ x ∈ ms, MixTree K x) : MixTree K (ms.foldl M.and a) := by
  induction ms generalizing a with
  | nil => exact ha
  | cons x xs ih => exact ih _ ⟨ha, h x (by simp)⟩ (fun y hy => h y (by simp [hy]))

theorem mix_foldl_or (ms : List (M RLeaf)) (a : M RLeaf) (ha : MixTree K a)
    (h : ∀ x ∈ ms, MixTree K x) : MixTree K (ms.foldl M.or a) := by
  induction ms generalizing a with
  | nil => exact ha
  | cons x xs ih => exact ih _ ⟨ha, h x (by simp)⟩ (fun y hy => h y (by simp [hy]))

/-- What a user may write: in the fields with `K f = some k` any use of `== k` and `!= k`; in other
fields `==` with any constants but not below a `not`, and no `!=`. -/
inductive Mixed (K : Field → Option Int) : Formula RLeaf → Prop
  | always : Mixed K .always
  | never : Mixed K .never
  | term {a} : MixLeaf K a → Mixed K (.term a)
  | neg {f} : (∀ a ∈ f.terms, MixAny K a) → Mixed K (.neg f)
  | conj {f g} : Mixed K f → Mixed K g → Mixed K (.conj f g)
  | disj {f g} : Mixed K f → Mixed K g → Mixed K (.disj f g)
  | all {fs} : (∀ f ∈ fs, Mixed K f) → Mixed K (.all fs)
  | any {fs} : (∀ f ∈ fs, Mixed K f) → Mixed K (.any fs)

theorem build_mix (f : Formula RLeaf) (hf : Mixed K f) :
    MixTree K (f.build relOps) ∧ ∀ e, eval rev (f.build relOps) e = f.sem rev e := by
  induction hf with
  | always => simp [Formula.build, MixTree, eval, Formula.sem]
  | never => simp [Formula.build, MixTree, eval, Formula.sem]
  | term h => simpa [Formula.build, MixTree, eval, Formula.sem] using h
  | @neg f h =>
    have := build_ok (mixAny_truthful K) (.neg f) (by simpa [Formula.terms] using h)
    exact ⟨.of_any this.1, this.2⟩
  | conj _ _ ih1 ih2 =>
    simp only [Formula.build, opAnd, Formula.sem]
    have := simplify_mix _ (show MixTree K (.and _ _) from ⟨ih1.1, ih2.1⟩)
    exact ⟨this.1, fun e => by rw [this.2, eval, ih1.2, ih2.2]⟩
  | disj _ _ ih1 ih2 =>
    simp only [Formula.build, opOr, Formula.sem]
    have := simplify_mix _ (show MixTree K (.or _ _) from ⟨ih1.1, ih2.1⟩)
    exact ⟨this.1, fun e => by rw [this.2, eval, ih1.2, ih2.2]⟩
  | @all fs _ ih =>
    simp only [Formula.build, Match.all]
    have := simplify_mix _ (mix_foldl_and (K := K)
      (fs.attach.map fun (x : {f // f ∈ fs}) => x.1.build relOps) .always trivial (by
        simp only [List.mem_map]; rintro _ ⟨⟨f, hf'⟩, _, rfl⟩; exact (ih f hf').1))
    refine ⟨this.1, fun e => ?_⟩
    rw [this.2, eval_foldl_and]
    simp only [Formula.sem, eval, List.all_map, Bool.true_and]
    congr 1; funext ⟨f, hf'⟩; exact (ih f hf').2 e
  | @any fs _ ih =>
    simp only [Formula.build, Match.any]
    have := simplify_mix _ (mix_foldl_or (K := K)
      (fs.attach.map fun (x : {f // f ∈ fs}) => x.1.build relOps) .never trivial (by
        simp only [List.mem_map]; rintro _ ⟨⟨f, hf'⟩, _, rfl⟩; exact (ih f hf').1))
    refine ⟨this.1, fun e => ?_⟩
    rw [this.2, eval_foldl_or]
    simp only [Formula.sem, eval, List.any_map, Bool.false_or]
    congr 1; funext ⟨f, hf'⟩; exact (ih f hf').2 e

/-! ### The repaired rule -/

/-- The library's customisations with one change: `x != a` implies `x != b` only when `a` and `b`
are the same (`msg/field_matchers.hpp` 185-191 answers "yes" for different ones). -/
def fixedOps : LeafOps RLeaf where
  neg := relOps.neg
  impl
    | .rel .ne f x, .rel .ne g y => decide (f = g) && decide (x = y)
    | a, b => relOps.impl a b

theorem fixedOps_truthful : Truthful fixedOps rev RLeaf.Typed where
  neg_mem := by
    intro a b ha h
    cases a with
    | pred => simp [fixedOps, relOps] at h
    | rel op f v =>
      simp only [fixedOps, relOps, Option.some.injEq] at h
      subst h; exact ha
  neg_eval a b e _ h := rneg_eval a b e h
  impl_eval := by
    intro a b e ha hb h he
    have key : ∀ a b : RLeaf, fixedOps.impl a b = true → ¬ NeClash a b ∧ relOps.impl a b = true := by
      intro a b h
      cases a with
      | pred => cases b <;> exact ⟨fun h => h, h⟩
      | rel op f v => cases b with
        | pred => cases op <;> exact ⟨fun h => h, h⟩
        | rel op' g w =>
          cases op <;> cases op' <;>
            first
            | exact ⟨fun h => h, h⟩
            | (simp only [fixedOps, Bool.and_eq_true, decide_eq_true_eq] at h
               obtain ⟨rfl, rfl⟩ := h
               exact ⟨fun h => h.2 rfl, by simp [relOps, relImplies]⟩)
    exact rimpl_eval a b e ha hb (key a b h).1 (key a b h).2 he

end Verif.Match
