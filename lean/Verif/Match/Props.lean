import Verif.Match.RelLemmas
/-!
# Properties C01–C08, C55–C57: matchers

`Formula` is what the user writes, `Formula.sem` its plain Boolean meaning, `Formula.build` the
matcher which the library operators return, `eval` the answer of that matcher.
-/
namespace Verif.Match
set_option linter.unusedSectionVars false

variable {α : Type} {E : Type} [DecidableEq α]

/-! ## C01 -/

theorem predOps_truthful (ev : α → E → Bool) : Truthful (predOps α) ev (fun _ => True) where
  neg_mem _ _ _ h := by simp [predOps] at h
  neg_eval _ _ _ _ h := by simp [predOps] at h
  impl_eval a b e _ _ h he := by
    simp only [predOps, decide_eq_true_eq] at h
    exact h ▸ he

/-- C01: the matcher built by the library operators from predicates accepts an event exactly when
the formula is true of it. -/
theorem C01_operators_keep_meaning (ev : α → E → Bool) (f : Formula α) (e : E) :
    eval ev (f.build (predOps α)) e = f.sem ev e :=
  (build_ok (predOps_truthful ev) f (fun _ _ => trivial)).2 e

/-- C01, custom matchers: the same for every customisation of negation and implication that tells
the truth. -/
theorem C01_operators_keep_meaning_custom (ops : LeafOps α) (ev : α → E → Bool)
    (h : Truthful ops ev (fun _ => True)) (f : Formula α) (e : E) :
    eval ev (f.build ops) e = f.sem ev e :=
  (build_ok h f (fun _ _ => trivial)).2 e

/-- C01: simplification alone never changes the accepted events. -/
theorem C01_simplify_keeps_meaning (ev : α → E → Bool) (m : M α) (e : E) :
    eval ev (simplify (predOps α) m) e = eval ev m e :=
  (simplify_ok (predOps_truthful ev) m (fun _ _ => trivial)).2 e

example :
    let p : Nat → Nat → Bool := fun i e => e % (i + 2) == 0
    let f : Formula Nat := .conj (.neg (.term 0)) (.neg (.disj (.term 1) (.neg (.term 0))))
    f.build (predOps Nat) = .never ∧ (∀ e, f.sem p e = false) := by
  refine ⟨by simp only [Formula.build]; decide +kernel, fun e => ?_⟩
  rw [← C01_operators_keep_meaning]
  simp only [Formula.build]; rfl

/-! ## C02 -/

/-- An 8-bit unsigned field. -/
def exF : Field := ⟨0, ⟨8, false⟩⟩
/-- A message in which every field and predicate is zero except `exF`. -/
def exMsg (v : Int) : Msg := ⟨fun f => if f = exF then v else 0, fun _ => false⟩

theorem exMsg_WT {v : Int} (h : exF.ty.InRange v) : (exMsg v).WT := by
  intro f
  simp only [exMsg]
  split
  · next hf => exact hf ▸ h
  · have h1 : (0:Int) < 2 ^ (f.ty.bits - 1) := Int.pow_pos (by decide)
    have h2 : (0:Int) < 2 ^ f.ty.bits := Int.pow_pos (by decide)
    simp only [IntTy.InRange, IntTy.lo, IntTy.hi]
    split <;> omega

/-- C02 is violated: `f != 5 and f != 6` becomes a matcher that accepts the message `f = 6`. -/
theorem C02_violated_and :
    ∃ (f : Formula RLeaf) (m : WMsg), (∀ a ∈ f.terms, a.Typed) ∧
      f.sem rev m = false ∧ eval rev (f.build relOps) m = true :=
  ⟨.conj (.term (.rel .ne exF 5)) (.term (.rel .ne exF 6)), ⟨exMsg 6, exMsg_WT (by decide)⟩,
    by simp [Formula.terms, RLeaf.Typed]; decide, by simp only [Formula.sem]; decide +kernel,
    by simp only [Formula.build]; decide +kernel⟩

/-- C02 is violated: `f != 5 or f != 6`, true of every message, rejects `f = 6`. -/
theorem C02_violated_or :
    ∃ (f : Formula RLeaf) (m : WMsg), (∀ a ∈ f.terms, a.Typed) ∧
      f.sem rev m = true ∧ eval rev (f.build relOps) m = false :=
  ⟨.disj (.term (.rel .ne exF 5)) (.term (.rel .ne exF 6)), ⟨exMsg 6, exMsg_WT (by decide)⟩,
    by simp [Formula.terms, RLeaf.Typed]; decide, by simp only [Formula.sem]; decide +kernel,
    by simp only [Formula.build]; decide +kernel⟩

/-- C02 (partial): the meaning is kept when no field is compared with two different constants by
`==`/`!=`. All six comparisons, predicates and every nesting are allowed.
Missing: expressions with several `==`/`!=` constants per field, for which the claim fails
(`C02_violated_and`) unless they have the form of `C02_positive_partial`. -/
theorem C02_one_constant_partial (K : Field → Int) (f : Formula RLeaf)
    (hf : ∀ a ∈ f.terms, OneConst K a) (m : WMsg) :
    eval rev (f.build relOps) m = f.sem rev m :=
  (build_ok (oneConst_truthful K) f hf).2 m

/-- `==` is never below a `not` and `!=` is not used. -/
inductive EqPositive : Formula RLeaf → Prop
  | always : EqPositive .always
  | never : EqPositive .never
  | term {a} : PosLeaf a → EqPositive (.term a)
  | neg {f} : (∀ a ∈ f.terms, OrderLeaf a) → EqPositive (.neg f)
  | conj {f g} : EqPositive f → EqPositive g → EqPositive (.conj f g)
  | disj {f g} : EqPositive f → EqPositive g → EqPositive (.disj f g)
  | all {fs} : (∀ f ∈ fs, EqPositive f) → EqPositive (.all fs)
  | any {fs} : (∀ f ∈ fs, EqPositive f) → EqPositive (.any fs)

theorem posTree_foldl_and (ms : List (M RLeaf)) (a : M RLeaf) (ha : PosTree a)
    (h : ∀ x ∈ ms, PosTree x) : PosTree (ms.foldl M.and a) := by
  induction ms generalizing a with
  | nil => exact ha
  | cons x xs ih => exact ih _ ⟨ha, h x (by simp)⟩ (fun y hy => h y (by simp [hy]))

theorem posTree_foldl_or (ms : List (M RLeaf)) (a : M RLeaf) (ha : PosTree a)
    (h : ∀ x ∈ ms, PosTree x) : PosTree (ms.foldl M.or a) := by
  induction ms generalizing a with
  | nil => exact ha
  | cons x xs ih => exact ih _ ⟨ha, h x (by simp)⟩ (fun y hy => h y (by simp [hy]))

theorem eval_foldl_and' (ms : List (M α)) (a : M α) (ev : α → E → Bool) (e : E) :
    eval ev (ms.foldl M.and a) e = (eval ev a e && ms.all (fun m => eval ev m e)) := by
  induction ms generalizing a with
  | nil => simp
  | cons x xs ih => simp [ih, eval, Bool.and_assoc]

theorem eval_foldl_or' (ms : List (M α)) (a : M α) (ev : α → E → Bool) (e : E) :
    eval ev (ms.foldl M.or a) e = (eval ev a e || ms.any (fun m => eval ev m e)) := by
  induction ms generalizing a with
  | nil => simp
  | cons x xs ih => simp [ih, eval, Bool.or_assoc]

theorem build_pos (f : Formula RLeaf) (hf : EqPositive f) :
    PosTree (f.build relOps) ∧ ∀ e, eval rev (f.build relOps) e = f.sem rev e := by
  induction hf with
  | always => simp [Formula.build, PosTree, eval, Formula.sem]
  | never => simp [Formula.build, PosTree, eval, Formula.sem]
  | term h => simpa [Formula.build, PosTree, eval, Formula.sem] using h
  | @neg f h =>
    have := build_ok orderLeaf_truthful (.neg f) (by simpa [Formula.terms] using h)
    exact ⟨.of_order this.1, this.2⟩
  | conj _ _ ihf ihg =>
    simp only [Formula.build, opAnd, Formula.sem]
    have := simplify_pos (.and _ _) ⟨ihf.1, ihg.1⟩
    exact ⟨this.1, fun e => by rw [this.2, eval, ihf.2, ihg.2]⟩
  | disj _ _ ihf ihg =>
    simp only [Formula.build, opOr, Formula.sem]
    have := simplify_pos (.or _ _) ⟨ihf.1, ihg.1⟩
    exact ⟨this.1, fun e => by rw [this.2, eval, ihf.2, ihg.2]⟩
  | @all fs _ ih =>
    simp only [Formula.build, Match.all, Formula.sem]
    have := simplify_pos _ (posTree_foldl_and (fs.attach.map fun ⟨f, _⟩ => f.build relOps) .always
      trivial (by simp; intro f hf; exact (ih f hf).1))
    refine ⟨this.1, fun e => ?_⟩
    rw [this.2, eval_foldl_and', eval, Bool.true_and, List.all_map, List.all_map]
    congr 1; funext ⟨f, hf⟩; simp [(ih f hf).2]
  | @any fs _ ih =>
    simp only [Formula.build, Match.any, Formula.sem]
    have := simplify_pos _ (posTree_foldl_or (fs.attach.map fun ⟨f, _⟩ => f.build relOps) .never
      trivial (by simp; intro f hf; exact (ih f hf).1))
    refine ⟨this.1, fun e => ?_⟩
    rw [this.2, eval_foldl_or', eval, Bool.false_or, List.any_map, List.any_map]
    congr 1; funext ⟨f, hf⟩; simp [(ih f hf).2]

/-- C02 (partial): the meaning is kept for expressions with any number of `==` constants, ordering
comparisons and predicates, provided `!=` is not used and `==` is not negated.
Missing: see `C02_violated_and`. -/
theorem C02_positive_partial (f : Formula RLeaf) (hf : EqPositive f) (m : WMsg) :
    eval rev (f.build relOps) m = f.sem rev m :=
  (build_pos f hf).2 m

theorem inMatcher_ok (f : Field) (vs : List Int) (hv : ∀ v ∈ vs, f.ty.InRange v) :
    PosTree (inMatcher f vs) ∧ ∀ m : WMsg, eval rev (inMatcher f vs) m = decide (m.1.val f ∈ vs) := by
  induction vs with
  | nil => simp [inMatcher, PosTree, eval]
  | cons v vs ih =>
    have ih := ih (fun w hw => hv w (by simp [hw]))
    have := simplify_pos (.or (.leaf (.rel .eq f v)) (inMatcher f vs))
      ⟨⟨hv v (by simp), by simp [RLeaf.IsNe]⟩, ih.1⟩
    refine ⟨this.1, fun m => ?_⟩
    show eval rev (simplify relOps (.or (.leaf (.rel .eq f v)) (inMatcher f vs))) m = _
    rw [this.2, eval, ih.2]
    simp [eval, rev, revalLeaf, RelOp.app]

/-- C02, `msg::in`: accepts exactly the listed values, for any list. -/
theorem C02_in_exact (f : Field) (vs : List Int) (hv : ∀ v ∈ vs, f.ty.InRange v) (m : WMsg) :
    eval rev (inMatcher f vs) m = decide (m.1.val f ∈ vs) := (inMatcher_ok f vs hv).2 m

/-- C02, `not msg::in`: accepts exactly the other values (as long as it is not combined further). -/
theorem C02_not_in_exact (f : Field) (vs : List Int) (hv : ∀ v ∈ vs, f.ty.InRange v) (m : WMsg) :
    eval rev (opNot relOps (inMatcher f vs)) m = decide (m.1.val f ∉ vs) := by
  have h := inMatcher_ok f vs hv
  cases hm : inMatcher f vs with
  | leaf a =>
    have h2 := h.2 m
    rw [hm] at h2
    simp only [opNot, negate]
    cases a with
    | pred i => simp [hm, PosTree, relOps, simplify, negate, eval] at *; simp [h2]
    | rel op g v =>
      simp only [relOps, simplify]
      have := reval_negate (.leaf (.rel op g v)) m
      simp only [negate, relOps] at this
      rw [this, h2]; simp
  | and l r =>
    rw [hm] at h
    show eval rev (negate relOps (simplify relOps (.and l r))) m = _
    rw [reval_negate, (simplify_pos _ h.1).2, h.2]; simp
  | or l r =>
    rw [hm] at h
    show eval rev (negate relOps (simplify relOps (.or l r))) m = _
    rw [reval_negate, (simplify_pos _ h.1).2, h.2]; simp
  | not k =>
    rw [hm] at h
    have h2 := h.2 m
    simp only [eval, Bool.not_eq_eq_eq_not] at h2
    simp only [opNot, negate]
    rw [(simplify_pos _ (.of_order h.1)).2, h2]; simp
  | always =>
    have h2 := h.2 m
    rw [hm] at h2
    simp only [eval] at h2
    simp [opNot, negate, simplify, eval, of_decide_eq_true h2.symm]
  | never =>
    have h2 := h.2 m
    rw [hm] at h2
    simp only [eval] at h2
    simp [opNot, negate, simplify, eval, of_decide_eq_false h2.symm]

example : ∀ m : WMsg,
    eval rev (Formula.build relOps
      (.conj (.term (.rel .le exF 9)) (.disj (.term (.rel .eq exF 3)) (.term (.rel .eq exF 12))))) m
      = decide (m.1.val exF = 3) := by
  intro m
  rw [C02_positive_partial _ (.conj (.term ⟨by simp [RLeaf.Typed]; decide, by simp [RLeaf.IsNe]⟩)
    (.disj (.term ⟨by simp [RLeaf.Typed]; decide, by simp [RLeaf.IsNe]⟩)
      (.term ⟨by simp [RLeaf.Typed]; decide, by simp [RLeaf.IsNe]⟩)))]
  simp only [Formula.sem, rev, revalLeaf, RelOp.app]
  grind

example : ∃ K, ∀ a ∈ (Formula.conj (.neg (.term (.rel .eq exF 5)))
    (.disj (.term (.rel .lt exF 9)) (.term (.pred 1)))).terms, OneConst K a :=
  ⟨fun _ => 5, by simp [Formula.terms, OneConst]; decide⟩

/-! ## C03 -/

/-- C03: sum of products keeps the meaning, for every leaf type whose negation tells the truth
(implication does not matter). -/
theorem C03_sum_of_products_keeps_meaning (ops : LeafOps α) (ev : α → E → Bool)
    (h : NegTruthful ops ev (fun _ => True)) (m : M α) (e : E) :
    eval ev (sop ops m) e = eval ev m e :=
  (sop_ok h m (fun _ _ => trivial)).2 e

theorem relOps_negTruthful : NegTruthful relOps revalLeaf (fun _ => True) where
  neg_mem _ _ _ _ := trivial
  neg_eval a b e _ h := by
    cases a with
    | pred => simp [relOps] at h
    | rel op f v =>
      simp only [relOps, Option.some.injEq] at h
      subst h
      exact app_inverse _ _ _

/-- C03 for field comparisons: no condition at all on constants, fields and messages. -/
theorem C03_sum_of_products_relational (m : M RLeaf) (e : Msg) :
    eval revalLeaf (sop relOps m) e = eval revalLeaf m e :=
  C03_sum_of_products_keeps_meaning relOps revalLeaf relOps_negTruthful m e

/-- C03: the recursion of `sum_of_products` ends for every matcher, and `sop` is its result. -/
theorem C03_sum_of_products_terminates (ops : LeafOps α) (m : M α) :
    ∃ n, ∀ k, n ≤ k → ∃ r, sopF ops k m = some r ∧ sopF ops n m = some (sop ops m) :=
  ⟨budget m, fun k hk => by
    obtain ⟨r, hr, _⟩ := sopF_total ops m k hk
    exact ⟨r, hr, sop_spec ops m⟩⟩

example : sop (predOps Nat) (.and (.leaf 0) (.not (.and (.leaf 1) (.leaf 2)))) =
    .or (.and (.leaf 0) (.not (.leaf 1))) (.and (.leaf 0) (.not (.leaf 2))) := by decide +kernel

/-! ## C04 -/

/-- C04: what the library operators build has a sum of products in disjunctive normal form. -/
theorem C04_sum_of_products_normal_form (ops : LeafOps α) (f : Formula α) :
    IsDNF (sop ops (f.build ops)) :=
  sopF_dnf _ _ _ (NoDoubleNot_build f) (sop_spec ops _)

/-- C04 for hand-made types: enough that no `not_t` sits directly in a `not_t`. -/
theorem C04_sum_of_products_normal_form_raw (ops : LeafOps α) (m : M α) (hm : NoDoubleNot m) :
    IsDNF (sop ops m) :=
  sopF_dnf _ _ _ hm (sop_spec ops _)

/-- Why C04 asks for operator-built matchers: the hand-written type `not_t<not_t<or_t<…>>>` is
returned unchanged. -/
theorem C04_raw_double_not_is_kept :
    ∃ m : M Nat, ¬ IsDNF (sop (predOps Nat) m) := by
  refine ⟨.not (.not (.or (.leaf 0) (.leaf 1))), ?_⟩
  have : sop (predOps Nat) (.not (.not (.or (.leaf 0) (.leaf 1)))) =
      .not (.not (.or (.leaf 0) (.leaf 1))) := by decide +kernel
  rw [this]
  intro h
  cases h with
  | prod h => cases h with | lit h => cases h

example : (Formula.neg (.disj (.conj (.term 0) (.term 1)) (.term 2))).build (predOps Nat) =
    .not (.or (.and (.leaf 0) (.leaf 1)) (.leaf 2)) := by
  simp only [Formula.build]; decide +kernel

/-! ## C05 -/

/-- C05 for predicates. -/
theorem C05_implies_sound_predicates (ev : α → E → Bool) (x y : M α)
    (hi : implies (predOps α) x y = true) (e : E) (he : eval ev x e = true) :
    eval ev y e = true :=
  implies_sound (predOps_truthful ev) x y (fun _ _ => trivial) (fun _ _ => trivial) hi e he

/-- C05 is violated: the library answers that `f != 5` implies `f != 6`. -/
theorem C05_violated : ∃ (a b : M RLeaf) (m : WMsg),
    implies relOps a b = true ∧ eval rev a m = true ∧ eval rev b m = false :=
  ⟨.leaf (.rel .ne exF 5), .leaf (.rel .ne exF 6), ⟨exMsg 6, exMsg_WT (by decide)⟩,
    by decide +kernel, by decide +kernel, by decide +kernel⟩

/-- C05 (partial): implication between compound matchers is sound unless one side has a `!=` term
and the other side a `!=` term with another constant on the same field.
Missing: exactly that pair, which is `C05_violated`. -/
theorem C05_implies_sound_partial (x y : M RLeaf) (hx : LS RLeaf.Typed x) (hy : LS RLeaf.Typed y)
    (hc : ∀ a ∈ leaves x, ∀ b ∈ leaves y, ¬ NeClash a b)
    (hi : implies relOps x y = true) (m : WMsg) (he : eval rev x m = true) : eval rev y m = true :=
  implies_sound' x y m
    (fun a ha b hb h' he' => rimpl_eval a b m (hx a ha) (hy b hb) (hc a ha b hb) h' he') hi he

/-- The excluded pairs really are all wrong: for every field with at least two values, two `!=`
terms with different constants of the type are reported as implying each other, and this is false. -/
theorem C05_every_ne_pair_wrong (f : Field) (x y : Int) (hy : f.ty.InRange y) (hxy : x ≠ y) :
    implies relOps (.leaf (.rel .ne f x)) (.leaf (.rel .ne f y)) = true ∧
      ∃ m : WMsg, eval rev (.leaf (.rel .ne f x)) m = true ∧
        eval rev (.leaf (.rel .ne f y)) m = false := by
  refine ⟨by simp [implies, impliesL, relOps, relImplies, RelOp.app],
    ⟨⟨fun g => if g = f then y else 0, fun _ => false⟩, ?_⟩, ?_, ?_⟩
  · intro g
    simp only
    split
    · next hg => exact hg ▸ hy
    · have h1 : (0:Int) < 2 ^ (g.ty.bits - 1) := Int.pow_pos (by decide)
      have h2 : (0:Int) < 2 ^ g.ty.bits := Int.pow_pos (by decide)
      simp only [IntTy.InRange, IntTy.lo, IntTy.hi]
      split <;> omega
  · simpa [eval, rev, revalLeaf, RelOp.app] using fun h => hxy h.symm
  · simp [eval, rev, revalLeaf, RelOp.app]

example : implies relOps (.and (.leaf (.rel .lt exF 6)) (.leaf (.pred 0)))
    (.or (.leaf (.rel .le exF 5)) (.leaf (.rel .eq exF 200))) = true := by decide +kernel

/-! ## C06 -/

/-- C06 for predicates and for every truthful customisation. -/
theorem C06_ordering_is_inclusion (ops : LeafOps α) (ev : α → E → Bool)
    (h : Truthful ops ev (fun _ => True)) (a b : M α) :
    (spaceship ops a b = .less → ∀ e, eval ev a e = true → eval ev b e = true) ∧
    (spaceship ops a b = .greater → ∀ e, eval ev b e = true → eval ev a e = true) ∧
    (spaceship ops a b = .equivalent → ∀ e, eval ev a e = eval ev b e) := by
  have ha := simplify_ok h a (fun _ _ => trivial)
  have hb := simplify_ok h b (fun _ _ => trivial)
  have h1 := implies_sound h (simplify ops a) (simplify ops b) ha.1 hb.1
  have h2 := implies_sound h (simplify ops b) (simplify ops a) hb.1 ha.1
  simp only [ha.2, hb.2] at h1 h2
  simp only [spaceship]
  refine ⟨fun hs => h1 ?_, fun hs => h2 ?_, fun hs e => ?_⟩
  · split at hs <;> simp_all
  · split at hs <;> simp_all
  · have hi : implies ops (simplify ops a) (simplify ops b) = true ∧
        implies ops (simplify ops b) (simplify ops a) = true := by
      split at hs <;> simp_all
    have := h1 hi.1 e; have := h2 hi.2 e
    cases hx : eval ev a e <;> cases hy : eval ev b e <;> simp_all

/-- C06 is violated for comparisons: `f != 5` and `f != 6` are reported equivalent. -/
theorem C06_violated : ∃ (a b : M RLeaf) (m : WMsg),
    spaceship relOps a b = .equivalent ∧ eval rev a m = true ∧ eval rev b m = false :=
  ⟨.leaf (.rel .ne exF 5), .leaf (.rel .ne exF 6), ⟨exMsg 6, exMsg_WT (by decide)⟩,
    by decide +kernel, by decide +kernel, by decide +kernel⟩

/-- C06 (partial) for comparisons with at most one `==`/`!=` constant per field.
Missing: `C06_violated`. -/
theorem C06_ordering_is_inclusion_partial (K : Field → Int) (a b : M RLeaf)
    (hA : LS (OneConst K) a) (hB : LS (OneConst K) b) :
    (spaceship relOps a b = .less → ∀ m, eval rev a m = true → eval rev b m = true) ∧
    (spaceship relOps a b = .greater → ∀ m, eval rev b m = true → eval rev a m = true) ∧
    (spaceship relOps a b = .equivalent → ∀ m, eval rev a m = eval rev b m) := by
  have h := oneConst_truthful K
  have ha := simplify_ok h a hA
  have hb := simplify_ok h b hB
  have h1 := implies_sound h (simplify relOps a) (simplify relOps b) ha.1 hb.1
  have h2 := implies_sound h (simplify relOps b) (simplify relOps a) hb.1 ha.1
  simp only [ha.2, hb.2] at h1 h2
  simp only [spaceship]
  refine ⟨fun hs => h1 ?_, fun hs => h2 ?_, fun hs e => ?_⟩
  · split at hs <;> simp_all
  · split at hs <;> simp_all
  · have hi : implies relOps (simplify relOps a) (simplify relOps b) = true ∧
        implies relOps (simplify relOps b) (simplify relOps a) = true := by
      split at hs <;> simp_all
    have := h1 hi.1 e; have := h2 hi.2 e
    cases hx : eval rev a e <;> cases hy : eval rev b e <;> simp_all

example : spaceship relOps (.leaf (.rel .lt exF 3)) (.leaf (.rel .lt exF 5)) = .less ∧
    spaceship relOps (.leaf (.rel .lt exF 4)) (.leaf (.rel .le exF 3)) = .equivalent ∧
    spaceship relOps (.leaf (.rel .gt exF 3)) (.leaf (.rel .eq exF 7)) = .greater := by
  decide +kernel

/-! ## C07 -/

/-- Number of terms and operators in a matcher type. -/
def size : M α → Nat
  | .always => 1
  | .never => 1
  | .leaf _ => 1
  | .not m => 1 + size m
  | .and l r => 1 + (size l + size r)
  | .or l r => 1 + (size l + size r)

theorem size_eq_cost (m : M α) : size m = cost m := by
  induction m <;> simp_all [size, cost] <;> omega

/-- C07: simplification never grows a matcher. -/
theorem C07_simplify_never_grows (ops : LeafOps α) (m : M α) :
    size (simplify ops m) ≤ size m := by
  rw [size_eq_cost, size_eq_cost]; exact cost_simplify m

/-- C07 at the operators: `a and b`, `a or b` are at most one operator larger than their operands,
`not a` at most one larger than `a`. -/
theorem C07_operators_never_grow (ops : LeafOps α) (a b : M α) :
    size (opAnd ops a b) ≤ size a + size b + 1 ∧ size (opOr ops a b) ≤ size a + size b + 1 ∧
    size (opNot ops a) ≤ size a + 1 := by
  simp only [opAnd, opOr, opNot, size_eq_cost]
  have h1 := cost_simplify (ops := ops) (.and a b)
  have h2 := cost_simplify (ops := ops) (.or a b)
  have h3 := cost_simplify (ops := ops) (negate ops a)
  have h4 := cost_negate (ops := ops) a
  simp only [cost] at h1 h2
  omega

example : size (simplify (predOps Nat) (.and (.not (.leaf 0)) (.not (.leaf 1)))) = 4 ∧
    size (M.and (.not (.leaf 0)) (.not (.leaf 1)) : M Nat) = 5 := by decide +kernel

/-! ## C08 -/

/-- What the laws need of a single-term matcher type: a term implies itself, a customised negation
is undone by negating again, and a term is not its own negation. -/
structure Lawful (ops : LeafOps α) : Prop where
  impl_refl : ∀ a, ops.impl a a = true
  neg_neg : ∀ a b, ops.neg a = some b → ops.neg b = some a
  neg_impl : ∀ a b, ops.neg a = some b → ops.impl a b = false ∧ ops.impl b a = false

theorem predOps_lawful : Lawful (predOps α) where
  impl_refl a := by simp [predOps]
  neg_neg a b h := by simp [predOps] at h
  neg_impl a b h := by simp [predOps] at h

theorem relOps_lawful : Lawful relOps where
  impl_refl a := by
    cases a with
    | pred => simp [relOps]
    | rel op f v => cases op <;> simp [relOps, relImplies, RelOp.app]
  neg_neg a b h := by
    cases a with
    | pred => simp [relOps] at h
    | rel op f v =>
      simp only [relOps, Option.some.injEq] at h
      subst h
      cases op <;> simp [relOps, RelOp.inverse]
  neg_impl a b h := by
    cases a with
    | pred => simp [relOps] at h
    | rel op f v =>
      simp only [relOps, Option.some.injEq] at h
      subst h
      cases op <;> simp [relOps, RelOp.inverse, relImplies, RelOp.app]

/-- C08: the laws listed in the documentation hold for every single-term matcher. -/
theorem C08_documented_laws (ops : LeafOps α) (h : Lawful ops) (a : α) :
    let m : M α := .leaf a
    opNot ops (opNot ops m) = m ∧
    opAnd ops m .always = m ∧ opAnd ops .always m = m ∧
    opOr ops m .never = m ∧ opOr ops .never m = m ∧
    opAnd ops m .never = .never ∧ opAnd ops .never m = .never ∧
    opOr ops m .always = .always ∧ opOr ops .always m = .always ∧
    opAnd ops m m = m ∧ opOr ops m m = m ∧
    opAnd ops m (opNot ops m) = .never ∧ opAnd ops (opNot ops m) m = .never ∧
    opOr ops m (opNot ops m) = .always ∧ opOr ops (opNot ops m) m = .always := by
  have hr := h.impl_refl
  cases hn : ops.neg a with
  | none =>
    simp [opNot, opAnd, opOr, negate, simplify, simplifyAnd, simplifyOr, implies, impliesL, hn, hr]
  | some b =>
    have hb := h.neg_neg a b hn
    have hi := h.neg_impl a b hn
    simp [opNot, opAnd, opOr, negate, simplify, simplifyAnd, simplifyOr, implies, impliesL, hn, hr, hb, hi]

/-- C08: absorption for every two single-term matchers. -/
theorem C08_absorption (ops : LeafOps α) (h : Lawful ops) (a b : α) :
    opOr ops (.leaf a) (opAnd ops (.leaf a) (.leaf b)) = .leaf a ∧
    opAnd ops (.leaf a) (opOr ops (.leaf a) (.leaf b)) = .leaf a := by
  have hr := h.impl_refl
  constructor
  · show simplify ops (.or (.leaf a) (simplifyAnd ops (.leaf a) (.leaf b))) = _
    have key : ∀ m, simplify ops m = m → implies ops m (.leaf a) = true →
        implies ops (.leaf a) m = false → simplify ops (.or (.leaf a) m) = .leaf a := by
      intro m hm h1 h2
      simp [simplify, simplifyOr, hm, h1, h2]
    simp only [simplifyAnd]
    split
    · simp [simplify, simplifyOr, implies, impliesL, hr]
    · next hab =>
      split
      · next hba => exact key _ rfl hba (by simpa using hab)
      · next hba =>
        split
        · exact key _ rfl (by simp [implies, impliesL]) (by simp [implies, impliesL])
        · next hn =>
          rcases deMorganAnd_cases ops (.leaf a) (.leaf b) with hd | ⟨_, _, h1, _⟩
          · rw [hd]
            refine key _ ?_ (by simp [implies, impliesL, hr]) (by simp [implies, impliesL])
            simp [simplify, simplifyAnd, hab, hba, hd]
            simpa using hn
          · simp at h1
  · show simplify ops (.and (.leaf a) (simplifyOr ops (.leaf a) (.leaf b))) = _
    have key : ∀ m, simplify ops m = m → implies ops (.leaf a) m = true →
        simplify ops (.and (.leaf a) m) = .leaf a := by
      intro m hm h1
      simp [simplify, simplifyAnd, hm, h1]
    simp only [simplifyOr]
    split
    · next hab => exact key _ rfl hab
    · next hab =>
      split
      · simp [simplify, simplifyAnd, implies, impliesL, hr]
      · next hba =>
        split
        · exact key _ rfl (by simp [implies])
        · next hn =>
          rcases deMorganOr_cases ops (.leaf a) (.leaf b) with hd | ⟨_, _, h1, _⟩
          · rw [hd]
            refine key _ ?_ (by simp [implies, impliesL, hr])
            simp [simplify, simplifyOr, hab, hba, hd]
            simpa using hn
          · simp at h1

/-- C08: de Morgan's law for two different predicates. -/
theorem C08_de_morgan (a b : α) (hab : a ≠ b) :
    opAnd (predOps α) (opNot (predOps α) (.leaf a)) (opNot (predOps α) (.leaf b)) = .not (.or (.leaf a) (.leaf b)) ∧
    opOr (predOps α) (opNot (predOps α) (.leaf a)) (opNot (predOps α) (.leaf b)) = .not (.and (.leaf a) (.leaf b)) := by
  have hba := hab.symm
  constructor <;>
  simp [opNot, opAnd, opOr, negate, simplify, simplifyAnd, simplifyOr, deMorganAnd, deMorganOr,
    implies, impliesL, predOps, hab, hba, cost]

example : Lawful relOps ∧ Lawful (predOps Nat) := ⟨relOps_lawful, predOps_lawful⟩

/-! ## C55 -/

/-- C55: the documented simplifications of two bounds on one field, for all constants. -/
theorem C55_bounds_simplify (f : Field) (A B : Int) (hB : f.ty.InRange B) :
    (A ≤ B → B < f.ty.hi →
      opAnd relOps (.leaf (.rel .lt f A)) (.leaf (.rel .gt f B)) = .never) ∧
    (A ≤ B → opAnd relOps (.leaf (.rel .lt f A)) (.leaf (.rel .lt f B)) = .leaf (.rel .lt f A)) ∧
    (A ≤ B → opAnd relOps (.leaf (.rel .lt f B)) (.leaf (.rel .lt f A)) = .leaf (.rel .lt f A)) ∧
    (A ≤ B → opOr relOps (.leaf (.rel .lt f A)) (.leaf (.rel .lt f B)) = .leaf (.rel .lt f B)) ∧
    (A ≤ B → opOr relOps (.leaf (.rel .lt f B)) (.leaf (.rel .lt f A)) = .leaf (.rel .lt f B)) ∧
    (B < A → opOr relOps (.leaf (.rel .lt f A)) (.leaf (.rel .gt f B)) = .always) := by
  have key : B < f.ty.hi → addOne f.ty B = some (B + 1) := by
    intro h
    simp only [addOne]
    split
    · rfl
    · split
      · rw [if_neg (by omega)]
      · next hs =>
        have hs : f.ty.signed = false := by simpa using hs
        simp only [IntTy.InRange, IntTy.lo, IntTy.hi, hs] at hB h
        rw [Int.emod_eq_of_lt (by simp at hB; omega) (by simp at h; omega)]
  refine ⟨fun h hh => ?_, fun h => ?_, fun h => ?_, fun h => ?_, fun h => ?_, fun h => ?_⟩
  · have h1 : A ≤ B + 1 := by omega
    simp [opAnd, simplify, simplifyAnd, implies, impliesL, relOps, relImplies, negate,
      RelOp.inverse, key hh, h1]
  · have h1 : A = B ∨ A < B := by omega
    rcases h1 with rfl | h1 <;>
      simp_all [opAnd, simplify, simplifyAnd, implies, impliesL, relOps, relImplies, RelOp.app]
  · have h1 : A = B ∨ (A < B ∧ B ≠ A ∧ ¬ B < A) := by omega
    rcases h1 with rfl | ⟨h1, h2, h3⟩ <;>
      simp_all [opAnd, simplify, simplifyAnd, implies, impliesL, relOps, relImplies, RelOp.app]
  · have h1 : A = B ∨ A < B := by omega
    rcases h1 with rfl | h1 <;>
      simp_all [opOr, simplify, simplifyOr, implies, impliesL, relOps, relImplies, RelOp.app]
  · have h1 : A = B ∨ (A < B ∧ B ≠ A ∧ ¬ B < A) := by omega
    rcases h1 with rfl | ⟨h1, h2, h3⟩ <;>
      simp_all [opOr, simplify, simplifyOr, implies, impliesL, relOps, relImplies, RelOp.app]
  · simp [opOr, simplify, simplifyOr, implies, impliesL, relOps, relImplies, negate,
      RelOp.inverse, h]

example : opAnd relOps (.leaf (.rel .lt exF 3)) (.leaf (.rel .gt exF 5)) = .never :=
  (C55_bounds_simplify exF 3 5 (by decide)).1 (by decide) (by decide)

/-! ## C56 -/

/-- The answer expected when the arguments are swapped. -/
def POrd.swap : POrd → POrd
  | .less => .greater | .greater => .less | .equivalent => .equivalent | .unordered => .unordered

/-- C56: swapping the operands of `<=>` reverses its answer, whatever the customisations. -/
theorem C56_ordering_swaps (ops : LeafOps α) (a b : M α) :
    spaceship ops b a = (spaceship ops a b).swap := by
  simp only [spaceship]
  cases implies ops (simplify ops a) (simplify ops b) <;>
    cases implies ops (simplify ops b) (simplify ops a) <;> rfl

example : spaceship relOps (.leaf (.rel .lt exF 5)) (.leaf (.rel .lt exF 3)) = .greater := by
  decide +kernel

/-! ## C57 -/

/-- C57 is violated: `p and q` compared with itself is unordered. -/
theorem C57_violated : ∃ m : M Nat, spaceship (predOps Nat) m m = .unordered :=
  ⟨.and (.leaf 0) (.leaf 1), by decide +kernel⟩

/-- C57 is violated for `or` as well. -/
theorem C57_violated_or : ∃ m : M Nat, spaceship (predOps Nat) m m = .unordered :=
  ⟨.or (.leaf 0) (.leaf 1), by decide +kernel⟩

/-- C57 (partial): a matcher which simplifies to a constant, a single term or a negation is
equivalent to itself. Missing: those that stay an `and` or an `or` (`C57_violated`). -/
theorem C57_self_equivalent_partial (ops : LeafOps α) (h : ∀ a, ops.impl a a = true) (m : M α)
    (h1 : ∀ l r, simplify ops m ≠ .and l r) (h2 : ∀ l r, simplify ops m ≠ .or l r) :
    spaceship ops m m = .equivalent := by
  have : implies ops (simplify ops m) (simplify ops m) = true := by
    cases hs : simplify ops m with
    | and l r => exact absurd hs (h1 l r)
    | or l r => exact absurd hs (h2 l r)
    | leaf a => simp [implies, impliesL, h]
    | not k => simp [implies, impliesL]
    | always => simp [implies]
    | never => simp [implies, impliesL]
  simp [spaceship, this]

example : spaceship relOps (.and (.leaf (.rel .lt exF 5)) (.leaf (.rel .lt exF 3)))
    (.and (.leaf (.rel .lt exF 5)) (.leaf (.rel .lt exF 3))) = .equivalent := by decide +kernel

end Verif.Match
