import Verif.Handler.TermLemmas
/-!
# Properties C23–C26, C66–C68: dispatch of messages to callbacks

`expected` (Spec) is the list of callbacks whose matcher accepts the message. `handleIn` is the
plain handler for any order of evaluation, `handleIndexed` the indexed handler.
-/
namespace Verif.Handler
open Verif.Match
set_option linter.unusedSectionVars false

/-! ## Examples used below -/

/-- Two 8-bit fields. -/
def exA : Field := ⟨0, ⟨8, false⟩⟩
def exB : Field := ⟨1, ⟨8, false⟩⟩
/-- A message with given values of the two fields and one answer for all predicates. -/
def exMsg2 (a b : Int) (p : Bool) : Msg :=
  ⟨fun f => if f = exA then a else if f = exB then b else 0, fun _ => p⟩

theorem exMsg2_WT {a b : Int} {p : Bool} (ha : exA.ty.InRange a) (hb : exB.ty.InRange b) :
    (exMsg2 a b p).WT := by
  intro f
  simp only [exMsg2]
  split
  · next h => exact h ▸ ha
  · split
    · next h => exact h ▸ hb
    · have h1 : (0:Int) < 2 ^ (f.ty.bits - 1) := Int.pow_pos (by decide)
      have h2 : (0:Int) < 2 ^ f.ty.bits := Int.pow_pos (by decide)
      unfold IntTy.InRange IntTy.lo IntTy.hi
      split <;> omega

/-- `f == v`. -/
abbrev eqF (f : Field) (v : Int) : M RLeaf := .leaf (.rel .eq f v)
/-- `f != v`. -/
abbrev neF (f : Field) (v : Int) : M RLeaf := .leaf (.rel .ne f v)

/-! ## C23 -/

/-- C23: whatever the order in which the callbacks are tried, exactly those whose matcher accepts
are called, each exactly as often as it is registered; `handle` returns true exactly when one was
called, and logs an error exactly when none was. -/
theorem C23_exactly_the_matching (cbs order : List Callback) (ho : order.Perm cbs) (e : Msg) :
    (handleIn order e).called.Perm (expected cbs e) ∧
      ((handleIn order e).handled = true ↔ ∃ c ∈ cbs, eval revalLeaf c.matcher e = true) ∧
      (handleIn order e).error = !(handleIn order e).handled := by
  refine ⟨?_, ?_, rfl⟩
  · simp only [handleIn, foldl_step, List.nil_append, expected]
    exact (ho.filter _).map _
  · simp only [handleIn, foldl_step, Bool.false_or, List.any_eq_true]
    exact ⟨fun ⟨c, hc, h⟩ => ⟨c, ho.mem_iff.1 hc, h⟩, fun ⟨c, hc, h⟩ => ⟨c, ho.mem_iff.2 hc, h⟩⟩

/-- C23: with distinct callbacks, each is called once if its matcher accepts and never otherwise. -/
theorem C23_once_each (cbs order : List Callback) (ho : order.Perm cbs) (e : Msg)
    (hd : (cbs.map (·.id)).Nodup) (c : Callback) (hc : c ∈ cbs) :
    (handleIn order e).called.count c.id = if eval revalLeaf c.matcher e then 1 else 0 := by
  rw [(C23_exactly_the_matching cbs order ho e).1.count_eq]
  induction cbs generalizing order with
  | nil => simp at hc
  | cons d ds ih =>
    simp only [List.map_cons, List.nodup_cons] at hd
    simp only [expected, List.filter_cons]
    have hnot : ∀ ds' : List Callback, (∀ x ∈ ds', x ∈ ds) → d.id ∉ ds'.map (·.id) := by
      intro ds' hs hm
      simp only [List.mem_map] at hm
      obtain ⟨x, hx, hid⟩ := hm
      exact hd.1 (List.mem_map.2 ⟨x, hs x hx, hid⟩)
    rcases List.mem_cons.1 hc with rfl | hc
    · have h0 : List.count c.id ((ds.filter fun c => eval revalLeaf c.matcher e).map (·.id)) = 0 :=
        List.count_eq_zero.2 (hnot _ (fun x hx => (List.mem_filter.1 hx).1))
      by_cases h : eval revalLeaf c.matcher e <;> simp [h, h0]
    · have hne : d.id ≠ c.id := fun h => hd.1 (List.mem_map.2 ⟨c, hc, h.symm⟩)
      have := ih ds (List.Perm.refl _) hd.2 hc
      simp only [expected] at this
      by_cases h : eval revalLeaf d.matcher e <;> simp [h, this, hne]

/-- C23: `is_match` tells whether `handle` would call something. -/
theorem C23_is_match (cbs order : List Callback) (ho : order.Perm cbs) (e : Msg) :
    isMatch cbs e = (handleIn order e).handled := by
  rw [Bool.eq_iff_iff, (C23_exactly_the_matching cbs order ho e).2.1]
  simp [isMatch, Callback.isMatch]

example : handle [⟨7, eqF exA 1⟩, ⟨8, .leaf (.pred 0)⟩, ⟨9, .and (eqF exB 2) (.leaf (.pred 1))⟩]
    (exMsg2 1 2 true) = ⟨[7, 8, 9], true, false⟩ ∧
  handle [⟨7, eqF exA 1⟩, ⟨8, .leaf (.pred 0)⟩] (exMsg2 2 2 false) = ⟨[], false, true⟩ := by
  decide +kernel

/-! ## C66 -/

/-- C66 (partial): with operands evaluated left to right (as compilers do, though the language does
not say so), the matching callbacks are called in registration order.
Missing: any other order of evaluation, see `C66_violated`. -/
theorem C66_registration_order_partial (cbs : List Callback) (e : Msg) :
    (handle cbs e).called = expected cbs e := by
  simp only [handle, handleIn, foldl_step, List.nil_append, expected]
  rfl

/-- C66 is not guaranteed: the handler combines its callbacks with `|`, whose operands may be
evaluated in any order, and then calls are not in registration order. -/
theorem C66_violated : ∃ (cbs order : List Callback) (e : Msg), order.Perm cbs ∧
    (handleIn order e).called ≠ expected cbs e := by
  refine ⟨[⟨1, .always⟩, ⟨2, .always⟩], [⟨2, .always⟩, ⟨1, .always⟩], exMsg2 0 0 false, ?_, ?_⟩
  · exact List.Perm.swap _ _ _
  · decide +kernel

/-- C66: the callbacks are called in registration order whatever the order of evaluation exactly when all that
are called have the same name. -/
theorem C66_exact (cbs : List Callback) (e : Msg) :
    (∀ order : List Callback, order.Perm cbs → (handleIn order e).called = expected cbs e) ↔
      ∀ a ∈ expected cbs e, ∀ b ∈ expected cbs e, a = b := by
  have hcalled : ∀ order : List Callback, (handleIn order e).called = expected order e :=
    fun order => C66_registration_order_partial order e
  constructor
  · intro h
    have hall : ∀ c ∈ cbs, ∀ d ∈ cbs, eval revalLeaf c.matcher e = true → eval revalLeaf d.matcher e = true →
        c.id = d.id := by
      intro c hc d hd hce hde
      have key : ∀ x ∈ cbs, eval revalLeaf x.matcher e = true → (expected cbs e).head? = some x.id := by
        intro x hx hxe
        have hp := List.perm_cons_erase hx
        have := h (x :: cbs.erase x) hp.symm
        rw [hcalled] at this
        rw [← this, expected, List.filter_cons, if_pos hxe]
        rfl
      have h1 := key c hc hce
      rw [key d hd hde, Option.some.injEq] at h1
      exact h1.symm
    intro a ha b hb
    simp only [expected, List.mem_map, List.mem_filter] at ha hb
    obtain ⟨c, ⟨hc, hce⟩, rfl⟩ := ha
    obtain ⟨d, ⟨hd, hde⟩, rfl⟩ := hb
    exact hall c hc d hd hce hde
  · intro h order ho
    rw [hcalled]
    have hp : (expected order e).Perm (expected cbs e) := (ho.filter _).map _
    refine hp.eq_of_pairwise (le := fun a b => a = b) (fun a b _ _ hab _ => hab) ?_ ?_
    · refine List.pairwise_iff_forall_sublist.mpr fun {a b} hs => ?_
      exact h a (hp.mem_iff.mp (hs.subset (by simp))) b (hp.mem_iff.mp (hs.subset (by simp)))
    · exact List.pairwise_iff_forall_sublist.mpr fun {a b} hs => h a (hs.subset (by simp)) b (hs.subset (by simp))

example : (∀ a ∈ expected [⟨1, eqF exA 1⟩, ⟨2, eqF exA 2⟩] (exMsg2 2 0 false),
      ∀ b ∈ expected [⟨1, eqF exA 1⟩, ⟨2, eqF exA 2⟩] (exMsg2 2 0 false), a = b) ∧
    ¬ (∀ a ∈ expected [⟨1, .always⟩, ⟨2, eqF exA 2⟩] (exMsg2 2 0 false),
      ∀ b ∈ expected [⟨1, .always⟩, ⟨2, eqF exA 2⟩] (exMsg2 2 0 false), a = b) := by
  decide +kernel

/-! ## C24 -/

theorem construct_isMatch (id : Nat) (u : Formula RLeaf) (fs : List (Formula RLeaf)) (e : Msg) :
    (construct id (u.build relOps) (fs.map (·.build relOps))).isMatch e =
      eval revalLeaf ((Formula.conj u (.all fs)).build relOps) e := by
  simp only [Callback.isMatch, construct, C03_sum_of_products_relational, Formula.build]
  congr 3
  simp

theorem conj_all_sem (u : Formula RLeaf) (fs : List (Formula RLeaf)) (e : WMsg) :
    (Formula.conj u (.all fs)).sem rev e = (u.sem rev e && fs.all (fun f => f.sem rev e)) := by
  simp [Formula.sem]

/-- C24 (partial): a callback for matcher `u` on a message whose fields have matchers `fs` accepts
exactly the messages that `u` and all of `fs` accept, when all `==`/`!=` tests of one field use the
same constant. Missing: see `C24_violated`. -/
theorem C24_conjunction_one_constant_partial (K : Field → Int) (id : Nat) (u : Formula RLeaf)
    (fs : List (Formula RLeaf)) (hu : ∀ a ∈ u.terms, OneConst K a)
    (hf : ∀ f ∈ fs, ∀ a ∈ f.terms, OneConst K a) (e : WMsg) :
    (construct id (u.build relOps) (fs.map (·.build relOps))).isMatch e.1 =
      (u.sem rev e && fs.all (fun f => f.sem rev e)) := by
  rw [construct_isMatch, ← conj_all_sem, ← eval_rev]
  refine (build_ok (oneConst_truthful K) _ ?_).2 e
  intro a ha
  simp only [Formula.terms, List.mem_append, List.mem_flatten, List.mem_map] at ha
  rcases ha with ha | ⟨_, ⟨⟨f, hf'⟩, _, rfl⟩, ha⟩
  · exact hu a ha
  · exact hf f hf' a ha

/-- C24 (partial): the same for any constants, when `!=` and negated `==` are not used. -/
theorem C24_conjunction_positive_partial (id : Nat) (u : Formula RLeaf)
    (fs : List (Formula RLeaf)) (hu : EqPositive u) (hf : ∀ f ∈ fs, EqPositive f) (e : WMsg) :
    (construct id (u.build relOps) (fs.map (·.build relOps))).isMatch e.1 =
      (u.sem rev e && fs.all (fun f => f.sem rev e)) := by
  rw [construct_isMatch, ← conj_all_sem, ← eval_rev]
  exact C02_positive_partial _ (.conj hu (.all hf)) e

/-- C24 (partial): a callback without a matcher of its own accepts exactly the messages which all
the field matchers accept. -/
theorem C24_plain_positive_partial (id : Nat) (fs : List (Formula RLeaf))
    (hf : ∀ f ∈ fs, EqPositive f) (e : WMsg) :
    (constructPlain id (fs.map (·.build relOps))).isMatch e.1 = fs.all (fun f => f.sem rev e) := by
  have h := C02_positive_partial (.all fs) (.all hf) e
  rw [eval_rev] at h
  simp only [Formula.build, Formula.sem] at h
  simp only [Callback.isMatch, constructPlain]
  simpa using h

/-- C24 (partial): a callback made conditional accepts exactly when it did before and the condition
holds. -/
theorem C24_conditional_one_constant_partial (K : Field → Int) (p : Nat) (c : Callback)
    (hc : LS (OneConst K) c.matcher) (e : WMsg) :
    (makeConditional p c).isMatch e.1 = (c.isMatch e.1 && e.1.pred p) := by
  have h := (simplify_ok (oneConst_truthful K) (.and c.matcher (.leaf (.pred p)))
    (by simp [hc, OneConst])).2 e
  rw [eval_rev, eval_rev] at h
  simp only [Callback.isMatch, makeConditional, C03_sum_of_products_relational, opAnd, h, eval,
    revalLeaf]

theorem C24_conditional_positive_partial (p : Nat) (c : Callback) (hc : PosTree c.matcher)
    (e : WMsg) : (makeConditional p c).isMatch e.1 = (c.isMatch e.1 && e.1.pred p) := by
  have h := (simplify_pos (.and c.matcher (.leaf (.pred p)))
    ⟨hc, trivial, fun h => h⟩).2 e
  rw [eval_rev, eval_rev] at h
  simp only [Callback.isMatch, makeConditional, C03_sum_of_products_relational, opAnd, h, eval,
    revalLeaf]

/-- C24 (partial): conditional callbacks keep calling the same callable. -/
theorem C24_conditional_id (p : Nat) (c : Callback) : (makeConditional p c).id = c.id := rfl

/-- C24 fails: a callback whose matcher is `a != 5`, on a message whose field has the matcher
`a != 6`, accepts a message with `a = 6`. -/
theorem C24_violated : ∃ (u : Formula RLeaf) (fs : List (Formula RLeaf)) (e : WMsg),
    (construct 0 (u.build relOps) (fs.map (·.build relOps))).isMatch e.1 = true ∧
      (u.sem rev e && fs.all (fun f => f.sem rev e)) = false := by
  refine ⟨.neg (.term (.rel .eq exA 5)), [.neg (.term (.rel .eq exA 6))],
    ⟨exMsg2 6 0 false, exMsg2_WT (by decide) (by decide)⟩, ?_, ?_⟩
  · simp only [List.map, Formula.build]; decide +kernel
  · simp only [Formula.sem, List.all]; decide +kernel

/-- C24: a case of the hypotheses: `a == 5 and (b > 3 or p)` on a message with `a in {5, 7}` and
`b <= 9`. -/
example : ∃ u f g : Formula RLeaf, EqPositive u ∧ EqPositive f ∧ EqPositive g ∧
    (construct 0 (u.build relOps) [f.build relOps, g.build relOps]).isMatch (exMsg2 5 4 false) = true ∧
    (construct 0 (u.build relOps) [f.build relOps, g.build relOps]).isMatch (exMsg2 7 4 false) = false := by
  refine ⟨.conj (.term (.rel .eq exA 5)) (.disj (.term (.rel .gt exB 3)) (.term (.pred 0))),
    .disj (.term (.rel .eq exA 5)) (.term (.rel .eq exA 7)), .term (.rel .le exB 9), ?_, ?_, ?_, ?_, ?_⟩
  · refine .conj (.term ?_) (.disj (.term ?_) (.term ?_)) <;>
      exact ⟨by first | trivial | (show IntTy.InRange _ _; decide), by simp [RLeaf.IsNe]⟩
  · refine .disj (.term ?_) (.term ?_) <;>
      exact ⟨by show IntTy.InRange _ _; decide, by simp [RLeaf.IsNe]⟩
  · exact .term ⟨by show IntTy.InRange _ _; decide, by simp [RLeaf.IsNe]⟩
  · simp only [Formula.build]; decide +kernel
  · simp only [Formula.build]; decide +kernel

/-! ## C26 -/

/-- C26: every conjunction registered in an indexed service which accepts the message is among the
candidates, whatever the callbacks, the (non-empty) choice of index fields and the message. -/
theorem C26_no_conjunction_missed (fields : List Field) (hf : fields ≠ []) (cbs : List Callback)
    (e : Msg) (i : Nat) (t : Callback) (ht : (build cbs)[i]? = some t)
    (hm : eval revalLeaf t.matcher e = true) : candidates fields (build cbs) e i = true := by
  have hmem : t ∈ build cbs := List.mem_of_getElem? ht
  have hp := build_product cbs t hmem
  have hterms := product_terms hp.1 hp.2 e hm
  have hlt : i < (build cbs).length := by
    rcases Nat.lt_or_ge i (build cbs).length with h | h
    · exact h
    · rw [List.getElem?_eq_none h] at ht; cases ht
  unfold candidates
  cases fields with
  | nil => exact absurd rfl hf
  | cons f0 fs =>
    simp only [List.all_eq_true]
    intro f _
    refine lookup_complete f (build cbs) i _ hlt ?_ ?_
    · intro k hk
      obtain ⟨c, _, hc, hk⟩ := (mem_walk _ _ _ _ _ _).1 hk
      rw [Nat.sub_zero, ht] at hc; cases hc
      exact hterms.1 f k hk
    · intro k hk
      obtain ⟨c, _, hc, hk⟩ := (mem_walk _ _ _ _ _ _).1 hk
      rw [Nat.sub_zero, ht] at hc; cases hc
      exact hterms.2 f k hk

theorem callback_candidate {G : M RLeaf → Prop} (hG : Sound G) (fields : List Field)
    (hf : fields ≠ []) (cbs : List Callback) (e : WMsg) (c : Callback) (hc : c ∈ cbs)
    (hcG : G c.matcher) (hm : eval revalLeaf c.matcher e.1 = true) :
    ∃ i t, (build cbs)[i]? = some t ∧ t.id = c.id ∧
      candidates fields (build cbs) e.1 i = true := by
  have h := (hG.separate c hcG).2 e
  rw [show c.isMatch e.1 = true from hm] at h
  obtain ⟨t, ht, htm⟩ := List.any_eq_true.1 h.symm
  have hmem : t ∈ build cbs := List.mem_flatMap.2 ⟨c, hc, ht⟩
  obtain ⟨i, hi⟩ := List.getElem?_of_mem hmem
  exact ⟨i, t, hi, separate_id c t ht,
    C26_no_conjunction_missed fields hf cbs e.1 i t hi htm⟩

/-- C26 (partial): a callback whose matcher accepts the message is among the candidates, when the
`==`/`!=` tests of one field in its matcher use one constant. Missing: see `C26_violated`. -/
theorem C26_callback_one_constant_partial (K : Field → Int) (fields : List Field)
    (hf : fields ≠ []) (cbs : List Callback) (e : WMsg) (c : Callback) (hc : c ∈ cbs)
    (hK : LS (OneConst K) c.matcher) (hm : eval revalLeaf c.matcher e.1 = true) :
    ∃ i t, (build cbs)[i]? = some t ∧ t.id = c.id ∧
      candidates fields (build cbs) e.1 i = true :=
  callback_candidate (sound_oneConst K) fields hf cbs e c hc hK hm

/-- C26 (partial): the same without `!=` and negated `==`. -/
theorem C26_callback_positive_partial (fields : List Field)
    (hf : fields ≠ []) (cbs : List Callback) (e : WMsg) (c : Callback) (hc : c ∈ cbs)
    (hP : PosTree c.matcher) (hm : eval revalLeaf c.matcher e.1 = true) :
    ∃ i t, (build cbs)[i]? = some t ∧ t.id = c.id ∧
      candidates fields (build cbs) e.1 i = true :=
  callback_candidate sound_posTree fields hf cbs e c hc hP hm

/-- C26 fails through repeated simplification: a callback for
`not (a == 1 and b == 1) or (a != 2 and p)` accepts `a = 1, b = 1, p`, but it is not called. -/
theorem C26_violated : ∃ (u : Formula RLeaf) (e : WMsg),
    u.sem rev e = true ∧ (construct 0 (u.build relOps) []).isMatch e.1 = true ∧
      (handleIndexed [exA] [construct 0 (u.build relOps) []] e.1).called = [] := by
  refine ⟨.disj (.neg (.conj (.term (.rel .eq exA 1)) (.term (.rel .eq exB 1))))
    (.conj (.neg (.term (.rel .eq exA 2))) (.term (.pred 0))),
    ⟨exMsg2 1 1 true, exMsg2_WT (by decide) (by decide)⟩, ?_, ?_, ?_⟩
  · simp only [Formula.sem]; decide +kernel
  · simp only [Formula.build]; decide +kernel
  · simp only [Formula.build]; decide +kernel

/-- C26 fails without index fields: `index_spec<>` makes a service that never calls anything. -/
theorem C26_violated_no_index : ∀ (cbs : List Callback) (e : Msg),
    (handleIndexed [] cbs e).called = [] ∧ (handleIndexed [] cbs e).handled = false := by
  intro cbs e
  have : candidateList [] (build cbs) e = [] := by
    simp [candidateList, candidates, Bits.empty]
  simp [handleIndexed, this]

/-- C26: a case of the hypotheses, with a positive, a negative and a default callback. -/
example :
    let cbs := [Callback.mk 1 (eqF exA 3), ⟨2, neF exA 4⟩, ⟨3, .and (eqF exB 1) (.leaf (.pred 0))⟩]
    (List.range 3).map (candidates [exA, exB] (build cbs) (exMsg2 3 1 true)) = [true, true, true] ∧
    (List.range 3).map (candidates [exA, exB] (build cbs) (exMsg2 4 1 true)) = [false, false, true] ∧
    (List.range 3).map (candidates [exA, exB] (build cbs) (exMsg2 9 2 true)) = [false, true, false] := by
  decide +kernel

/-! ## C25 -/

/-- C25: `handle` returns true exactly when a callback was called, and logs an error exactly when
none was. -/
theorem C25_returns_called (fields : List Field) (cbs : List Callback) (e : Msg) :
    ((handleIndexed fields cbs e).handled = true ↔ (handleIndexed fields cbs e).called ≠ []) ∧
      (handleIndexed fields cbs e).error = !(handleIndexed fields cbs e).handled := by
  refine ⟨?_, rfl⟩
  have : ∀ (cs : List Callback) (o : List Nat × Bool), (o.2 = true ↔ o.1 ≠ []) →
      ((cs.foldl (invoke fields e) o).2 = true ↔ (cs.foldl (invoke fields e) o).1 ≠ []) := by
    intro cs
    induction cs with
    | nil => intro o h; exact h
    | cons c cs ih =>
      intro o h
      refine ih _ ?_
      simp only [invoke, step]
      split <;> simp [h]
  exact this _ _ (by simp)

theorem filter_zipIdx {α : Type} (p : α → Bool) (q : Nat → Bool) (xs : List α) (s : Nat) :
    (((xs.zipIdx s).filter fun x => q x.2).map (·.1)).filter p =
      ((xs.zipIdx s).filter fun x => q x.2 && p x.1).map (·.1) := by
  rw [List.filter_map, List.filter_filter]
  congr 1
  apply List.filter_congr
  intro x _
  simp [Bool.and_comm]

theorem filter_zipIdx_eq {α : Type} (p q : α → Bool) (r : Nat → Bool) (xs : List α) (s : Nat)
    (h : ∀ i x, xs[i]? = some x → (r (s + i) && p x) = q x) :
    ((xs.zipIdx s).filter fun x => r x.2 && p x.1).map (·.1) = xs.filter q := by
  induction xs generalizing s with
  | nil => simp
  | cons x xs ih =>
    have hx := h 0 x (by simp)
    have hr := ih (s + 1) (fun i y hy => by
      have := h (i + 1) y (by simpa using hy)
      rwa [show s + 1 + i = s + (i + 1) by omega])
    simp only [Nat.add_zero] at hx
    simp only [List.zipIdx_cons, List.filter_cons, hx]
    split <;> simp [hr]

/-- A candidate of the index satisfies the tests of the index fields. -/
theorem candidate_terms (fields : List Field)
    (hf : fields ≠ []) (cbs : List Callback)
    (hI : Indexable fields ((build cbs).map (·.matcher))) (e : Msg) (i : Nat) (t : Callback)
    (ht : (build cbs)[i]? = some t) (hcand : candidates fields (build cbs) e i = true) :
    ∀ f ∈ fields, (∀ k, (f, k) ∈ indexTerms t.matcher → k = e.val f) ∧
      (∀ k, (f, k) ∈ indexNotTerms t.matcher → k ≠ e.val f) := by
  have hget : ∀ j : Nat, ∀ u : Callback, (build cbs)[j]? = some u →
      ((build cbs).map (·.matcher))[j]? = some u.matcher := by
    intro j u hu; simp [hu]
  intro f hff
  have hl : (createIndex f (build cbs)).lookup (e.val f) i = true := by
    unfold candidates at hcand
    cases fields with
    | nil => exact absurd rfl hf
    | cons f0 fs => simp only [List.all_eq_true] at hcand; exact hcand f hff
  have hclean : Clean (build cbs).length (walk indexTerms f 0 (build cbs))
      (walk indexNotTerms f 0 (build cbs)) := by
    refine ⟨?_, ?_, ?_, ?_⟩
    · intro j v hv
      obtain ⟨u, _, hu, _⟩ := (mem_walk _ _ _ _ _ _).1 hv
      rcases Nat.lt_or_ge j (build cbs).length with h | h
      · exact h
      · rw [Nat.sub_zero, List.getElem?_eq_none h] at hu; cases hu
    · intro j v w hv hw
      obtain ⟨u, _, hu, hv⟩ := (mem_walk _ _ _ _ _ _).1 hv
      obtain ⟨u', _, hu', hw⟩ := (mem_walk _ _ _ _ _ _).1 hw
      rw [hu] at hu'; cases hu'
      have := hI.oneTerm u.matcher (List.mem_map.2 ⟨u, List.mem_of_getElem? hu, rfl⟩) f hff _
        (indexNotTerms_leaves hv) _ (indexTerms_leaves hw) (by simp [Selects]) (by simp [Selects])
      cases this
    · intro j v w hv hw
      obtain ⟨u, _, hu, hv⟩ := (mem_walk _ _ _ _ _ _).1 hv
      obtain ⟨u', _, hu', hw⟩ := (mem_walk _ _ _ _ _ _).1 hw
      rw [hu] at hu'; cases hu'
      have := hI.oneTerm u.matcher (List.mem_map.2 ⟨u, List.mem_of_getElem? hu, rfl⟩) f hff _
        (indexNotTerms_leaves hv) _ (indexNotTerms_leaves hw) (by simp [Selects]) (by simp [Selects])
      cases this; rfl
    · intro j l v hv hw
      obtain ⟨u, _, hu, hv⟩ := (mem_walk _ _ _ _ _ _).1 hv
      obtain ⟨u', _, hu', hw⟩ := (mem_walk _ _ _ _ _ _).1 hw
      rw [Nat.sub_zero] at hu hu'
      exact hI.distinctNe j l _ _ (hget j u hu) (hget l u' hu') f hff v
        (indexNotTerms_leaves hv) (indexNotTerms_leaves hw)
  have hs := lookup_sound f (build cbs) i (e.val f) hclean (by
    intro k l hk hl'
    obtain ⟨u, _, hu, hk⟩ := (mem_walk _ _ _ _ _ _).1 hk
    obtain ⟨u', _, hu', hl'⟩ := (mem_walk _ _ _ _ _ _).1 hl'
    rw [hu] at hu'; cases hu'
    have := hI.oneTerm u.matcher (List.mem_map.2 ⟨u, List.mem_of_getElem? hu, rfl⟩) f hff _
      (indexTerms_leaves hk) _ (indexTerms_leaves hl') (by simp [Selects]) (by simp [Selects])
    cases this; rfl) hl
  exact ⟨fun k hk => hs.1 k ((mem_walk _ _ _ _ _ _).2 ⟨t, Nat.zero_le _, ht, hk⟩),
    fun k hk => hs.2 k ((mem_walk _ _ _ _ _ _).2 ⟨t, Nat.zero_le _, ht, hk⟩)⟩

/-- A conjunction is a candidate and the rest of it holds exactly when it holds. -/
theorem candidate_exact {G : M RLeaf → Prop} (hG : Sound G) (fields : List Field)
    (hf : fields ≠ []) (cbs : List Callback) (hc : ∀ c ∈ cbs, G c.matcher)
    (hI : Indexable fields ((build cbs).map (·.matcher))) (e : WMsg) (i : Nat) (t : Callback)
    (ht : (build cbs)[i]? = some t) :
    (candidates fields (build cbs) e.1 i && eval revalLeaf (removeTerms fields t.matcher) e.1) =
      t.isMatch e.1 := by
  have hmem : t ∈ build cbs := List.mem_of_getElem? ht
  have hmm : t.matcher ∈ (build cbs).map (·.matcher) := List.mem_map.2 ⟨t, hmem, rfl⟩
  have hp := (build_product cbs t hmem).1
  have hGt : G t.matcher := by
    obtain ⟨c, hcm, hct⟩ := List.mem_flatMap.1 hmem
    exact (hG.separate c (hc c hcm)).1 t hct
  have hrem := (hG.remove fields t.matcher hp (hI.noNot _ hmm) hGt e).2
  rw [Bool.eq_iff_iff, Bool.and_eq_true]
  constructor
  · rintro ⟨hcand, hr⟩
    refine hrem.2 ⟨hr, ?_⟩
    have key := candidate_terms fields hf cbs hI e.1 i t ht hcand
    exact ⟨fun f hff => (key f hff).1, fun f hff => (key f hff).2⟩
  · intro hm
    exact ⟨C26_no_conjunction_missed fields hf cbs e.1 i t ht hm, (hrem.1 hm).1⟩

/-- The outcome of an indexed service over exact conjunctions. -/
theorem handleIndexed_exact {G : M RLeaf → Prop} (hG : Sound G) (fields : List Field)
    (hf : fields ≠ []) (cbs : List Callback) (hc : ∀ c ∈ cbs, G c.matcher)
    (hI : Indexable fields ((build cbs).map (·.matcher))) (e : WMsg) :
    (handleIndexed fields cbs e.1).called =
      ((build cbs).filter (·.isMatch e.1)).map (·.id) := by
  have hfold : ∀ cs : List Callback, cs.foldl (invoke fields e.1) ([], false) =
      ((cs.filter fun c => eval revalLeaf (removeTerms fields c.matcher) e.1).map (·.id),
        cs.any fun c => eval revalLeaf (removeTerms fields c.matcher) e.1) := by
    intro cs
    have : cs.foldl (invoke fields e.1) ([], false) =
        (cs.map fun c => (⟨c.id, removeTerms fields c.matcher⟩ : Callback)).foldl (step e.1)
          ([], false) := by rw [List.foldl_map]; rfl
    rw [this, foldl_step]
    simp [List.filter_map, Function.comp_def, Callback.isMatch]
  simp only [handleIndexed, hfold, candidateList]
  rw [filter_zipIdx (fun c : Callback => eval revalLeaf (removeTerms fields c.matcher) e.1)
    (candidates fields (build cbs) e.1)]
  rw [filter_zipIdx_eq (fun c : Callback => eval revalLeaf (removeTerms fields c.matcher) e.1)
    (fun c => c.isMatch e.1) (candidates fields (build cbs) e.1)]
  intro i t ht
  rw [Nat.zero_add]
  exact candidate_exact hG fields hf cbs hc hI e i t ht

theorem called_iff {G : M RLeaf → Prop} (hG : Sound G) (fields : List Field)
    (hf : fields ≠ []) (cbs : List Callback) (hc : ∀ c ∈ cbs, G c.matcher)
    (hI : Indexable fields ((build cbs).map (·.matcher))) (e : WMsg) (n : Nat) :
    n ∈ (handleIndexed fields cbs e.1).called ↔
      ∃ c ∈ cbs, c.id = n ∧ eval revalLeaf c.matcher e.1 = true := by
  rw [handleIndexed_exact hG fields hf cbs hc hI e]
  simp only [List.mem_map, List.mem_filter]
  constructor
  · rintro ⟨t, ⟨ht, hm⟩, rfl⟩
    obtain ⟨c, hcm, hct⟩ := List.mem_flatMap.1 ht
    refine ⟨c, hcm, (separate_id c t hct).symm, ?_⟩
    have := (hG.separate c (hc c hcm)).2 e
    show c.isMatch e.1 = true
    rw [this]; exact List.any_eq_true.2 ⟨t, hct, hm⟩
  · rintro ⟨c, hcm, rfl, hm⟩
    have := (hG.separate c (hc c hcm)).2 e
    rw [show c.isMatch e.1 = true from hm] at this
    obtain ⟨t, ht, htm⟩ := List.any_eq_true.1 this.symm
    exact ⟨t, ⟨List.mem_flatMap.2 ⟨c, hcm, ht⟩, htm⟩, separate_id c t ht⟩

/-- C25 (partial): an indexed service calls a callback exactly when its matcher accepts, when the
conjunctions of the callbacks are `Indexable` (Spec) and `==`/`!=` tests of one field use one
constant. Missing: see the violations below. -/
theorem C25_exact_one_constant_partial (K : Field → Int) (fields : List Field)
    (hf : fields ≠ []) (cbs : List Callback) (hc : ∀ c ∈ cbs, LS (OneConst K) c.matcher)
    (hI : Indexable fields ((build cbs).map (·.matcher))) (e : WMsg) (n : Nat) :
    n ∈ (handleIndexed fields cbs e.1).called ↔
      ∃ c ∈ cbs, c.id = n ∧ eval revalLeaf c.matcher e.1 = true :=
  called_iff (sound_oneConst K) fields hf cbs hc hI e n

/-- C25 (partial): the same for any constants, without `!=` and negated `==`. -/
theorem C25_exact_positive_partial (fields : List Field)
    (hf : fields ≠ []) (cbs : List Callback) (hc : ∀ c ∈ cbs, PosTree c.matcher)
    (hI : Indexable fields ((build cbs).map (·.matcher))) (e : WMsg) (n : Nat) :
    n ∈ (handleIndexed fields cbs e.1).called ↔
      ∃ c ∈ cbs, c.id = n ∧ eval revalLeaf c.matcher e.1 = true :=
  called_iff sound_posTree fields hf cbs hc hI e n

/-- C25 fails: two callbacks with the same `a != 5`; on a message with `a = 5` the first is
called. -/
theorem C25_violated_same_exclusion : ∃ (cbs : List Callback) (e : WMsg),
    (∀ c ∈ cbs, c.isMatch e.1 = false) ∧ (handleIndexed [exA] cbs e.1).called = [1] :=
  ⟨[⟨1, neF exA 5⟩, ⟨2, neF exA 5⟩],
    ⟨exMsg2 5 0 false, exMsg2_WT (by decide) (by decide)⟩, by decide +kernel, by decide +kernel⟩

/-- C25 fails for a single callback `a != 5 and b in {1, 2}`: it is called with `a = 5, b = 1`. -/
theorem C25_violated_single_callback : ∃ (u : Formula RLeaf) (e : WMsg),
    u.sem rev e = false ∧ (construct 1 (u.build relOps) []).isMatch e.1 = false ∧
      (handleIndexed [exA] [construct 1 (u.build relOps) []] e.1).called = [1] := by
  refine ⟨.conj (.neg (.term (.rel .eq exA 5)))
      (.disj (.term (.rel .eq exB 1)) (.term (.rel .eq exB 2))),
    ⟨exMsg2 5 1 false, exMsg2_WT (by decide) (by decide)⟩, ?_, ?_, ?_⟩
  · simp only [Formula.sem]; decide +kernel
  · simp only [Formula.build]; decide +kernel
  · simp only [Formula.build]; decide +kernel

/-- C25 fails for negated predicates: a callback for `a == 1 and not p` is called exactly when `p`
holds. -/
theorem C25_violated_negated_predicate : ∃ u : Formula RLeaf,
    (∀ p, (construct 1 (u.build relOps) []).isMatch (exMsg2 1 0 p) = !p) ∧
    (∀ p, (handleIndexed [exA] [construct 1 (u.build relOps) []] (exMsg2 1 0 p)).handled = p) := by
  refine ⟨.conj (.term (.rel .eq exA 1)) (.neg (.term (.pred 0))), ?_, ?_⟩
  · simp only [Formula.build]; decide +kernel
  · simp only [Formula.build]; decide +kernel

/-- C25 fails for `not in<a, 1, 2>`: the callback is called with `a = 2`. -/
theorem C25_violated_not_in : ∃ e : WMsg,
    (construct 1 (opNot relOps (inMatcher exA [1, 2])) []).isMatch e.1 = false ∧
      (handleIndexed [exA] [construct 1 (opNot relOps (inMatcher exA [1, 2])) []] e.1).called = [1] :=
  ⟨⟨exMsg2 2 0 false, exMsg2_WT (by decide) (by decide)⟩, by decide +kernel, by decide +kernel⟩

/-- The callbacks of the example below. -/
def exCbs : List Callback := [⟨1, eqF exA 3⟩, ⟨2, neF exA 3⟩, ⟨3, .and (eqF exB 1) (.leaf (.pred 0))⟩,
  ⟨4, .or (eqF exA 3) (.and (.leaf (.rel .lt exB 7)) (.leaf (.pred 1)))⟩]

/-- C25: a case of the hypotheses, and the calls made. -/
example : (∀ c ∈ exCbs, LS (OneConst fun f => if f = exA then 3 else 1) c.matcher) ∧
    Indexable [exA, exB] ((build exCbs).map (·.matcher)) ∧
    (handleIndexed [exA, exB] exCbs (exMsg2 3 1 true)).called = [1, 3, 4, 4] ∧
    (handleIndexed [exA, exB] exCbs (exMsg2 4 8 true)).called = [2] := by
  refine ⟨?_, ?_, by decide +kernel, by decide +kernel⟩
  · intro c hc
    simp only [exCbs, List.mem_cons, List.not_mem_nil, or_false] at hc
    rcases hc with rfl | rfl | rfl | rfl <;> simp [OneConst, exA, exB] <;> decide
  · have hb : (build exCbs).map (·.matcher) = [eqF exA 3, neF exA 3, .and (eqF exB 1) (.leaf (.pred 0)),
      eqF exA 3, .and (.leaf (.rel .lt exB 7)) (.leaf (.pred 1))] := by decide +kernel
    rw [hb]
    refine ⟨?_, ?_, ?_⟩
    · simp [NoNot]
    · simp [leaves, Selects]
    · intro i j s t hi hj f _ v hs ht
      match i, j with
      | 0, _ => simp at hi; subst hi; simp [leaves] at hs
      | 2, _ => simp at hi; subst hi; simp [leaves] at hs
      | 3, _ => simp at hi; subst hi; simp [leaves] at hs
      | 4, _ => simp at hi; subst hi; simp [leaves] at hs
      | n + 5, _ => simp at hi
      | 1, 1 => rfl
      | 1, 0 => simp at hj; subst hj; simp [leaves] at ht
      | 1, 2 => simp at hj; subst hj; simp [leaves] at ht
      | 1, 3 => simp at hj; subst hj; simp [leaves] at ht
      | 1, 4 => simp at hj; subst hj; simp [leaves] at ht
      | 1, n + 5 => simp at hj

/-! ## C67 -/

theorem once {G : M RLeaf → Prop} (hG : Sound G) (fields : List Field)
    (hf : fields ≠ []) (cbs : List Callback) (hc : ∀ c ∈ cbs, G c.matcher)
    (hI : Indexable fields ((build cbs).map (·.matcher))) (e : WMsg)
    (h1 : ∀ c ∈ cbs, ((separate c).filter (·.isMatch e.1)).length ≤ 1) :
    (handleIndexed fields cbs e.1).called = expected cbs e.1 := by
  rw [handleIndexed_exact hG fields hf cbs hc hI e]
  clear hI
  induction cbs with
  | nil => rfl
  | cons c cs ih =>
    have ih := ih (fun d hd => hc d (by simp [hd])) (fun d hd => h1 d (by simp [hd]))
    have hm := (hG.separate c (hc c (by simp))).2 e
    have hl := h1 c (by simp)
    simp only [build, List.flatMap_cons, List.filter_append, List.map_append] at ih ⊢
    rw [ih]
    simp only [expected, List.filter_cons]
    by_cases hcm : eval revalLeaf c.matcher e.1 = true
    · rw [if_pos hcm]
      rw [show c.isMatch e.1 = true from hcm] at hm
      obtain ⟨t, ht, htm⟩ := List.any_eq_true.1 hm.symm
      have : t ∈ (separate c).filter (·.isMatch e.1) := List.mem_filter.2 ⟨ht, htm⟩
      cases hfl : (separate c).filter (·.isMatch e.1) with
      | nil => rw [hfl] at this; simp at this
      | cons x xs =>
        rw [hfl] at this hl
        have hxs : xs = [] := by simpa using hl
        subst hxs
        have : t = x := by simpa using this
        subst this
        simp [separate_id c t ht]
    · rw [if_neg hcm]
      rw [show c.isMatch e.1 = false by simpa [Callback.isMatch] using hcm] at hm
      have : (separate c).filter (·.isMatch e.1) = [] := by
        rw [List.filter_eq_nil_iff]
        intro t ht htm
        rw [List.any_eq_true.2 ⟨t, ht, htm⟩] at hm
        cases hm
      rw [this]; rfl

/-- C67 (partial): under the conditions of C25, if no callback has two alternatives which both accept
the message, an indexed service makes exactly the calls of a plain one, each once and in
registration order. Missing: overlapping alternatives, see `C67_violated`. -/
theorem C67_once_one_constant_partial (K : Field → Int) (fields : List Field)
    (hf : fields ≠ []) (cbs : List Callback) (hc : ∀ c ∈ cbs, LS (OneConst K) c.matcher)
    (hI : Indexable fields ((build cbs).map (·.matcher))) (e : WMsg)
    (h1 : ∀ c ∈ cbs, ((separate c).filter (·.isMatch e.1)).length ≤ 1) :
    (handleIndexed fields cbs e.1).called = expected cbs e.1 :=
  once (sound_oneConst K) fields hf cbs hc hI e h1

theorem C67_once_positive_partial (fields : List Field)
    (hf : fields ≠ []) (cbs : List Callback) (hc : ∀ c ∈ cbs, PosTree c.matcher)
    (hI : Indexable fields ((build cbs).map (·.matcher))) (e : WMsg)
    (h1 : ∀ c ∈ cbs, ((separate c).filter (·.isMatch e.1)).length ≤ 1) :
    (handleIndexed fields cbs e.1).called = expected cbs e.1 :=
  once sound_posTree fields hf cbs hc hI e h1

/-- C67 fails: a callback for `a == 1 or b == 1` is called twice for a message with both. -/
theorem C67_violated : ∃ (u : Formula RLeaf) (e : WMsg),
    (handle [construct 1 (u.build relOps) []] e.1).called = [1] ∧
      (handleIndexed [exA] [construct 1 (u.build relOps) []] e.1).called = [1, 1] := by
  refine ⟨.disj (.term (.rel .eq exA 1)) (.term (.rel .eq exB 1)),
    ⟨exMsg2 1 1 false, exMsg2_WT (by decide) (by decide)⟩, ?_, ?_⟩ <;>
  · simp only [Formula.build]; decide +kernel

example : ((separate (exCbs[3])).filter (·.isMatch (exMsg2 3 9 true))).length ≤ 1 ∧
    (handleIndexed [exA, exB] exCbs (exMsg2 3 9 true)).called = expected exCbs (exMsg2 3 9 true) ∧
    expected exCbs (exMsg2 3 9 true) = [1, 4] := by decide +kernel

/-! ## C68 -/

/-- C68 (partial): `is_match` of an indexed service says yes whenever `handle` would call something.
Missing: the converse, see `C68_violated`. -/
theorem C68_is_match_complete_partial (fields : List Field) (cbs : List Callback) (e : Msg)
    (h : (handleIndexed fields cbs e).handled = true) : isMatchIndexed fields cbs e = true := by
  rw [(C25_returns_called fields cbs e).1] at h
  have hne : candidateList fields (build cbs) e ≠ [] := by
    intro hnil
    apply h
    simp [handleIndexed, hnil]
  obtain ⟨c, hc⟩ := List.exists_mem_of_ne_nil _ hne
  simp only [candidateList, List.mem_map, List.mem_filter] at hc
  obtain ⟨⟨t, i⟩, ⟨hm, hi⟩, rfl⟩ := hc
  simp only [isMatchIndexed, List.any_eq_true, List.mem_range]
  have := List.mem_zipIdx hm
  exact ⟨i, by omega, hi⟩

/-- C68 fails: `is_match` says yes although no callback matches and `handle` calls none. -/
theorem C68_violated : ∃ (cbs : List Callback) (e : WMsg), (∀ c ∈ cbs, c.isMatch e.1 = false) ∧
    isMatchIndexed [exA] cbs e.1 = true ∧ (handleIndexed [exA] cbs e.1).handled = false :=
  ⟨[⟨1, .and (eqF exA 1) (.leaf (.rel .lt exB 3))⟩],
    ⟨exMsg2 1 5 false, exMsg2_WT (by decide) (by decide)⟩, by decide +kernel, by decide +kernel,
    by decide +kernel⟩

end Verif.Handler
