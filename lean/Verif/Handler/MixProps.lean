import Verif.Handler.Props
import Verif.Match.MixProps
/-!
# Callbacks and indexed services for mixed matchers

The statements of C24, C25, C26 and C67 for matchers in which each field either has one `==`/`!=`
constant or is used without `!=` and negated `==` (`Mixed`, `MixTree` in `Verif.Match.MixLemmas`).
-/
namespace Verif.Handler
open Verif.Match

theorem sound_mix (K : Field → Option Int) : Sound (MixTree K) where
  simp m h := simplify_mix m h
  sop m h := sop_pres relOps (MixTree K) (fun _ _ => Iff.rfl) (fun _ _ => Iff.rfl)
    (fun a b h => by
      simp only [MixTree, LS_and] at h
      exact ⟨.of_any (LS_negate (mixAny_truthful K).toNegTruthful h.1),
        .of_any (LS_negate (mixAny_truthful K).toNegTruthful h.2)⟩)
    (fun a b h => by
      simp only [MixTree, LS_or] at h
      exact ⟨.of_any (LS_negate (mixAny_truthful K).toNegTruthful h.1),
        .of_any (LS_negate (mixAny_truthful K).toNegTruthful h.2)⟩) m h
  and l r := Iff.rfl
  or l r := Iff.rfl
  always := trivial
  leafPred p := trivial

/-- C24 (partial): a callback for matcher `u` on a message whose fields have matchers `fs` accepts
exactly the messages that `u` and all of `fs` accept. Missing: `C24_violated`. -/
theorem C24_conjunction_mixed_partial (K : Field → Option Int) (id : Nat) (u : Formula RLeaf)
    (fs : List (Formula RLeaf)) (hu : Mixed K u) (hf : ∀ f ∈ fs, Mixed K f) (e : WMsg) :
    (construct id (u.build relOps) (fs.map (·.build relOps))).isMatch e.1 =
      (u.sem rev e && fs.all (fun f => f.sem rev e)) := by
  rw [construct_isMatch, ← conj_all_sem, ← eval_rev]
  exact C02_mixed_partial K _ (.conj hu (.all hf)) e

/-- C24 (partial): the same for a callback without a matcher of its own. -/
theorem C24_plain_mixed_partial (K : Field → Option Int) (id : Nat) (fs : List (Formula RLeaf))
    (hf : ∀ f ∈ fs, Mixed K f) (e : WMsg) :
    (constructPlain id (fs.map (·.build relOps))).isMatch e.1 = fs.all (fun f => f.sem rev e) := by
  have h := C02_mixed_partial K (.all fs) (.all hf) e
  rw [eval_rev] at h
  simp only [Formula.build, Formula.sem] at h
  simp only [Callback.isMatch, constructPlain]
  simpa using h

/-- C24 (partial): the same for a callback made conditional. -/
theorem C24_conditional_mixed_partial (K : Field → Option Int) (p : Nat) (c : Callback)
    (hc : MixTree K c.matcher) (e : WMsg) :
    (makeConditional p c).isMatch e.1 = (c.isMatch e.1 && e.1.pred p) := by
  have h := (simplify_mix (.and c.matcher (.leaf (.pred p))) ⟨hc, trivial⟩).2 e
  rw [eval_rev, eval_rev] at h
  simp only [Callback.isMatch, makeConditional, C03_sum_of_products_relational, opAnd, h, eval,
    revalLeaf]

/-- The matcher of a callback made from a mixed expression is mixed again, so that the statements
below apply to callbacks as users make them. -/
theorem construct_mix (K : Field → Option Int) (id : Nat) (u : Formula RLeaf)
    (fs : List (Formula RLeaf)) (hu : Mixed K u) (hf : ∀ f ∈ fs, Mixed K f) :
    MixTree K (construct id (u.build relOps) (fs.map (·.build relOps))).matcher := by
  have h := (build_mix _ (Mixed.conj hu (.all hf))).1
  simp only [Formula.build] at h
  refine (sound_mix K).sop _ ?_
  simpa using h

/-- C26 (partial): a callback whose matcher accepts the message is among the candidates. Missing:
`C26_violated`. -/
theorem C26_callback_mixed_partial (K : Field → Option Int) (fields : List Field)
    (hf : fields ≠ []) (cbs : List Callback) (e : WMsg) (c : Callback) (hc : c ∈ cbs)
    (hK : MixTree K c.matcher) (hm : eval revalLeaf c.matcher e.1 = true) :
    ∃ i t, (build cbs)[i]? = some t ∧ t.id = c.id ∧
      candidates fields (build cbs) e.1 i = true :=
  callback_candidate (sound_mix K) fields hf cbs e c hc hK hm

/-- C25 (partial): an indexed service calls a callback exactly when its matcher accepts, when the
conjunctions of the callbacks are `Indexable` (Spec). Missing: the violations of C25. -/
theorem C25_exact_mixed_partial (K : Field → Option Int) (fields : List Field)
    (hf : fields ≠ []) (cbs : List Callback) (hc : ∀ c ∈ cbs, MixTree K c.matcher)
    (hI : Indexable fields ((build cbs).map (·.matcher))) (e : WMsg) (n : Nat) :
    n ∈ (handleIndexed fields cbs e.1).called ↔
      ∃ c ∈ cbs, c.id = n ∧ eval revalLeaf c.matcher e.1 = true :=
  called_iff (sound_mix K) fields hf cbs hc hI e n

/-- C67 (partial): if moreover no callback has two alternatives which both accept the message, an
indexed service makes exactly the calls of a plain one, each once and in registration order.
Missing: overlapping alternatives, `C67_violated`. -/
theorem C67_once_mixed_partial (K : Field → Option Int) (fields : List Field)
    (hf : fields ≠ []) (cbs : List Callback) (hc : ∀ c ∈ cbs, MixTree K c.matcher)
    (hI : Indexable fields ((build cbs).map (·.matcher))) (e : WMsg)
    (h1 : ∀ c ∈ cbs, ((separate c).filter (·.isMatch e.1)).length ≤ 1) :
    (handleIndexed fields cbs e.1).called = expected cbs e.1 :=
  once (sound_mix K) fields hf cbs hc hI e h1

/-- `(a == 1 or a == 2) and b < 7`, and a second callback `b != 7`. -/
def exMix : List Callback :=
  [construct 1 ((Formula.conj (.disj (.term (.rel .eq exA 1)) (.term (.rel .eq exA 2)))
      (.term (.rel .lt exB 7))).build relOps) [],
   construct 2 ((Formula.term (.rel .ne exB 7)).build relOps) []]

/-- The constants of that example. -/
def exMixK : Field → Option Int := fun f => if f = exB then some 7 else none

example : (∀ c ∈ exMix, MixTree exMixK c.matcher) ∧
    Indexable [exA, exB] ((build exMix).map (·.matcher)) ∧
    (handleIndexed [exA, exB] exMix (exMsg2 2 3 false)).called = [1, 2] ∧
    (handleIndexed [exA, exB] exMix (exMsg2 2 7 false)).called = [] ∧
    (handleIndexed [exA, exB] exMix (exMsg2 3 3 false)).called = [2] := by
  refine ⟨?_, ?_, ?_, ?_, ?_⟩
  · intro c hc
    simp only [exMix, List.mem_cons, List.not_mem_nil, or_false] at hc
    rcases hc with rfl | rfl
    · refine construct_mix exMixK 1 _ [] (.conj (.disj (.term ?_) (.term ?_)) (.term ?_)) (by simp)
      · exact ⟨by decide, .inl (by decide)⟩
      · exact ⟨by decide, .inl (by decide)⟩
      · show IntTy.InRange _ _; decide
    · exact construct_mix exMixK 2 _ [] (.term ⟨by decide, by decide⟩) (by simp)
  · have hb : (build exMix).map (·.matcher) = [.and (eqF exA 1) (.leaf (.rel .lt exB 7)),
        .and (eqF exA 2) (.leaf (.rel .lt exB 7)), neF exB 7] := by
      simp only [exMix, Formula.build]; decide +kernel
    rw [hb]
    refine ⟨by simp [NoNot], by simp [leaves, Selects], ?_⟩
    intro i j s t hi hj f _ v hs ht
    match i, j with
    | 0, _ => simp at hi; subst hi; simp [leaves] at hs
    | 1, _ => simp at hi; subst hi; simp [leaves] at hs
    | n + 3, _ => simp at hi
    | 2, 2 => rfl
    | 2, 0 => simp at hj; subst hj; simp [leaves] at ht
    | 2, 1 => simp at hj; subst hj; simp [leaves] at ht
    | 2, n + 3 => simp at hj
  all_goals simp only [exMix, Formula.build]; decide +kernel

end Verif.Handler
