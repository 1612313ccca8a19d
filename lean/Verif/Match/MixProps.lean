import Verif.Match.MixLemmas
import Verif.Match.Props
/-!
# C02 and C06 for mixed expressions, and with a repaired rule

`K` says for each field which `==`/`!=` constant it has. `K f = some k`: `== k` and `!= k` may be used
everywhere, other constants not. `K f = none`: `==` with any constants, but not below a `not`, and no
`!=`. Order comparisons (`<`, `<=`, `>`, `>=`) and predicates are free in both cases.
-/
namespace Verif.Match

/-- C02 (partial): expressions in which every field keeps to one of the two rules mean what they say.
Missing: a field with several `==`/`!=` constants of which one is negated (`C02_violated_and`). -/
theorem C02_mixed_partial (K : Field → Option Int) (f : Formula RLeaf) (hf : Mixed K f) (m : WMsg) :
    eval rev (f.build relOps) m = f.sem rev m :=
  (build_mix f hf).2 m

/-- The same field names with another type, used by the example. -/
def exG : Field := ⟨1, ⟨8, true⟩⟩

/-- `(f == 1 or f == 2) and not (g == 5 and f < 3)`: neither of the two older classes has it. -/
def exMixed : Formula RLeaf :=
  .conj (.disj (.term (.rel .eq exF 1)) (.term (.rel .eq exF 2)))
    (.neg (.conj (.term (.rel .eq exG 5)) (.term (.rel .lt exF 3))))

example : Mixed (fun f => if f = exG then some 5 else none) exMixed ∧
    (¬ ∃ K, ∀ a ∈ exMixed.terms, OneConst K a) ∧ ¬ EqPositive exMixed := by
  refine ⟨?_, ?_, ?_⟩
  · refine .conj (.disj (.term ?_) (.term ?_)) (.neg ?_)
    · exact ⟨by decide, .inl (by decide)⟩
    · exact ⟨by decide, .inl (by decide)⟩
    · intro a ha
      simp only [Formula.terms, List.cons_append, List.nil_append, List.mem_cons,
        List.not_mem_nil, or_false] at ha
      rcases ha with rfl | rfl
      · exact ⟨by decide, by decide⟩
      · show IntTy.InRange _ _; decide
  · rintro ⟨K, h⟩
    have h1 := (h (.rel .eq exF 1) (by simp [exMixed, Formula.terms])).2
    have h2 := (h (.rel .eq exF 2) (by simp [exMixed, Formula.terms])).2
    omega
  · intro h
    cases h with
    | conj _ h2 =>
      cases h2 with
      | neg h3 => exact (h3 (.rel .eq exG 5) (by simp [Formula.terms])).2 trivial

/-- The wrong answer about two `!=` tests is the only cause of C02's failures: if that answer is
corrected and nothing else, every expression over all six comparisons and predicates means what it
says. -/
theorem C02_holds_when_repaired (f : Formula RLeaf) (hf : ∀ a ∈ f.terms, a.Typed) (m : WMsg) :
    eval rev (f.build fixedOps) m = f.sem rev m :=
  (build_ok fixedOps_truthful f hf).2 m

/-- C02 (partial): an expression means what it says whenever the wrong answer has no influence on the
matcher that is built. Missing: expressions for which it has. -/
theorem C02_unaffected_partial (f : Formula RLeaf) (hf : ∀ a ∈ f.terms, a.Typed)
    (h : f.build relOps = f.build fixedOps) (m : WMsg) :
    eval rev (f.build relOps) m = f.sem rev m := by
  rw [h]; exact C02_holds_when_repaired f hf m

/-- An expression outside all classes above on which the wrong answer has no influence, and the
repaired rule on the expression of `C02_violated_and`. -/
example : (Formula.conj (.term (.rel .ne exF 5)) (.disj (.term (.rel .ne exF 5))
      (.conj (.term (.rel .eq exF 6)) (.term (.pred 0))))).build relOps =
    (Formula.conj (.term (.rel .ne exF 5)) (.disj (.term (.rel .ne exF 5))
      (.conj (.term (.rel .eq exF 6)) (.term (.pred 0))))).build fixedOps ∧
    (Formula.conj (.term (.rel .ne exF 5)) (.term (.rel .ne exF 6))).build fixedOps =
      .and (.leaf (.rel .ne exF 5)) (.leaf (.rel .ne exF 6)) := by
  simp only [Formula.build]; decide +kernel

/-- C06 (partial) for mixed matchers. Missing: `C06_violated`. -/
theorem C06_mixed_partial (K : Field → Option Int) (a b : M RLeaf) (hA : MixTree K a)
    (hB : MixTree K b) :
    (spaceship relOps a b = .less → ∀ m, eval rev a m = true → eval rev b m = true) ∧
    (spaceship relOps a b = .greater → ∀ m, eval rev b m = true → eval rev a m = true) ∧
    (spaceship relOps a b = .equivalent → ∀ m, eval rev a m = eval rev b m) := by
  have ha := simplify_mix a hA
  have hb := simplify_mix b hB
  have h1 := implies_mix_left ha.1.pos (hb.1.pos.imp fun _ => Or.inl)
  have h2 := implies_mix_left hb.1.pos (ha.1.pos.imp fun _ => Or.inl)
  simp only [ha.2, hb.2] at h1 h2
  simp only [spaceship]
  refine ⟨fun hs => h1 ?_, fun hs => h2 ?_, fun hs e => ?_⟩
  · split at hs <;> simp_all
  · split at hs <;> simp_all
  · have hi : implies relOps (simplify relOps a) (simplify relOps b) = true ∧
        implies relOps (simplify relOps b) (simplify relOps a) = true := by
      split at hs <;> simp_all
    have := h1 hi.1 e; have := h2 hi.2 e
    cases hx : eval rev a e <;> cases hy : eval rev b e <;> simp_all

/-- C06 holds for every pair of matchers when the one answer is corrected. -/
theorem C06_holds_when_repaired (a b : M RLeaf) (hA : LS RLeaf.Typed a) (hB : LS RLeaf.Typed b) :
    (spaceship fixedOps a b = .less → ∀ m, eval rev a m = true → eval rev b m = true) ∧
    (spaceship fixedOps a b = .greater → ∀ m, eval rev b m = true → eval rev a m = true) ∧
    (spaceship fixedOps a b = .equivalent → ∀ m, eval rev a m = eval rev b m) := by
  have h := fixedOps_truthful
  have ha := simplify_ok h a hA
  have hb := simplify_ok h b hB
  have h1 := implies_sound h (simplify fixedOps a) (simplify fixedOps b) ha.1 hb.1
  have h2 := implies_sound h (simplify fixedOps b) (simplify fixedOps a) hb.1 ha.1
  simp only [ha.2, hb.2] at h1 h2
  simp only [spaceship]
  refine ⟨fun hs => h1 ?_, fun hs => h2 ?_, fun hs e => ?_⟩
  · split at hs <;> simp_all
  · split at hs <;> simp_all
  · have hi : implies fixedOps (simplify fixedOps a) (simplify fixedOps b) = true ∧
        implies fixedOps (simplify fixedOps b) (simplify fixedOps a) = true := by
      split at hs <;> simp_all
    have := h1 hi.1 e; have := h2 hi.2 e
    cases hx : eval rev a e <;> cases hy : eval rev b e <;> simp_all

example : MixTree (fun f => if f = exG then some 5 else none)
      (.and (.leaf (.rel .eq exF 3)) (.leaf (.rel .ne exG 5))) ∧
    spaceship relOps (.and (.leaf (.rel .eq exF 3)) (.leaf (.rel .ne exG 5)))
      (.leaf (.rel .lt exF 4)) = .less :=
  ⟨⟨⟨by decide, .inl (by decide)⟩, ⟨by decide, by decide⟩⟩, by decide +kernel⟩

end Verif.Match
