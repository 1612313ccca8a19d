import Verif.Match.OrderProps
import Mathlib.Data.List.Induction
/-! # C180: is a conjunction less than its terms, and a disjunction greater? -/
namespace Verif.Match

set_option linter.unusedSectionVars false
variable {α : Type} [DecidableEq α]

/-- A row of `and` (or of `or`) of single terms. -/
inductive RowOf (f : M α → M α → M α) : M α → Prop
  | leaf (a : α) : RowOf f (.leaf a)
  | snoc {l : M α} (a : α) : RowOf f l → RowOf f (f l (.leaf a))

/-- A constant or a row, and simplified. -/
def Settled (ops : LeafOps α) (f : M α → M α → M α) (m : M α) : Prop :=
  (m = .always ∨ m = .never ∨ RowOf f m) ∧ simplify ops m = m

theorem cost_negate_leaf (ops : LeafOps α) (a : α) : 1 ≤ cost (negate ops (.leaf a)) := by
  rw [negate]; split <;> simp [cost]

theorem cost_negate_and (ops : LeafOps α) {m : M α} (h : RowOf .and m) : cost m ≤ cost (negate ops m) := by
  cases h with
  | leaf a => simpa [cost] using cost_negate_leaf ops a
  | snoc a h => simp [negate, cost]

theorem cost_negate_or (ops : LeafOps α) {m : M α} (h : RowOf .or m) : cost m ≤ cost (negate ops m) := by
  cases h with
  | leaf a => simpa [cost] using cost_negate_leaf ops a
  | snoc a h => simp [negate, cost]

/-- What becomes of one more term. -/
theorem and_step (ops : LeafOps α) {l : M α} (hl : Settled ops .and l) (a : α) :
    (simplifyAnd ops l (.leaf a) = l ∧ implies ops l (.leaf a) = true) ∨
    (simplifyAnd ops l (.leaf a) = .leaf a ∧ implies ops (.leaf a) l = true) ∨
    simplifyAnd ops l (.leaf a) = .never ∨
    (simplifyAnd ops l (.leaf a) = .and l (.leaf a) ∧ RowOf .and l) := by
  by_cases h1 : implies ops l (.leaf a) = true
  · exact .inl ⟨by rw [simplifyAnd, if_pos h1], h1⟩
  by_cases h2 : implies ops (.leaf a) l = true
  · exact .inr (.inl ⟨by rw [simplifyAnd, if_neg h1, if_pos h2], h2⟩)
  by_cases h3 : (implies ops l (negate ops (.leaf a)) || implies ops (.leaf a) (negate ops l)) = true
  · exact .inr (.inr (.inl (by rw [simplifyAnd, if_neg h1, if_neg h2, if_pos h3])))
  have hr : RowOf .and l := by
    rcases hl.1 with rfl | rfl | h
    · exact absurd rfl h2
    · exact absurd rfl h1
    · exact h
  refine .inr (.inr (.inr ⟨?_, hr⟩))
  rw [simplifyAnd, if_neg h1, if_neg h2, if_neg h3, deMorganAnd, if_neg]
  have c1 := cost_negate_and ops hr
  have c2 := cost_negate_leaf ops a
  show ¬ cost (M.not (.or (negate ops l) (negate ops (.leaf a)))) < cost (M.and l (.leaf a))
  simp only [cost]
  omega

theorem or_step (ops : LeafOps α) {l : M α} (hl : Settled ops .or l) (a : α) :
    (simplifyOr ops l (.leaf a) = .leaf a ∧ implies ops l (.leaf a) = true) ∨
    (simplifyOr ops l (.leaf a) = l ∧ implies ops (.leaf a) l = true) ∨
    simplifyOr ops l (.leaf a) = .always ∨
    (simplifyOr ops l (.leaf a) = .or l (.leaf a) ∧ RowOf .or l) := by
  by_cases h1 : implies ops l (.leaf a) = true
  · exact .inl ⟨by rw [simplifyOr, if_pos h1], h1⟩
  by_cases h2 : implies ops (.leaf a) l = true
  · exact .inr (.inl ⟨by rw [simplifyOr, if_neg h1, if_pos h2], h2⟩)
  by_cases h3 : (implies ops (negate ops l) (.leaf a) || implies ops (negate ops (.leaf a)) l) = true
  · exact .inr (.inr (.inl (by rw [simplifyOr, if_neg h1, if_neg h2, if_pos h3])))
  have hr : RowOf .or l := by
    rcases hl.1 with rfl | rfl | h
    · exact absurd rfl h2
    · exact absurd rfl h1
    · exact h
  refine .inr (.inr (.inr ⟨?_, hr⟩))
  rw [simplifyOr, if_neg h1, if_neg h2, if_neg h3, deMorganOr, if_neg]
  have c1 := cost_negate_or ops hr
  have c2 := cost_negate_leaf ops a
  show ¬ cost (M.not (.and (negate ops l) (negate ops (.leaf a)))) < cost (M.or l (.leaf a))
  simp only [cost]
  omega

theorem all_snoc (ops : LeafOps α) (ts : List α) (t : α) :
    all ops ((ts ++ [t]).map .leaf) = simplifyAnd ops (all ops (ts.map .leaf)) (.leaf t) := by
  rw [all, List.map_append, List.foldl_append]
  rfl

theorem any_snoc (ops : LeafOps α) (ts : List α) (t : α) :
    any ops ((ts ++ [t]).map .leaf) = simplifyOr ops (any ops (ts.map .leaf)) (.leaf t) := by
  rw [any, List.map_append, List.foldl_append]
  rfl

theorem all_settled (ops : LeafOps α) (ts : List α) :
    Settled ops .and (all ops (ts.map .leaf)) ∧ ∀ a ∈ leaves (all ops (ts.map .leaf)), a ∈ ts := by
  induction ts using List.reverseRecOn with
  | nil => exact ⟨⟨.inl rfl, rfl⟩, fun a h => by simp [all, simplify, leaves] at h⟩
  | append_singleton ts t ih =>
    obtain ⟨hl, hs⟩ := ih
    rw [all_snoc]
    rcases and_step ops hl t with ⟨e, _⟩ | ⟨e, _⟩ | e | ⟨e, hr⟩ <;> rw [e]
    · exact ⟨hl, fun a h => List.mem_append_left _ (hs a h)⟩
    · exact ⟨⟨.inr (.inr (.leaf t)), rfl⟩, fun a h => by simp [leaves] at h; simp [h]⟩
    · exact ⟨⟨.inr (.inl rfl), rfl⟩, fun a h => by simp [leaves] at h⟩
    · refine ⟨⟨.inr (.inr (.snoc t hr)), ?_⟩, fun a h => ?_⟩
      · rw [simplify, hl.2]
        exact e
      · rw [leaves, List.mem_append] at h
        rcases h with h | h
        · exact List.mem_append_left _ (hs a h)
        · exact List.mem_append_right _ (by simpa [leaves] using h)

theorem any_settled (ops : LeafOps α) (ts : List α) :
    Settled ops .or (any ops (ts.map .leaf)) ∧ ∀ a ∈ leaves (any ops (ts.map .leaf)), a ∈ ts := by
  induction ts using List.reverseRecOn with
  | nil => exact ⟨⟨.inr (.inl rfl), rfl⟩, fun a h => by simp [any, simplify, leaves] at h⟩
  | append_singleton ts t ih =>
    obtain ⟨hl, hs⟩ := ih
    rw [any_snoc]
    rcases or_step ops hl t with ⟨e, _⟩ | ⟨e, _⟩ | e | ⟨e, hr⟩ <;> rw [e]
    · exact ⟨⟨.inr (.inr (.leaf t)), rfl⟩, fun a h => by simp [leaves] at h; simp [h]⟩
    · exact ⟨hl, fun a h => List.mem_append_left _ (hs a h)⟩
    · exact ⟨⟨.inl rfl, rfl⟩, fun a h => by simp [leaves] at h⟩
    · refine ⟨⟨.inr (.inr (.snoc t hr)), ?_⟩, fun a h => ?_⟩
      · rw [simplify, hl.2]
        exact e
      · rw [leaves, List.mem_append] at h
        rcases h with h | h
        · exact List.mem_append_left _ (hs a h)
        · exact List.mem_append_right _ (by simpa [leaves] using h)

theorem implies_never (ops : LeafOps α) (m : M α) : implies ops .never m = true := by
  rw [implies_iff]
  obtain ⟨u, hu⟩ := List.exists_mem_of_ne_nil _ (ors_ne m)
  exact ⟨.never, by simp [ands], u, hu, .inr (.inl rfl)⟩

/-! ## Properties -/

/-- **C180** The conjunction of any number of terms is less than or equivalent to each of them, if the order of the
terms is reflexive and transitive. -/
theorem C180_all (ops : LeafOps α) (ts : List α) (hr : ∀ a ∈ ts, ops.impl a a = true)
    (h : ∀ a ∈ ts, ∀ b ∈ ts, ∀ c ∈ ts, ops.impl a b = true → ops.impl b c = true → ops.impl a c = true) :
    ∀ t ∈ ts, LeqM ops (all ops (ts.map .leaf)) (.leaf t) := by
  intro t ht
  rw [leqM_iff, (all_settled ops ts).1.2, show simplify ops (.leaf t) = .leaf t from rfl]
  induction ts using List.reverseRecOn generalizing t with
  | nil => cases ht
  | append_singleton ts s ih =>
    have hsub : ∀ a ∈ ts, a ∈ ts ++ [s] := fun a ha => List.mem_append_left _ ha
    have ih := ih (fun a ha => hr a (hsub a ha))
      (fun a ha b hb c hc => h a (hsub a ha) b (hsub b hb) c (hsub c hc))
    obtain ⟨hl, hs⟩ := all_settled ops ts
    have hss : implies ops (.leaf s) (.leaf s) = true := by
      simpa [implies, impliesL] using hr s (by simp)
    rw [all_snoc]
    rw [List.mem_append, List.mem_singleton] at ht
    rcases and_step ops hl s with ⟨e, hi⟩ | ⟨e, hi⟩ | e | ⟨e, hrow⟩ <;> rw [e]
    · rcases ht with ht | rfl
      · exact ih t ht
      · exact hi
    · rcases ht with ht | rfl
      · refine implies_trans ops ?_ hi (ih t ht)
        intro a ha b hb c hc
        simp only [leaves, List.mem_singleton] at ha hc
        subst ha
        subst hc
        exact h _ (by simp) b (hsub b (hs b hb)) _ (hsub _ ht)
      · exact hss
    · exact implies_never ops _
    · rw [implies_iff]
      rcases ht with ht | rfl
      · obtain ⟨x, hx, u, hu, hb⟩ := (implies_iff ops _ _).mp (ih t ht)
        exact ⟨x, by simp [ands, hx], u, hu, hb⟩
      · exact ⟨.leaf t, by simp [ands], .leaf t, by simp [ors], .inr (.inr (.inl ⟨t, t, rfl, rfl, hr t (by simp)⟩))⟩

/-- **C180** The disjunction of any number of terms is greater than or equivalent to each of them, if the order of the
terms is reflexive and transitive. -/
theorem C180_any (ops : LeafOps α) (ts : List α) (hr : ∀ a ∈ ts, ops.impl a a = true)
    (h : ∀ a ∈ ts, ∀ b ∈ ts, ∀ c ∈ ts, ops.impl a b = true → ops.impl b c = true → ops.impl a c = true) :
    ∀ t ∈ ts, LeqM ops (.leaf t) (any ops (ts.map .leaf)) := by
  intro t ht
  rw [leqM_iff, (any_settled ops ts).1.2, show simplify ops (.leaf t) = .leaf t from rfl]
  induction ts using List.reverseRecOn generalizing t with
  | nil => cases ht
  | append_singleton ts s ih =>
    have hsub : ∀ a ∈ ts, a ∈ ts ++ [s] := fun a ha => List.mem_append_left _ ha
    have ih := ih (fun a ha => hr a (hsub a ha))
      (fun a ha b hb c hc => h a (hsub a ha) b (hsub b hb) c (hsub c hc))
    obtain ⟨hl, hs⟩ := any_settled ops ts
    have hss : implies ops (.leaf s) (.leaf s) = true := by
      simpa [implies, impliesL] using hr s (by simp)
    rw [any_snoc]
    rw [List.mem_append, List.mem_singleton] at ht
    rcases or_step ops hl s with ⟨e, hi⟩ | ⟨e, hi⟩ | e | ⟨e, hrow⟩ <;> rw [e]
    · rcases ht with ht | rfl
      · refine implies_trans ops ?_ (ih t ht) hi
        intro a ha b hb c hc
        simp only [leaves, List.mem_singleton] at ha hc
        subst ha
        subst hc
        exact h _ (hsub _ ht) b (hsub b (hs b hb)) _ (by simp)
      · exact hss
    · rcases ht with ht | rfl
      · exact ih t ht
      · exact hi
    · rfl
    · rw [implies_iff]
      rcases ht with ht | rfl
      · obtain ⟨x, hx, u, hu, hb⟩ := (implies_iff ops _ _).mp (ih t ht)
        exact ⟨x, hx, u, by simp [ors, hu], hb⟩
      · exact ⟨.leaf t, by simp [ands], .leaf t, by simp [ors], .inr (.inr (.inl ⟨t, t, rfl, rfl, hr t (by simp)⟩))⟩

/-- **C180** for predicates. -/
theorem C180_predicates (ts : List α) (t : α) (ht : t ∈ ts) :
    LeqM (predOps α) (all (predOps α) (ts.map .leaf)) (.leaf t) ∧
      LeqM (predOps α) (.leaf t) (any (predOps α) (ts.map .leaf)) := by
  have h : ∀ a b c : α, (predOps α).impl a b = true → (predOps α).impl b c = true → (predOps α).impl a c = true := by
    intro a b c h1 h2
    simp only [predOps, decide_eq_true_iff] at h1 h2 ⊢
    exact h1.trans h2
  have hr : ∀ a : α, (predOps α).impl a a = true := fun a => by simp [predOps]
  exact ⟨C180_all _ ts (fun a _ => hr a) (fun a _ b _ c _ => h a b c) t ht,
    C180_any _ ts (fun a _ => hr a) (fun a _ b _ c _ => h a b c) t ht⟩

theorem rel_refl (a : RLeaf) : relOps.impl a a = true := by
  cases a with
  | pred i => simp [relOps]
  | rel op f v => cases op <;> simp [relOps, relImplies, RelOp.app]

/-- **C180** for two comparisons of fields or predicates, whatever they are. -/
theorem C180_two (a b : RLeaf) : LeqM relOps (opAnd relOps (.leaf a) (.leaf b)) (.leaf a) ∧
    LeqM relOps (opAnd relOps (.leaf a) (.leaf b)) (.leaf b) ∧
    LeqM relOps (.leaf a) (opOr relOps (.leaf a) (.leaf b)) ∧ LeqM relOps (.leaf b) (opOr relOps (.leaf a) (.leaf b)) := by
  have hself : ∀ x : RLeaf, implies relOps (.leaf x) (.leaf x) = true := fun x => by
    simpa [implies, impliesL] using rel_refl x
  have h1 : Settled relOps .and (.leaf a) := ⟨.inr (.inr (.leaf a)), rfl⟩
  have h2 : Settled relOps .or (.leaf a) := ⟨.inr (.inr (.leaf a)), rfl⟩
  have e1 : opAnd relOps (.leaf a) (.leaf b) = simplifyAnd relOps (.leaf a) (.leaf b) := rfl
  have e2 : opOr relOps (.leaf a) (.leaf b) = simplifyOr relOps (.leaf a) (.leaf b) := rfl
  rw [leqM_iff, leqM_iff, leqM_iff, leqM_iff, e1, e2]
  have k1 : implies relOps (simplify relOps (simplifyAnd relOps (.leaf a) (.leaf b))) (.leaf a) = true ∧
      implies relOps (simplify relOps (simplifyAnd relOps (.leaf a) (.leaf b))) (.leaf b) = true := by
    rcases and_step relOps h1 b with ⟨e, hi⟩ | ⟨e, hi⟩ | e | ⟨e, _⟩ <;> rw [e]
    · exact ⟨hself a, hi⟩
    · exact ⟨hi, hself b⟩
    · exact ⟨rfl, rfl⟩
    · rw [show simplify relOps (.and (.leaf a) (.leaf b)) = simplifyAnd relOps (.leaf a) (.leaf b) from rfl, e]
      have ha := hself a
      have hb := hself b
      simp only [implies, impliesL] at ha hb
      simp [implies, impliesL, ha, hb]
  have k2 : implies relOps (.leaf a) (simplify relOps (simplifyOr relOps (.leaf a) (.leaf b))) = true ∧
      implies relOps (.leaf b) (simplify relOps (simplifyOr relOps (.leaf a) (.leaf b))) = true := by
    rcases or_step relOps h2 b with ⟨e, hi⟩ | ⟨e, hi⟩ | e | ⟨e, _⟩ <;> rw [e]
    · exact ⟨hi, hself b⟩
    · exact ⟨hself a, hi⟩
    · exact ⟨rfl, rfl⟩
    · rw [show simplify relOps (.or (.leaf a) (.leaf b)) = simplifyOr relOps (.leaf a) (.leaf b) from rfl, e]
      have ha := hself a
      have hb := hself b
      simp only [implies, impliesL] at ha hb
      simp [implies, impliesL, ha, hb]
  exact ⟨k1.1, k1.2, k2.1, k2.2⟩

/-- **C180** (part) for any number of comparisons without `!=` and without the largest values of types of 32 bits or
more. -/
theorem C180_fields_partial (ts : List RLeaf) (hp : ∀ x ∈ ts, x.Plain ∧ x.NotNe) (t : RLeaf) (ht : t ∈ ts) :
    LeqM relOps (all relOps (ts.map .leaf)) (.leaf t) ∧ LeqM relOps (.leaf t) (any relOps (ts.map .leaf)) :=
  ⟨C180_all _ ts (fun a _ => rel_refl a) (fun a ha b hb c hc => rel_trans (hp a ha).1 (hp b hb).1 (hp c hc).1 (hp b hb).2) t ht,
    C180_any _ ts (fun a _ => rel_refl a) (fun a ha b hb c hc => rel_trans (hp a ha).1 (hp b hb).1 (hp c hc).1 (hp b hb).2) t ht⟩

/-- **C180** is violated for three comparisons: `X <= 5 and X <= 0xffffffff and X < 3` is unordered with its second
term. -/
theorem C180_violated_fields : spaceship relOps (all relOps [.leaf (.rel .le exWide 5), .leaf (.rel .le exWide 4294967295),
    .leaf (.rel .lt exWide 3)]) (.leaf (.rel .le exWide 4294967295)) = .unordered := by decide +kernel

/-- **C180** is violated for negated predicates: `not p and not q` is unordered with `not p`, because it becomes
`not (p or q)`. -/
theorem C180_violated_negated : spaceship (predOps Nat) (opAnd (predOps Nat) (.not (.leaf 0)) (.not (.leaf 1))) (.not (.leaf 0)) =
    .unordered := by decide +kernel

/-- **C180** is violated for conjunctions of conjunctions: `(p and q) and r` is unordered with `p and q`. -/
theorem C180_violated_nested : spaceship (predOps Nat) (opAnd (predOps Nat) (opAnd (predOps Nat) (.leaf 0) (.leaf 1)) (.leaf 2))
    (opAnd (predOps Nat) (.leaf 0) (.leaf 1)) = .unordered := by decide +kernel

/-- A conjunction of which something is left, and one that is really less. -/
example : all relOps ([RLeaf.rel .lt exWide 5, .pred 1, .rel .lt exWide 3].map .leaf) =
      .and (.and (.leaf (.rel .lt exWide 5)) (.leaf (.pred 1))) (.leaf (.rel .lt exWide 3)) ∧
    spaceship relOps (all relOps ([RLeaf.rel .lt exWide 5, .pred 1, .rel .lt exWide 3].map .leaf)) (.leaf (.pred 1)) = .less := by
  decide +kernel
example : ∀ x ∈ [RLeaf.rel .lt exWide 5, .pred 1, .rel .lt exWide 3], x.Plain ∧ x.NotNe := by
  simp [RLeaf.Plain, RLeaf.NotNe, exWide, IntTy.InRange, IntTy.lo, IntTy.hi]

end Verif.Match
