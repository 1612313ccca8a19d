import Verif.Match.Props
/-! # C179: is the ordering of matchers a partial ordering? -/
namespace Verif.Match

set_option linter.unusedSectionVars false
variable {α : Type} [DecidableEq α]

/-! ## Specification -/

/-- `match/ops.hpp` 32-43: `a <= b` as C++ derives it from `a <=> b`. -/
def LeqM (ops : LeafOps α) (a b : M α) : Prop := spaceship ops a b = .less ∨ spaceship ops a b = .equivalent

/-- `a < b`. -/
def LtM (ops : LeafOps α) (a b : M α) : Prop := spaceship ops a b = .less

/-! ## What `implies` looks at -/

/-- The operands of a row of `and`. -/
def ands : M α → List (M α)
  | .and l r => ands l ++ ands r
  | m => [m]

/-- The operands of a row of `or`. -/
def ors : M α → List (M α)
  | .or l r => ors l ++ ors r
  | m => [m]

/-- One operand implies another. -/
def Base (ops : LeafOps α) (t u : M α) : Prop :=
  u = .always ∨ t = .never ∨ (∃ a b, t = .leaf a ∧ u = .leaf b ∧ ops.impl a b = true) ∨ (∃ m, t = .not m ∧ u = .not m)

theorem impliesL_iff (ops : LeafOps α) (x u : M α) (h1 : u ≠ .always) (h2 : ∀ l r, u ≠ .or l r) :
    impliesL ops x u = true ↔ ∃ t ∈ ands x, Base ops t u := by
  induction x with
  | and l r hl hr =>
    rw [impliesL, Bool.or_eq_true, hl, hr, ands]
    simp only [List.mem_append, or_and_right, exists_or]
  | never => simp [impliesL, ands, Base]
  | always =>
    simp only [impliesL, ands, List.mem_singleton, exists_eq_left, Base, h1, decide_eq_true_iff]
    simp [h1.symm]
  | leaf a => cases u <;> simp_all [impliesL, ands, Base]
  | not m => cases u <;> simp_all [impliesL, ands, Base]
  | or l r =>
    simp only [impliesL, ands, List.mem_singleton, exists_eq_left, Base, h1, decide_eq_true_iff]
    simp [(h2 l r).symm]

theorem ands_ne (x : M α) : ands x ≠ [] := by
  induction x with
  | and l r hl hr => simp [ands, hl]
  | _ => simp [ands]

theorem ors_ne (x : M α) : ors x ≠ [] := by
  induction x with
  | or l r hl hr => simp [ors, hl]
  | _ => simp [ors]

theorem implies_iff (ops : LeafOps α) (x z : M α) :
    implies ops x z = true ↔ ∃ t ∈ ands x, ∃ u ∈ ors z, Base ops t u := by
  induction z with
  | always =>
    obtain ⟨t, ht⟩ := List.exists_mem_of_ne_nil _ (ands_ne x)
    exact ⟨fun _ => ⟨t, ht, .always, by simp [ors], .inl rfl⟩, fun _ => by simp [implies]⟩
  | or l r hl hr =>
    rw [implies, Bool.or_eq_true, Bool.or_eq_true, hl, hr, decide_eq_true_iff]
    constructor
    · rintro (rfl | ⟨t, ht, u, hu, hb⟩ | ⟨t, ht, u, hu, hb⟩)
      · obtain ⟨u, hu⟩ := List.exists_mem_of_ne_nil _ (ors_ne (.or l r))
        exact ⟨.never, by simp [ands], u, hu, .inr (.inl rfl)⟩
      · exact ⟨t, ht, u, by simp [ors, hu], hb⟩
      · exact ⟨t, ht, u, by simp [ors, hu], hb⟩
    · rintro ⟨t, ht, u, hu, hb⟩
      rw [ors, List.mem_append] at hu
      rcases hu with hu | hu
      · exact .inr (.inl ⟨t, ht, u, hu, hb⟩)
      · exact .inr (.inr ⟨t, ht, u, hu, hb⟩)
  | never => simpa [implies, ors] using impliesL_iff ops x .never (by simp) (by simp)
  | leaf a => simpa [implies, ors] using impliesL_iff ops x (.leaf a) (by simp) (by simp)
  | not m => simpa [implies, ors] using impliesL_iff ops x (.not m) (by simp) (by simp)
  | and l r => simpa [implies, ors] using impliesL_iff ops x (.and l r) (by simp) (by simp)

theorem ands_not_and {x t : M α} (h : t ∈ ands x) : ∀ l r, t ≠ .and l r := by
  induction x with
  | and l r hl hr => rw [ands, List.mem_append] at h; exact h.elim hl hr
  | _ => simp [ands] at h; subst h; simp

theorem ors_not_or {x t : M α} (h : t ∈ ors x) : ∀ l r, t ≠ .or l r := by
  induction x with
  | or l r hl hr => rw [ors, List.mem_append] at h; exact h.elim hl hr
  | _ => simp [ors] at h; subst h; simp

theorem leaf_of_ands {x : M α} {a : α} (h : .leaf a ∈ ands x) : a ∈ leaves x := by
  induction x with
  | and l r hl hr =>
    rw [ands, List.mem_append] at h
    rw [leaves, List.mem_append]
    exact h.imp hl hr
  | _ => simp [ands] at h; try (subst h; simp [leaves])

theorem leaf_of_ors {x : M α} {a : α} (h : .leaf a ∈ ors x) : a ∈ leaves x := by
  induction x with
  | or l r hl hr =>
    rw [ors, List.mem_append] at h
    rw [leaves, List.mem_append]
    exact h.imp hl hr
  | _ => simp [ors] at h; try (subst h; simp [leaves])

/-- Implication is transitive if it is for single terms. -/
theorem implies_trans (ops : LeafOps α) {x y z : M α}
    (h : ∀ a ∈ leaves x, ∀ b ∈ leaves y, ∀ c ∈ leaves z, ops.impl a b = true → ops.impl b c = true → ops.impl a c = true)
    (h1 : implies ops x y = true) (h2 : implies ops y z = true) : implies ops x z = true := by
  rw [implies_iff] at h1 h2 ⊢
  obtain ⟨t, ht, u, hu, hb⟩ := h1
  obtain ⟨t', ht', u', hu', hb'⟩ := h2
  refine ⟨t, ht, u', hu', ?_⟩
  have hto := ands_not_and ht
  have huo := ors_not_or hu'
  cases y with
  | and l r =>
    have : u = .and l r := by simpa [ors] using hu
    subst this
    rcases hb with hb | hb | ⟨a, b, _, hb, _⟩ | ⟨m, _, hb⟩
    · cases hb
    · exact .inr (.inl hb)
    · cases hb
    · cases hb
  | or l r =>
    have : t' = .or l r := by simpa [ands] using ht'
    subst this
    rcases hb' with hb | hb | ⟨a, b, hb, _, _⟩ | ⟨m, hb, _⟩
    · exact .inl hb
    · cases hb
    · cases hb
    · cases hb
  | always =>
    have : t' = .always := by simpa [ands] using ht'
    subst this
    rcases hb' with hb | hb | ⟨a, b, hb, _, _⟩ | ⟨m, hb, _⟩
    · exact .inl hb
    · cases hb
    · cases hb
    · cases hb
  | never =>
    have : u = .never := by simpa [ors] using hu
    subst this
    rcases hb with hb | hb | ⟨a, b, _, hb, _⟩ | ⟨m, _, hb⟩
    · cases hb
    · exact .inr (.inl hb)
    · cases hb
    · cases hb
  | leaf b =>
    have e1 : u = .leaf b := by simpa [ors] using hu
    have e2 : t' = .leaf b := by simpa [ands] using ht'
    subst e1
    subst e2
    rcases hb with hb | hb | ⟨a, b', rfl, e, i1⟩ | ⟨m, _, hb⟩
    · cases hb
    · exact .inr (.inl hb)
    · cases e
      rcases hb' with hb | hb | ⟨b', c, e, rfl, i2⟩ | ⟨m, hb, _⟩
      · exact .inl hb
      · cases hb
      · cases e
        exact .inr (.inr (.inl ⟨a, c, rfl, rfl, h a (leaf_of_ands ht) b (by simp [leaves]) c (leaf_of_ors hu') i1 i2⟩))
      · cases hb
    · cases hb
  | not m =>
    have e1 : u = .not m := by simpa [ors] using hu
    have e2 : t' = .not m := by simpa [ands] using ht'
    subst e1
    subst e2
    rcases hb with hb | hb | ⟨a, b', _, e, _⟩ | ⟨k, rfl, e⟩
    · cases hb
    · exact .inr (.inl hb)
    · cases e
    · cases e
      exact hb'

theorem leqM_iff (ops : LeafOps α) (a b : M α) :
    LeqM ops a b ↔ implies ops (simplify ops a) (simplify ops b) = true := by
  simp only [LeqM, spaceship]
  cases implies ops (simplify ops a) (simplify ops b) <;>
    cases implies ops (simplify ops b) (simplify ops a) <;> simp

theorem ltM_iff (ops : LeafOps α) (a b : M α) : LtM ops a b ↔ LeqM ops a b ∧ ¬ LeqM ops b a := by
  rw [leqM_iff, leqM_iff]
  simp only [LtM, spaceship]
  cases implies ops (simplify ops a) (simplify ops b) <;>
    cases implies ops (simplify ops b) (simplify ops a) <;> simp

/-! ## Properties -/

/-- **C179** for matchers whose single terms are ordered transitively. -/
theorem C179_transitive (ops : LeafOps α) (h : ∀ a b c, ops.impl a b = true → ops.impl b c = true → ops.impl a c = true)
    (a b c : M α) : (LeqM ops a b → LeqM ops b c → LeqM ops a c) ∧ (LtM ops a b → LeqM ops b c → LtM ops a c) ∧
      (LeqM ops a b → LtM ops b c → LtM ops a c) := by
  have key : ∀ a b c : M α, LeqM ops a b → LeqM ops b c → LeqM ops a c := by
    intro a b c
    rw [leqM_iff, leqM_iff, leqM_iff]
    exact implies_trans ops fun x _ y _ z _ => h x y z
  refine ⟨key a b c, ?_, ?_⟩
  · rw [ltM_iff, ltM_iff]
    exact fun h1 h2 => ⟨key _ _ _ h1.1 h2, fun h3 => h1.2 (key _ _ _ h2 h3)⟩
  · rw [ltM_iff, ltM_iff]
    exact fun h1 h2 => ⟨key _ _ _ h1 h2.1, fun h3 => h2.2 (key _ _ _ h3 h1)⟩

/-- **C179** for predicates. -/
theorem C179_predicates (a b c : M α) : (LeqM (predOps α) a b → LeqM (predOps α) b c → LeqM (predOps α) a c) ∧
    (LtM (predOps α) a b → LeqM (predOps α) b c → LtM (predOps α) a c) ∧
      (LeqM (predOps α) a b → LtM (predOps α) b c → LtM (predOps α) a c) :=
  C179_transitive _ (fun a b c h1 h2 => by
    simp only [predOps, decide_eq_true_iff] at h1 h2 ⊢
    exact h1.trans h2) a b c

/-- A comparison with a constant of its type that is not the largest value of a type of 32 bits or more. -/
def RLeaf.Plain : RLeaf → Prop
  | .rel _ f v => f.ty.InRange v ∧ (f.ty.bits < 32 ∨ v < f.ty.hi)
  | .pred _ => True

/-- Not a `!=`. -/
def RLeaf.NotNe : RLeaf → Prop
  | .rel op _ _ => op ≠ .ne
  | .pred _ => True

theorem addOne_plain {t : IntTy} {v : Int} (h : t.InRange v) (h2 : t.bits < 32 ∨ v < t.hi) : addOne t v = some (v + 1) := by
  rw [addOne]
  split
  · rfl
  · have hv : v < t.hi := h2.resolve_left (by assumption)
    split
    · rw [if_neg (by omega)]
    · next h3 =>
      have h3 : t.signed = false := by simpa using h3
      simp only [IntTy.InRange, IntTy.lo, IntTy.hi, h3, Bool.false_eq_true, if_false] at h hv
      rw [Int.emod_eq_of_lt (by omega) (by omega)]

theorem rel_trans {a b c : RLeaf} (ha : a.Plain) (hb : b.Plain) (hc : c.Plain) (hn : b.NotNe)
    (h1 : relOps.impl a b = true) (h2 : relOps.impl b c = true) : relOps.impl a c = true := by
  cases a with
  | pred i =>
    cases b with
    | pred j =>
      cases c with
      | pred k => simp only [relOps, decide_eq_true_iff] at *; exact h1.trans h2
      | rel op f v => simp [relOps] at h2
    | rel op f v => simp [relOps] at h1
  | rel op f x =>
    cases b with
    | pred j => simp [relOps] at h1
    | rel op' g y =>
      cases c with
      | pred k => simp [relOps] at h2
      | rel op'' k z =>
        by_cases e1 : f = g
        · by_cases e2 : g = k
          · subst e1
            subst e2
            have a1 := addOne_plain ha.1 ha.2
            have a2 := addOne_plain hb.1 hb.2
            have a3 := addOne_plain hc.1 hc.2
            have hn : op' ≠ .ne := hn
            simp only [relOps, if_true] at h1 h2 ⊢
            cases op <;> cases op' <;> first | exact absurd rfl hn | skip
            all_goals
              cases op'' <;> simp only [relImplies, a1, a2, a3, RelOp.app, Bool.or_eq_true, decide_eq_true_iff,
                Bool.false_eq_true] at h1 h2 ⊢ <;> omega
          · simp [relOps, e2] at h2
        · simp [relOps, e1] at h1

/-- **C179** (part) for matchers that simplify to ones with constants that are not the largest value of a type of 32 bits
or more, and where the one in the middle has no `!=`. -/
theorem C179_fields_partial (a b c : M RLeaf) (ha : ∀ x ∈ leaves (simplify relOps a), x.Plain)
    (hb : ∀ x ∈ leaves (simplify relOps b), x.Plain ∧ x.NotNe) (hc : ∀ x ∈ leaves (simplify relOps c), x.Plain)
    (h1 : LeqM relOps a b) (h2 : LeqM relOps b c) : LeqM relOps a c := by
  rw [leqM_iff] at *
  exact implies_trans relOps (fun x hx y hy z hz => rel_trans (ha x hx) (hb y hy).1 (hc z hz) (hb y hy).2) h1 h2

/-- A field of 32 bits. -/
def exWide : Field := ⟨0, ⟨32, false⟩⟩

/-- **C179** is violated for fields of 32 bits: `X < 3` is less than `X <= 5`, which is less than `X <= 0xffffffff`, but
the first and the last are unordered. -/
theorem C179_violated_largest : spaceship relOps (.leaf (.rel .lt exWide 3)) (.leaf (.rel .le exWide 5)) = .less ∧
    spaceship relOps (.leaf (.rel .le exWide 5)) (.leaf (.rel .le exWide 4294967295)) = .less ∧
    spaceship relOps (.leaf (.rel .lt exWide 3)) (.leaf (.rel .le exWide 4294967295)) = .unordered := by decide +kernel

/-- **C179** is violated by `!=`: `X == 5` is less than `X != 7`, which is equivalent to `X != 5`. -/
theorem C179_violated_ne : spaceship relOps (.leaf (.rel .eq exWide 5)) (.leaf (.rel .ne exWide 7)) = .less ∧
    spaceship relOps (.leaf (.rel .ne exWide 7)) (.leaf (.rel .ne exWide 5)) = .equivalent ∧
    spaceship relOps (.leaf (.rel .eq exWide 5)) (.leaf (.rel .ne exWide 5)) = .unordered := by decide +kernel

/-- Three matchers with several terms. -/
example : LeqM (predOps Nat) (.and (.leaf 1) (.leaf 2)) (.leaf 1) ∧ LeqM (predOps Nat) (.leaf 1) (.or (.leaf 3) (.leaf 1)) := by
  unfold LeqM; decide +kernel
example : LeqM relOps (.and (.leaf (.rel .lt exWide 3)) (.leaf (.pred 1))) (.leaf (.rel .le exWide 5)) ∧
    LeqM relOps (.leaf (.rel .le exWide 5)) (.or (.leaf (.rel .lt exWide 9)) (.leaf (.pred 2))) := by
  unfold LeqM; decide +kernel

end Verif.Match
