import Verif.Match.More
/-!
# Exactly which implications between comparisons the library answers, and which answers are right
-/
namespace Verif.Match

/-- Adding one to the larger constant leaves the type: a comparison `<` against `<=` the largest
value of a wide type, or `>` the largest value against `>=`; not for the one constant for which the
wrapped sum gives the right answer. -/
def Blind (t : IntTy) (op : RelOp) (x : Int) (op' : RelOp) (y : Int) : Prop :=
  32 ≤ t.bits ∧ ((op = .lt ∧ op' = .le ∧ y = t.hi ∧ (t.signed = true ∨ x ≠ 0)) ∨
    (op = .gt ∧ op' = .ge ∧ x = t.hi ∧ (t.signed = true ∨ y ≠ 0)))

theorem addOne_hi (t : IntTy) (h : 32 ≤ t.bits) :
    addOne t t.hi = if t.signed then none else some 0 := by
  simp only [addOne]
  rw [if_neg (by omega)]
  cases hs : t.signed <;> simp [IntTy.hi, hs]

theorem hi_nonneg (t : IntTy) : -1 ≤ t.hi := by
  simp only [IntTy.hi]
  split
  · have := Int.pow_pos (n := 2) (m := t.bits - 1) (by decide); omega
  · have := Int.pow_pos (n := 2) (m := t.bits) (by decide); omega

/-- C58 exactly: the library answers that one comparison of a field with a constant implies another
if and only if it follows by the order of the integers and neither constant is one that the library
cannot add one to, or both comparisons are `!=`. -/
theorem C58_exact (f : Field) (op op' : RelOp) (x y : Int) (hx : f.ty.InRange x)
    (hy : f.ty.InRange y) :
    implies relOps (.leaf (.rel op f x)) (.leaf (.rel op' f y)) = true ↔
      (op = .ne ∧ op' = .ne) ∨
        ((∀ v : Int, op.app v x = true → op'.app v y = true) ∧ ¬ Blind f.ty op x op' y) := by
  have hone : ∀ z, f.ty.InRange z → (addOne f.ty z = some (z + 1) ∧ ¬ (32 ≤ f.ty.bits ∧ z = f.ty.hi)) ∨
      (32 ≤ f.ty.bits ∧ z = f.ty.hi ∧ f.ty.signed = true ∧ addOne f.ty z = none) ∨
      (32 ≤ f.ty.bits ∧ z = f.ty.hi ∧ f.ty.signed = false ∧ addOne f.ty z = some 0 ∧
        0 ≤ x ∧ 0 ≤ y) := by
    intro z hz
    by_cases hb : 32 ≤ f.ty.bits ∧ z = f.ty.hi
    · obtain ⟨hb, rfl⟩ := hb
      have h1 := addOne_hi f.ty hb
      cases hs : f.ty.signed
      · refine .inr (.inr ⟨hb, rfl, rfl, by simpa [hs] using h1, ?_, ?_⟩)
        · simpa [IntTy.lo, hs] using hx.1
        · simpa [IntTy.lo, hs] using hy.1
      · exact .inr (.inl ⟨hb, rfl, rfl, by simpa [hs] using h1⟩)
    · refine .inl ⟨addOne_usable _ _ hz ?_, hb⟩
      have := hz.2
      omega
  constructor
  · intro h
    by_cases hne : op = .ne ∧ op' = .ne
    · exact .inl hne
    refine .inr ⟨fun v hv => ?_, ?_⟩
    · simp only [implies, impliesL, relOps, if_true] at h
      have hx2 := hx.2
      have hy2 := hy.2
      rcases hone x hx with ⟨ex, _⟩ | ⟨_, _, _, ex⟩ | ⟨_, hxh, _, ex, _, _⟩ <;>
      rcases hone y hy with ⟨ey, _⟩ | ⟨_, _, _, ey⟩ | ⟨_, hyh, _, ey, _, _⟩ <;>
      cases op <;> cases op' <;>
        simp [relImplies, RelOp.app, ex, ey] at h hv hne ⊢ <;> omega
    · rintro ⟨hb, ⟨rfl, rfl, rfl, hs⟩ | ⟨rfl, rfl, rfl, hs⟩⟩
      · simp only [implies, impliesL, relOps, if_true, relImplies, addOne_hi _ hb] at h
        cases hsg : f.ty.signed
        · rw [hsg] at hs h
          have := hx.1
          simp [IntTy.lo, hsg] at hs h this
          omega
        · simp [hsg] at h
      · simp only [implies, impliesL, relOps, if_true, relImplies, addOne_hi _ hb] at h
        cases hsg : f.ty.signed
        · rw [hsg] at hs h
          have := hy.1
          simp [IntTy.lo, hsg] at hs h this
          omega
        · simp [hsg] at h
  · rintro (⟨rfl, rfl⟩ | ⟨h, hb⟩)
    · simp only [implies, impliesL, relOps, if_true, relImplies, RelOp.app]
      by_cases hxy : x = y <;> simp [hxy]
    · have h0 := h x
      have h1 := h (x - 1)
      have h2 := h (x + 1)
      have h3 := h y
      have h4 := h (y + 1)
      have h5 := h (y - 1)
      obtain ⟨M, hM1, hM2⟩ : ∃ M : Int, x < M ∧ y < M := ⟨max x y + 1, by omega, by omega⟩
      obtain ⟨m, hm1, hm2⟩ : ∃ m : Int, m < x ∧ m < y := ⟨min x y - 1, by omega, by omega⟩
      have h6 := h M
      have h7 := h m
      clear h
      simp only [implies, impliesL, relOps, if_true]
      rw [Blind] at hb
      cases op <;> cases op'
      case lt.le =>
        simp only [relImplies, RelOp.app, decide_eq_true_eq] at *
        rcases hone y hy with ⟨ey, _⟩ | ⟨hb2, hyh, hs2, ey⟩ | ⟨hb2, hyh, hs2, ey, _, _⟩
        · simp only [ey, decide_eq_true_eq]; omega
        · exact absurd ⟨hb2, .inl ⟨trivial, trivial, hyh, .inl hs2⟩⟩ hb
        · simp only [ey, decide_eq_true_eq]
          refine Decidable.byContradiction fun hn => hb ⟨hb2, .inl ⟨trivial, trivial, hyh, .inr (by omega)⟩⟩
      case gt.ge =>
        simp only [relImplies, RelOp.app, decide_eq_true_eq] at *
        rcases hone x hx with ⟨ex, _⟩ | ⟨hb2, hxh, hs2, ex⟩ | ⟨hb2, hxh, hs2, ex, _, _⟩
        · simp only [ex, decide_eq_true_eq]; omega
        · exact absurd ⟨hb2, .inr ⟨trivial, trivial, hxh, .inl hs2⟩⟩ hb
        · simp only [ex, decide_eq_true_eq]
          refine Decidable.byContradiction fun hn => hb ⟨hb2, .inr ⟨trivial, trivial, hxh, .inr (by omega)⟩⟩
      all_goals
        clear hb hone
        simp only [relImplies, RelOp.app, Bool.or_eq_true, decide_eq_true_eq] at *
        first | omega | exact h0 trivial

/-- C05 exactly, for two comparisons of one field with constants of its type: the answer of the
library is right unless both are `!=` with different constants. -/
theorem C05_exact (f : Field) (op op' : RelOp) (x y : Int) (hx : f.ty.InRange x)
    (hy : f.ty.InRange y) :
    (implies relOps (.leaf (.rel op f x)) (.leaf (.rel op' f y)) = true →
      ∀ m : WMsg, eval rev (.leaf (.rel op f x)) m = true → eval rev (.leaf (.rel op' f y)) m = true) ↔
      ¬ (op = .ne ∧ op' = .ne ∧ x ≠ y) := by
  constructor
  · rintro h ⟨rfl, rfl, hxy⟩
    obtain ⟨hi, m, h1, h2⟩ := C05_every_ne_pair_wrong f x y hy hxy
    rw [h hi m h1] at h2
    cases h2
  · intro hn hi m hm
    rcases (C58_exact f op op' x y hx hy).1 hi with ⟨rfl, rfl⟩ | ⟨h, _⟩
    · by_cases hxy : x = y
      · exact hxy ▸ hm
      · exact absurd ⟨rfl, rfl, hxy⟩ hn
    · exact h _ hm

/-- All kinds of cases occur: an implication that is answered, one that is missed, one answered
wrongly. -/
example : implies relOps (.leaf (.rel .lt exF 5)) (.leaf (.rel .le exF 4)) = true ∧
    Blind ⟨32, false⟩ .lt 5 .le (2 ^ 32 - 1) ∧ ¬ Blind ⟨32, false⟩ .lt 0 .le (2 ^ 32 - 1) := by
  refine ⟨(C58_exact exF .lt .le 5 4 (by decide) (by decide)).2 (.inr ⟨fun v hv => ?_, ?_⟩), ?_, ?_⟩
  · simp only [RelOp.app, decide_eq_true_eq] at hv ⊢; omega
  · rintro ⟨h, _⟩; revert h; decide
  · exact ⟨by decide, .inl ⟨rfl, rfl, by decide, .inr (by decide)⟩⟩
  · rintro ⟨_, ⟨_, _, _, h | h⟩ | ⟨h, _⟩⟩
    · cases h
    · exact h rfl
    · cases h

end Verif.Match
