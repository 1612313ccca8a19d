import Verif.Match.Props
/-!
# C58: implications between two comparisons are recognised
-/
namespace Verif.Match

/-- C58 is violated: every 32-bit unsigned value below 5 is at most 2^32 - 1, but the library does
not know (`Y + 1` wraps to zero). -/
theorem C58_violated : ∃ (f : Field) (x y : Int), f.ty.InRange x ∧ f.ty.InRange y ∧
    (∀ v, RelOp.lt.app v x = true → RelOp.le.app v y = true) ∧
    implies relOps (.leaf (.rel .lt f x)) (.leaf (.rel .le f y)) = false := by
  refine ⟨⟨0, ⟨32, false⟩⟩, 5, 2 ^ 32 - 1, by decide, by decide, fun v h => ?_, by decide +kernel⟩
  simp only [RelOp.app, decide_eq_true_eq] at h ⊢
  omega

/-- C58 is violated in a second way: for a signed 32-bit field the same question does not compile
(signed overflow in a constant expression), so `f < 5 and f <= max` is rejected. -/
theorem C58_violated_signed : ∃ t : IntTy, addOne t t.hi = none := ⟨⟨32, true⟩, by decide⟩

theorem addOne_below (t : IntTy) (y : Int) (hy : t.InRange y) (h : y < t.hi) :
    addOne t y = some (y + 1) := by
  simp only [addOne]
  split
  · rfl
  · split
    · rw [if_neg (by omega)]
    · next hs =>
      have hs : t.signed = false := by simpa using hs
      simp only [IntTy.InRange, IntTy.lo, IntTy.hi, hs] at hy h
      rw [Int.emod_eq_of_lt (by simp at hy; omega) (by simp at h; omega)]

/-- What `addOne` has to give for the comparisons with `z` to be understood. -/
theorem addOne_usable (t : IntTy) (z : Int) (hz : t.InRange z) (h : t.bits < 32 ∨ z < t.hi) :
    addOne t z = some (z + 1) := by
  rcases h with h | h
  · simp [addOne, h]
  · exact addOne_below t z hz h

/-- C58 (partial): when one comparison follows from another by the order of the integers alone, the
library knows it, for fields of fewer than 32 bits and any constants, and for wider fields when
neither constant is the largest value of the type. Missing: that largest value of wide types
(`C58_violated`, `C58_violated_signed`), and implications that hold only because the type is
bounded (`C58_bounds_unused`). -/
theorem C58_implies_complete_partial (f : Field) (op op' : RelOp) (x y : Int)
    (hx : f.ty.InRange x) (hy : f.ty.InRange y)
    (hm : f.ty.bits < 32 ∨ (x < f.ty.hi ∧ y < f.ty.hi))
    (h : ∀ v : Int, op.app v x = true → op'.app v y = true) :
    implies relOps (.leaf (.rel op f x)) (.leaf (.rel op' f y)) = true := by
  have h0 := h x
  have h1 := h (x - 1)
  have h2 := h (x + 1)
  have h3 := h y
  have h4 := h (y + 1)
  have h5 := h (y - 1)
  obtain ⟨M, hM1, hM2⟩ : ∃ M : Int, x < M ∧ y < M := ⟨max x y + 1, by omega, by omega⟩
  obtain ⟨m, hm1, hm2⟩ : ∃ m : Int, m < x ∧ m < y := ⟨min x y - 1, by omega, by omega⟩
  have h6 := h M
  have h7 := h m
  simp only [implies, impliesL, relOps, if_true]
  have ex := addOne_usable f.ty x hx (hm.imp id (·.1))
  have ey := addOne_usable f.ty y hy (hm.imp id (·.2))
  clear hm
  cases op <;> cases op' <;>
    simp only [relImplies, RelOp.app, ex, ey, Bool.or_eq_true, decide_eq_true_eq] at * <;>
    first | omega | exact h0 trivial

/-- C58 (narrow fields, both directions of the largest value): a value below 5 is at most 255. -/
example : implies relOps (.leaf (.rel .lt exF 5)) (.leaf (.rel .le exF exF.ty.hi)) = true :=
  C58_implies_complete_partial exF .lt .le 5 exF.ty.hi (by decide) (by decide) (.inl (by decide))
    (by intro v; simp only [RelOp.app, decide_eq_true_eq]; intro h
        have : (exF.ty.hi : Int) = 255 := by decide
        omega)

/-- The library does not use the bounds of the type: every 8-bit unsigned value above 3 is at most
255, but this is not recognised. -/
theorem C58_bounds_unused : ∃ (f : Field) (x y : Int), f.ty.InRange x ∧ f.ty.InRange y ∧
    (∀ v, f.ty.InRange v → RelOp.gt.app v x = true → RelOp.le.app v y = true) ∧
    implies relOps (.leaf (.rel .gt f x)) (.leaf (.rel .le f y)) = false := by
  refine ⟨⟨0, ⟨8, false⟩⟩, 3, 255, by decide, by decide, fun v hv _ => ?_, by decide +kernel⟩
  have h2 : v ≤ 255 := hv.2
  simp only [RelOp.app, decide_eq_true_eq]
  omega

example : implies relOps (.leaf (.rel .lt exF 5)) (.leaf (.rel .ne exF 5)) = true :=
  C58_implies_complete_partial exF .lt .ne 5 5 (by decide) (by decide) (.inr (by decide))
    (by intro v; simp only [RelOp.app, decide_eq_true_eq]; omega)

end Verif.Match
