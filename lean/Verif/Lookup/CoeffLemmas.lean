import Verif.Lookup.Lemmas

/-!
# Lemmas about the multiplier
-/
namespace Verif.Lookup

variable {W : Nat}

/-- Set bits below `k`. -/
def ones (m : BitVec W) (k : Nat) : Nat := (List.range k).countP m.getLsbD

theorem ones_succ (m : BitVec W) (k : Nat) :
    ones m (k + 1) = ones m k + if m.getLsbD k then 1 else 0 := by
  unfold ones
  rw [List.range_succ, List.countP_append, List.countP_singleton]

theorem ones_le (m : BitVec W) (k : Nat) : ones m k ≤ k := by
  unfold ones
  exact Nat.le_trans List.countP_le_length (by simp)

theorem ones_mono (m : BitVec W) (a b : Nat) : ones m a ≤ ones m (a + b) := by
  induction b with
  | zero => exact Nat.le_refl _
  | succ b ih => rw [← Nat.add_assoc, ones_succ]; omega

theorem ones_add_le (m : BitVec W) (a b : Nat) : ones m (a + b) ≤ ones m a + b := by
  induction b with
  | zero => exact Nat.le_refl _
  | succ b ih =>
    rw [← Nat.add_assoc, ones_succ]
    split <;> omega

theorem leadingZeros_spec (m : BitVec W) (n : Nat) :
    leadingZeros m n ≤ n ∧ ones m n = ones m (n - leadingZeros m n) ∧
      (∀ s < n, m.getLsbD s = true →
        s < n - leadingZeros m n ∧ m.getLsbD (n - leadingZeros m n - 1) = true) := by
  induction n with
  | zero => simp [leadingZeros]
  | succ n ih =>
    rw [leadingZeros]
    by_cases hb : m.getLsbD n = true
    · rw [if_pos hb]
      refine ⟨by omega, rfl, fun s hs _ => ⟨hs, ?_⟩⟩
      simpa using hb
    · rw [if_neg hb]
      obtain ⟨i1, i2, i3⟩ := ih
      have he : n + 1 - (leadingZeros m n + 1) = n - leadingZeros m n := by omega
      rw [he]
      refine ⟨by omega, ?_, ?_⟩
      · rw [ones_succ, if_neg hb, ← i2]
        rfl
      · intro s hs hsb
        have hne : s ≠ n := fun hh => hb (hh ▸ hsb)
        exact i3 s (by omega) hsb

theorem stretches_mem (m : BitVec W) (gap n : Nat) : ∀ src dst prev,
    dst = gap + ones m src → ∀ p ∈ stretches m n src dst prev,
      p.1 = gap + ones m p.2 ∧ m.getLsbD p.2 = true ∧ p.2 < src + n := by
  induction n with
  | zero => intro src dst prev _ p hp; simp [stretches] at hp
  | succ n ih =>
    intro src dst prev hdst p hp
    rw [stretches] at hp
    rcases List.mem_append.1 hp with hp | hp
    · split at hp
      · rename_i hc
        simp at hc
        rw [List.mem_singleton.1 hp]
        exact ⟨hdst, hc.1, by omega⟩
      · simp at hp
    · obtain ⟨h1, h2, h3⟩ := ih (src + 1) _ _ (by rw [ones_succ]; split <;> omega) p hp
      exact ⟨h1, h2, by omega⟩

/-- Each bit set in the multiplier exists, and is not the highest one unless it is bit 0. -/
theorem stretch_bounds (m : BitVec W) (p : Nat × Nat)
    (hp : p ∈ stretches m W 0 (gapBits m) false) :
    p.2 ≤ p.1 ∧ (p.1 - p.2 = 0 ∨ p.1 - p.2 + 2 ≤ W) ∧ p.2 < W := by
  obtain ⟨h1, h2, h3⟩ := stretches_mem m (gapBits m) W 0 (gapBits m) false (by simp [ones]) p hp
  obtain ⟨l1, l2, l3⟩ := leadingZeros_spec m W
  obtain ⟨l4, l5⟩ := l3 p.2 (by omega) h2
  have hg : gapBits m = W - leadingZeros m W - ones m (W - leadingZeros m W) := by
    unfold gapBits clz
    have : popcount m = ones m W := rfl
    omega
  have hTW : W - leadingZeros m W ≤ W := Nat.sub_le _ _
  generalize W - leadingZeros m W = T at *
  have hTle : ones m T ≤ T := ones_le m T
  have hs1 : ones m (p.2 + 1) = ones m p.2 + 1 := by rw [ones_succ, if_pos h2]
  have hT1 : ones m T = ones m (T - 1) + 1 := by
    have : T = T - 1 + 1 := by omega
    rw [this, ones_succ, if_pos]
    · rfl
    · simpa using l5
  have hadd := ones_add_le m p.2 (T - p.2)
  have e1 : p.2 + (T - p.2) = T := by omega
  rw [e1] at hadd
  have hsle := ones_le m p.2
  refine ⟨by omega, ?_, by omega⟩
  by_cases hlast : p.2 = T - 1
  · left
    rw [← hlast] at hT1
    omega
  · right
    have hm := ones_mono m (p.2 + 1) (T - 1 - (p.2 + 1))
    have e2 : p.2 + 1 + (T - 1 - (p.2 + 1)) = T - 1 := by omega
    rw [e2] at hm
    omega

theorem foldl_or_lt (n : Nat) (ps : List (Nat × Nat)) : ∀ c : BitVec W, c.toNat < 2 ^ n →
    (∀ p ∈ ps, p.1 - p.2 < n) →
    (ps.foldl (fun c p => c ||| BitVec.twoPow W (p.1 - p.2)) c).toNat < 2 ^ n := by
  induction ps with
  | nil => intro c h _; exact h
  | cons p ps ih =>
    intro c hc hps
    rw [List.foldl_cons]
    apply ih
    · rw [BitVec.toNat_or]
      apply Nat.or_lt_two_pow hc
      rw [BitVec.toNat_twoPow]
      refine Nat.lt_of_le_of_lt (Nat.mod_le _ _) ?_
      exact Nat.pow_lt_pow_right (by omega) (hps p List.mem_cons_self)
    · exact fun q hq => hps q (List.mem_cons_of_mem _ hq)

theorem coefficient_lt (m : BitVec W) (hW : 2 ≤ W) : (coefficient m).toNat < 2 ^ (W - 1) := by
  unfold coefficient multiplierBits
  apply foldl_or_lt
  · simpa using Nat.two_pow_pos _
  · intro p hp
    obtain ⟨_, h2, _⟩ := stretch_bounds m p hp
    omega

end Verif.Lookup
