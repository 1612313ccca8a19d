import Verif.Lookup.Spec
import Mathlib.Data.List.Basic
import Mathlib.Data.List.Count
import Mathlib.Data.List.Nodup

/-!
# Lemmas about sorting, counting and masks
-/
namespace Verif.Lookup

/-! ## Sorting integers -/

theorem ins_perm (x : Nat) (l : List Nat) : (ins x l).Perm (x :: l) := by
  induction l with
  | nil => exact List.Perm.refl _
  | cons y ys ih =>
    unfold ins
    split
    · exact List.Perm.refl _
    · exact (List.Perm.cons y ih).trans (List.Perm.swap x y ys)

theorem sortNat_perm (l : List Nat) : (sortNat l).Perm l := by
  induction l with
  | nil => exact List.Perm.refl _
  | cons x xs ih => exact (ins_perm x _).trans (List.Perm.cons x ih)

theorem ins_sorted (x : Nat) (l : List Nat) (h : l.Pairwise (· ≤ ·)) :
    (ins x l).Pairwise (· ≤ ·) := by
  induction l with
  | nil => simp [ins]
  | cons y ys ih =>
    rw [List.pairwise_cons] at h
    unfold ins
    split
    · rename_i hxy
      rw [List.pairwise_cons, List.pairwise_cons]
      refine ⟨?_, h⟩
      intro z hz
      rcases List.mem_cons.1 hz with rfl | hz
      · exact hxy
      · exact Nat.le_trans hxy (h.1 z hz)
    · rename_i hxy
      rw [List.pairwise_cons]
      refine ⟨?_, ih h.2⟩
      intro z hz
      rcases List.mem_cons.1 ((ins_perm x ys).mem_iff.1 hz) with rfl | hz
      · omega
      · exact h.1 z hz

theorem sortNat_sorted (l : List Nat) : (sortNat l).Pairwise (· ≤ ·) := by
  induction l with
  | nil => simp [sortNat]
  | cons x xs ih => exact ins_sorted x _ ih

theorem adjacent_zero (l : List Nat) (h : l.Pairwise (· ≤ ·)) : adjacent l = 0 ↔ l.Nodup := by
  induction l with
  | nil => simp [adjacent]
  | cons x xs ih =>
    rw [List.pairwise_cons] at h
    cases xs with
    | nil => simp [adjacent]
    | cons y r =>
      rw [adjacent, Nat.add_eq_zero_iff, ih h.2, List.nodup_cons (a := x)]
      have h2 := h.2
      rw [List.pairwise_cons] at h2
      constructor
      · rintro ⟨hxy, hn⟩
        refine ⟨?_, hn⟩
        intro hm
        have hne : x ≠ y := by
          intro he
          simp [he] at hxy
        have := h.1 y List.mem_cons_self
        rcases List.mem_cons.1 hm with rfl | hm
        · exact hne rfl
        · have := h2.1 x hm
          omega
      · rintro ⟨hm, hn⟩
        refine ⟨?_, hn⟩
        have : x ≠ y := by
          rintro rfl
          exact hm List.mem_cons_self
        simp [this]

theorem keysAreUnique_iff (l : List Nat) : keysAreUnique l = true ↔ l.Nodup := by
  unfold keysAreUnique countDuplicates
  rw [beq_iff_eq, adjacent_zero _ (sortNat_sorted l)]
  exact (sortNat_perm l).nodup_iff

/-! ## The longest run -/

theorem runGo_spec (l : List Nat) : ∀ longest current prev,
    current ≤ longest → (prev :: l).Pairwise (· ≤ ·) →
    longest ≤ runGo longest current prev l ∧
    (∀ v, v ≠ prev → l.count v ≤ runGo longest current prev l + 1) ∧
    current + l.count prev ≤ runGo longest current prev l ∧
    (runGo longest current prev l = longest ∨
      runGo longest current prev l = current + l.count prev ∨
      ∃ v, v ≠ prev ∧ v ∈ l ∧ l.count v = runGo longest current prev l + 1) := by
  induction l with
  | nil =>
    intro longest current prev hc _
    simp [runGo, hc]
  | cons c r ih =>
    intro longest current prev hc hs
    have hs2 : (c :: r).Pairwise (· ≤ ·) := (List.pairwise_cons.1 hs).2
    rw [runGo]
    by_cases he : c = prev
    · subst he
      simp only [if_true, ne_eq, not_true_eq_false, if_false]
      obtain ⟨i1, i2, i3, i4⟩ := ih (max longest (current + 1)) (current + 1) c (by omega) hs2
      refine ⟨by omega, ?_, ?_, ?_⟩
      · intro v hv
        rw [List.count_cons_of_ne (Ne.symm hv)]
        exact i2 v hv
      · rw [List.count_cons_self]
        omega
      · rw [List.count_cons_self]
        rcases i4 with i4 | i4 | ⟨v, h1, h2, h3⟩
        · by_cases hl : longest ≤ current
          · right; left; omega
          · left; omega
        · right; left; omega
        · refine Or.inr (Or.inr ⟨v, h1, List.mem_cons_of_mem _ h2, ?_⟩)
          rw [List.count_cons_of_ne (Ne.symm h1)]
          exact h3
    · have hlt : prev < c := by
        have := (List.pairwise_cons.1 hs).1 c List.mem_cons_self
        omega
      have hnot : prev ∉ r := by
        intro hm
        have := (List.pairwise_cons.1 hs2).1 prev hm
        omega
      simp only [ne_eq, he, not_false_eq_true, if_true, if_false]
      have hmax : max longest current = longest := by omega
      rw [hmax]
      obtain ⟨i1, i2, i3, i4⟩ := ih longest 0 c (by omega) hs2
      refine ⟨i1, ?_, ?_, ?_⟩
      · intro v hv
        by_cases hvc : v = c
        · subst hvc
          rw [List.count_cons_self]
          omega
        · rw [List.count_cons_of_ne (Ne.symm hvc)]
          exact i2 v hvc
      · rw [List.count_cons_of_ne he, List.count_eq_zero.2 hnot]
        omega
      · rcases i4 with i4 | i4 | ⟨v, h1, h2, h3⟩
        · exact Or.inl i4
        · refine Or.inr (Or.inr ⟨c, he, List.mem_cons_self, ?_⟩)
          rw [List.count_cons_self]
          omega
        · refine Or.inr (Or.inr ⟨v, ?_, List.mem_cons_of_mem _ h2, ?_⟩)
          · rintro rfl
            exact hnot h2
          · rw [List.count_cons_of_ne (Ne.symm h1)]
            exact h3

theorem count_le_run (l : List Nat) (v : Nat) : l.count v ≤ countLongestRun l + 1 := by
  unfold countLongestRun
  have hp := sortNat_perm l
  have hs := sortNat_sorted l
  rw [← hp.count_eq]
  cases h : sortNat l with
  | nil => simp
  | cons k ks =>
    rw [h] at hs
    obtain ⟨i1, i2, i3, i4⟩ := runGo_spec ks 0 0 k (by omega) hs
    by_cases hv : v = k
    · subst hv
      simp only [List.count_cons_self]
      omega
    · rw [List.count_cons_of_ne (Ne.symm hv)]
      exact i2 v hv

theorem exists_count_run (l : List Nat) (hl : l ≠ []) :
    ∃ v ∈ l, l.count v = countLongestRun l + 1 := by
  have hp := sortNat_perm l
  have hs := sortNat_sorted l
  unfold countLongestRun
  cases h : sortNat l with
  | nil =>
    rw [h] at hp
    exact absurd hp.symm.eq_nil hl
  | cons k ks =>
    rw [h] at hs hp
    obtain ⟨i1, i2, i3, i4⟩ := runGo_spec ks 0 0 k (by omega) hs
    have hk : ∃ v ∈ k :: ks, (k :: ks).count v = runGo 0 0 k ks + 1 := by
      rcases i4 with i4 | i4 | ⟨v, h1, h2, h3⟩
      · refine ⟨k, List.mem_cons_self, ?_⟩
        rw [List.count_cons_self]
        omega
      · refine ⟨k, List.mem_cons_self, ?_⟩
        rw [List.count_cons_self]
        omega
      · refine ⟨v, List.mem_cons_of_mem _ h2, ?_⟩
        rw [List.count_cons_of_ne (Ne.symm h1)]
        exact h3
    obtain ⟨v, h1, h2⟩ := hk
    exact ⟨v, hp.mem_iff.1 h1, by rw [← hp.count_eq]; exact h2⟩

/-! ## Hashing -/

theorem hash_lt {W : Nat} (m k : BitVec W) : hash m k < 2 ^ popcount m := by
  unfold hash pext
  rw [BitVec.toNat_and]
  have h1 : 0 < 2 ^ popcount m := Nat.two_pow_pos _
  refine Nat.lt_of_le_of_lt Nat.and_le_right ?_
  rw [BitVec.toNat_ofNat]
  exact Nat.lt_of_le_of_lt (Nat.mod_le _ _) (by omega)

theorem popcount_le {W : Nat} (m : BitVec W) : popcount m ≤ W := by
  unfold popcount
  exact Nat.le_trans List.countP_le_length (by simp)

theorem getLsbD_reset {W : Nat} (m : BitVec W) (i j : Nat) :
    (reset m i).getLsbD j = (m.getLsbD j && !(decide (i = j))) := by
  unfold reset
  by_cases hj : j < W
  · simp [hj]
    by_cases h : i = j <;> simp [h]
    omega
  · have h1 : m.getLsbD j = false := BitVec.getLsbD_of_ge _ _ (by omega)
    simp [h1]

theorem popcount_reset_lt {W : Nat} (m : BitVec W) (i : Nat) (h : m.getLsbD i = true) :
    popcount (reset m i) < popcount m := by
  have hi : i < W := by
    by_contra hc
    rw [BitVec.getLsbD_of_ge _ _ (by omega)] at h
    exact Bool.noConfusion h
  unfold popcount
  have hmem : i ∈ List.range W := List.mem_range.2 hi
  generalize List.range W = l at hmem
  have hle : ∀ l : List Nat, l.countP (reset m i).getLsbD ≤ l.countP m.getLsbD := by
    intro l
    apply List.countP_mono_left
    intro j _ hj
    rw [getLsbD_reset] at hj
    simp at hj
    exact hj.1
  induction l with
  | nil => simp at hmem
  | cons j js ih =>
    rw [List.countP_cons, List.countP_cons]
    rcases List.mem_cons.1 hmem with rfl | hm
    · have := hle js
      simp [getLsbD_reset, h]
      omega
    · have := ih hm
      have h2 := hle [j]
      simp only [List.countP_cons, List.countP_nil] at h2
      omega

theorem cheapestGo_mem {W : Nat} (m : BitVec W) (keys : List (BitVec W)) (is : List Nat) :
    ∀ bit best, (best = none ∧ is ≠ []) ∨ m.getLsbD bit = true →
      (∀ i ∈ is, m.getLsbD i = true) →
      m.getLsbD (cheapestGo m keys is bit best) = true := by
  induction is with
  | nil =>
    intro bit best h _
    rcases h with ⟨_, h⟩ | h
    · exact absurd rfl h
    · exact h
  | cons i is ih =>
    intro bit best h hall
    rw [cheapestGo]
    have hi := hall i List.mem_cons_self
    have hrest : ∀ j ∈ is, m.getLsbD j = true := fun j hj => hall j (List.mem_cons_of_mem _ hj)
    rcases h with ⟨rfl, _⟩ | h
    · simp only [Option.all_none, if_true]
      exact ih i _ (Or.inr hi) hrest
    · split
      · exact ih i _ (Or.inr hi) hrest
      · exact ih bit best (Or.inr h) hrest

theorem popcount_removeCheapest {W : Nat} (m : BitVec W) (keys : List (BitVec W))
    (h : 0 < popcount m) : popcount (removeCheapestBit m keys) < popcount m := by
  unfold removeCheapestBit
  apply popcount_reset_lt
  apply cheapestGo_mem
  · left
    refine ⟨rfl, ?_⟩
    unfold popcount at h
    rw [List.countP_eq_length_filter] at h
    intro he
    rw [he] at h
    simp at h
  · intro i hi
    exact (List.mem_filter.1 hi).2

/-! ## The mask with all bits -/

theorem popcount_allOnes (W : Nat) : popcount (BitVec.allOnes W) = W := by
  unfold popcount
  have h : (List.range W).countP (BitVec.allOnes W).getLsbD = (List.range W).length := by
    rw [List.countP_eq_length]
    intro i hi
    simp [List.mem_range.1 hi]
  rw [h, List.length_range]

theorem stretches_run {W : Nat} (m : BitVec W) (n : Nat) : ∀ src dst,
    (∀ i, src ≤ i → i < src + n → m.getLsbD i = true) → stretches m n src dst true = [] := by
  induction n with
  | zero => intros; rfl
  | succ n ih =>
    intro src dst h
    rw [stretches]
    have h0 := h src (Nat.le_refl _) (by omega)
    simp only [h0, Bool.not_true, Bool.and_false, Bool.false_eq_true, if_false, List.nil_append,
      if_true]
    exact ih _ _ (fun i h1 h2 => h i (by omega) (by omega))

theorem pext_allOnes {W : Nat} (k : BitVec W) : pext (BitVec.allOnes W) k = k := by
  cases W with
  | zero => exact Subsingleton.elim _ _
  | succ W =>
    have hclz : clz (BitVec.allOnes (W + 1)) = 0 := by simp [clz, leadingZeros]
    have hgap : gapBits (BitVec.allOnes (W + 1)) = 0 := by
      simp [gapBits, popcount_allOnes, hclz]
    have hco : coefficient (BitVec.allOnes (W + 1)) = 1 := by
      unfold coefficient multiplierBits
      rw [hgap, stretches]
      simp only [BitVec.getLsbD_allOnes, Nat.zero_lt_succ, decide_true, Bool.not_false,
        Bool.and_self, if_true]
      rw [stretches_run _ W 1 1 (fun i h1 h2 => by simp; omega)]
      apply BitVec.eq_of_toNat_eq
      simp
    unfold pext
    rw [hgap, hco, popcount_allOnes]
    apply BitVec.eq_of_toNat_eq
    have hk := k.isLt
    have hp : promoted (W + 1) = max 32 (W + 1) := rfl
    have hle : 2 ^ (W + 1) ≤ 2 ^ promoted (W + 1) := Nat.pow_le_pow_right (by omega) (by omega)
    have h1 : (1 : BitVec (W + 1)).toNat = 1 := by
      simp
    simp only [BitVec.and_allOnes, BitVec.ushiftRight_zero, BitVec.toNat_and, BitVec.toNat_setWidth,
      BitVec.toNat_mul, BitVec.toNat_ofNat, h1]
    have h2 : 1 % 2 ^ promoted (W + 1) = 1 := Nat.mod_eq_of_lt (by
      have : 1 < 2 ^ (W + 1) := Nat.one_lt_two_pow (by omega)
      omega)
    rw [h2, Nat.mul_one, Nat.mod_mod, Nat.mod_eq_of_lt (Nat.lt_of_lt_of_le hk hle),
      Nat.mod_eq_of_lt hk, Nat.mod_eq_of_lt (show 2 ^ (W + 1) - 1 < 2 ^ (W + 1) by omega),
      Nat.and_two_pow_sub_one_eq_mod, Nat.mod_eq_of_lt hk]

/-! ## The two phases -/

theorem phase1_unique {W : Nat} (keys : List (BitVec W)) (n : Nat) : ∀ m,
    (withMask m keys).Nodup → (withMask (phase1 keys n m) keys).Nodup := by
  induction n with
  | zero => intro m h; exact h
  | succ n ih =>
    intro m h
    rw [phase1]
    apply ih
    split
    · rename_i hu
      exact (keysAreUnique_iff _).1 hu
    · exact h

theorem withMask_allOnes {W : Nat} (keys : List (BitVec W)) :
    withMask (BitVec.allOnes W) keys = keys.map BitVec.toNat := by
  unfold withMask hash
  simp [pext_allOnes]

theorem nodup_toNat {W : Nat} (keys : List (BitVec W)) :
    (keys.map BitVec.toNat).Nodup ↔ keys.Nodup := by
  constructor
  · exact fun h => List.Nodup.of_map _ h
  · intro h
    refine List.Nodup.map ?_ h
    intro a b hab
    exact BitVec.eq_of_toNat_eq hab

theorem run_of_nodup (l : List Nat) (h : l.Nodup) : countLongestRun l = 0 := by
  cases l with
  | nil => rfl
  | cons x xs =>
    obtain ⟨v, hv, hc⟩ := exists_count_run (x :: xs) (by simp)
    have := List.nodup_iff_count_le_one.1 h v
    omega

theorem phase2_total {W : Nat} (keys : List (BitVec W)) (maxLen : Nat) (fuel : Nat) : ∀ m p,
    popcount m < fuel → countLongestRun (withMask m keys) = p →
    ∃ m' p', phase2 keys maxLen fuel m p = some (m', p') ∧
      countLongestRun (withMask m' keys) = p' ∧ (p' = p ∨ (1 < maxLen ∧ p' ≤ maxLen)) ∧
      popcount m' ≤ popcount m := by
  induction fuel with
  | zero => intro m p h; omega
  | succ fuel ih =>
    intro m p h hp
    rw [phase2]
    split
    · rename_i hc
      dsimp only
      split
      · rename_i hle
        have hlt := popcount_removeCheapest m keys (by omega)
        obtain ⟨m', p', h1, h2, h3, h4⟩ := ih (removeCheapestBit m keys) _ (by omega) rfl
        exact ⟨m', p', h1, h2, Or.inr (by omega), by omega⟩
      · exact ⟨m, p, rfl, hp, Or.inl rfl, Nat.le_refl _⟩
    · exact ⟨m, p, rfl, hp, Or.inl rfl, Nat.le_refl _⟩

theorem calcMask_total {W : Nat} (keys : List (BitVec W)) (maxLen : Nat) (h : keys.Nodup) :
    ∃ m p, calcMask keys maxLen = some (m, p) ∧ countLongestRun (withMask m keys) = p ∧
      (p = 0 ∨ (1 < maxLen ∧ p ≤ maxLen)) := by
  unfold calcMask
  have hu : (withMask (phase1 keys W (BitVec.allOnes W)) keys).Nodup := by
    apply phase1_unique
    rw [withMask_allOnes]
    exact (nodup_toNat _).2 h
  obtain ⟨m, p, h1, h2, h3, _⟩ := phase2_total keys maxLen (W + 1) _ 0
    (Nat.lt_succ_of_le (popcount_le _)) (run_of_nodup _ hu)
  exact ⟨m, p, h1, h2, h3⟩

end Verif.Lookup
