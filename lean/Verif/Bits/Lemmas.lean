import Verif.Bits.Spec
import Mathlib.Tactic.ByContra
import Mathlib.Tactic.Set
/-! Helper lemmas: bit-level behaviour of `extract` and `insert` for one location. -/
namespace Verif.Bits

theorem getLsbD_bitMask (w msb lsb i : Nat) (h : msb < w) :
    (bitMask w msb lsb).getLsbD i = (decide (lsb ≤ i) && decide (i ≤ msb)) := by
  simp only [bitMask, BitVec.getLsbD_and, BitVec.getLsbD_ushiftRight, BitVec.getLsbD_allOnes,
    BitVec.getLsbD_shiftLeft]
  rw [Bool.eq_iff_iff]
  simp
  omega

theorem bitAt_elem {W : Nat} (r : List (BitVec W)) (k j : Nat) (hj : j < W) (e : BitVec W)
    (he : r[k]? = some e) : bitAt r (k * W + j) = e.getLsbD j := by
  have h1 : (k * W + j) / W = k := by
    rw [Nat.add_comm, Nat.add_mul_div_right _ _ (by omega), Nat.div_eq_of_lt hj]; omega
  have h2 : (k * W + j) % W = j := by
    rw [Nat.add_comm, Nat.add_mul_mod_self_right, Nat.mod_eq_of_lt hj]
  simp [bitAt, h1, h2, he]

/-- Location `l` read against elements of `W` bits: parameters of the correctness proofs. -/
structure Ok (W TW : Nat) (l : Loc) (n : Nat) : Prop where
  W_pos : 0 < W
  W_le : W ≤ TW
  size_pos : 0 < l.size
  size_le : l.size ≤ TW
  inside : baseIndex W l * W + l.msb < n * W

theorem extractGo_spec {W TW : Nat} {l : Loc} {r : List (BitVec W)} (ok : Ok W TW l r.length) :
    ∀ (fuel cur : Nat) (value : BitVec TW), cur / W < fuel + l.lsb / W → l.lsb ≤ cur →
      (cur = l.msb ∨ (cur % W = W - 1 ∧ cur / W < l.msb / W)) →
      (∀ i, value.getLsbD i =
        (decide (i < l.msb - cur) && bitAt r (baseIndex W l * W + (cur + 1 + i)))) →
      ∃ v, extractGo W TW l r fuel cur value = some v ∧
        ∀ i, v.getLsbD i = (decide (i < l.size) && bitAt r (baseIndex W l * W + (l.lsb + i))) := by
  obtain ⟨hW, hWT, hs, hsT, hin⟩ := ok
  intro fuel
  induction fuel with
  | zero =>
    intro cur value h1 h2
    have := Nat.div_le_div_right (c := W) h2
    omega
  | succ fuel ih =>
    intro cur value hf hl hc hv
    have hmsb : l.msb = l.lsb + l.size - 1 := rfl
    have hcm : cur ≤ l.msb := by
      rcases hc with rfl | ⟨_, h⟩
      · exact Nat.le_refl _
      · by_contra hn
        have := Nat.div_le_div_right (c := W) (Nat.le_of_lt (Nat.lt_of_not_le hn))
        omega
    set b := baseIndex W l with hb
    -- the element exists
    have hidx : b + cur / W < r.length := by
      have h1 : (b + cur / W) * W ≤ b * W + l.msb := by
        rw [Nat.add_mul]
        have := Nat.div_mul_le_self cur W
        omega
      exact Nat.lt_of_mul_lt_mul_right (Nat.lt_of_le_of_lt h1 hin)
    have he : r[b + cur / W]? = some r[b + cur / W] := List.getElem?_eq_getElem hidx
    set elem := r[b + cur / W] with helem
    have hbit : ∀ j, j < W → bitAt r (b * W + (cur / W * W + j)) = elem.getLsbD j := by
      intro j hj
      rw [← bitAt_elem r (b + cur / W) j hj elem he, Nat.add_mul, Nat.add_assoc]
    have hcur : cur = cur / W * W + cur % W := by rw [Nat.mul_comm]; exact (Nat.div_add_mod cur W).symm
    have hcmod : cur % W < W := Nat.mod_lt _ hW
    have hlsb : l.lsb = l.lsb / W * W + l.lsb % W := by
      rw [Nat.mul_comm]; exact (Nat.div_add_mod l.lsb W).symm
    have hlmod : l.lsb % W < W := Nat.mod_lt _ hW
    have hmm : l.msb = l.msb / W * W + l.msb % W := by
      rw [Nat.mul_comm]; exact (Nat.div_add_mod l.msb W).symm
    have hmmod : l.msb % W < W := Nat.mod_lt _ hW
    have hqle : l.lsb / W ≤ cur / W := Nat.div_le_div_right hl
    have hkle : cur / W ≤ l.msb / W := Nat.div_le_div_right hcm
    have hq0 : 0 ≤ l.lsb / W := Nat.zero_le _
    simp only [extractGo, ← hb]
    split
    · -- one element
      next hcase =>
      have hk : cur / W = l.msb / W := by omega
      have hq : cur / W = l.lsb / W := by omega
      have hcm' : cur = l.msb := by
        rcases hc with h | ⟨_, h⟩
        · exact h
        · omega
      simp only [he, shr, Option.bind_eq_bind, Option.bind_some]
      rw [if_pos (by omega)]
      refine ⟨_, rfl, fun i => ?_⟩
      rw [BitVec.getLsbD_ushiftRight, BitVec.getLsbD_and, getLsbD_bitMask _ _ _ _ (by omega),
        BitVec.getLsbD_setWidth]
      rw [hq] at hcur hbit
      by_cases hi : i < l.size
      · have := hbit (l.lsb % W + i) (by omega)
        rw [show b * W + (l.lsb + i) = b * W + (l.lsb / W * W + (l.lsb % W + i)) by omega, this]
        have h1 : l.lsb % W + i ≤ cur % W := by omega
        have h2 : l.lsb % W + i < TW := by omega
        simp [hi, h1, h2]
      · have h1 : ¬ l.lsb % W + i ≤ cur % W := by omega
        simp [hi, h1]
    · next hnc =>
      split
      · -- last (lowest) element of several
        next hcase =>
        have hq : cur / W = l.lsb / W := by omega
        have hk : cur / W < l.msb / W := by omega
        have hj : cur % W = W - 1 := by
          rcases hc with h | ⟨h, _⟩
          · rw [h] at hk; omega
          · exact h
        have hmul : cur / W * W + W ≤ l.msb / W * W := by
          rw [← Nat.succ_mul]; exact Nat.mul_le_mul_right _ hk
        rw [hq] at hcur hbit hmul
        simp only [he, shr, shl, Option.bind_eq_bind, Option.bind_some]
        have hpw : W ≤ promoted W := by simp only [promoted]; omega
        rw [if_pos (by omega), if_pos (by omega)]
        refine ⟨_, rfl, fun i => ?_⟩
        rw [BitVec.getLsbD_or, BitVec.getLsbD_shiftLeft, BitVec.getLsbD_setWidth,
          BitVec.getLsbD_ushiftRight, BitVec.getLsbD_setWidth, hv]
        by_cases hi : i < W - l.lsb % W
        · have := hbit (l.lsb % W + i) (by omega)
          rw [show b * W + (l.lsb + i) = b * W + (l.lsb / W * W + (l.lsb % W + i)) by omega, this]
          have h1 : l.lsb % W + i < promoted W := by omega
          have h2 : i < TW := by omega
          have h3 : i < l.size := by omega
          simp [hi, h1, h2, h3]
        · rw [BitVec.getLsbD_of_ge elem _ (by omega)]
          by_cases hi2 : i < l.size
          · have h1 : i < TW := by omega
            have h2 : i - (W - l.lsb % W) < l.msb - cur := by omega
            rw [show cur + 1 + (i - (W - l.lsb % W)) = l.lsb + i by omega]
            simp [hi, hi2, h1, h2]
          · have h2 : ¬ (i - (W - l.lsb % W) < l.msb - cur) := by omega
            simp [hi2, h2]
      · next hnmin =>
        have hq : l.lsb / W < cur / W := by omega
        have hmul : l.lsb / W * W + W ≤ cur / W * W := by
          rw [← Nat.succ_mul]; exact Nat.mul_le_mul_right _ hq
        have hnew : ∀ c', c' + 1 = cur / W * W → c' / W = cur / W - 1 ∧ c' % W = W - 1 := by
          intro c' hc'
          have h1 : c' = (W - 1) + (cur / W - 1) * W := by
            rw [Nat.sub_mul]; omega
          constructor
          · rw [h1, Nat.add_mul_div_right _ _ hW, Nat.div_eq_of_lt (by omega)]; omega
          · rw [h1, Nat.add_mul_mod_self_right, Nat.mod_eq_of_lt (by omega)]
        split
        · -- first (highest) element of several
          next hcase =>
          have hk : cur / W = l.msb / W := by omega
          have hcm' : cur = l.msb := by
            rcases hc with h | ⟨_, h⟩
            · exact h
            · omega
          simp only [he, Option.bind_eq_bind, Option.bind_some]
          obtain ⟨hn1, hn2⟩ := hnew (cur / W * W - 1) (by omega)
          apply ih
          · omega
          · omega
          · right; omega
          · intro i
            rw [BitVec.getLsbD_and, getLsbD_bitMask _ _ _ _ (by omega), BitVec.getLsbD_setWidth]
            by_cases hi : i ≤ cur % W
            · have := hbit i (by omega)
              rw [show cur / W * W - 1 + 1 + i = cur / W * W + i by omega, this]
              have h1 : i < TW := by omega
              have h2 : i < l.msb - (cur / W * W - 1) := by omega
              simp [hi, h1, h2]
            · have h2 : ¬ i < l.msb - (cur / W * W - 1) := by omega
              simp [hi, h2]
        · -- middle element
          next hnmax =>
          have hk : cur / W < l.msb / W := by omega
          have hj : cur % W = W - 1 := by
            rcases hc with h | ⟨h, _⟩
            · rw [h] at hk; omega
            · exact h
          simp only [he, shl, Option.bind_eq_bind, Option.bind_some]
          have hWT' : W < TW := by omega
          rw [if_pos hWT']
          simp only [Option.bind_some]
          obtain ⟨hn1, hn2⟩ := hnew (cur - W) (by omega)
          apply ih
          · omega
          · omega
          · right; omega
          · intro i
            rw [BitVec.getLsbD_or, BitVec.getLsbD_shiftLeft, BitVec.getLsbD_setWidth, hv]
            by_cases hi : i < W
            · have := hbit i hi
              rw [show cur - W + 1 + i = cur / W * W + i by omega, this]
              have h1 : i < TW := by omega
              have h2 : i < l.msb - (cur - W) := by omega
              simp [hi, h1, h2]
            · rw [BitVec.getLsbD_of_ge elem _ (by omega)]
              by_cases hi2 : i < l.msb - (cur - W)
              · have h1 : i < TW := by omega
                have h2 : i - W < l.msb - cur := by omega
                rw [show cur + 1 + (i - W) = cur - W + 1 + i by omega]
                simp [hi, hi2, h1, h2]
              · have h2 : ¬ (i - W < l.msb - cur) := by omega
                simp [hi2, h2]


theorem bitAt_set {W : Nat} (r : List (BitVec W)) (k : Nat) (e : BitVec W) (hk : k < r.length)
    (p : Nat) : bitAt (r.set k e) p = if p / W = k then e.getLsbD (p % W) else bitAt r p := by
  by_cases h : p / W = k
  · subst h; simp [bitAt, hk]
  · simp [bitAt, h, List.getElem?_set_ne (Ne.symm h)]

theorem insertGo_spec {W TW : Nat} {l : Loc} (n : Nat) (ok : Ok W TW l n) :
    ∀ (fuel cur : Nat) (r : List (BitVec W)) (value : BitVec TW), r.length = n →
      l.msb / W < fuel + cur / W → l.lsb ≤ cur → cur ≤ l.msb →
      (cur = l.lsb ∨ (cur % W = 0 ∧ l.lsb / W < cur / W)) →
      (∀ i, l.msb < cur + i → value.getLsbD i = false) →
      ∃ r', insertGo W TW l fuel cur r value = some r' ∧ r'.length = n ∧
        ∀ p, bitAt r' p =
          if baseIndex W l * W + cur ≤ p ∧ p ≤ baseIndex W l * W + l.msb
          then value.getLsbD (p - (baseIndex W l * W + cur)) else bitAt r p := by
  obtain ⟨hW, hWT, hs, hsT, hin⟩ := ok
  intro fuel
  induction fuel with
  | zero =>
    intro cur r value _ h1 _ h2
    have := Nat.div_le_div_right (c := W) h2
    omega
  | succ fuel ih =>
    intro cur r value hn hf hl hcm hc hv
    have hmsb : l.msb = l.lsb + l.size - 1 := rfl
    set b := baseIndex W l with hb
    have hidx : b + cur / W < r.length := by
      have h1 : (b + cur / W) * W ≤ b * W + l.msb := by
        rw [Nat.add_mul]
        have := Nat.div_mul_le_self cur W
        omega
      exact hn ▸ Nat.lt_of_mul_lt_mul_right (Nat.lt_of_le_of_lt h1 hin)
    have he : r[b + cur / W]? = some r[b + cur / W] := List.getElem?_eq_getElem hidx
    set elem := r[b + cur / W] with helem
    have hbit : ∀ j, j < W → bitAt r (b * W + (cur / W * W + j)) = elem.getLsbD j := by
      intro j hj
      rw [← bitAt_elem r (b + cur / W) j hj elem he, Nat.add_mul, Nat.add_assoc]
    have hcur : cur = cur / W * W + cur % W := by rw [Nat.mul_comm]; exact (Nat.div_add_mod cur W).symm
    have hcmod : cur % W < W := Nat.mod_lt _ hW
    have hlsb : l.lsb = l.lsb / W * W + l.lsb % W := by
      rw [Nat.mul_comm]; exact (Nat.div_add_mod l.lsb W).symm
    have hlmod : l.lsb % W < W := Nat.mod_lt _ hW
    have hmm : l.msb = l.msb / W * W + l.msb % W := by
      rw [Nat.mul_comm]; exact (Nat.div_add_mod l.msb W).symm
    have hmmod : l.msb % W < W := Nat.mod_lt _ hW
    have hqle : l.lsb / W ≤ cur / W := Nat.div_le_div_right hl
    have hkle : cur / W ≤ l.msb / W := Nat.div_le_div_right hcm
    have hq0 : 0 ≤ l.lsb / W := Nat.zero_le _
    have hpw : W ≤ promoted W := by simp only [promoted]; omega
    -- position of a bit relative to the current element
    have hpos : ∀ p, (p / W = b + cur / W ∧ p = b * W + (cur / W * W + p % W) ∧ p % W < W) ∨
        (p / W ≠ b + cur / W ∧
          (p < b * W + cur / W * W ∨ b * W + cur / W * W + W ≤ p)) := by
      intro p
      have hp : p = p / W * W + p % W := by rw [Nat.mul_comm]; exact (Nat.div_add_mod p W).symm
      have hpm : p % W < W := Nat.mod_lt _ hW
      by_cases h : p / W = b + cur / W
      · left; rw [h, Nat.add_mul] at hp; exact ⟨h, by omega, hpm⟩
      · right
        refine ⟨h, ?_⟩
        rcases Nat.lt_or_gt_of_ne h with h | h
        · left
          have : (p / W + 1) * W ≤ (b + cur / W) * W := Nat.mul_le_mul_right _ h
          rw [Nat.add_mul, Nat.add_mul] at this; omega
        · right
          have : (b + cur / W + 1) * W ≤ p / W * W := Nat.mul_le_mul_right _ h
          rw [Nat.add_mul, Nat.add_mul] at this; omega
    simp only [insertGo, ← hb]
    split
    · -- last (highest) element
      next hcase =>
      have hk : cur / W = l.msb / W := by omega
      simp only [he, shl, Option.bind_eq_bind, Option.bind_some]
      rw [if_pos (by omega)]
      refine ⟨_, rfl, by simp [hn], fun p => ?_⟩
      rw [bitAt_set _ _ _ hidx]
      rw [← hk] at hmm
      rcases hpos p with ⟨h1, h2, h3⟩ | ⟨h1, h2⟩
      · rw [if_pos h1, BitVec.getLsbD_or, BitVec.getLsbD_and, BitVec.getLsbD_not,
          getLsbD_bitMask _ _ _ _ (by omega), BitVec.getLsbD_setWidth, BitVec.getLsbD_shiftLeft]
        have hb' := hbit (p % W) h3
        rw [← h2] at hb'
        have h4 : p % W < TW := by omega
        by_cases ha : cur % W ≤ p % W
        · by_cases hb2 : p % W ≤ l.msb % W
          · rw [if_pos (by omega), show p - (b * W + cur) = p % W - cur % W by omega]
            have : ¬ p % W < cur % W := by omega
            simp [h3, h4, ha, hb2, this]
          · rw [if_neg (by omega), hb', hv (p % W - cur % W) (by omega)]
            simp [h3, hb2]
        · rw [if_neg (by omega), hb']
          have : p % W < cur % W := by omega
          simp [h3, ha, this]
      · rw [if_neg h1, if_neg (by omega)]
    · next hnmax =>
      have hk : cur / W < l.msb / W := by omega
      have hmul : cur / W * W + W ≤ l.msb / W * W := by
        rw [← Nat.succ_mul]; exact Nat.mul_le_mul_right _ hk
      have hdiv : ∀ c', c' = cur / W * W + W → c' / W = cur / W + 1 ∧ c' % W = 0 := by
        intro c' hc'
        rw [← Nat.succ_mul] at hc'
        subst hc'
        exact ⟨Nat.mul_div_cancel _ hW, Nat.mul_mod_left _ _⟩
      split
      · -- first (lowest) element of several
        next hcase =>
        have hq : cur / W = l.lsb / W := by omega
        have hcl : cur = l.lsb := by
          rcases hc with h | ⟨_, h⟩
          · exact h
          · omega
        simp only [he, shl, shr, Option.bind_eq_bind, Option.bind_some]
        rw [if_pos (by omega), if_pos (by omega), if_pos (by omega)]
        simp only [Option.bind_some]
        obtain ⟨hd1, hd2⟩ := hdiv (cur + (W - cur % W)) (by omega)
        obtain ⟨r', hr', hlen', hbits⟩ := ih (cur + (W - cur % W))
          (r.set (b + cur / W) ((elem &&& (~~~(BitVec.setWidth (promoted W)
            (bitMask W (W - cur % W - 1) 0) <<< (cur % W))).setWidth W) |||
            ((value.setWidth (max TW (promoted W)) &&&
              (bitMask W (W - cur % W - 1) 0).setWidth _) <<< (cur % W)).setWidth W))
          (value >>> (W - cur % W)) (by simp [hn]) (by omega) (by omega) (by omega)
          (by right; omega)
          (fun i hi => by rw [BitVec.getLsbD_ushiftRight]; exact hv _ (by omega))
        refine ⟨r', hr', hlen', fun p => ?_⟩
        rw [hbits, bitAt_set _ _ _ hidx, BitVec.getLsbD_ushiftRight]
        rcases hpos p with ⟨h1, h2, h3⟩ | ⟨h1, h2⟩
        · rw [if_neg (by omega), if_pos h1]
          have hb' := hbit (p % W) h3
          rw [← h2] at hb'
          rw [hb']
          simp only [BitVec.getLsbD_or, BitVec.getLsbD_and, BitVec.getLsbD_not,
            BitVec.getLsbD_setWidth, BitVec.getLsbD_shiftLeft]
          rw [getLsbD_bitMask _ _ _ _ (by omega)]
          have h4 : p % W < promoted W := by omega
          have h5 : p % W < max TW (promoted W) := by omega
          by_cases ha : cur % W ≤ p % W
          · rw [if_pos (by omega), show p - (b * W + cur) = p % W - cur % W by omega]
            have h6 : ¬ p % W < cur % W := by omega
            have h7 : p % W - cur % W < promoted W := by omega
            have h8 : p % W - cur % W ≤ W - cur % W - 1 := by omega
            have h9 : p % W - cur % W < max TW (promoted W) := by omega
            simp only [h3, h4, h5, h6, h7, h8, h9]
            simp
          · rw [if_neg (by omega)]
            have : p % W < cur % W := by omega
            simp [h3, h4, this]
        · by_cases ha : b * W + cur ≤ p ∧ p ≤ b * W + l.msb
          · rw [if_pos (by omega), if_pos ha]
            congr 1; omega
          · rw [if_neg (by omega), if_neg h1, if_neg ha]
      · -- middle element
        next hnmin =>
        have hc0 : cur % W = 0 := by
          rcases hc with h | ⟨h, _⟩
          · rw [h] at hnmin; omega
          · exact h
        simp only [he, shr, Option.bind_eq_bind, Option.bind_some]
        have hWT' : W < TW := by
          have := hdiv
          omega
        rw [if_pos hWT']
        simp only [Option.bind_some]
        obtain ⟨hd1, hd2⟩ := hdiv (cur + W) (by omega)
        obtain ⟨r', hr', hlen', hbits⟩ := ih (cur + W)
          (r.set (b + cur / W)
            ((value.setWidth (max TW (promoted W)) &&& (BitVec.allOnes W).setWidth _).setWidth W))
          (value >>> W) (by simp [hn]) (by omega) (by omega) (by omega)
          (by right; omega)
          (fun i hi => by rw [BitVec.getLsbD_ushiftRight]; exact hv _ (by omega))
        refine ⟨r', hr', hlen', fun p => ?_⟩
        rw [hbits, bitAt_set _ _ _ hidx, BitVec.getLsbD_ushiftRight]
        rcases hpos p with ⟨h1, h2, h3⟩ | ⟨h1, h2⟩
        · rw [if_neg (by omega), if_pos h1, if_pos (by omega),
            show p - (b * W + cur) = p % W by omega]
          have h5 : p % W < max TW (promoted W) := by omega
          simp only [BitVec.getLsbD_and, BitVec.getLsbD_setWidth, BitVec.getLsbD_allOnes]
          simp [h3, h5]
        · by_cases ha : b * W + cur ≤ p ∧ p ≤ b * W + l.msb
          · rw [if_pos (by omega), if_pos ha]
            congr 1; omega
          · rw [if_neg (by omega), if_neg h1, if_neg ha]

end Verif.Bits
