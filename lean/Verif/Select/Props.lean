import Verif.Select.Spec
/-!
# C157: a linear search answers the same on ARC and elsewhere
-/
namespace Verif.Select

theorem floor_int (z : Int) : (z : Rat).floor = z := Rat.floor_intCast z

/-- Two values of an integral type of at most 32 bits are different in 32 bits. -/
theorem toU32_inj {b : Nat} {s : Bool} (hb : b ≤ 4) {x y : Rat}
    (hx : (KeyTy.int b s).Has x) (hy : (KeyTy.int b s).Has y) :
    BitVec.ofInt 32 x.floor = BitVec.ofInt 32 y.floor ↔ x = y := by
  have hp : (2 : Int) ^ (8 * b) ≤ 2 ^ 32 := by
    exact_mod_cast (Nat.pow_le_pow_right (by decide) (by omega) : 2 ^ (8 * b) ≤ 2 ^ 32)
  have hp' : (2 : Int) ^ (8 * b - 1) ≤ 2 ^ 31 := by
    exact_mod_cast (Nat.pow_le_pow_right (by decide) (by omega) : 2 ^ (8 * b - 1) ≤ 2 ^ 31)
  cases s <;> obtain ⟨z, rfl, hz⟩ := hx <;> obtain ⟨w, rfl, hw⟩ := hy <;>
    rw [floor_int, floor_int]
  · constructor
    · intro h
      have := congrArg BitVec.toNat h
      simp only [BitVec.toNat_ofInt] at this
      have : z = w := by omega
      rw [this]
    · intro h; rw [Rat.intCast_inj.1 h]
  · constructor
    · intro h
      have := congrArg BitVec.toNat h
      simp only [BitVec.toNat_ofInt] at this
      have : z = w := by omega
      rw [this]
    · intro h; rw [Rat.intCast_inj.1 h]

theorem select_same {T : Type} (p : Place) (ty : KeyTy) (hi : Integral ty) (vs : Nat)
    {x y : Rat} (hx : ty.Has x) (hy : ty.Has y) (a b : T) :
    select p ty vs x y a b = some (fallbackSelect x y a b) := by
  cases p
  case arc =>
    simp only [select, optimizedSelect]
    split
    · next h =>
      cases ty with
      | float => exact absurd hi (by simp [Integral])
      | int n s =>
        simp only [toU32, Option.bind_eq_bind, Option.bind_some, cmpMovEq, fallbackSelect]
        simp only [toU32_inj h.2 hx hy]
    · rfl
  all_goals rfl

/-- C157: a linear search over keys of an integral type gives the value of the last entry with the
key, or the default, wherever it is evaluated. -/
theorem C157_linear_search {T : Type} (p : Place) (ty : KeyTy) (hi : Integral ty) (vs : Nat)
    (dflt : T) (entries : List (Rat × T)) (key : Rat) (hk : ty.Has key)
    (he : ∀ e ∈ entries, ty.Has e.1) :
    ∃ r, lookup p ty vs dflt entries key = some r ∧ LastWith dflt entries key r := by
  unfold lookup
  induction entries generalizing dflt with
  | nil => exact ⟨dflt, rfl, .inr ⟨rfl, by simp⟩⟩
  | cons e es ih =>
    obtain ⟨k, v⟩ := e
    simp only [search, select_same p ty hi vs hk (he (k, v) (by simp)), Option.bind_some]
    obtain ⟨r, hr, hl⟩ := ih (fallbackSelect key k v dflt) (fun e h => he e (by simp [h]))
    refine ⟨r, hr, ?_⟩
    rcases hl with ⟨bs, as, hes, has⟩ | ⟨hd, hno⟩
    · exact .inl ⟨(k, v) :: bs, as, by rw [hes]; rfl, has⟩
    · simp only [fallbackSelect] at hd
      split at hd
      · next h => subst h; subst hd; exact .inl ⟨[], es, rfl, hno⟩
      · next h =>
        refine .inr ⟨hd, fun e he => ?_⟩
        rcases List.mem_cons.1 he with rfl | he
        · exact fun h' => h h'.symm
        · exact hno e he

/-- C157: two evaluations, for instance at compile time and on ARC, agree. -/
theorem C157_same_everywhere {T : Type} (p q : Place) (ty : KeyTy) (hi : Integral ty) (vs : Nat)
    (dflt : T) (entries : List (Rat × T)) (key : Rat) (hk : ty.Has key)
    (he : ∀ e ∈ entries, ty.Has e.1) :
    lookup p ty vs dflt entries key = lookup q ty vs dflt entries key := by
  unfold lookup
  induction entries generalizing dflt with
  | nil => rfl
  | cons e es ih =>
    obtain ⟨k, v⟩ := e
    simp only [search, select_same _ ty hi vs hk (he (k, v) (by simp)), Option.bind_some]
    exact ih _ fun e h => he e (by simp [h])

/-- C157 fails for keys of type `float`: 1.5 is found for 1.25 on ARC. -/
theorem C157_violated_float :
    lookup .compileTime (.float 4) 4 0 [((3 : Rat) / 2, 7)] (5 / 4) = some 0 ∧
      lookup .arc (.float 4) 4 0 [((3 : Rat) / 2, 7)] (5 / 4) = some 7 := by decide +kernel

/-- C157 fails for negative keys of type `float`: the conversion is undefined. -/
theorem C157_violated_negative :
    lookup .compileTime (.float 4) 4 0 [(-3, 7)] (-3) = some 7 ∧
      lookup .arc (.float 4) 4 0 [(-3, 7)] (-3) = none := by decide +kernel

/-- Selection by `<` is not used by the searches; on ARC it is right without sign only. -/
theorem select_lt_unsigned {T : Type} (p : Place) (b : Nat) (vs : Nat) {x y : Rat}
    (hx : (KeyTy.int b false).Has x) (hy : (KeyTy.int b false).Has y) (u v : T) :
    selectLt p (.int b false) vs x y u v = some (if x < y then u else v) := by
  cases p
  case arc =>
    simp only [selectLt, optimizedSelectLt]
    split
    · next h =>
      have hp : (2 : Int) ^ (8 * b) ≤ 2 ^ 32 := by
        have := h.2
        simp only [KeyTy.size] at this
        exact_mod_cast (Nat.pow_le_pow_right (by decide) (by omega) : 2 ^ (8 * b) ≤ 2 ^ 32)
      obtain ⟨z, rfl, hz⟩ := hx
      obtain ⟨w, rfl, hw⟩ := hy
      simp only [toU32, Option.bind_eq_bind, Option.bind_some, cmpMovLo, floor_int,
        BitVec.ult_eq_decide, BitVec.toNat_ofInt]
      congr 1
      have : (decide ((z % ((2 ^ 32 : Nat) : Int)).toNat < (w % ((2 ^ 32 : Nat) : Int)).toNat) = true) ↔
          (z : Rat) < (w : Rat) := by
        rw [decide_eq_true_eq, Rat.intCast_lt_intCast]
        omega
      simp only [this]
    · rfl
  all_goals rfl

theorem select_lt_signed_wrong :
    selectLt .compileTime (.int 4 true) 4 (-1) 1 true false = some true ∧
      selectLt .arc (.int 4 true) 4 (-1) 1 true false = some false := by decide +kernel

/-- C157: a case of the hypotheses, with a negative key and a key that occurs twice. -/
example : Integral (.int 2 true) ∧ (KeyTy.int 2 true).Has (-3) ∧
    lookup .arc (.int 2 true) 1 0 [(-3, 5), (4, 6), (-3, 8)] (-3) = some 8 ∧
    lookup .arc (.int 2 true) 1 0 [(-3, 5), (4, 6), (-3, 8)] 5 = some 0 := by
  refine ⟨by simp [Integral], ⟨-3, by simp, by decide, by decide⟩, by decide +kernel,
    by decide +kernel⟩

end Verif.Select
