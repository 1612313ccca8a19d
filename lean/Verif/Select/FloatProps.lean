import Verif.Select.Props
import Mathlib.Tactic.Linarith
import Mathlib.Data.Rat.Cast.Order
/-! # C157: keys of floating point types -/
namespace Verif.Select

/-- The integral part of a number, towards zero, is `n`. -/
def Part (n : Nat) (q : Rat) : Prop := ((n : Rat) ≤ q ∧ q < n + 1) ∨ (n = 0 ∧ -1 < q ∧ q < 0)

/-- Two numbers have the same integral part. -/
def SamePart (x y : Rat) : Prop := ∃ n, Part n x ∧ Part n y

/-- The conversion to 32 bits without sign is defined. -/
def Converts (q : Rat) : Prop := -1 < q ∧ q < 2 ^ 32

theorem trunc_part (q : Rat) (n : Nat) : trunc q = n ↔ Part n q := by
  rw [trunc, Part]
  by_cases h : 0 ≤ q
  · rw [if_pos h]
    have e : q.floor = (n : Int) ↔ (n : Int) ≤ q.floor ∧ q.floor < (n : Int) + 1 := by omega
    rw [e, Rat.le_floor_iff, Rat.floor_lt_iff]
    push_cast
    constructor
    · exact .inl
    · rintro (h' | ⟨-, -, h'⟩)
      · exact h'
      · exact absurd h' (by linarith)
  · rw [if_neg h]
    have h0 : 0 ≤ (-q).floor := Rat.le_floor_iff.2 (by push_cast; linarith)
    have e : -(-q).floor = (n : Int) ↔ n = 0 ∧ (-q).floor < 1 := by omega
    rw [e, Rat.floor_lt_iff]
    push_cast
    constructor
    · rintro ⟨hn, h1⟩; exact .inr ⟨hn, by linarith, by linarith⟩
    · rintro (⟨h1, -⟩ | ⟨hn, h1, -⟩)
      · have : (0 : Rat) ≤ n := Nat.cast_nonneg n
        exact absurd (this.trans h1) h
      · exact ⟨hn, by linarith⟩

theorem trunc_range (q : Rat) : 0 ≤ trunc q ∧ trunc q < 2 ^ 32 ↔ Converts q := by
  constructor
  · rintro ⟨h0, h1⟩
    obtain ⟨n, hn⟩ := Int.eq_ofNat_of_zero_le h0
    have hlt : n + 1 ≤ 2 ^ 32 := by omega
    have hq : ((n + 1 : Nat) : Rat) ≤ ((2 ^ 32 : Nat) : Rat) := Nat.cast_le.2 hlt
    push_cast at hq
    have h0' : (0 : Rat) ≤ n := Nat.cast_nonneg n
    rcases (trunc_part q n).1 hn with ⟨h2, h3⟩ | ⟨-, h2, h3⟩
    · exact ⟨by linarith, by linarith⟩
    · exact ⟨h2, by linarith⟩
  · rintro ⟨h0, h1⟩
    rw [trunc]
    by_cases h : 0 ≤ q
    · rw [if_pos h]
      exact ⟨Rat.le_floor_iff.2 (by push_cast; exact h), Rat.floor_lt_iff.2 (by push_cast; exact h1)⟩
    · rw [if_neg h]
      have a : 0 ≤ (-q).floor := Rat.le_floor_iff.2 (by push_cast; linarith)
      have b : (-q).floor < 1 := Rat.floor_lt_iff.2 (by push_cast; linarith)
      omega

theorem converts_part {q : Rat} (h : Converts q) : ∃ n : Nat, n < 2 ^ 32 ∧ trunc q = n ∧ Part n q := by
  have h' := (trunc_range q).2 h
  obtain ⟨n, hn⟩ := Int.eq_ofNat_of_zero_le h'.1
  exact ⟨n, by omega, hn, (trunc_part q n).1 hn⟩

theorem toU32_float {b : Nat} {q : Rat} : (toU32 (.float b) q).isSome ↔ Converts q := by
  rw [← trunc_range]
  simp only [toU32]
  split <;> simp_all

theorem toU32_same {b : Nat} {x y : Rat} (hx : Converts x) (hy : Converts y) :
    ∃ l r, toU32 (.float b) x = some l ∧ toU32 (.float b) y = some r ∧ (l = r ↔ SamePart x y) := by
  obtain ⟨n, hn, ht, hp⟩ := converts_part hx
  obtain ⟨m, hm, ht', hp'⟩ := converts_part hy
  refine ⟨_, _, if_pos ((trunc_range x).2 hx), if_pos ((trunc_range y).2 hy), ?_⟩
  rw [ht, ht']
  constructor
  · intro h
    have h' := congrArg BitVec.toNat h
    rw [BitVec.ofInt_natCast, BitVec.ofInt_natCast, BitVec.toNat_ofNat, BitVec.toNat_ofNat, Nat.mod_eq_of_lt hn,
      Nat.mod_eq_of_lt hm] at h'
    subst h'
    exact ⟨n, hp, hp'⟩
  · rintro ⟨k, h1, h2⟩
    have e1 := (trunc_part x k).2 h1
    have e2 := (trunc_part y k).2 h2
    rw [ht] at e1
    rw [ht'] at e2
    rw [e1, e2]

/-- **C157**: exactly, on ARC with keys of type `float` and values of at most four bytes: with any entry, the
lookup is defined when the key and all keys of entries are above -1 and below 2^32. -/
theorem C157_float_defined {T : Type} (b vs : Nat) (hb : b ≤ 4) (hv : vs ≤ 4) (dflt : T) (entries : List (Rat × T))
    (key : Rat) (hne : entries ≠ []) :
    (lookup .arc (.float b) vs dflt entries key).isSome ↔ Converts key ∧ ∀ e ∈ entries, Converts e.1 := by
  unfold lookup
  have hc : vs ≤ 4 ∧ (KeyTy.float b).size ≤ 4 := ⟨hv, hb⟩
  induction entries generalizing dflt with
  | nil => exact absurd rfl hne
  | cons e es ih =>
    obtain ⟨k, v⟩ := e
    simp only [search, select, optimizedSelect, if_pos hc]
    by_cases h1 : Converts key
    · by_cases h2 : Converts k
      · obtain ⟨l, r, el, er, -⟩ := toU32_same (b := b) h1 h2
        simp only [el, er, Option.bind_eq_bind, Option.bind_some]
        cases es with
        | nil => simp [search, h1, h2]
        | cons e' es' =>
          refine (ih _ (by simp)).trans ?_
          simp [h1, h2]
      · have h3 : toU32 (.float b) k = none := by
          rw [← Option.not_isSome_iff_eq_none]
          exact fun h => h2 (toU32_float.1 h)
        obtain ⟨l, hl⟩ := Option.isSome_iff_exists.1 (toU32_float (b := b).2 h1)
        simp [h3, hl, h2]
    · have h3 : toU32 (.float b) key = none := by
        rw [← Option.not_isSome_iff_eq_none]
        exact fun h => h1 (toU32_float.1 h)
      simp [h3, h1]

/-- **C157**: its answer is the value of the last entry whose key has the same integral part. -/
theorem C157_float_exact {T : Type} (b vs : Nat) (hb : b ≤ 4) (hv : vs ≤ 4) (dflt : T) (entries : List (Rat × T))
    (key : Rat) (hk : Converts key) (he : ∀ e ∈ entries, Converts e.1) :
    ∃ r, lookup .arc (.float b) vs dflt entries key = some r ∧
      ((∃ before k after, entries = before ++ (k, r) :: after ∧ SamePart key k ∧ ∀ e ∈ after, ¬ SamePart key e.1) ∨
        (r = dflt ∧ ∀ e ∈ entries, ¬ SamePart key e.1)) := by
  unfold lookup
  have hc : vs ≤ 4 ∧ (KeyTy.float b).size ≤ 4 := ⟨hv, hb⟩
  induction entries generalizing dflt with
  | nil => exact ⟨dflt, rfl, .inr ⟨rfl, by simp⟩⟩
  | cons e es ih =>
    obtain ⟨k, v⟩ := e
    obtain ⟨l, r0, el, er, hs⟩ := toU32_same (b := b) hk (he (k, v) (by simp))
    simp only [search, select, optimizedSelect, if_pos hc, el, er, Option.bind_eq_bind, Option.bind_some]
    obtain ⟨r, hr, hl⟩ := ih (cmpMovEq l r0 v dflt) (fun e h => he e (by simp [h]))
    refine ⟨r, hr, ?_⟩
    rcases hl with ⟨bs, k', as, hes, h1, has⟩ | ⟨hd, hno⟩
    · exact .inl ⟨(k, v) :: bs, k', as, by rw [hes]; rfl, h1, has⟩
    · simp only [cmpMovEq] at hd
      split at hd
      · next h => subst hd; exact .inl ⟨[], k, es, rfl, hs.1 h, hno⟩
      · next h =>
        refine .inr ⟨hd, fun e he => ?_⟩
        rcases List.mem_cons.1 he with rfl | he
        · exact fun h' => h (hs.2 h')
        · exact hno e he

/-- **C157**: with keys or values of more than four bytes, and elsewhere, keys of any type are compared as
they are. -/
theorem C157_other {T : Type} (p : Place) (ty : KeyTy) (vs : Nat) (hp : p = .arc → ¬ (vs ≤ 4 ∧ ty.size ≤ 4))
    (dflt : T) (entries : List (Rat × T)) (key : Rat) :
    ∃ r, lookup p ty vs dflt entries key = some r ∧ LastWith dflt entries key r := by
  have hsel : ∀ k (v d : T), select p ty vs key k v d = some (if key = k then v else d) := by
    intro k v d
    cases p
    · rfl
    · simp only [select, optimizedSelect, if_neg (hp rfl)]; rfl
    · rfl
  unfold lookup
  induction entries generalizing dflt with
  | nil => exact ⟨dflt, rfl, .inr ⟨rfl, by simp⟩⟩
  | cons e es ih =>
    obtain ⟨k, v⟩ := e
    simp only [search, hsel, Option.bind_some]
    obtain ⟨r, hr, hl⟩ := ih (if key = k then v else dflt)
    refine ⟨r, hr, ?_⟩
    rcases hl with ⟨bs, as, hes, has⟩ | ⟨hd, hno⟩
    · exact .inl ⟨(k, v) :: bs, as, by rw [hes]; rfl, has⟩
    · split at hd
      · next h => subst h; subst hd; exact .inl ⟨[], es, rfl, hno⟩
      · next h =>
        refine .inr ⟨hd, fun e he => ?_⟩
        rcases List.mem_cons.1 he with rfl | he
        · exact fun h' => h h'.symm
        · exact hno e he

/-- -0.5 finds the entry of 0.25. -/
example : Converts (-1 / 2) ∧ Converts (1 / 4) ∧ SamePart (-1 / 2) (1 / 4) ∧
    lookup .arc (.float 4) 4 0 [((1 : Rat) / 4, 7), (3, 8)] (-1 / 2) = some 7 := by
  refine ⟨by unfold Converts; norm_num, by unfold Converts; norm_num, ⟨0, .inr ⟨rfl, by norm_num, by norm_num⟩,
    .inl ⟨by norm_num, by norm_num⟩⟩, by decide +kernel⟩

end Verif.Select
