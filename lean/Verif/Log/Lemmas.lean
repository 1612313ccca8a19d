import Verif.Log.Spec
import Verif.Message.Props
import Mathlib.Tactic.NormNum

/-! # Lemmas about bytes, packing and decoding of arguments -/
namespace Verif.Log
open Verif.Bits Verif.Message

theorem leBytes_length (n x : Nat) : (leBytes n x).length = n := by
  induction n generalizing x with
  | zero => rfl
  | succ n ih => simp [leBytes, ih]

theorem fromLe_leBytes (n x : Nat) : fromLe (leBytes n x) = x % 256 ^ n := by
  induction n generalizing x with
  | zero => simp [leBytes, fromLe, Nat.mod_one]
  | succ n ih =>
    simp only [leBytes, fromLe, ih]
    rw [Nat.pow_succ, Nat.mul_comm (256 ^ n) 256, Nat.mod_mul]

theorem take_leBytes {k n : Nat} (h : k ≤ n) (x : Nat) : (leBytes n x).take k = leBytes k x := by
  induction k generalizing n x with
  | zero => simp [leBytes]
  | succ k ih =>
    cases n with
    | zero => omega
    | succ n => simp [leBytes, ih (Nat.le_of_succ_le_succ h)]

theorem packBytes_length (t : CType) (v : Int) : (packBytes t v).length = packSize t :=
  leBytes_length _ _

theorem packSize_cases (t : CType) : packSize t = 4 ∨ packSize t = 8 := by
  simp only [packSize]
  split
  · exact Or.inl rfl
  · exact Or.inr rfl

/-! ## Reading back a packed number -/

theorem fromLe_packed {k n : Nat} {v : Int} (hk : k = 1 ∨ k = 2 ∨ k = 4 ∨ k = 8) (hn : n = 4 ∨ n = 8)
    (hkn : k ≤ n) :
    (fromLe (leBytes k (v % (2 ^ (8 * n) : Int)).toNat) : Int) = v % 2 ^ (8 * k) := by
  rw [fromLe_leBytes]
  rcases hk with rfl | rfl | rfl | rfl <;> rcases hn with rfl | rfl <;> norm_num <;> omega

theorem signedLe_packed {k n : Nat} {v : Int} (hk : k = 1 ∨ k = 2 ∨ k = 4 ∨ k = 8) (hn : n = 4 ∨ n = 8)
    (hkn : k ≤ n) (h1 : -(2 ^ (8 * k - 1)) ≤ v) (h2 : v < 2 ^ (8 * k - 1)) :
    signedLe (leBytes k (v % (2 ^ (8 * n) : Int)).toNat) = v := by
  have h := fromLe_packed (v := v) hk hn hkn
  unfold signedLe
  rw [leBytes_length]
  generalize fromLe (leBytes k (v % (2 ^ (8 * n) : Int)).toNat) = x at h
  rcases hk with rfl | rfl | rfl | rfl <;> norm_num at * <;> split <;> omega

/-- What `convert` gives on a packed value of the type. -/
def converted (p : Prim) (v : Int) : PyVal :=
  match p with
  | .char _ => .chr (v % 256).toNat
  | .float => .float v.toNat
  | .double => .double v.toNat
  | p => .int (listed p v)

theorem convert_packed {t : CType} {v : Int} (h : InType t v) :
    convert t.under (packBytes t v) = some (converted t.under v) := by
  obtain ⟨hl, hr⟩ := h
  have hp : packBytes t v = leBytes (packSize t) (v % (2 ^ (8 * packSize t) : Int)).toNat := rfl
  have hsz : packSize t = if t.under.size ≤ 4 then 4 else 8 := rfl
  rw [hp]
  generalize packSize t = n at *
  generalize t.under = p at *
  have hn : n = 4 ∨ n = 8 := by
    rw [hsz]
    split
    · exact Or.inl rfl
    · exact Or.inr rfl
  have key : ∀ k, k = 1 ∨ k = 2 ∨ k = 4 ∨ k = 8 → k ≤ n → formatSize p n = k →
      (p = .bool ∧ unpack p (leBytes k (v % (2 ^ (8 * n) : Int)).toNat) = .int 1 → False) →
      unpack p (leBytes k (v % (2 ^ (8 * n) : Int)).toNat) = converted p v →
      convert p (leBytes n (v % (2 ^ (8 * n) : Int)).toNat) = some (converted p v) := by
    intro k _ hkn hf hb hu
    simp only [convert, leBytes_length, hf, take_leBytes hkn, if_true]
    rw [if_neg hb, hu]
  have nb : ∀ {q : Prim} {x y : PyVal}, q ≠ .bool → q = .bool ∧ x = y → False := fun h h' => h h'.1
  cases p with
  | bool =>
    have hn4 : n = 4 := by rw [hsz]; rfl
    subst hn4
    simp only [if_true] at hr
    rcases hr with rfl | rfl <;> decide
  | char s =>
    have hn4 : n = 4 := by rw [hsz]; rfl
    subst hn4
    refine key 1 (by omega) (by omega) rfl (nb (by simp)) ?_
    have := fromLe_packed (k := 1) (n := 4) (v := v) (by omega) (by omega) (by omega)
    simp only [unpack, converted, PyVal.chr.injEq]
    norm_num at this ⊢
    omega
  | schar =>
    have hn4 : n = 4 := by rw [hsz]; rfl
    subst hn4
    refine key 1 (by omega) (by omega) rfl (nb (by simp)) ?_
    simp [Prim.signed, Prim.size] at hr
    simp only [unpack, converted, listed, reduceCtorEq, false_and, if_false, PyVal.int.injEq]
    exact signedLe_packed (by omega) (by omega) (by omega) (by norm_num; omega) (by norm_num; omega)
  | uchar =>
    have hn4 : n = 4 := by rw [hsz]; rfl
    subst hn4
    refine key 1 (by omega) (by omega) rfl (nb (by simp)) ?_
    simp [Prim.signed, Prim.size] at hr
    have := fromLe_packed (k := 1) (n := 4) (v := v) (by omega) (by omega) (by omega)
    simp only [unpack, converted, listed, reduceCtorEq, false_and, if_false, PyVal.int.injEq]
    norm_num at this ⊢
    omega
  | short =>
    have hn4 : n = 4 := by rw [hsz]; rfl
    subst hn4
    refine key 2 (by omega) (by omega) rfl (nb (by simp)) ?_
    simp [Prim.signed, Prim.size] at hr
    simp only [unpack, converted, listed, reduceCtorEq, false_and, if_false, PyVal.int.injEq]
    exact signedLe_packed (by omega) (by omega) (by omega) (by norm_num; omega) (by norm_num; omega)
  | ushort =>
    have hn4 : n = 4 := by rw [hsz]; rfl
    subst hn4
    refine key 2 (by omega) (by omega) rfl (nb (by simp)) ?_
    simp [Prim.signed, Prim.size] at hr
    have := fromLe_packed (k := 2) (n := 4) (v := v) (by omega) (by omega) (by omega)
    simp only [unpack, converted, listed, reduceCtorEq, false_and, if_false, PyVal.int.injEq]
    norm_num at this ⊢
    omega
  | int =>
    have hn4 : n = 4 := by rw [hsz]; rfl
    subst hn4
    refine key 4 (by omega) (by omega) rfl (nb (by simp)) ?_
    simp [Prim.signed, Prim.size] at hr
    simp only [unpack, converted, listed, reduceCtorEq, false_and, if_false, PyVal.int.injEq]
    exact signedLe_packed (by omega) (by omega) (by omega) (by norm_num; omega) (by norm_num; omega)
  | uint =>
    have hn4 : n = 4 := by rw [hsz]; rfl
    subst hn4
    refine key 4 (by omega) (by omega) rfl (nb (by simp)) ?_
    simp [Prim.signed, Prim.size] at hr
    have := fromLe_packed (k := 4) (n := 4) (v := v) (by omega) (by omega) (by omega)
    simp only [unpack, converted, listed, reduceCtorEq, false_and, if_false, PyVal.int.injEq]
    norm_num at this ⊢
    omega
  | long s =>
    have hs := hl s (Or.inl rfl)
    have hns : n = s := by
      rw [hsz]
      rcases hs with rfl | rfl <;> rfl
    subst hns
    refine key n (by omega) (by omega) ?_ (nb (by simp)) ?_
    · rcases hs with rfl | rfl <;> rfl
    simp [Prim.signed, Prim.size] at hr
    simp only [unpack, converted, listed, reduceCtorEq, false_and, if_false, PyVal.int.injEq]
    exact signedLe_packed (by omega) hs (by omega) hr.1 hr.2
  | ulong s =>
    have hs := hl s (Or.inr rfl)
    have hns : n = s := by
      rw [hsz]
      rcases hs with rfl | rfl <;> rfl
    subst hns
    refine key n (by omega) (by omega) ?_ (nb (by simp)) ?_
    · rcases hs with rfl | rfl <;> rfl
    simp [Prim.signed, Prim.size] at hr
    have := fromLe_packed (k := n) (n := n) (v := v) (by omega) hs (by omega)
    simp only [unpack, converted, listed, reduceCtorEq, false_and, if_false, PyVal.int.injEq]
    rcases hs with rfl | rfl <;> norm_num at this hr ⊢ <;> omega
  | llong =>
    have hn8 : n = 8 := by rw [hsz]; rfl
    subst hn8
    refine key 8 (by omega) (by omega) rfl (nb (by simp)) ?_
    simp [Prim.signed, Prim.size] at hr
    simp only [unpack, converted, listed, reduceCtorEq, false_and, if_false, PyVal.int.injEq]
    exact signedLe_packed (by omega) (by omega) (by omega) (by norm_num; omega) (by norm_num; omega)
  | ullong =>
    have hn8 : n = 8 := by rw [hsz]; rfl
    subst hn8
    refine key 8 (by omega) (by omega) rfl (nb (by simp)) ?_
    simp [Prim.signed, Prim.size] at hr
    have := fromLe_packed (k := 8) (n := 8) (v := v) (by omega) (by omega) (by omega)
    simp only [unpack, converted, listed, reduceCtorEq, false_and, if_false, PyVal.int.injEq]
    norm_num at this ⊢
    omega
  | float =>
    have hn4 : n = 4 := by rw [hsz]; rfl
    subst hn4
    refine key 4 (by omega) (by omega) rfl (nb (by simp)) ?_
    simp [Prim.signed, Prim.size] at hr
    have := fromLe_packed (k := 4) (n := 4) (v := v) (by omega) (by omega) (by omega)
    simp only [unpack, converted, PyVal.float.injEq]
    norm_num at this ⊢
    omega
  | double =>
    have hn8 : n = 8 := by rw [hsz]; rfl
    subst hn8
    refine key 8 (by omega) (by omega) rfl (nb (by simp)) ?_
    simp [Prim.signed, Prim.size] at hr
    have := fromLe_packed (k := 8) (n := 8) (v := v) (by omega) (by omega) (by omega)
    simp only [unpack, converted, PyVal.double.injEq]
    norm_num at this ⊢
    omega

/-- What the decoder gives for a packed argument. -/
def actual (t : CType) (v : Int) : Decoded :=
  match t with
  | .prim p => .val (converted p v)
  | .enumClass e p => .enum e (converted p v)
  | .enumPlain e _ => .enum e (.int (v % 2 ^ (8 * packSize t)))

theorem convert_user {n : Nat} (hn : n = 4 ∨ n = 8) (v : Int) :
    convert (if n = 4 then .uint else .ullong) (leBytes n (v % (2 ^ (8 * n) : Int)).toNat) =
      some (.int (v % 2 ^ (8 * n))) := by
  have h := fromLe_packed (k := n) (n := n) (v := v) (by omega) hn (by omega)
  rcases hn with rfl | rfl
  · simp only [if_true, convert, leBytes_length, formatSize, Prim.size, take_leBytes (Nat.le_refl 4),
      unpack, reduceCtorEq, false_and, if_false, Option.some.injEq, PyVal.int.injEq]
    exact h
  · simp only [convert, leBytes_length, formatSize, Prim.size, take_leBytes (Nat.le_refl 8),
      unpack, reduceCtorEq, false_and, if_false, if_true, Option.some.injEq, PyVal.int.injEq,
      show ¬ ((8 : Nat) = 4) from by decide]
    exact h

theorem extractArg_packed {t : CType} {v : Int} (h : InType t v) (rest : List Nat) :
    extractArg (encodeTag t) (packBytes t v ++ rest) = some (actual t v, rest) := by
  have hc := convert_packed h
  have hlen := packBytes_length t v
  have ht : (packBytes t v ++ rest).take (packSize t) = packBytes t v := by
    rw [← hlen, List.take_left]
  have hd : (packBytes t v ++ rest).drop (packSize t) = rest := by
    rw [← hlen, List.drop_left]
  cases t with
  | prim p =>
    simp only [encodeTag, plainTag]
    by_cases h4 : p.size ≤ 4
    · have h4' : packSize (.prim p) = 4 := by simp [packSize, CType.under, h4]
      rw [h4'] at ht hd
      cases p.signed <;> simp only [h4, if_true, if_false, extractArg, ht, hd, Bool.false_eq_true] <;>
        rw [show convert p (packBytes (.prim p) v) = _ from hc] <;> rfl
    · have h4' : packSize (.prim p) = 8 := by simp [packSize, CType.under, h4]
      rw [h4'] at ht hd
      cases p.signed <;> simp only [h4, if_true, if_false, extractArg, ht, hd, Bool.false_eq_true] <;>
        rw [show convert p (packBytes (.prim p) v) = _ from hc] <;> rfl
  | enumClass e p =>
    simp only [encodeTag, extractArg, ht, hd]
    rw [show convert p (packBytes (.enumClass e p) v) = _ from hc]
    rfl
  | enumPlain e p =>
    have hu := convert_user (packSize_cases (.enumPlain e p)) v
    simp only [encodeTag, plainTag]
    by_cases h4 : p.size ≤ 4
    · have h4' : packSize (.enumPlain e p) = 4 := by simp [packSize, CType.under, h4]
      rw [h4'] at ht hd
      simp only [h4', if_true] at hu
      have hu' : convert .uint (packBytes (.enumPlain e p) v) = some (.int (v % 2 ^ (8 * 4))) := by
        rw [packBytes, h4']
        exact hu
      cases p.signed <;> simp only [h4, if_true, if_false, extractArg, ht, hd, Bool.false_eq_true, hu',
        actual, h4', Option.map_some]
    · have h4' : packSize (.enumPlain e p) = 8 := by simp [packSize, CType.under, h4]
      rw [h4'] at ht hd
      simp only [h4', show ¬ ((8 : Nat) = 4) from by decide, if_false] at hu
      have hu' : convert .ullong (packBytes (.enumPlain e p) v) = some (.int (v % 2 ^ (8 * 8))) := by
        rw [packBytes, h4']
        exact hu
      cases p.signed <;> simp only [h4, if_true, if_false, extractArg, ht, hd, Bool.false_eq_true, hu',
        actual, h4', Option.map_some]

theorem two_pow_le {m n : Nat} (h : m ≤ n) : (2 : Int) ^ m ≤ 2 ^ n := by
  have := Nat.pow_le_pow_right (show 0 < 2 by decide) h
  exact_mod_cast this

/-- The decoder shows the value exactly for the arguments it handles. -/
theorem actual_eq_shown {t : CType} {v : Int} (h : InType t v) (he : EnumOk t) :
    actual t v = shown t v ↔ Handled t v := by
  obtain ⟨hl, hr⟩ := h
  cases t with
  | prim p =>
    cases p with
    | bool =>
      simp only [CType.under, if_true] at hr
      rcases hr with rfl | rfl <;> simp [actual, shown, Handled, converted, listed]
    | _ => simp [actual, shown, Handled, converted, listed]
  | enumClass e p =>
    rcases he with ⟨q, hq⟩ | ⟨h1, h2⟩
    · cases hq
    · cases p <;> simp_all [actual, shown, Handled, converted, CType.under]
  | enumPlain e p =>
    simp only [actual, shown, Handled, Decoded.enum.injEq, true_and, PyVal.int.injEq]
    have hpos : (0 : Int) < 2 ^ (8 * packSize (.enumPlain e p)) := by
      rcases packSize_cases (.enumPlain e p) with h | h <;> rw [h] <;> norm_num
    constructor
    · intro h
      rw [← h]
      exact Int.emod_nonneg _ (by omega)
    · intro h0
      by_cases hb : p = .bool
      · subst hb
        simp only [CType.under, if_true] at hr
        rcases hr with rfl | rfl
        · simp [listed]
        · simp [listed] at h0
      · have hlv : listed p v = v := by simp [listed, hb]
        rw [hlv] at h0 ⊢
        refine Int.emod_eq_of_lt h0 ?_
        rw [if_neg (show ¬ (CType.enumPlain e p).under = .bool from hb)] at hr
        have hsz : ∀ s, p = .long s ∨ p = .ulong s → s = 4 ∨ s = 8 := hl
        have hle8 : p.size ≤ packSize (.enumPlain e p) := by
          cases p with
          | long k => rcases hsz k (Or.inl rfl) with rfl | rfl <;> simp [packSize, CType.under, Prim.size]
          | ulong k => rcases hsz k (Or.inr rfl) with rfl | rfl <;> simp [packSize, CType.under, Prim.size]
          | _ => simp [packSize, CType.under, Prim.size]
        have hlt : v < 2 ^ (8 * p.size) := by
          by_cases hs : p.signed = true
          · rw [if_pos (show (CType.enumPlain e p).under.signed = true from hs)] at hr
            exact Int.lt_of_lt_of_le hr.2 (two_pow_le (Nat.sub_le _ _))
          · rw [if_neg (show ¬ (CType.enumPlain e p).under.signed = true from hs)] at hr
            exact hr.2
        exact Int.lt_of_lt_of_le hlt (two_pow_le (by omega))

theorem extractArgs_packed (as : List (CType × Int)) (h : ∀ a ∈ as, InType a.1 a.2) (rest : List Nat) :
    extractArgs (as.map fun a => encodeTag a.1) ((as.map fun a => packBytes a.1 a.2).flatten ++ rest) =
      some (as.map fun a => actual a.1 a.2, rest) := by
  induction as with
  | nil => rfl
  | cons a as ih =>
    simp only [List.map_cons, List.flatten_cons, List.append_assoc, extractArgs,
      extractArg_packed (h a List.mem_cons_self), Option.bind_eq_bind, Option.bind_some,
      ih fun b hb => h b (List.mem_cons_of_mem _ hb)]
    rfl

/-! ## Memory -/

theorem memory_length {W : Nat} (r : List (BitVec W)) : (memory r).length = W / 8 * r.length := by
  induction r with
  | nil => rfl
  | cons w r ih =>
    simp only [memory, List.flatMap_cons, List.length_append, leBytes_length, List.length_cons] at ih ⊢
    rw [ih, Nat.mul_succ, Nat.add_comm]

theorem memcpy_at (pre mid post src : List Nat) (h : src.length = mid.length) :
    memcpy (pre ++ (mid ++ post)) pre.length src = some (pre ++ (src ++ post)) := by
  have h1 : pre.length + src.length ≤ (pre ++ (mid ++ post)).length := by
    simp only [List.length_append]
    omega
  rw [memcpy, if_pos h1, List.take_left, h, List.append_assoc]
  congr 2
  rw [← List.drop_drop, List.drop_left, List.drop_left]

theorem packAll_spec (chunks : List (List Nat)) (h4 : ∀ c ∈ chunks, c.length % 4 = 0) (pre post : List Nat)
    (hlen : post.length = (chunks.map List.length).sum) :
    packAll (pre ++ post) pre.length chunks = some (pre ++ chunks.flatten) := by
  induction chunks generalizing pre post with
  | nil =>
    simp only [List.map_nil, List.sum_nil, List.length_eq_zero_iff] at hlen
    subst hlen
    simp [packAll]
  | cons c cs ih =>
    simp only [List.map_cons, List.sum_cons] at hlen
    obtain ⟨mid, post', rfl, hm⟩ : ∃ mid post', post = mid ++ post' ∧ mid.length = c.length :=
      ⟨post.take c.length, post.drop c.length, (List.take_append_drop _ _).symm, by
        rw [List.length_take]; omega⟩
    have hc := h4 c List.mem_cons_self
    have hpos : pre.length + (c.length + 3) / 4 * 4 = (pre ++ c).length := by
      rw [List.length_append]
      omega
    rw [packAll, memcpy_at pre mid post' c hm.symm]
    simp only [Option.bind_eq_bind, Option.bind_some]
    rw [hpos, ← List.append_assoc, ih (fun d hd => h4 d (List.mem_cons_of_mem _ hd)) (pre ++ c) post' (by
      rw [List.length_append] at hlen
      omega)]
    simp

/-- Bytes of the first word. -/
theorem fromLe_memory_word (w : BitVec 32) (r : List (BitVec 32)) (tail : List Nat) :
    memory (w :: r) ++ tail = leBytes 4 w.toNat ++ (memory r ++ tail) ∧ fromLe (leBytes 4 w.toNat) = w.toNat := by
  constructor
  · simp [memory]
  · rw [fromLe_leBytes, Nat.mod_eq_of_lt]
    exact w.isLt

end Verif.Log
