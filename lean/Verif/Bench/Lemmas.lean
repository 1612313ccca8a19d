import Verif.Bench.Spec
/-!
# Lemmas about the data of the benchmarks
-/
namespace Verif.Bench

/-! ### The keys -/

theorem collect_spec (size : Nat) (t : Ty) (draws keys ks : List Nat) (hk : keys.Nodup)
    (hl : keys.length ≤ size) (h : collect size t draws keys = some ks) :
    ks.Nodup ∧ ks.length = size := by
  induction draws generalizing keys with
  | nil =>
    rw [collect] at h
    split at h
    · cases h; exact ⟨hk, by omega⟩
    · cases h
  | cons d ds ih =>
    rw [collect] at h
    split at h
    · cases h; exact ⟨hk, by omega⟩
    · refine ih _ ?_ ?_ h
      · split
        · exact hk
        · next hn =>
          rw [List.nodup_append]
          exact ⟨hk, by simp, fun a ha b hb' => by
            simp only [List.mem_singleton] at hb'; subst hb'; exact fun e => hn (e ▸ ha)⟩
      · split
        · exact hl
        · simp; omega

/-- The keys are among the numbers drawn. -/
theorem collect_sub (size : Nat) (t : Ty) (draws keys ks : List Nat)
    (h : collect size t draws keys = some ks) : ∀ k ∈ ks, k ∈ keys ∨ k ∈ draws.map t.gen := by
  induction draws generalizing keys with
  | nil =>
    rw [collect] at h
    split at h
    · cases h; exact fun k hk => .inl hk
    · cases h
  | cons d ds ih =>
    rw [collect] at h
    split at h
    · cases h; exact fun k hk => .inl hk
    · intro k hk
      rcases ih _ h k hk with hk | hk
      · split at hk
        · exact .inl hk
        · simp only [List.mem_append, List.mem_singleton] at hk
          rcases hk with hk | rfl
          · exact .inl hk
          · exact .inr (by simp)
      · exact .inr (by simp only [List.map_cons, List.mem_cons]; exact .inr hk)

theorem gen_lt {t : Ty} {d : Nat} (hd : t = .uint32 → d < 2 ^ 30) : t.gen d < 2 ^ t.bits := by
  cases t
  · exact Nat.lt_of_le_of_lt Nat.and_le_right (by decide)
  · exact Nat.lt_of_lt_of_le (hd rfl) (by decide)

theorem collect_lt (size : Nat) (t : Ty) (draws ks : List Nat)
    (hd : t = .uint32 → ∀ d ∈ draws, d < 2 ^ 30) (h : collect size t draws [] = some ks) :
    ∀ k ∈ ks, k < 2 ^ t.bits := by
  intro k hk
  rcases collect_sub size t draws [] ks h k hk with hk | hk
  · cases hk
  · obtain ⟨d, hm, rfl⟩ := List.mem_map.1 hk
    exact gen_lt fun ht => hd ht d hm

/-- Without a result every number drawn is a key, and there are too few keys. -/
theorem collect_none (size : Nat) (t : Ty) (draws keys : List Nat) (hk : keys.Nodup)
    (h : collect size t draws keys = none) :
    ∃ ks : List Nat, ks.Nodup ∧ ks.length < size ∧ (∀ k ∈ keys, k ∈ ks) ∧
      ∀ d ∈ draws, t.gen d ∈ ks := by
  induction draws generalizing keys with
  | nil =>
    rw [collect] at h
    split at h
    · cases h
    · exact ⟨keys, hk, by omega, fun k h => h, by simp⟩
  | cons d ds ih =>
    rw [collect] at h
    split at h
    · cases h
    · have hn' : (if t.gen d ∈ keys then keys else keys ++ [t.gen d]).Nodup := by
        split
        · exact hk
        · next hn =>
          rw [List.nodup_append]
          exact ⟨hk, by simp, fun a ha b hb' => by
            simp only [List.mem_singleton] at hb'; subst hb'; exact fun e => hn (e ▸ ha)⟩
      obtain ⟨ks, h1, h2, h3, h4⟩ := ih _ hn' h
      refine ⟨ks, h1, h2, fun k hk => h3 k (by split <;> simp [hk]), fun x hx => ?_⟩
      rcases List.mem_cons.1 hx with rfl | hx
      · exact h3 _ (by split <;> simp_all)
      · exact h4 x hx

/-! ### The text -/

theorem digit_ne (d : Nat) (hd : d < 16) : digit d ≠ 'u' ∧ digit d ≠ 'x' ∧
    hexValue (digit d) = some d := by
  have : ∀ d : Fin 16, digit d.1 ≠ 'u' ∧ digit d.1 ≠ 'x' ∧ hexValue (digit d.1) = some d.1 := by
    decide
  exact this ⟨d, hd⟩

theorem digits_small {b n : Nat} (h : n < b) : digits b n = [digit n] := by
  rw [digits, dif_neg (by omega)]

theorem digits_big {b n : Nat} (hb : 1 < b) (h : b ≤ n) :
    digits b n = digits b (n / b) ++ [digit (n % b)] := by
  rw [digits, dif_pos ⟨hb, h⟩]

theorem read_digit (v d : Nat) (hd : d < 16) (rest : Text) :
    numbers (.inside v) (digit d :: rest) = numbers (.inside (16 * v + d)) rest := by
  have h := digit_ne d hd
  rw [numbers, if_neg h.1, h.2.2]
  rfl

theorem read_digits (n : Nat) (rest : Text) :
    numbers (.inside 0) (digits 16 n ++ rest) = numbers (.inside n) rest := by
  induction n using Nat.strongRecOn generalizing rest with
  | ind n ih =>
    rcases Nat.lt_or_ge n 16 with h | h
    · rw [digits_small h, List.singleton_append, read_digit 0 n h]
      simp
    · rw [digits_big (by decide) h, List.append_assoc, ih _ (by omega), List.singleton_append,
        read_digit _ _ (by omega)]
      congr 2
      omega

theorem read_zeros (k : Nat) (rest : Text) :
    numbers (.inside 0) (List.replicate k '0' ++ rest) = numbers (.inside 0) rest := by
  induction k with
  | zero => rfl
  | succ k ih =>
    rw [List.replicate_succ, List.cons_append]
    exact (read_digit 0 0 (by decide) _).trans ih

theorem read_hex8 (n : Nat) (rest : Text) :
    numbers .outside ('0' :: 'x' :: hex8 n ++ 'u' :: rest) = n :: numbers .outside rest := by
  simp only [List.cons_append, numbers, if_true, hex8]
  rw [List.append_assoc, read_zeros, read_digits]
  simp [numbers]

/-- A text without zeros has no number. -/
theorem read_without_zero (t rest : Text) (h : '0' ∉ t) :
    numbers .outside (t ++ rest) = numbers .outside rest := by
  induction t with
  | nil => rfl
  | cons c cs ih =>
    simp only [List.mem_cons, not_or] at h
    rw [List.cons_append, numbers, if_neg (fun e => h.1 e.symm), ih h.2]

/-- Nor has a text without `x`. -/
theorem read_without_x (t rest : Text) (c : Char) (h : 'x' ∉ t) (hx : c ≠ 'x') (h0 : c ≠ '0')
    (st : Reading) (hst : st = .outside ∨ st = .zero) :
    numbers st (t ++ c :: rest) = numbers .outside rest := by
  induction t generalizing st with
  | nil =>
    rcases hst with rfl | rfl
    · simp [numbers, h0]
    · simp [numbers, h0, hx]
  | cons d ds ih =>
    simp only [List.mem_cons, not_or] at h
    have hd : d ≠ 'x' := fun e => h.1 e.symm
    rcases hst with rfl | rfl
    · rw [List.cons_append, numbers]
      exact ih h.2 _ (by split <;> simp)
    · rw [List.cons_append, numbers, if_neg hd]
      exact ih h.2 _ (by split <;> simp)

theorem digits_no_x (n : Nat) : 'x' ∉ digits 10 n := by
  induction n using Nat.strongRecOn with
  | ind n ih =>
    rcases Nat.lt_or_ge n 10 with h | h
    · rw [digits_small h]
      simpa using fun e => (digit_ne n (by omega)).2.1 e.symm
    · rw [digits_big (by decide) h]
      simp only [List.mem_append, List.mem_singleton, not_or]
      exact ⟨ih _ (by omega), fun e => (digit_ne (n % 10) (by omega)).2.1 e.symm⟩

theorem read_header (t : Ty) (size : Nat) (rest : Text) :
    numbers .outside (header t size ++ rest) = numbers .outside rest := by
  have ht : '0' ∉ t.text := by cases t <;> decide
  unfold header
  have e1 : txt " = std::array<std::pair<std::" = ' ' :: txt "= std::array<std::pair<std::" := by
    simp [txt]
  have e2 : txt ">{{\n    " = '>' :: txt "{{\n    " := by simp [txt]
  rw [e1, e2]
  simp only [List.append_assoc, List.cons_append]
  rw [read_without_zero _ _ (by simp [txt]), read_without_zero _ _ ht]
  rw [List.nil_append, numbers, if_neg (by decide)]
  rw [read_without_x _ _ ' ' (digits_no_x size) (by decide) (by decide) _ (.inl rfl)]
  rw [read_without_zero _ _ (by simp [txt]), read_without_zero _ _ ht,
    read_without_zero _ _ (by simp [txt]), read_without_zero _ _ ht,
    read_without_zero _ _ (by simp [txt])]
  rw [read_without_x _ _ '>' (digits_no_x size) (by decide) (by decide) _ (.inl rfl)]
  exact read_without_zero _ _ (by simp [txt])

theorem read_entry (e : Nat × Nat) (rest : Text) :
    numbers .outside (entryText e ++ rest) = e.1 :: e.2 :: numbers .outside rest := by
  unfold entryText
  simp only [List.append_assoc, List.cons_append, List.nil_append]
  rw [numbers, if_neg (by decide)]
  have h1 := read_hex8 e.1 (',' :: ' ' :: '0' :: 'x' :: (hex8 e.2 ++ 'u' :: '}' :: rest))
  rw [List.cons_append, List.cons_append] at h1
  rw [h1]
  rw [numbers, if_neg (by decide), numbers, if_neg (by decide)]
  have h2 := read_hex8 e.2 ('}' :: rest)
  rw [List.cons_append, List.cons_append] at h2
  rw [h2, numbers, if_neg (by decide)]

theorem read_entries (es : List (Nat × Nat)) (rest : Text) :
    numbers .outside (joinEntries (es.map entryText) ++ rest) =
      flat es ++ numbers .outside rest := by
  induction es with
  | nil => rfl
  | cons e es ih =>
    cases es with
    | nil => simp [joinEntries, read_entry, flat]
    | cons f fs =>
      simp only [List.map_cons, joinEntries, List.append_assoc] at ih ⊢
      rw [read_entry, read_without_zero _ _ (by simp), ih]
      simp [flat]

theorem decimal_digits (n : Nat) : decimal (digits 10 n) = n := by
  have hd : ∀ d : Fin 10, (digit d.1).toNat - '0'.toNat = d.1 := by decide
  induction n using Nat.strongRecOn with
  | ind n ih =>
    rcases Nat.lt_or_ge n 10 with h | h
    · rw [digits_small h]
      simp only [decimal, List.foldl_cons, List.foldl_nil]
      rw [hd ⟨n, h⟩]
      simp
    · rw [digits_big (by decide) h]
      unfold decimal at ih ⊢
      rw [List.foldl_append, ih _ (by omega), List.foldl_cons, List.foldl_nil,
        hd ⟨n % 10, by omega⟩]
      show 10 * (n / 10) + n % 10 = n
      omega

theorem digits_ne_nil (b n : Nat) : digits b n ≠ [] := by
  rw [digits]; split <;> simp

theorem declares_header (t : Ty) (size : Nat) (rest : Text) :
    Declares t size (preamble ++ (header t size ++ rest)) := by
  refine ⟨digits 10 size, txt "\n    " ++ rest, ?_, decimal_digits size, digits_ne_nil _ _⟩
  have ht : t.text = txt t.name := by cases t <;> simp [Ty.text, Ty.name, txt]
  unfold header preamble
  rw [ht]
  simp [txt]

/-! ### The cycle -/

theorem getElem_valuesOf (ks : List Nat) (i : Nat) (hi : i < ks.length) :
    (valuesOf ks)[i]? = some (ks[(i + 1) % ks.length]'(Nat.mod_lt _ (by omega))) := by
  unfold valuesOf
  rcases Nat.lt_or_ge (i + 1) ks.length with h | h
  · rw [List.getElem?_append_left (by simp; omega)]
    simp only [List.getElem?_drop, Nat.mod_eq_of_lt h]
    rw [Nat.add_comm 1 i, List.getElem?_eq_getElem h]
  · have hi' : i + 1 = ks.length := by omega
    rw [List.getElem?_append_right (by simp; omega)]
    have h0 : i - (ks.drop 1).length = 0 := by simp; omega
    rw [h0]
    simp only [hi', Nat.mod_self]
    cases ks with
    | nil => simp at hi
    | cons k ks => simp

theorem length_valuesOf (ks : List Nat) : (valuesOf ks).length = ks.length := by
  simp [valuesOf]; omega

theorem keys_zip (ks : List Nat) : (ks.zip (valuesOf ks)).map (·.1) = ks := by
  rw [List.map_fst_zip (by rw [length_valuesOf]; omega)]

theorem follow_zip {ks vs : List Nat} (hn : ks.Nodup) (i : Nat) (hi : i < ks.length)
    (v : Nat) (hv : vs[i]? = some v) : follow (ks.zip vs) ks[i] = some v := by
  induction ks generalizing vs i with
  | nil => simp at hi
  | cons k ks ih =>
    cases vs with
    | nil => simp at hv
    | cons w ws =>
      cases i with
      | zero =>
        simp only [List.getElem?_cons_zero, Option.some.injEq] at hv
        subst hv
        simp [follow]
      | succ i =>
        rw [List.nodup_cons] at hn
        have hi' : i < ks.length := by simpa using hi
        have hne : k ≠ ks[i] := fun e => hn.1 (e ▸ List.getElem_mem hi')
        have := ih hn.2 i hi' (by simpa using hv)
        simp only [follow, List.zip_cons_cons, List.getElem_cons_succ] at this ⊢
        rw [List.find?_cons_of_neg (by simpa using hne)]
        exact this

theorem steps_zip {ks : List Nat} (hn : ks.Nodup) (n i : Nat) (hi : i < ks.length) :
    steps (ks.zip (valuesOf ks)) n ks[i] =
      some (ks[(i + n) % ks.length]'(Nat.mod_lt _ (by omega))) := by
  induction n generalizing i with
  | zero => simp [steps, Nat.mod_eq_of_lt hi]
  | succ n ih =>
    rw [steps, follow_zip hn i hi _ (getElem_valuesOf ks i hi), Option.bind_some,
      ih _ (Nat.mod_lt _ (by omega))]
    congr 2
    rw [Nat.mod_add_mod]
    congr 1
    omega

theorem oneCycle_zip {ks : List Nat} (hn : ks.Nodup) : OneCycle (ks.zip (valuesOf ks)) := by
  intro k hk
  rw [keys_zip] at hk
  obtain ⟨i, hi, rfl⟩ := List.getElem_of_mem hk
  have hlen : (ks.zip (valuesOf ks)).length = ks.length := by
    rw [List.length_zip, length_valuesOf, Nat.min_self]
  rw [hlen]
  constructor
  · have : (List.range ks.length).map (steps (ks.zip (valuesOf ks)) · ks[i]) =
        (ks.drop i ++ ks.take i).map some := by
      apply List.ext_getElem?
      intro j
      rcases Nat.lt_or_ge j ks.length with hj | hj
      · rw [List.getElem?_map, List.getElem?_range hj, Option.map_some, steps_zip hn j i hi,
          List.getElem?_map]
        rcases Nat.lt_or_ge (i + j) ks.length with h | h
        · rw [List.getElem?_append_left (by simp; omega), List.getElem?_drop,
            List.getElem?_eq_getElem h]
          simp only [Nat.mod_eq_of_lt h, Option.map_some]
        · rw [List.getElem?_append_right (by simp; omega)]
          have : j - (ks.drop i).length = i + j - ks.length := by simp; omega
          rw [this, List.getElem?_take_of_lt (by omega),
            List.getElem?_eq_getElem (by omega : i + j - ks.length < ks.length)]
          simp only [Option.map_some, Option.some.injEq]
          congr 1
          rw [Nat.mod_eq_sub_mod h, Nat.mod_eq_of_lt (by omega)]
      · rw [List.getElem?_eq_none (by simpa using hj), List.getElem?_eq_none (by simp; omega)]
    rw [this]
    have e : ((ks.zip (valuesOf ks)).map fun e => some e.1) = ks.map some := by
      rw [← keys_zip ks, List.map_map, keys_zip]
      rfl
    rw [e]
    refine List.Perm.map _ ?_
    exact (List.perm_append_comm).trans (by rw [List.take_append_drop])
  · rw [steps_zip hn _ i hi]
    simp [Nat.mod_eq_of_lt hi]

end Verif.Bench
