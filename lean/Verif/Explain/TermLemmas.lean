import Verif.Explain.ReadLemmas

/-! # Lemmas on reading terms -/
namespace Verif.Explain
open Verif.Match Spec

/-! ## Numbers -/

theorem digit_digitChar {n : Nat} (h : n < 16) : digit n.digitChar = some n := by
  revert h; revert n; decide

theorem digits_snoc {s : Str} {n d : Nat} {a : Char} (hs : digits s = some n) (ha : digit a = some d) :
    digits (s ++ [a]) = some (16 * n + d) := by
  unfold digits at hs ⊢
  rw [if_neg (by simp)]
  split at hs
  · simp at hs
  · rw [List.foldlM_append, hs]
    simp [ha]

theorem digits_toDigits (n : Nat) : digits (Nat.toDigits 16 n) = some n := by
  induction n using Nat.strongRecOn with
  | _ n ih =>
    by_cases h : n < 16
    · rw [Nat.toDigits_of_lt_base h]
      simp [digits, digit_digitChar h]
    · rw [Nat.toDigits_of_base_le (by omega) (by omega),
        digits_snoc (ih (n / 16) (by omega)) (digit_digitChar (Nat.mod_lt n (by omega)))]
      congr 1; omega

theorem digit_mem_toDigits {n : Nat} {a : Char} (h : a ∈ Nat.toDigits 16 n) : (digit a).isSome = true := by
  induction n using Nat.strongRecOn with
  | _ n ih =>
    by_cases hn : n < 16
    · rw [Nat.toDigits_of_lt_base hn, List.mem_singleton] at h
      rw [h, digit_digitChar hn]; rfl
    · rw [Nat.toDigits_of_base_le (by omega) (by omega), List.mem_append, List.mem_singleton] at h
      rcases h with h | h
      · exact ih (n / 16) (by omega) h
      · rw [h, digit_digitChar (Nat.mod_lt n (by omega))]; rfl

theorem hex_char {v : Int} {a : Char} (h : a ∈ hex v) : a = '-' ∨ (digit a).isSome = true := by
  unfold hex at h
  rcases List.mem_append.1 h with h | h
  · split at h
    · exact .inl (by simpa using h)
    · simp at h
  · exact .inr (digit_mem_toDigits h)

theorem hex_not {v : Int} {a : Char} (h1 : a ≠ '-') (h2 : digit a = none) : a ∉ hex v := fun h => by
  rcases hex_char h with h | h
  · exact h1 h
  · rw [h2] at h; simp at h

theorem number_hex (v : Int) : number ("0x".toList ++ hex v) = some v := by
  by_cases hv : v < 0
  · have : "0x".toList ++ hex v = '0' :: 'x' :: '-' :: Nat.toDigits 16 v.natAbs := by
      simp [hex, hv]
    rw [this]
    simp only [number]
    rw [digits_toDigits, Option.map_some]
    congr 1; omega
  · have h1 : "0x".toList ++ hex v = '0' :: 'x' :: Nat.toDigits 16 v.natAbs := by
      simp [hex, hv]
    have h2 : ∀ s, Nat.toDigits 16 v.natAbs ≠ '-' :: s := by
      intro s hs
      have := digit_mem_toDigits (n := v.natAbs) (a := '-') (by rw [hs]; simp)
      revert this; decide
    rw [h1, number.eq_2 _ (by intro s hs; exact h2 s hs)]
    rw [digits_toDigits, Option.map_some]
    congr 1; omega

/-! ## Words -/

theorem takeWhile_word {w : Str} (h : ' ' ∉ w) (s : Str) :
    ((w ++ ' ' :: s).takeWhile fun a => decide (a ≠ ' ')) = w := by
  induction w with
  | nil => simp
  | cons a w ih =>
    simp only [List.mem_cons, not_or] at h
    rw [List.cons_append, List.takeWhile_cons_of_pos (by simpa using Ne.symm h.1), ih h.2]

theorem lastWord_append (s : Str) {w : Str} (h : ' ' ∉ w) : lastWord (s ++ ' ' :: w) = some (s, w) := by
  have h1 : (s ++ ' ' :: w).reverse = w.reverse ++ ' ' :: s.reverse := by simp
  have h2 : ' ' ∉ w.reverse := by simpa using h
  unfold lastWord
  simp only [h1, takeWhile_word h2]
  rw [List.drop_left]
  simp

theorem operator_opText (op : RelOp) : operator (opText op) = some op := by cases op <;> rfl

theorem space_opText (op : RelOp) : ' ' ∉ opText op := by cases op <;> decide

theorem space_number (v : Int) : ' ' ∉ "0x".toList ++ hex v := by
  rw [List.mem_append, not_or]
  exact ⟨by decide, hex_not (by decide) (by decide)⟩

/-- A comparison is read as it was written. -/
theorem readComparison_text (name : Str) (op : RelOp) (v : Int) :
    readComparison (name ++ " ".toList ++ opText op ++ " 0x".toList ++ hex v) = some ⟨name, op, v⟩ := by
  have h1 : name ++ " ".toList ++ opText op ++ " 0x".toList ++ hex v =
      (name ++ ' ' :: opText op) ++ ' ' :: ("0x".toList ++ hex v) := by simp
  unfold readComparison
  simp only [h1, lastWord_append _ (space_number v), lastWord_append _ (space_opText op), operator_opText,
    number_hex, Option.bind_eq_bind, Option.bind_some]
  rfl

/-- A comparison with the value is read as it was written. -/
theorem readShown_text (name : Str) (x : Int) (op : RelOp) (v : Int) :
    readShown (name ++ " (0x".toList ++ hex x ++ ") ".toList ++ opText op ++ " 0x".toList ++ hex v) =
      some ⟨⟨name, op, v⟩, x⟩ := by
  have h1 : name ++ " (0x".toList ++ hex x ++ ") ".toList ++ opText op ++ " 0x".toList ++ hex v =
      (name ++ " (0x".toList ++ hex x ++ ")".toList) ++ " ".toList ++ opText op ++ " 0x".toList ++ hex v := by
    simp
  have h2 : name ++ " (0x".toList ++ hex x ++ ")".toList =
      name ++ ' ' :: ('(' :: (("0x".toList ++ hex x) ++ [')'])) := by simp
  have h3 : ' ' ∉ '(' :: (("0x".toList ++ hex x) ++ [')']) := by
    have := space_number x
    simp only [List.mem_cons, List.mem_append, not_or] at this ⊢
    refine ⟨by decide, this, by decide, by simp⟩
  unfold readShown
  simp only [h1, readComparison_text, Option.bind_eq_bind, Option.bind_some]
  simp only [h2, lastWord_append _ h3, Option.bind_some, List.getLast?_concat, if_true,
    List.dropLast_concat, number_hex]
  rfl

/-! ## Texts of terms -/

theorem balanced_hex (v : Int) : Balanced (hex v) :=
  balanced_free (hex_not (by decide) (by decide)) (hex_not (by decide) (by decide))

theorem balanced_opText (op : RelOp) : Balanced (opText op) := by cases op <;> decide

theorem closing_empty_last (s : Str) : ∀ n, (closing n s).map (·.2) = some [] → s.getLast? = some ')' := by
  induction s with
  | nil => intro n h; simp [closing] at h
  | cons a s ih =>
    intro n h
    have key : ∀ k (b : Char), (closing k s).map (fun p => ((b :: p.1, p.2) : Str × Str).2) = some [] →
        (a :: s).getLast? = some ')' := by
      intro k b hk
      have := ih k hk
      cases s with
      | nil => simp at this
      | cons c s => rw [List.getLast?_cons_cons]; exact this
    by_cases h1 : a = '('
    · subst h1
      rw [closing_open, Option.map_map] at h
      exact key _ _ h
    · by_cases h2 : a = ')'
      · subst h2
        cases n with
        | zero =>
          simp only [closing, Option.map_some, Option.some.injEq] at h
          rw [h]; rfl
        | succ n =>
          rw [closing, Option.map_map] at h
          exact key _ _ h
      · rw [closing_other h1 h2, Option.map_map] at h
        exact key _ _ h

/-- A text that does not end in a parenthesis is not mistaken for a negation. -/
theorem not_negation {s : Str} (h : s.getLast? ≠ some ')') :
    ¬("not (".toList.isPrefixOf s ∧ (closing 0 (s.drop 5)).map (·.2) = some []) := by
  rintro ⟨h1, h2⟩
  have h3 := closing_empty_last _ _ h2
  apply h
  obtain ⟨t, rfl⟩ := List.isPrefixOf_iff_prefix.1 h1
  rw [show ("not (".toList ++ t).drop 5 = t from rfl] at h3
  rw [List.getLast?_append, h3]
  rfl

theorem getLast_hex (s : Str) (v : Int) : (s ++ hex v).getLast? ≠ some ')' := by
  intro h
  have : hex v ≠ [] := by
    unfold hex; simp [Nat.toDigits_ne_nil]
  rw [List.getLast?_append, List.getLast?_eq_getLast_of_ne_nil this, Option.some_or] at h
  have h2 := List.getLast_mem this
  rw [Option.some.inj h] at h2
  exact hex_not (v := v) (by decide) (by decide) h2

theorem ne_of_mem {s t : Str} {a : Char} (h : a ∈ s) (h' : a ∉ t) : s ≠ t := fun e => h' (e ▸ h)

theorem head_append_ne {s : Str} (h : s.head? ≠ some '(') (t : Str) (ht : t.head? ≠ some '(') :
    (s ++ t).head? ≠ some '(' := by
  cases s with
  | nil => exact ht
  | cons a s => exact h

theorem plain_comparison {name : Str} (hb : Balanced name) (hh : name.head? ≠ some '(') (op : RelOp) (v : Int) :
    PlainTerm (name ++ " ".toList ++ opText op ++ " 0x".toList ++ hex v) := by
  refine ⟨?_, ?_, ne_of_mem (a := ' ') (by simp) (by decide), ne_of_mem (a := ' ') (by simp) (by decide),
    not_negation (getLast_hex _ v)⟩
  · exact balanced_append (balanced_append (balanced_append (balanced_append hb (by decide))
      (balanced_opText op)) (by decide)) (balanced_hex v)
  · simp only [List.append_assoc]
    exact head_append_ne hh _ (by simp)

theorem plain_shown {name : Str} (hb : Balanced name) (hh : name.head? ≠ some '(') (x : Int) (op : RelOp) (v : Int) :
    PlainTerm (name ++ " (0x".toList ++ hex x ++ ") ".toList ++ opText op ++ " 0x".toList ++ hex v) := by
  refine ⟨?_, ?_, ne_of_mem (a := ' ') (by simp) (by decide), ne_of_mem (a := ' ') (by simp) (by decide),
    not_negation (getLast_hex _ v)⟩
  · have h1 : name ++ " (0x".toList ++ hex x ++ ") ".toList ++ opText op ++ " 0x".toList ++ hex v =
      name ++ " ".toList ++ ("(".toList ++ ("0x".toList ++ hex x) ++ ")".toList) ++ " ".toList ++ opText op ++
        " 0x".toList ++ hex v := by simp
    rw [h1]
    exact balanced_append (balanced_append (balanced_append (balanced_append (balanced_append (balanced_append hb
      (by decide)) (balanced_paren (balanced_append (by decide) (balanced_hex x)))) (by decide))
      (balanced_opText op)) (by decide)) (balanced_hex v)
  · simp only [List.append_assoc]
    exact head_append_ne hh _ (by simp)

theorem plain_predicate {s : Str} (hb : Balanced s) : PlainTerm ("<predicate>(".toList ++ s ++ ")".toList) := by
  have h1 : "<predicate>(".toList ++ s ++ ")".toList = "<predicate>".toList ++ ("(".toList ++ s ++ ")".toList) := by
    simp
  refine ⟨?_, ?_, ne_of_mem (a := '<') (by simp) (by decide), ne_of_mem (a := '<') (by simp) (by decide), ?_⟩
  · rw [h1]; exact balanced_append (by decide) (balanced_paren hb)
  · simp
  · rintro ⟨h, -⟩
    simp at h

/-- A text that ends in a parenthesis is not a comparison. -/
theorem readComparison_paren (s : Str) : readComparison (s ++ ")".toList) = none := by
  unfold readComparison
  cases h1 : lastWord (s ++ ")".toList) with
  | none => rfl
  | some p =>
    obtain ⟨a, b⟩ := p
    have hb : number b = none := by
      -- the last word ends in a parenthesis
      have hl : b.getLast? = some ')' := by
        unfold lastWord at h1
        have hr : (s ++ ")".toList).reverse = ')' :: s.reverse := by simp
        rw [hr] at h1
        rw [List.takeWhile_cons_of_pos (by decide)] at h1
        revert h1
        dsimp only
        split
        · intro h1
          have := (Prod.mk.inj (Option.some.inj h1)).2
          rw [← this]; simp
        · intro h1; simp at h1
      have hd : ∀ t : Str, t.getLast? = some ')' → digits t = none := by
        intro t ht
        obtain ⟨u, rfl⟩ : ∃ u, t = u ++ [')'] := by
          have hne : t ≠ [] := by rintro rfl; simp at ht
          refine ⟨t.dropLast, ?_⟩
          rw [List.getLast?_eq_getLast_of_ne_nil hne] at ht
          conv => lhs; rw [← List.dropLast_append_getLast hne, Option.some.inj ht]
        unfold digits
        rw [if_neg (by simp), List.foldlM_append]
        cases u.foldlM (fun n a => (digit a).map (16 * n + ·)) 0 with
        | none => rfl
        | some n => simp [show digit ')' = none by decide]
      unfold number
      split
      · rw [hd]; · rfl
        rename_i t
        cases t with
        | nil => simp at hl
        | cons c t => simpa [List.getLast?_cons_cons] using hl
      · rw [hd]; · rfl
        rename_i t _
        cases t with
        | nil => simp at hl
        | cons c t => simpa [List.getLast?_cons_cons] using hl
      · rfl
    simp only [Option.bind_eq_bind, Option.bind_some, hb, Option.bind_none]
    cases lastWord a with
    | none => rfl
    | some q => rw [Option.bind_some]; cases operator q.2 <;> rfl

end Verif.Explain
