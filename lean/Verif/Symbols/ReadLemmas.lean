import Verif.Symbols.Lemmas
/-! # What the regular expressions find in a symbol -/
namespace Verif.Symbols

theorem partsWays_alt (cap : Bool) (ss : List Text) (ps : List Part) (t : Text) :
    partsWays (⟨cap, [.alt ss]⟩ :: ps) t = ss.flatMap fun s =>
      ((dropPrefix? s t).toList).flatMap fun r =>
        (partsWays ps r).map fun y => (if cap then s :: y.1 else y.1, y.2) := by
  rw [partsWays, atomsWays, Atom.ways]
  induction ss with
  | nil => rfl
  | cons s ss ih =>
    simp only [List.flatMap_cons, List.flatMap_append]
    rw [ih]
    congr 1
    cases dropPrefix? s t with
    | none => rfl
    | some r => simp [atomsWays]

theorem partsWays_alt_some {cap : Bool} {ss : List Text} {ps : List Part} {t : Text}
    (h : partsWays (⟨cap, [.alt ss]⟩ :: ps) t ≠ []) :
    ∃ s ∈ ss, ∃ r, t = s ++ r ∧ partsWays ps r ≠ [] := by
  rw [partsWays_alt, Ne, List.flatMap_eq_nil_iff] at h
  simp only [Classical.not_forall] at h
  obtain ⟨s, hs, h⟩ := h
  cases hd : dropPrefix? s t with
  | none => rw [hd] at h; exact absurd rfl h
  | some r =>
    refine ⟨s, hs, r, dropPrefix_some hd, ?_⟩
    intro e
    rw [hd] at h
    apply h
    simp [e]

/-- A number. -/
theorem partsWays_number (ps : List Part) (t : Text) :
    partsWays (number :: ps) t =
      ((dropPrefix? ['-'] t).toList.flatMap fun r =>
        (partsWays (⟨true, [.rep isDigit 1 false]⟩ :: ps) r).map fun y =>
          (match y.1 with | [] => [] | a :: as => ('-' :: a) :: as, y.2)) ++
      partsWays (⟨true, [.rep isDigit 1 false]⟩ :: ps) t := by
  rw [partsWays, atomsWays, Atom.ways, List.flatMap_append, List.flatMap_append]
  congr 1
  · cases dropPrefix? ['-'] t with
    | none => rfl
    | some r =>
      simp only [Option.map_some, Option.toList_some, List.flatMap_cons, List.flatMap_nil, List.append_nil]
      rw [partsWays]
      simp only [List.flatMap_map, List.map_flatMap, List.map_map, if_true]
      rfl
  · simp [partsWays]

theorem partsWays_number_some {ps : List Part} {t : Text} (h : partsWays (number :: ps) t ≠ []) :
    ∃ d r, t = d ++ r ∧ (∀ c ∈ d, c = '-' ∨ isDigit c = true) ∧ partsWays ps r ≠ [] := by
  rw [partsWays_number] at h
  by_cases h2 : partsWays (⟨true, [.rep isDigit 1 false]⟩ :: ps) t = []
  · rw [h2, List.append_nil] at h
    cases hd : dropPrefix? ['-'] t with
    | none => rw [hd] at h; exact absurd rfl h
    | some r =>
      rw [hd] at h
      simp only [Option.toList_some, List.flatMap_cons, List.flatMap_nil, List.append_nil] at h
      have h3 : partsWays (⟨true, [.rep isDigit 1 false]⟩ :: ps) r ≠ [] := by
        intro e; rw [e] at h; exact h rfl
      obtain ⟨u, w, rfl, hu, _, hw⟩ := partsWays_rep_some h3
      refine ⟨'-' :: u, w, by rw [dropPrefix_some hd]; rfl, ?_, hw⟩
      intro c hc
      rcases List.mem_cons.1 hc with rfl | hc
      · exact .inl rfl
      · exact .inr (hu c hc)
  · obtain ⟨u, w, rfl, hu, _, hw⟩ := partsWays_rep_some h2
    exact ⟨u, w, rfl, fun c hc => .inr (hu c hc), hw⟩

theorem digits_one {ps : List Part} {n : Nat} {v : Text} (hv : ∀ c r, v = c :: r → isDigit c = false)
    (hp : ∀ c r, isDigit c = true → partsWays ps (c :: r) = []) :
    partsWays (⟨true, [.rep isDigit 1 false]⟩ :: ps) (natText n ++ v) =
      (partsWays ps v).map fun y => (natText n :: y.1, y.2) := by
  refine partsWays_rep_one (fun c => natText_digit) ?_ ?_
  · have := natText_ne n
    cases h : natText n with
    | nil => exact absurd h this
    | cons _ _ => simp
  · intro u w e hu _ hw
    rcases List.append_eq_append_iff.1 e with ⟨a, h1, h2⟩ | ⟨a, h1, h2⟩
    · cases a with
      | nil => simpa using h1.symm
      | cons c a =>
        have : isDigit c = true := natText_digit (n := n) (by rw [h1]; simp)
        rw [h2] at hw
        exact absurd (hp c _ this) hw
    · cases a with
      | nil => simpa using h1
      | cons c a =>
        have : isDigit c = true := hu c (by rw [h1]; simp)
        rw [hv c _ h2] at this
        cases this

theorem number_one {ps : List Part} {n : Int} {v : Text} (hv : ∀ c r, v = c :: r → isDigit c = false)
    (hp : ∀ c r, isDigit c = true → partsWays ps (c :: r) = []) :
    partsWays (number :: ps) (dec n ++ v) = (partsWays ps v).map fun y => (dec n :: y.1, y.2) := by
  rw [partsWays_number]
  rcases dec_cases n with ⟨e, _⟩ | e
  · rw [e, digits_one hv hp]
    obtain ⟨c, r, hcr⟩ := List.exists_cons_of_ne_nil (natText_ne n.toNat)
    have hc : isDigit c = true := natText_digit (n := n.toNat) (by rw [hcr]; simp)
    have : dropPrefix? ['-'] (natText n.toNat ++ v) = none := by
      rw [hcr, List.cons_append, dropPrefix?, if_neg]
      rintro rfl
      cases hc
    rw [this]
    rfl
  · rw [e, List.cons_append, dropPrefix?, if_pos rfl, dropPrefix?]
    simp only [Option.toList_some, List.flatMap_cons, List.flatMap_nil, List.append_nil]
    rw [digits_one hv hp]
    have : partsWays (⟨true, [.rep isDigit 1 false]⟩ :: ps) ('-' :: (natText n.natAbs ++ v)) = [] := by
      apply Classical.byContradiction
      intro h
      obtain ⟨u, w, e, hu, hl, _⟩ := partsWays_rep_some h
      cases u with
      | nil => simp at hl
      | cons c u =>
        simp only [List.cons_append, List.cons.injEq] at e
        have := hu c (by simp)
        rw [← e.1] at this
        cases this
    rw [this, List.append_nil, List.map_map]
    rfl

theorem lit_no {s : Text} {ps : List Part} {c d : Char} {r : Text} (h : c ≠ d) :
    partsWays (lit (d :: s) :: ps) (c :: r) = [] := by
  apply Classical.byContradiction
  intro hne
  obtain ⟨r, e, _⟩ := partsWays_lit_some hne
  exact h (List.cons.inj e).1

/-- The letters after a number. -/
theorem letters_one {ps : List Part} {s x v : Text} (hx : ∀ c ∈ x, c.isAlpha = true) :
    partsWays (letters :: lit (',' :: s) :: ps) (x ++ ',' :: s ++ v) =
      (partsWays ps v).map fun y => (x :: y.1, y.2) := by
  rw [List.append_assoc, partsWays_rep_one (p := isLetter) hx (Nat.zero_le _)]
  · rw [partsWays_lit]
    rfl
  · intro u w e hu _ hw
    obtain ⟨r, rfl, _⟩ := partsWays_lit_some hw
    refine (first_char (c := ',') (a := x) (b := s ++ v) (v := s ++ r) ?_ ?_ ?_).1
    · intro h; have := hx _ h; revert this; decide
    · intro h; have := hu _ h; revert this; decide
    · simpa using e

theorem letters_no {s : Text} {ps : List Part} {c : Char} {r : Text} (h : isDigit c = true) :
    partsWays (letters :: lit (',' :: s) :: ps) (c :: r) = [] := by
  apply Classical.byContradiction
  intro hne
  obtain ⟨u, w, e, hu, _, hw⟩ := partsWays_rep_some hne
  cases u with
  | nil =>
    rw [List.nil_append] at e
    rw [← e] at hw
    exact hw (lit_no (digit_ne h (by decide)))
  | cons d u =>
    simp only [List.cons_append, List.cons.injEq] at e
    have := hu d (by simp)
    rw [← e.1] at this
    simp only [isLetter, isDigit, Char.isAlpha, Char.isUpper, Char.isLower, Char.isDigit, Bool.or_eq_true,
      Bool.and_eq_true, decide_eq_true_eq] at this h
    have h1 : c.val.toNat ≤ 57 := UInt32.le_iff_toNat_le.1 h.2
    rcases this with this | this
    · have : 65 ≤ c.val.toNat := UInt32.le_iff_toNat_le.1 this.1
      omega
    · have : 97 ≤ c.val.toNat := UInt32.le_iff_toNat_le.1 this.1
      omega

/-! ## The end of a type -/

/-- Two closing brackets. -/
theorem end_two {p : Text} (hp : p = [] ∨ p = [' ']) :
    partsWays [lit t!">", spaces, lit t!">"] (t!">" ++ p ++ t!">") = [([], [])] ∧
    ∀ x y, t!">" ++ p ++ t!">" = x ++ y → x ≠ [] → partsWays [lit t!">", spaces, lit t!">"] y = [] := by
  have : ∀ E : Text, (∀ k < E.length + 1, 0 < k → partsWays [lit t!">", spaces, lit t!">"] (E.drop k) = []) →
      ∀ x y, E = x ++ y → x ≠ [] → partsWays [lit t!">", spaces, lit t!">"] y = [] := by
    intro E h x y e hx
    have := h x.length (by rw [e]; simp; omega) (List.length_pos_iff.2 hx)
    rwa [e, List.drop_left] at this
  rcases hp with rfl | rfl
  · exact ⟨by decide, this _ (by decide)⟩
  · exact ⟨by decide, this _ (by decide)⟩

/-- Three closing brackets. -/
theorem end_three {p q r : Text} (hp : p = [] ∨ p = [' ']) (hq : q = [] ∨ q = [' ']) (hr : r = [] ∨ r = [' ']) :
    partsWays [lit t!">", spaces, lit t!">", spaces, lit t!">"] (t!">" ++ p ++ t!">" ++ q ++ t!">" ++ r) =
      [([], r)] ∧
    ∀ x y, t!">" ++ p ++ t!">" ++ q ++ t!">" ++ r = x ++ y → x ≠ [] →
      partsWays [lit t!">", spaces, lit t!">", spaces, lit t!">"] y = [] := by
  have : ∀ E : Text, (∀ k < E.length + 1, 0 < k →
      partsWays [lit t!">", spaces, lit t!">", spaces, lit t!">"] (E.drop k) = []) →
      ∀ x y, E = x ++ y → x ≠ [] → partsWays [lit t!">", spaces, lit t!">", spaces, lit t!">"] y = [] := by
    intro E h x y e hx
    have := h x.length (by rw [e]; simp; omega) (List.length_pos_iff.2 hx)
    rwa [e, List.drop_left] at this
  rcases hp with rfl | rfl <;> rcases hq with rfl | rfl <;> rcases hr with rfl | rfl <;>
    exact ⟨by decide, this _ (by decide)⟩

/-! ## Tags and named arguments -/

theorem tag_match {T V p : Text} (hT : '<' ∉ T) (hV : '<' ∉ V) (hp : p = [] ∨ p = [' ']) :
    reMatch [lit t!"sc::tag<sc::string<", all, lit t!">, sc::string<", all, lit t!">", spaces, lit t!">"]
      (t!"sc::tag<sc::string<" ++ T ++ t!">, sc::string<" ++ V ++ (t!">" ++ p ++ t!">")) = some [T, V] := by
  rw [reMatch]
  simp only [List.append_assoc]
  rw [partsWays_lit, partsWays_rep_one (p := any) (fun _ _ => rfl) (Nat.zero_le _), partsWays_lit]
  · rw [List.head?_map, head_all, ← List.append_assoc, (end_two hp).1]
    · rfl
    · rw [← List.append_assoc, (end_two hp).1]; simp
    · rw [← List.append_assoc]; exact (end_two hp).2
  · intro u w e _ _ hw
    obtain ⟨r, rfl, _⟩ := partsWays_lit_some hw
    refine (once (m := t!">, sc::string") (b := V ++ (t!">" ++ (p ++ t!">"))) (v := r) (by decide) ?_ ?_ ?_).1
    · exact free_plain (by simp [hT])
    · refine free_plain ?_
      rcases hp with rfl | rfl <;> simp [hV]
    · simpa using e

theorem named_match {T : Text} {a b : Int} (hT : '>' ∉ T) :
    reMatch [lit t!"sc::named_arg<sc::string<", all, lit t!">, ", number, lit t!", ", number, lit t!">"]
      (t!"sc::named_arg<sc::string<" ++ T ++ t!">, " ++ dec a ++ t!", " ++ dec b ++ t!">") =
      some [T, dec a, dec b] := by
  rw [reMatch]
  simp only [List.append_assoc]
  rw [partsWays_lit, partsWays_rep_one (p := any) (fun _ _ => rfl) (Nat.zero_le _), partsWays_lit, number_one, partsWays_lit,
    number_one, show partsWays [lit t!">"] t!">" = [([], [])] from rfl]
  · rfl
  · intro c r e; cases e; rfl
  · intro c r h; exact lit_no (digit_ne h (by decide))
  · intro c r e; cases e; rfl
  · intro c r h; exact lit_no (digit_ne h (by decide))
  · intro u w e _ _ hw
    obtain ⟨r, rfl, hw1⟩ := partsWays_lit_some hw
    obtain ⟨d, r, rfl, hd, hw2⟩ := partsWays_number_some hw1
    obtain ⟨r, rfl, hw3⟩ := partsWays_lit_some hw2
    obtain ⟨d', r, rfl, hd', hw4⟩ := partsWays_number_some hw3
    obtain ⟨r, rfl, hw5⟩ := partsWays_lit_some hw4
    have hda : '>' ∉ dec a := dec_not (by decide) (by decide)
    have hdb : '>' ∉ dec b := dec_not (by decide) (by decide)
    have hcount := congrArg (List.count '>') e
    have hz : ∀ {l : Text}, '>' ∉ l → l.count '>' = 0 := fun h => List.count_eq_zero.2 h
    simp [List.count_append, List.count_cons, hz hT, hz hda, hz hdb] at hcount
    have hu : u.count '>' = 0 := by omega
    refine (first_char (c := '>') (b := ',' :: ' ' :: (dec a ++ ',' :: ' ' :: (dec b ++ ['>'])))
      (v := ',' :: ' ' :: (d ++ ',' :: ' ' :: (d' ++ '>' :: r))) hT (List.count_eq_zero.1 hu) ?_).1
    simpa using e

theorem getLast?_right {a b : Text} (h : b ≠ []) : (a ++ b).getLast? = b.getLast? := by
  rw [List.getLast?_append]
  cases hb : b.getLast? with
  | none => exact absurd (List.getLast?_eq_none_iff.1 hb) h
  | some c => rfl

/-- A tag is read. -/
theorem Tag.ofCpp_type {gap : Bool} {t : List Int × List Int} (h1 : Plain t.1) (h2 : Plain t.2) :
    Tag.ofCpp (tagType gap nmChar t) = some ⟨codes t.1, codes t.2⟩ := by
  obtain ⟨pad, hp, _, _, _, e⟩ := tmpl_shape gap t!"sc::tag" [strType gap nmChar t.1, strType gap nmChar t.2]
    (by decide)
  have := tag_match (T := commas (t.1.map nmChar)) (V := commas (t.2.map nmChar)) (p := pad)
    (chars_not _ (.inl rfl)) (chars_not _ (.inl rfl)) hp
  rw [Tag.ofCpp, tagType, e, commas_cons, commas_one, strType_eq, strType_eq]
  simp only [List.append_assoc, List.cons_append, List.nil_append] at this ⊢
  rw [this]
  simp only [charsOf_nm h1, charsOf_nm h2]
  rfl

/-- The parts of a named argument are found, whatever its name is. -/
theorem NamedArg.ofCpp_eq {gap : Bool} {a : List Int × Int × Int} :
    NamedArg.ofCpp (namedType gap nmChar a) =
      (charsOf (commas (a.1.map nmChar))).map fun n => ⟨n, a.2.1, a.2.2⟩ := by
  obtain ⟨pad, hp, _, _, _, e⟩ := tmpl_shape gap t!"sc::named_arg" [strType gap nmChar a.1, dec a.2.1, dec a.2.2]
    (by decide)
  have hpad : pad = [] := by
    have : namedType gap nmChar a = tmpl gap t!"sc::named_arg" [strType gap nmChar a.1, dec a.2.1, dec a.2.2] := rfl
    rcases hp with h | h
    · exact h
    · rw [h] at e
      rw [tmpl, shut, if_neg] at e
      · have := congrArg List.length e
        simp at this
      · intro hl
        rw [Bool.and_eq_true, beq_iff_eq, commas_cons, commas_cons, commas_one] at hl
        have h2 := hl.2
        rw [show ∀ x y z : Text, t!"sc::named_arg" ++ '<' :: (x ++ ',' :: ' ' :: (y ++ ',' :: ' ' :: z)) =
          (t!"sc::named_arg" ++ '<' :: (x ++ ',' :: ' ' :: (y ++ t!", "))) ++ z from by intros; simp,
          getLast?_right (dec_ne _)] at h2
        exact dec_not (by decide) (by decide) (List.mem_of_getLast? h2)
  have := named_match (T := commas (a.1.map nmChar)) (a := a.2.1) (b := a.2.2) (chars_not _ (.inr rfl))
  rw [NamedArg.ofCpp, namedType, e, hpad, commas_cons, commas_cons, commas_one, strType_eq]
  simp only [List.append_assoc, List.cons_append, List.nil_append, List.append_nil] at this ⊢
  rw [this]
  simp only [intOf_dec]
  cases charsOf (commas (a.1.map nmChar)) <;> rfl

/-- A named argument is read. -/
theorem NamedArg.ofCpp_type {gap : Bool} {a : List Int × Int × Int} (h : Plain a.1) :
    NamedArg.ofCpp (namedType gap nmChar a) = some ⟨codes a.1, a.2.1, a.2.2⟩ := by
  rw [NamedArg.ofCpp_eq, charsOf_nm h]
  rfl

end Verif.Symbols
