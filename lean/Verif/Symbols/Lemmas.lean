import Verif.Symbols.RegexLemmas
/-! # Lemmas about reading symbols -/
namespace Verif.Symbols

/-! ## More about markers -/

theorem free_sep {c : Char} {m x y : Text} (hm : c ∉ m) (hc : c ≠ '<') (hx : Free m x) (hy : Free m y) :
    Free m (x ++ c :: y) := by
  intro u v e
  have e' : (u ++ m ++ ['<']) ++ v = x ++ c :: y := by rw [e]; simp
  rcases List.append_eq_append_iff.1 e' with ⟨a, h1, h2⟩ | ⟨a, h1, h2⟩
  · exact hx u a (by rw [h1]; simp)
  · cases a with
    | nil => exact hx u [] (by rw [← List.append_nil x, ← h1])
    | cons b a =>
      simp only [List.cons_append, List.cons.injEq] at h2
      obtain ⟨rfl, h2⟩ := h2
      have h3 : u ++ (m ++ ['<']) = x ++ c :: a := by rw [← h1]; simp
      rcases List.append_eq_append_iff.1 h3 with ⟨b, h4, h5⟩ | ⟨b, h4, h5⟩
      · have : c ∈ m ++ ['<'] := by rw [h5]; simp
        simp [hm, hc] at this
      · cases b with
        | nil =>
          simp only [List.nil_append] at h5
          have : c ∈ m ++ ['<'] := by rw [← h5]; simp
          simp [hm, hc] at this
        | cons d b =>
          simp only [List.cons_append, List.cons.injEq] at h5
          exact hy b v (by rw [h2, h5.2]; simp)

theorem free_cons {c d : Char} {m x : Text} (hd : d ≠ c) (h : Free (c :: m) x) : Free (c :: m) (d :: x) := by
  intro u v e
  cases u with
  | nil =>
    simp only [List.nil_append, List.cons_append, List.cons.injEq] at e
    exact hd e.1
  | cons b u =>
    simp only [List.cons_append, List.cons.injEq] at e
    exact h u v e.2

/-- What is needed of a marker. -/
structure Marker (m : Text) : Prop where
  lt : '<' ∉ m
  gt : '>' ∉ m
  comma : ',' ∉ m
  head : ∃ c r, m = c :: r ∧ c ≠ ' '

theorem marker_of {m : Text} (h : m ∈ markers) : Marker m := by
  simp only [markers, List.mem_cons, List.not_mem_nil, or_false] at h
  rcases h with rfl | rfl | rfl | rfl | rfl | rfl | rfl <;>
    exact ⟨by decide, by decide, by decide, _, _, rfl, by decide⟩

theorem Marker.space {m x : Text} (hm : Marker m) (h : Free m x) : Free m (' ' :: x) := by
  obtain ⟨c, r, rfl, hc⟩ := hm.head
  exact free_cons (Ne.symm hc) h

theorem free_nil {m : Text} : Free m [] := free_plain (by simp)

theorem commas_cons (a b : Text) (as : List Text) : commas (a :: b :: as) = a ++ ',' :: ' ' :: commas (b :: as) := by
  simp [commas, List.intersperse_cons_cons]

theorem commas_one (a : Text) : commas [a] = a := by simp [commas]

theorem commas_nil : commas [] = [] := rfl

theorem Marker.commas {m : Text} (hm : Marker m) : ∀ {as : List Text}, (∀ a ∈ as, Free m a) → Free m (commas as)
  | [], _ => free_nil
  | [a], h => by rw [commas_one]; exact h a (by simp)
  | a :: b :: as, h => by
    rw [commas_cons]
    exact free_sep hm.comma (by decide) (h a (by simp))
      (hm.space (hm.commas fun x hx => h x (List.mem_cons_of_mem _ hx)))

/-- What a template looks like. -/
theorem tmpl_shape (gap : Bool) (name : Text) (args : List Text) (hn : '>' ∉ name) :
    ∃ pad, (pad = [] ∨ pad = [' ']) ∧ ('>' ∉ commas args → pad = []) ∧ (args = [] → pad = []) ∧
      (gap = false → pad = []) ∧
      tmpl gap name args = name ++ '<' :: commas args ++ pad ++ ['>'] := by
  refine ⟨_, ?_, ?_, ?_, ?_, rfl⟩
  · split
    · exact .inr rfl
    · exact .inl rfl
  · intro h
    rw [if_neg]
    intro e
    rw [Bool.and_eq_true, beq_iff_eq] at e
    have := List.mem_of_getLast? e.2
    simp [hn, h] at this
  · rintro rfl
    rw [if_neg]
    intro e
    rw [Bool.and_eq_true, beq_iff_eq] at e
    simp [commas_nil] at e
  · rintro rfl
    rfl

theorem Marker.tmpl {m name : Text} {args : List Text} {gap : Bool} (hm : Marker m) (hn : '>' ∉ name)
    (hn' : '<' ∉ name) (hs : ¬ m <:+ name) (h : ∀ a ∈ args, Free m a) : Free m (tmpl gap name args) := by
  obtain ⟨pad, hp, _, _, _, e⟩ := tmpl_shape gap name args hn
  rw [e]
  have h1 : Free m (Verif.Symbols.commas args ++ (pad ++ ['>'])) := by
    have : Free m (Verif.Symbols.commas args ++ pad) := by
      rcases hp with rfl | rfl
      · rw [List.append_nil]; exact hm.commas h
      · intro u v e
        have e' : (u ++ m ++ '<' :: v).getLast? = some ' ' := by rw [← e]; simp
        have hv : v ≠ [] := by rintro rfl; simp at e'
        have e2 := congrArg List.dropLast e
        rw [List.dropLast_concat, List.append_assoc, List.dropLast_append_of_ne_nil (by simp),
          List.dropLast_append_of_ne_nil (by simp)] at e2
        obtain ⟨b, v, rfl⟩ := List.exists_cons_of_ne_nil hv
        exact hm.commas h u (b :: v).dropLast (by rw [e2]; simp)
    rw [← List.append_assoc]
    exact free_sep hm.gt (by decide) this free_nil
  have := free_lt hm.lt (free_plain hn') hs h1
  simpa using this

/-! ## Numbers -/

theorem dec_eq (n : Int) : dec n = intText n := by
  cases n with
  | ofNat n => simp [dec, intText, natText, toString, Int.repr, Nat.toList_repr]
  | negSucc n => simp [dec, intText, natText, toString, Int.repr, Nat.toList_repr]

theorem natText_digit {n : Nat} {c : Char} (h : c ∈ natText n) : isDigit c = true :=
  Nat.isDigit_of_mem_toDigits (by decide) (by decide) h

theorem natText_ne (n : Nat) : natText n ≠ [] := Nat.toDigits_ne_nil

theorem dec_cases (n : Int) : (dec n = natText n.toNat ∧ 0 ≤ n) ∨ dec n = '-' :: natText n.natAbs := by
  rw [dec_eq, intText]
  split
  · exact .inr rfl
  · exact .inl ⟨rfl, by omega⟩

theorem digit_ne {c d : Char} (h : isDigit c = true) (hd : isDigit d = false) : c ≠ d := by
  rintro rfl; rw [h] at hd; cases hd

theorem dec_mem {n : Int} {c : Char} (h : c ∈ dec n) : c = '-' ∨ isDigit c = true := by
  rcases dec_cases n with ⟨e, _⟩ | e
  · rw [e] at h; exact .inr (natText_digit h)
  · rw [e] at h
    rcases List.mem_cons.1 h with rfl | h
    · exact .inl rfl
    · exact .inr (natText_digit h)

theorem dec_not {n : Int} {c : Char} (hc : c ≠ '-') (hd : isDigit c = false) : c ∉ dec n := by
  intro h
  rcases dec_mem h with e | e
  · exact hc e
  · rw [hd] at e; cases e

theorem natOf_natText (n : Nat) : natOf (natText n) = some n := by
  have h1 : (natText n).isEmpty = false := by
    cases h : natText n with
    | nil => exact absurd h (natText_ne n)
    | cons _ _ => rfl
  have h2 : (natText n).all isDigit = true := List.all_eq_true.2 fun c h => natText_digit h
  rw [natOf, h1, h2]
  simp [natText, Nat.ofDigitChars_ten_toDigits]

theorem strip_eq {t : Text} (h : Trimmed t) : strip t = t := by
  obtain ⟨⟨c, r, e, hc⟩, d, w, e', hd⟩ := h
  have h1 : t.dropWhile isSpace = t := by rw [e]; simp [hc]
  rw [strip, h1, e', List.reverse_append]
  simp [hd]

theorem strip_left (n : Nat) (t : Text) : strip (List.replicate n ' ' ++ t) = strip t := by
  induction n with
  | zero => rfl
  | succ n ih => rw [← ih]; simp [strip, List.replicate_succ, isSpace]

theorem strip_cons (t : Text) : strip (' ' :: t) = strip t := strip_left 1 t

theorem strip_right {t : Text} (h : Trimmed t) : strip (t ++ [' ']) = t := by
  obtain ⟨⟨c, r, e, hc⟩, d, w, e', hd⟩ := h
  have h1 : (t ++ [' ']).dropWhile isSpace = t ++ [' '] := by rw [e]; simp [hc]
  rw [strip, h1, e']
  have hs : isSpace ' ' = true := rfl
  simp [hd, hs]

theorem digit_space {c : Char} (h : isDigit c = true) : isSpace c = false := by
  have h1 := digit_ne h (show isDigit ' ' = false from by decide)
  have h2 := digit_ne h (show isDigit '\t' = false from by decide)
  simp [isSpace, h1, h2]

theorem trimmed_of {t : Text} (hne : t ≠ []) (h : ∀ c ∈ t, isSpace c = false) : Trimmed t := by
  refine ⟨?_, ?_⟩
  · obtain ⟨c, r, e⟩ := List.exists_cons_of_ne_nil hne
    exact ⟨c, r, e, h c (by rw [e]; simp)⟩
  · exact ⟨t.getLast hne, t.dropLast, (List.dropLast_concat_getLast hne).symm, h _ (List.getLast_mem hne)⟩

theorem dec_ne (n : Int) : dec n ≠ [] := by
  rcases dec_cases n with ⟨e, _⟩ | e
  · rw [e]; exact natText_ne _
  · rw [e]; simp

theorem dec_trimmed (n : Int) : Trimmed (dec n) :=
  trimmed_of (dec_ne n) fun c h => by
    rcases dec_mem h with rfl | h
    · rfl
    · exact digit_space h

theorem intOf_dec (n : Int) : intOf (dec n) = some n := by
  rw [intOf, strip_eq (dec_trimmed n)]
  rcases dec_cases n with ⟨e, h⟩ | e
  · rw [e]
    split
    · next ds e' =>
      have : '-' ∈ natText n.toNat := by rw [e']; simp
      exact absurd (natText_digit this) (by decide)
    · next ds _ => rw [natOf_natText]; simp; omega
  · have hn : n < 0 := by
      rw [dec_eq, intText] at e
      split at e
      · assumption
      · have : '-' ∈ natText n.toNat := by rw [e]; simp
        exact absurd (natText_digit this) (by decide)
    rw [e]
    show (natOf (natText n.natAbs)).map _ = _
    rw [natOf_natText]
    simp
    omega

theorem intOf_space (n : Int) : intOf (' ' :: dec n) = some n := by
  have := intOf_dec n
  unfold intOf at this ⊢
  rwa [strip_cons]

/-! ## Characters -/

theorem remove_char {c : Char} {t : Text} (h : c ≠ '(') :
    remove t!"(char)" 0 (c :: t) = c :: remove t!"(char)" 0 t := by
  rw [remove, dropPrefix?, if_neg (Ne.symm h)]
  rfl

theorem remove_app {s t : Text} (h : '(' ∉ s) : remove t!"(char)" 0 (s ++ t) = s ++ remove t!"(char)" 0 t := by
  induction s with
  | nil => rfl
  | cons c s ih =>
    rw [List.mem_cons, not_or] at h
    rw [List.cons_append, remove_char (Ne.symm h.1), ih h.2]
    rfl

theorem remove_pat (t : Text) : remove t!"(char)" 0 (t!"(char)" ++ t) = remove t!"(char)" 0 t := by
  simp [remove, dropPrefix?]

theorem remove_all (s : List Int) : remove t!"(char)" 0 (commas (s.map nmChar)) = commas (s.map dec) := by
  induction s with
  | nil => rfl
  | cons c s ih =>
    have hc : ∀ t, remove t!"(char)" 0 (nmChar c ++ t) = dec c ++ remove t!"(char)" 0 t := by
      intro t
      rw [nmChar, List.append_assoc, remove_pat, remove_app (dec_not (by decide) (by decide))]
    cases s with
    | nil =>
      have := hc []
      simpa [commas_one, remove] using this
    | cons d s =>
      simp only [List.map_cons] at ih ⊢
      rw [commas_cons, hc, commas_cons, remove_char (by decide), remove_char (by decide), ih]

theorem splitAt_plain {t : Text} (h : ',' ∉ t) : splitAt ',' t = [t] := by
  induction t with
  | nil => rfl
  | cons c t ih =>
    rw [List.mem_cons, not_or] at h
    rw [splitAt, if_neg (Ne.symm h.1), ih h.2]

theorem splitAt_sep {t r : Text} (h : ',' ∉ t) : splitAt ',' (t ++ ',' :: r) = t :: splitAt ',' r := by
  induction t with
  | nil => simp [splitAt]
  | cons c t ih =>
    rw [List.mem_cons, not_or] at h
    rw [List.cons_append, splitAt, if_neg (Ne.symm h.1), ih h.2]

theorem dec_comma (n : Int) : ',' ∉ dec n := dec_not (by decide) (by decide)

theorem splitAt_space (t : Text) : ∃ p ps, splitAt ',' t = p :: ps ∧ splitAt ',' (' ' :: t) = (' ' :: p) :: ps := by
  have hne : splitAt ',' t ≠ [] := by
    cases t with
    | nil => simp [splitAt]
    | cons c t =>
      rw [splitAt]
      split
      · simp
      · split <;> simp
  obtain ⟨p, ps, e⟩ := List.exists_cons_of_ne_nil hne
  exact ⟨p, ps, e, by rw [splitAt, if_neg (by decide), e]⟩

theorem chr_plain {c : Int} (h : 0 ≤ c ∧ c < 0x110000) : chr c = some c.toNat := by
  rw [chr, if_pos h]

theorem mapM_dec (s : List Int) (hne : s ≠ []) (h : ∀ c ∈ s, 0 ≤ c ∧ c < 0x110000) :
    (splitAt ',' (commas (s.map dec))).mapM (fun c => (intOf c).bind chr) = some (codes s) ∧
    (splitAt ',' (' ' :: commas (s.map dec))).mapM (fun c => (intOf c).bind chr) = some (codes s) := by
  induction s with
  | nil => exact absurd rfl hne
  | cons c s ih =>
    have hc : (intOf (dec c)).bind chr = some c.toNat := by
      rw [intOf_dec]; exact chr_plain (h c (by simp))
    have hc' : (intOf (' ' :: dec c)).bind chr = some c.toNat := by
      rw [intOf_space]; exact chr_plain (h c (by simp))
    have hsp : ',' ∉ ' ' :: dec c := by simp [dec_comma]
    cases s with
    | nil =>
      simp only [List.map_cons, List.map_nil, commas_one]
      rw [splitAt_plain (dec_comma c), splitAt_plain hsp]
      simp [hc, hc', codes]
    | cons d s =>
      have ih := (ih (by simp) (fun x hx => h x (List.mem_cons_of_mem _ hx))).2
      simp only [List.map_cons] at ih ⊢
      rw [commas_cons, splitAt_sep (dec_comma c), ← List.cons_append, splitAt_sep hsp]
      simp only [List.mapM_cons, hc, hc', ih]
      simp [codes]

/-- The characters of a text are read. -/
theorem charsOf_nm {s : List Int} (h : Plain s) : charsOf (commas (s.map nmChar)) = some (codes s) := by
  rw [charsOf, remove_all]
  exact (mapM_dec s h.1 h.2).1

theorem commas_not {c : Char} (h1 : c ≠ ',') (h2 : c ≠ ' ') : ∀ {as : List Text}, (∀ a ∈ as, c ∉ a) → c ∉ commas as
  | [], _ => by simp [commas_nil]
  | [a], h => by rw [commas_one]; exact h a (by simp)
  | a :: b :: as, h => by
    rw [commas_cons]
    simp only [List.mem_append, List.mem_cons, not_or]
    exact ⟨h a (by simp), h1, h2, commas_not h1 h2 fun x hx => h x (List.mem_cons_of_mem _ hx)⟩

theorem nmChar_not {n : Int} {c : Char} (hc : c = '<' ∨ c = '>') : c ∉ nmChar n := by
  rw [nmChar, List.mem_append, not_or]
  rcases hc with rfl | rfl <;> exact ⟨by decide, dec_not (by decide) (by decide)⟩

theorem chars_not (s : List Int) {c : Char} (hc : c = '<' ∨ c = '>') : c ∉ commas (s.map nmChar) := by
  refine commas_not ?_ ?_ ?_
  · rcases hc with rfl | rfl <;> decide
  · rcases hc with rfl | rfl <;> decide
  · intro a ha
    obtain ⟨n, _, rfl⟩ := List.mem_map.1 ha
    exact nmChar_not hc

theorem strType_eq (gap : Bool) (s : List Int) :
    strType gap nmChar s = t!"sc::string<" ++ commas (s.map nmChar) ++ t!">" := by
  obtain ⟨pad, _, h, _, _, e⟩ := tmpl_shape gap t!"sc::string" (s.map nmChar) (by decide)
  rw [strType, e, h (chars_not s (.inr rfl))]
  simp

/-! ## Lists of arguments -/

theorem balanced_append {n k : Nat} {a s : Text} (h : balanced n a = true) :
    balanced (n + k) (a ++ s) = balanced k s := by
  induction a generalizing n with
  | nil =>
    simp only [balanced, decide_eq_true_eq] at h
    subst h
    simp
  | cons c a ih =>
    rw [balanced] at h
    rw [List.cons_append, balanced]
    split at h
    · next e =>
      rw [if_pos e]
      simp only [Bool.and_eq_true, ne_eq, decide_not, Bool.not_eq_true', decide_eq_false_iff_not] at h
      have := ih h.2
      rw [show n - 1 + k = n + k - 1 from by omega] at this
      rw [this]
      simp; omega
    · next e =>
      rw [if_neg e]
      split at h
      · next e =>
        rw [if_pos e]
        have := ih h
        rwa [show n + 1 + k = n + k + 1 from by omega] at this
      · next e =>
        rw [if_neg e]
        split at h
        · next e =>
          rw [if_pos e]
          simp only [Bool.and_eq_true, ne_eq, decide_not, Bool.not_eq_true', decide_eq_false_iff_not] at h
          rw [ih h.2]
          simp; omega
        · next e =>
          rw [if_neg e]
          exact ih h

theorem balanced_plain {t : Text} (h : ∀ c ∈ t, c ≠ '<' ∧ c ≠ '>' ∧ c ≠ ',') : balanced 0 t = true := by
  induction t with
  | nil => rfl
  | cons c t ih =>
    obtain ⟨h1, h2, h3⟩ := h c (by simp)
    rw [balanced, if_neg h2, if_neg h1, if_neg h3]
    exact ih fun x hx => h x (List.mem_cons_of_mem _ hx)

theorem balanced_commas {as : List Text} (h : ∀ a ∈ as, balanced 0 a = true) (s : Text) :
    balanced 1 (commas as ++ s) = balanced 1 s := by
  match as, h with
  | [], _ => rfl
  | [a], h =>
    rw [commas_one]
    exact balanced_append (k := 1) (h a (by simp))
  | a :: b :: as, h =>
    rw [commas_cons, List.append_assoc]
    refine (balanced_append (k := 1) (h a (by simp))).trans ?_
    rw [List.cons_append, List.cons_append, balanced, if_neg (by decide), if_neg (by decide), if_pos rfl,
      balanced, if_neg (by decide), if_neg (by decide), if_neg (by decide),
      balanced_commas (fun x hx => h x (List.mem_cons_of_mem _ hx)) s]
    simp

theorem balanced_tmpl {gap : Bool} {name : Text} {args : List Text}
    (hn : ∀ c ∈ name, c ≠ '<' ∧ c ≠ '>' ∧ c ≠ ',') (h : ∀ a ∈ args, balanced 0 a = true) :
    balanced 0 (tmpl gap name args) = true := by
  obtain ⟨pad, hp, _, _, _, e⟩ := tmpl_shape gap name args (fun e => (hn _ e).2.1 rfl)
  rw [e, List.append_assoc, List.append_assoc]
  refine (balanced_append (k := 0) (balanced_plain hn)).trans ?_
  rw [List.cons_append, balanced, if_neg (by decide), if_pos rfl]
  rw [balanced_commas h]
  rcases hp with rfl | rfl <;> decide

theorem trimmed_tmpl {gap : Bool} {name : Text} {args : List Text}
    (hn : ∃ c r, name = c :: r ∧ isSpace c = false) : Trimmed (tmpl gap name args) := by
  obtain ⟨c, r, rfl, hc⟩ := hn
  exact ⟨⟨c, _, rfl, hc⟩, '>', _, rfl, by decide⟩

theorem findSplit_arg {n : Nat} {a s : Text} (h : balanced n a = true) :
    findSplit n (a ++ s) = (a ++ (findSplit 0 s).1, (findSplit 0 s).2) := by
  induction a generalizing n with
  | nil =>
    simp only [balanced, decide_eq_true_eq] at h
    subst h
    rfl
  | cons c a ih =>
    rw [balanced] at h
    rw [List.cons_append, findSplit]
    split at h
    · next e =>
      rw [if_pos e]
      simp only [Bool.and_eq_true, ne_eq, decide_not, Bool.not_eq_true', decide_eq_false_iff_not] at h
      have := ih h.2
      rw [show ((n - 1 : Nat) : Int) = (n : Int) - 1 from by omega] at this
      simp only [this, List.cons_append]
    · next e =>
      rw [if_neg e]
      split at h
      · next e =>
        rw [if_pos e]
        have := ih h
        rw [show ((n + 1 : Nat) : Int) = (n : Int) + 1 from by omega] at this
        simp only [this, List.cons_append]
      · next e =>
        rw [if_neg e]
        split at h
        · next e =>
          simp only [Bool.and_eq_true, ne_eq, decide_not, Bool.not_eq_true', decide_eq_false_iff_not] at h
          rw [if_neg (by omega)]
          simp only [ih h.2, List.cons_append]
        · next e =>
          rw [if_neg (fun h => e h.1)]
          simp only [ih h, List.cons_append]

theorem splitArgs_aux (pad : Text) (hp : pad = [] ∨ pad = [' ']) (a : Text) (as : List Text)
    (h : ∀ x ∈ a :: as, balanced 0 x = true ∧ Trimmed x) (fuel : Nat)
    (hf : (commas (a :: as)).length ≤ fuel) :
    splitArgs fuel (commas (a :: as) ++ pad) = a :: as ∧
    splitArgs fuel (' ' :: (commas (a :: as) ++ pad)) = a :: as := by
  induction as generalizing a fuel with
  | nil =>
    obtain ⟨hb, ht⟩ := h a (by simp)
    rw [commas_one] at *
    have hne : a ≠ [] := by
      obtain ⟨⟨c, r, e, _⟩, _⟩ := ht
      rw [e]; simp
    have hfs : findSplit 0 (a ++ pad) = (a ++ pad, none) := by
      have := findSplit_arg (n := 0) (s := pad) hb
      rw [show ((0 : Nat) : Int) = 0 from rfl] at this
      rw [this]
      rcases hp with rfl | rfl <;> rfl
    have hst : strip (a ++ pad) = a := by
      rcases hp with rfl | rfl
      · rw [List.append_nil, strip_eq ht]
      · exact strip_right ht
    obtain ⟨fuel, rfl⟩ : ∃ m, fuel = m + 1 := ⟨fuel - 1, by
      have : a.length ≠ 0 := by simpa using hne
      omega⟩
    obtain ⟨x, b, hx⟩ : ∃ x b, a ++ pad = x :: b := List.exists_cons_of_ne_nil (by simp [hne])
    constructor
    · rw [hx] at hfs hst ⊢
      rw [splitArgs, hfs]
      · dsimp only; rw [hst]
      · exact fun e => by cases e
    · have : findSplit 0 (' ' :: (a ++ pad)) = (' ' :: (a ++ pad), none) := by
        rw [findSplit, if_neg (by decide), if_neg (by decide), if_neg (by decide), hfs]
      rw [splitArgs, this]
      · dsimp only; rw [strip_cons, hst]
      · exact fun e => by cases e
  | cons b as ih =>
    obtain ⟨hb, ht⟩ := h a (by simp)
    rw [commas_cons] at hf ⊢
    simp only [List.length_append, List.length_cons] at hf
    have hne : a ≠ [] := by
      obtain ⟨⟨c, r, e, _⟩, _⟩ := ht
      rw [e]; simp
    have hfs : findSplit 0 (a ++ ',' :: ' ' :: commas (b :: as) ++ pad) =
        (a, some (' ' :: (commas (b :: as) ++ pad))) := by
      rw [List.append_assoc]
      have := findSplit_arg (n := 0) (s := ',' :: ' ' :: commas (b :: as) ++ pad) hb
      rw [show ((0 : Nat) : Int) = 0 from rfl] at this
      rw [this]
      simp only [List.cons_append]
      rw [findSplit, if_neg (by decide), if_neg (by decide), if_pos ⟨rfl, rfl⟩, List.append_nil]
    obtain ⟨fuel, rfl⟩ : ∃ m, fuel = m + 1 := ⟨fuel - 1, by omega⟩
    have ih' := (ih b (fun x hx => h x (List.mem_cons_of_mem _ hx)) fuel (by omega)).2
    obtain ⟨x, r, hx⟩ : ∃ x r, a ++ ',' :: ' ' :: commas (b :: as) ++ pad = x :: r :=
      List.exists_cons_of_ne_nil (by simp)
    constructor
    · rw [hx] at hfs ⊢
      rw [splitArgs, hfs]
      · dsimp only; rw [strip_eq ht, ih']
      · exact fun e => by cases e
    · have : findSplit 0 (' ' :: (a ++ ',' :: ' ' :: commas (b :: as) ++ pad)) =
          (' ' :: a, some (' ' :: (commas (b :: as) ++ pad))) := by
        rw [findSplit, if_neg (by decide), if_neg (by decide), if_neg (by decide), hfs]
      rw [splitArgs, this]
      · dsimp only; rw [strip_cons, strip_eq ht, ih']
      · exact fun e => by cases e

/-- Arguments are split. -/
theorem splitArgs_commas {pad : Text} (hp : pad = [] ∨ pad = [' ']) {as : List Text} (h0 : as = [] → pad = [])
    (h : ∀ x ∈ as, balanced 0 x = true ∧ Trimmed x) :
    splitArgs (commas as ++ pad).length (commas as ++ pad) = as := by
  cases as with
  | nil => rw [h0 rfl]; rfl
  | cons a as =>
    exact (splitArgs_aux pad hp a as h _ (by simp)).1

end Verif.Symbols
