import Verif.Json.Lemmas
/-! # Lemmas about reserved ids and about enumerations -/
namespace Verif.Json
open Verif.Symbols
open Verif.Render (splitAt_no splitAt_at alt_enum enum_groups_of)

/-! ## Numbers -/

theorem digitVal_digitChar {d : Nat} (h : d < 16) : digitVal d.digitChar = some d := by
  revert d
  decide

theorem digitsVal_append (b n : Nat) (s t : Text) :
    digitsVal b n (s ++ t) = (digitsVal b n s).bind fun m => digitsVal b m t := by
  induction s generalizing n with
  | nil => rfl
  | cons c s ih =>
    rw [List.cons_append, digitsVal, digitsVal]
    cases digitVal c with
    | none => rfl
    | some d =>
      simp only [Option.bind_some]
      split
      · exact ih _
      · rfl

theorem digitsVal_toDigits {b : Nat} (hb : 1 < b) (hb' : b ≤ 16) (n : Nat) : digitsVal b 0 (Nat.toDigits b n) = some n := by
  induction n using Nat.strongRecOn with
  | _ n ih =>
    by_cases h : n < b
    · rw [Nat.toDigits_of_lt_base h, digitsVal, digitVal_digitChar (by omega), Option.bind_some, if_pos h, digitsVal]
      simp
    · rw [Nat.toDigits_of_base_le hb (by omega), digitsVal_append,
        ih (n / b) (Nat.div_lt_self (by omega) hb), Option.bind_some, digitsVal,
        digitVal_digitChar (by have := Nat.mod_lt n (show 0 < b by omega); omega), Option.bind_some,
        if_pos (Nat.mod_lt n (by omega)), digitsVal, Nat.div_add_mod']

theorem baseVal_toDigits {b : Nat} (hb : 1 < b) (hb' : b ≤ 16) (n : Nat) : baseVal b (Nat.toDigits b n) = some n := by
  rw [baseVal, if_neg Nat.toDigits_ne_nil, digitsVal_toDigits hb hb']

/-- The first digit. -/
theorem toDigits_head {n : Nat} (h : n ≠ 0) : ∃ c r, Nat.toDigits 10 n = c :: r ∧ c ≠ '0' := by
  induction n using Nat.strongRecOn with
  | _ n ih =>
    by_cases h1 : n < 10
    · exact ⟨_, [], Nat.toDigits_of_lt_base h1, fun e => h (Nat.digitChar_eq_zero.1 e)⟩
    · obtain ⟨c, r, e, hc⟩ := ih (n / 10) (by omega) (by omega)
      exact ⟨c, r ++ [(n % 10).digitChar], by rw [Nat.toDigits_of_base_le (by omega) (by omega), e]; rfl, hc⟩

theorem strip_pad {t : Text} (h : Trimmed t) (a b : Nat) :
    strip (List.replicate a ' ' ++ t ++ List.replicate b ' ') = t := by
  rw [List.append_assoc, strip_left]
  induction b with
  | zero => rw [List.replicate_zero, List.append_nil, strip_eq h]
  | succ b ih =>
    rw [List.replicate_succ', ← List.append_assoc]
    rw [strip] at ih ⊢
    obtain ⟨c, r, rfl, hc⟩ := h.1
    rw [List.cons_append, List.cons_append, List.dropWhile_cons, if_neg (by simp [hc]), ← List.cons_append, ← List.cons_append,
      List.reverse_append, List.reverse_singleton, List.singleton_append, List.dropWhile_cons, if_pos (by rfl)]
    rw [List.cons_append, List.dropWhile_cons, if_neg (by simp [hc]), ← List.cons_append] at ih
    exact ih

theorem mem_toDigits {b n : Nat} (hb : 1 < b) (hb' : b ≤ 16) {c : Char} (h : c ∈ Nat.toDigits b n) :
    ∃ d, d < 16 ∧ c = d.digitChar := by
  induction n using Nat.strongRecOn with
  | _ n ih =>
    by_cases h1 : n < b
    · rw [Nat.toDigits_of_lt_base h1, List.mem_singleton] at h
      exact ⟨n, by omega, h⟩
    · rw [Nat.toDigits_of_base_le hb (by omega), List.mem_append, List.mem_singleton] at h
      rcases h with h | h
      · exact ih _ (Nat.div_lt_self (by omega) hb) h
      · exact ⟨n % b, by have := Nat.mod_lt n (show 0 < b by omega); omega, h⟩

theorem digitChar_plain {d : Nat} (h : d < 16) :
    d.digitChar ≠ ',' ∧ d.digitChar ≠ '-' ∧ isSpace d.digitChar = false := by
  revert d
  decide

/-- The number between blanks. -/
def Num.bare (n : Num) : Text := if n.hex then t!"0x" ++ Nat.toDigits 16 n.val else Nat.toDigits 10 n.val

theorem Num.text_eq (n : Num) : n.text = List.replicate n.before ' ' ++ n.bare ++ List.replicate n.after ' ' := by
  rw [Num.text, Num.bare, dec_eq, intText_nat (by omega), Int.toNat_natCast, natText]

theorem bare_mem {n : Num} {c : Char} (h : c ∈ n.bare) : c ≠ ',' ∧ c ≠ '-' ∧ isSpace c = false := by
  rw [Num.bare] at h
  split at h
  · rw [List.mem_append] at h
    rcases h with h | h
    · simp only [List.mem_cons, List.not_mem_nil, or_false] at h
      rcases h with rfl | rfl <;> decide
    · obtain ⟨d, hd, rfl⟩ := mem_toDigits (by omega) (by omega) h
      exact digitChar_plain hd
  · obtain ⟨d, hd, rfl⟩ := mem_toDigits (by omega) (by omega) h
    exact digitChar_plain hd

theorem bare_trimmed (n : Num) : Trimmed n.bare := by
  refine trimmed_of ?_ fun c hc => (bare_mem hc).2.2
  rw [Num.bare]
  split
  · simp
  · exact Nat.toDigits_ne_nil

theorem intAny_strip {t s : Text} (h : strip t = strip s) : intAny t = intAny s := by rw [intAny, intAny, h]

theorem intAny_text (n : Num) : intAny n.text = some n.val := by
  have hs : strip n.text = n.bare := by rw [n.text_eq, strip_pad (bare_trimmed n)]
  rw [intAny, hs, Num.bare]
  cases hh : n.hex with
  | true =>
    simp only [if_true, List.cons_append, List.head?_cons, List.tail_cons, List.nil_append, true_or]
    exact baseVal_toDigits (by omega) (by omega) _
  | false =>
    simp only [Bool.false_eq_true, if_false]
    by_cases h0 : n.val = 0
    · rw [h0]; rfl
    · obtain ⟨c, r, e, hc⟩ := toDigits_head h0
      rw [e]
      simp only [hc, if_false]
      rw [← e]
      exact baseVal_toDigits (by omega) (by omega) _

theorem text_not (n : Num) {c : Char} (hc : c = ',' ∨ c = '-') : c ∉ n.text := by
  rw [n.text_eq, List.mem_append, List.mem_append]
  rintro ((h | h) | h)
  · rw [List.mem_replicate] at h; rcases hc with rfl | rfl <;> cases h.2
  · rcases hc with rfl | rfl
    · exact (bare_mem h).1 rfl
    · exact (bare_mem h).2.1 rfl
  · rw [List.mem_replicate] at h; rcases hc with rfl | rfl <;> cases h.2

theorem text_ne (n : Num) : n.text ≠ [] := by
  rw [n.text_eq]
  obtain ⟨c, r, h, _⟩ := (bare_trimmed n).1
  rw [h]
  simp

/-! ## Intervals -/

theorem interval_text (r : Range) : interval r.text = some [(r.lo.val, r.top)] := by
  obtain ⟨lo, hi⟩ := r
  cases hi with
  | none =>
    rw [interval, Range.text]
    simp only [List.append_nil]
    rw [splitAt_no (text_not lo (.inr rfl)), if_neg (by simpa using text_ne lo)]
    simp only [intAny_text]
    rfl
  | some h =>
    rw [interval, Range.text]
    simp only
    rw [splitAt_at (text_not lo (.inr rfl)), splitAt_no (text_not h (.inr rfl)), if_neg (by simp)]
    simp only [intAny_text]
    rfl

theorem range_comma (r : Range) : ',' ∉ r.text := by
  obtain ⟨lo, hi⟩ := r
  cases hi with
  | none => simpa [Range.text] using text_not lo (.inl rfl)
  | some h => simpa [Range.text] using ⟨text_not lo (.inl rfl), text_not h (.inl rfl)⟩

theorem split_joined {ts : List Text} (h : ∀ t ∈ ts, ',' ∉ t) (hne : ts ≠ []) :
    splitAt ',' (ts.intersperse t!",").flatten = ts := by
  induction ts with
  | nil => exact absurd rfl hne
  | cons t ts ih =>
    cases ts with
    | nil =>
      have := h t (List.mem_cons_self ..)
      simp [splitAt_no this]
    | cons u ts =>
      have h1 := h t (List.mem_cons_self ..)
      have h2 := ih (fun x hx => h x (List.mem_cons_of_mem _ hx)) (by simp)
      rw [List.intersperse_cons_cons, List.flatten_cons, List.flatten_cons,
        show t ++ (t!"," ++ ((u :: ts).intersperse t!",").flatten) = t ++ ',' :: ((u :: ts).intersperse t!",").flatten from rfl,
        splitAt_at h1, h2]

theorem intervals_text (rs : List Range) : intervals (rangesText rs) = some (rs.map fun r => (r.lo.val, r.top)) := by
  cases rs with
  | nil => rfl
  | cons r rs =>
    rw [intervals, rangesText, split_joined]
    · rw [mapM_map (h := fun r => [(r.lo.val, r.top)]) fun r _ => interval_text r]
      simp only [Option.map_some, Option.some.injEq]
      generalize r :: rs = l
      induction l with
      | nil => rfl
      | cons a l ih => rw [List.map_cons, List.flatten_cons, ih]; rfl
    · intro t ht
      obtain ⟨x, _, rfl⟩ := List.mem_map.1 ht
      exact range_comma x
    · simp

theorem joinWith_eq (sep : Text) (ts : List Text) : joinWith sep ts = (ts.intersperse sep).flatten := by
  induction ts with
  | nil => rfl
  | cons t ts ih =>
    cases ts with
    | nil => simp [joinWith]
    | cons u ts => rw [joinWith, ih, List.intersperse_cons_cons, List.flatten_cons, List.flatten_cons, List.append_assoc]

/-- What is written for an interval. -/
def rangeOf (x : Nat × Nat) : Range := ⟨⟨0, false, x.1, 0⟩, if x.1 ≠ x.2 then some ⟨0, false, x.2, 0⟩ else none⟩

theorem plain_text (n : Nat) : Num.text ⟨0, false, n, 0⟩ = natText n := by
  rw [Num.text_eq, Num.bare]
  simp [natText]

theorem intervalsText_eq (is : List (Nat × Nat)) : intervalsText is = rangesText (is.map rangeOf) := by
  rw [intervalsText, rangesText, joinWith_eq, List.map_map]
  congr 2
  apply List.map_congr_left
  intro x _
  simp only [Function.comp, rangeOf, Range.text, plain_text]
  split <;> simp [plain_text]

/-! ## Characters of numbers -/

theorem digitVal_char {c : Char} {d : Nat} (h : digitVal c = some d) : RangeChar c := by
  rw [digitVal] at h
  split at h
  · next hc =>
    left
    simp only [Char.isDigit, Bool.and_eq_true, decide_eq_true_eq]
    exact ⟨hc.1, hc.2⟩
  · right; left
    have key : ∀ n, (97 ≤ n ∧ n ≤ 102) ∨ (65 ≤ n ∧ n ≤ 70) → c.toNat = n → c ∈ t!"abcdefABCDEF" := by
      intro n hn e
      have hc : c = Char.ofNat n := by rw [← e, Char.ofNat_toNat]
      subst hc
      have h6 : n = 97 ∨ n = 98 ∨ n = 99 ∨ n = 100 ∨ n = 101 ∨ n = 102 ∨ n = 65 ∨ n = 66 ∨ n = 67 ∨ n = 68 ∨ n = 69 ∨ n = 70 := by
        omega
      rcases h6 with rfl | rfl | rfl | rfl | rfl | rfl | rfl | rfl | rfl | rfl | rfl | rfl <;> decide
    split at h
    · next hc =>
      refine key _ (.inl ?_) rfl
      have h1 := UInt32.le_iff_toNat_le.1 hc.1
      have h2 := UInt32.le_iff_toNat_le.1 hc.2
      exact ⟨h1, h2⟩
    · split at h
      · next hc =>
        refine key _ (.inr ?_) rfl
        have h1 := UInt32.le_iff_toNat_le.1 hc.1
        have h2 := UInt32.le_iff_toNat_le.1 hc.2
        exact ⟨h1, h2⟩
      · cases h

theorem digitsVal_char {b n m : Nat} {t : Text} (h : digitsVal b n t = some m) : ∀ c ∈ t, RangeChar c := by
  induction t generalizing n with
  | nil => intro c hc; cases hc
  | cons x t ih =>
    rw [digitsVal, Option.bind_eq_some_iff] at h
    obtain ⟨d, hd, h⟩ := h
    split at h
    · intro c hc
      rcases List.mem_cons.1 hc with rfl | hc
      · exact digitVal_char hd
      · exact ih h c hc
    · cases h

theorem baseVal_char {b m : Nat} {t : Text} (h : baseVal b t = some m) : ∀ c ∈ t, RangeChar c := by
  rw [baseVal] at h
  split at h
  · cases h
  · exact digitsVal_char h

theorem mem_strip {t : Text} {c : Char} (h : c ∈ t) : c ∈ strip t ∨ isSpace c = true := by
  have h1 : ∀ {s : Text}, c ∈ s → c ∈ s.dropWhile isSpace ∨ isSpace c = true := by
    intro s hs
    rw [← List.takeWhile_append_dropWhile (p := isSpace) (l := s), List.mem_append] at hs
    rcases hs with hs | hs
    · exact .inr (mem_takeWhile_imp' hs)
    · exact .inl hs
  rcases h1 h with h | h
  · rw [← List.mem_reverse] at h
    rcases h1 h with h | h
    · exact .inl (by rw [strip, List.mem_reverse]; exact h)
    · exact .inr h
  · exact .inr h

theorem space_char {c : Char} (h : isSpace c = true) : RangeChar c := by
  simp only [isSpace, Bool.or_eq_true, decide_eq_true_eq] at h
  rcases h with rfl | rfl
  · exact .inr (.inr (.inr (.inl rfl)))
  · exact .inr (.inr (.inr (.inr (.inl rfl))))

theorem zero_char : RangeChar '0' := .inl (by decide)

theorem intAny_char {t : Text} {n : Nat} (h : intAny t = some n) : ∀ c ∈ t, RangeChar c := by
  intro c hc
  rcases mem_strip hc with hc | hc
  · unfold intAny at h
    split at h
    · cases h
    · next x r hs =>
      rw [hs] at hc
      split at h
      · next hx =>
        subst hx
        rcases List.mem_cons.1 hc with rfl | hc
        · exact zero_char
        · cases r with
          | nil => cases hc
          | cons y r =>
            simp only [List.head?_cons, List.tail_cons] at h
            have key : (y = 'x' ∨ y = 'X') ∨ (y = 'o' ∨ y = 'O') ∨ (y = 'b' ∨ y = 'B') → RangeChar y := by
              rintro ((rfl | rfl) | (rfl | rfl) | (rfl | rfl))
              · exact .inr (.inr (.inl (by decide)))
              · exact .inr (.inr (.inl (by decide)))
              · exact .inr (.inr (.inl (by decide)))
              · exact .inr (.inr (.inl (by decide)))
              · exact .inr (.inl (by decide))
              · exact .inr (.inl (by decide))
            split at h
            · next hy =>
              rcases List.mem_cons.1 hc with rfl | hc
              · exact key (.inl hy)
              · exact baseVal_char h c hc
            · split at h
              · next hy =>
                rcases List.mem_cons.1 hc with rfl | hc
                · exact key (.inr (.inl hy))
                · exact baseVal_char h c hc
              · split at h
                · next hy =>
                  rcases List.mem_cons.1 hc with rfl | hc
                  · exact key (.inr (.inr hy))
                  · exact baseVal_char h c hc
                · split at h
                  · next ha =>
                    rw [List.all_eq_true] at ha
                    have := ha c hc
                    simp only [decide_eq_true_eq] at this
                    rw [this]; exact zero_char
                  · cases h
      · exact baseVal_char h c hc
  · exact space_char hc

theorem mem_splitAt {sep : Char} {t : Text} {c : Char} (h : c ∈ t) : c = sep ∨ ∃ p ∈ splitAt sep t, c ∈ p := by
  induction t with
  | nil => cases h
  | cons x t ih =>
    rw [splitAt]
    split
    · next hx =>
      rcases List.mem_cons.1 h with rfl | h
      · exact .inl hx
      · rcases ih h with h | ⟨p, hp, hc⟩
        · exact .inl h
        · exact .inr ⟨p, List.mem_cons_of_mem _ hp, hc⟩
    · next hx =>
      split
      · next hs =>
        rcases List.mem_cons.1 h with rfl | h
        · exact .inr ⟨_, List.mem_cons_self .., List.mem_cons_self ..⟩
        · rcases ih h with h | ⟨p, hp, hc⟩
          · exact .inl h
          · rw [hs] at hp; cases hp
      · next p ps hs =>
        rcases List.mem_cons.1 h with rfl | h
        · exact .inr ⟨_, List.mem_cons_self .., List.mem_cons_self ..⟩
        · rcases ih h with h | ⟨q, hq, hc⟩
          · exact .inl h
          · rw [hs] at hq
            rcases List.mem_cons.1 hq with rfl | hq
            · exact .inr ⟨_, List.mem_cons_self .., List.mem_cons_of_mem _ hc⟩
            · exact .inr ⟨q, List.mem_cons_of_mem _ hq, hc⟩

theorem interval_char {t : Text} {r : List (Nat × Nat)} (h : interval t = some r) (hd : t.count '-' ≤ 1) :
    ∀ c ∈ t, RangeChar c := by
  intro c hc
  have hl := Render.splitAt_length '-' t
  rcases mem_splitAt (sep := '-') hc with rfl | ⟨p, hp, hc'⟩
  · exact .inr (.inr (.inr (.inr (.inr (.inl rfl)))))
  · unfold interval at h
    dsimp only at h
    split at h
    · next hs =>
      rw [hs] at hp
      simp only [List.mem_singleton] at hp
      subst hp; cases hc'
    · split at h
      · cases h
      · next a hs =>
        rw [hs] at hp
        simp only [List.mem_singleton] at hp
        subst hp
        rw [Option.map_eq_some_iff] at h
        obtain ⟨n, hn, _⟩ := h
        exact intAny_char hn c hc'
      · next a b hs =>
        rw [hs] at hp
        rw [Option.bind_eq_some_iff] at h
        obtain ⟨n, hn, h⟩ := h
        rw [Option.map_eq_some_iff] at h
        obtain ⟨m, hm, _⟩ := h
        simp only [List.mem_cons, List.not_mem_nil, or_false] at hp
        rcases hp with rfl | rfl
        · exact intAny_char hn c hc'
        · exact intAny_char hm c hc'
      · next a b d ds hs =>
        rw [hs] at hl
        simp only [List.length_cons] at hl
        omega

theorem mapM_some {α β : Type} {f : α → Option β} {l : List α} {r : List β} (h : l.mapM f = some r) :
    ∀ x ∈ l, ∃ y, f x = some y := by
  induction l generalizing r with
  | nil => intro x hx; cases hx
  | cons a l ih =>
    rw [List.mapM_cons] at h
    simp only [Option.bind_eq_bind, Option.bind_eq_some_iff, Option.pure_def] at h
    obtain ⟨y, hy, ys, hys, _⟩ := h
    intro x hx
    rcases List.mem_cons.1 hx with rfl | hx
    · exact ⟨y, hy⟩
    · exact ih hys x hx

theorem intervals_char {t : Text} {r : List (Nat × Nat)} (h : intervals t = some r)
    (hd : ∀ p ∈ splitAt ',' t, p.count '-' ≤ 1) : ∀ c ∈ t, RangeChar c := by
  rw [intervals, Option.map_eq_some_iff] at h
  obtain ⟨ps, hp, _⟩ := h
  intro c hc
  rcases mem_splitAt (sep := ',') hc with rfl | ⟨p, hp', hc'⟩
  · exact .inr (.inr (.inr (.inr (.inr (.inr rfl)))))
  · obtain ⟨y, hy⟩ := mapM_some hp p hp'
    exact interval_char hy (hd p hp') c hc'

/-! ## Types of arguments -/

theorem last_bracket (s : Text) : (partsWays [all, lit t!">"] (s ++ t!">")).head? = some ([s], []) := by
  rw [head_all]
  · rfl
  · decide
  · intro x y e hx
    cases x with
    | nil => exact absurd rfl hx
    | cons c x =>
      simp at e
      rw [e.2.2]; rfl

theorem argType_scoped {e ut : Text} (h : ',' ∉ ut) (n : Nat) :
    argType (Arg.text (.scoped e ut n)) = some (t!"encode_enum", e, ut) := by
  have hr : reMatch [lit t!"encode_", ⟨true, [.alt [t!"32", t!"u32", t!"64", t!"u64", t!"enum"]]⟩, lit t!"<", all,
      lit t!">"] (Arg.text (.scoped e ut n)) = some [t!"enum", e ++ t!", " ++ ut ++ t!", " ++ natText n] := by
    rw [reMatch, Arg.text, dec_eq, intText_nat (by omega), Int.toNat_natCast,
      show t!"encode_enum<" ++ e ++ t!", " ++ ut ++ t!", " ++ natText n ++ t!">" =
        t!"encode_" ++ (t!"enum" ++ (t!"<" ++ ((e ++ t!", " ++ ut ++ t!", " ++ natText n) ++ t!">"))) from by simp,
      partsWays_lit, alt_enum, partsWays_lit, List.head?_map, last_bracket]
    rfl
  rw [argType, hr]
  simp only [if_true]
  rw [enum_groups_of e h]
  rfl

theorem argType_plain (s l : Bool) (e : Text) :
    ∃ t, t ≠ t!"encode_enum" ∧ argType (Arg.text (.plain s l e)) = some (t, e, e) := by
  have hr : ∀ k, k ∈ [t!"32", t!"u32", t!"64", t!"u64"] →
      argType (t!"encode_" ++ k ++ t!"<" ++ e ++ t!">") = some (t!"encode_" ++ k, e, e) := by
    intro k hk
    have h1 : ∀ t, partsWays (⟨true, [.alt [t!"32", t!"u32", t!"64", t!"u64", t!"enum"]]⟩ :: [lit t!"<", all, lit t!">"])
        (k ++ t) = (partsWays [lit t!"<", all, lit t!">"] t).map fun y => (k :: y.1, y.2) := by
      intro t
      rw [partsWays_alt]
      simp only [List.mem_cons, List.not_mem_nil, or_false] at hk
      rcases hk with rfl | rfl | rfl | rfl <;> simp [dropPrefix?]
    have h2 : reMatch [lit t!"encode_", ⟨true, [.alt [t!"32", t!"u32", t!"64", t!"u64", t!"enum"]]⟩, lit t!"<", all,
        lit t!">"] (t!"encode_" ++ k ++ t!"<" ++ e ++ t!">") = some [k, e] := by
      rw [reMatch, show t!"encode_" ++ k ++ t!"<" ++ e ++ t!">" = t!"encode_" ++ (k ++ (t!"<" ++ (e ++ t!">"))) from by simp,
        partsWays_lit, h1, partsWays_lit, List.head?_map, last_bracket]
      rfl
    rw [argType, h2]
    simp only
    rw [if_neg]
    simp only [List.mem_cons, List.not_mem_nil, or_false] at hk
    rcases hk with rfl | rfl | rfl | rfl <;> decide
  cases s <;> cases l
  · exact ⟨t!"encode_u32", by decide, hr t!"u32" (by decide)⟩
  · exact ⟨t!"encode_u64", by decide, hr t!"u64" (by decide)⟩
  · exact ⟨t!"encode_32", by decide, hr t!"32" (by decide)⟩
  · exact ⟨t!"encode_64", by decide, hr t!"64" (by decide)⟩

theorem argType_name {a : Arg} (h : a.Ok) : ∃ x, argType a.text = some x ∧ x.2.1 = a.name := by
  cases a with
  | «scoped» e ut n => exact ⟨_, argType_scoped h n, rfl⟩
  | plain s l e =>
    obtain ⟨t, _, ht⟩ := argType_plain s l e
    exact ⟨_, ht, rfl⟩

/-! ## Declarations -/

theorem splitColons_plain {t : Text} (h : ':' ∉ t) : splitColons t = [t] := by
  match t, h with
  | [], _ => rfl
  | [c], _ => rfl
  | c :: d :: t, h =>
    have hc : c ≠ ':' := fun e => h (by simp [e])
    rw [splitColons, if_neg (by simp [hc]), splitColons_plain fun e => h (List.mem_cons_of_mem _ e)]

theorem splitColons_at {t r : Text} (h : ':' ∉ t) : splitColons (t ++ t!"::" ++ r) = t :: splitColons r := by
  match t, h with
  | [], _ => simp [splitColons]
  | [c], h =>
    have hc : c ≠ ':' := fun e => h (by simp [e])
    simp [splitColons, hc]
  | c :: d :: t, h =>
    have hc : c ≠ ':' := fun e => h (by simp [e])
    have := splitColons_at (t := d :: t) (r := r) fun e => h (List.mem_cons_of_mem _ e)
    simp only [List.cons_append] at this ⊢
    rw [splitColons, if_neg (by simp [hc]), this]

theorem splitColons_qualified {ns : List Text} {e : Text} (h : ∀ n ∈ ns, ':' ∉ n) (he : ':' ∉ e) :
    splitColons (qualified ns e) = ns ++ [e] := by
  induction ns with
  | nil => rw [qualified]; simpa using splitColons_plain he
  | cons n ns ih =>
    have h1 := ih fun x hx => h x (List.mem_cons_of_mem _ hx)
    rw [qualified] at h1 ⊢
    rw [List.flatMap_cons, List.append_assoc, splitColons_at (h n (List.mem_cons_self ..)), h1]
    rfl

theorem Ident.colon {t : Text} (h : Ident t) : ':' ∉ t := fun hm => by
  rcases h.2 _ hm with h | h
  · revert h; decide
  · cases h

theorem Ident.named {t : Text} (h : Ident t) : t ≠ t!"(anonymous namespace)" ∧ t ≠ t!"{anonymous}" := by
  constructor
  · rintro rfl
    have := h.2 '(' (by decide)
    revert this; decide
  · rintro rfl
    have := h.2 '{' (by decide)
    revert this; decide

theorem enumDecl_qualified {ns : List Text} {e : Text} (h : ∀ n ∈ ns, Ident n) (he : Ident e) (ut : Text) :
    enumDecl (qualified ns e) ut = some (declText ns e ut) := by
  rw [enumDecl, splitColons_qualified (fun n hn => (h n hn).colon) he.colon]
  have ha : ¬ (t!"(anonymous namespace)" ∈ ns ++ [e] ∨ t!"{anonymous}" ∈ ns ++ [e]) := by
    simp only [List.mem_append, List.mem_singleton]
    rintro ((h1 | h1) | (h1 | h1))
    · exact (h _ h1).named.1 rfl
    · exact he.named.1 h1.symm
    · exact (h _ h1).named.2 rfl
    · exact he.named.2 h1.symm
  rw [if_neg ha, List.getLast?_append, List.dropLast_concat, joinWith_eq, declText]
  cases ns with
  | nil => simp
  | cons n ns => simp

end Verif.Json
