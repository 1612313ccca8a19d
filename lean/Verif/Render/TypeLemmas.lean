import Verif.Render.PrintLemmas
/-! # Lemmas about texts of argument types, and about CDATA -/
namespace Verif.Render
open Verif.Symbols
open Verif.Log (Prim TagSpec)

theorem splitAt_no {c : Char} {t : Text} (h : c ∉ t) : splitAt c t = [t] := by
  induction t with
  | nil => rfl
  | cons d t ih =>
    have hd : ¬ d = c := fun e => h (e ▸ List.mem_cons_self ..)
    rw [splitAt, if_neg hd, ih fun e => h (List.mem_cons_of_mem _ e)]

theorem splitAt_at {c : Char} {t r : Text} (h : c ∉ t) : splitAt c (t ++ c :: r) = t :: splitAt c r := by
  induction t with
  | nil => simp [splitAt]
  | cons d t ih =>
    have hd : ¬ d = c := fun e => h (e ▸ List.mem_cons_self ..)
    rw [List.cons_append, splitAt, if_neg hd, ih fun e => h (List.mem_cons_of_mem _ e)]

theorem splitAt_length (c : Char) (t : Text) : (splitAt c t).length = t.count c + 1 := by
  induction t with
  | nil => rfl
  | cons d t ih =>
    rw [splitAt]
    split
    · next e => subst e; simp [ih]
    · next e =>
      rw [List.count_cons_of_ne e]
      split
      · next h => rw [h] at ih; cases ih
      · next h => rw [h] at ih; simpa using ih

theorem prim_plain (p : Prim) : ∀ c ∈ primText p, c ≠ '<' ∧ c ≠ ',' ∧ c ≠ '>' := by
  cases p <;> simp [primText]

theorem prim_trim (p : Prim) : strip (' ' :: primText p) = primText p := by
  cases p <;> rfl

theorem dropLast_snoc (a : Text) : (a ++ t!">").dropLast = a := by simp

theorem spec_plain {names : Nat → Text} {s : TagSpec} (h : ∀ e, s = .user e → '<' ∉ names e) :
    '<' ∉ tagText.spec names s := by
  cases s with
  | prim p => intro m; exact (prim_plain p _ m).1 rfl
  | user e => exact h e rfl

theorem read_plain {tag spec : Text} (h : [t!"encode_u32", t!"encode_32", t!"encode_u64", t!"encode_64"].contains tag = true)
    (ht : '<' ∉ tag) (hs : '<' ∉ spec) : readArgType (tag ++ t!"<" ++ spec ++ t!">") = some (.plain tag spec) := by
  rw [readArgType, dropLast_snoc, show tag ++ t!"<" ++ spec = tag ++ '<' :: spec from by simp, splitAt_at ht, splitAt_no hs]
  have hne : tag ≠ t!"encode_enum" := by rintro rfl; exact absurd h (by decide)
  simp only [hne, if_false, h, if_true]

theorem read_enum {n u : Text} {k : Nat} (h1 : '<' ∉ n) (h2 : ',' ∉ n) (h3 : '<' ∉ u) (h4 : ',' ∉ u)
    (h5 : strip (' ' :: u) = u) :
    readArgType (t!"encode_enum<" ++ n ++ t!", " ++ u ++ t!", " ++ natText k ++ t!">") = some (.enum n u k) := by
  have hk : ∀ c, isDigit c = false → c ∉ natText k := fun c hc m => by rw [natText_digit m] at hc; cases hc
  have hk1 := hk '<' (by decide)
  have hk2 := hk ',' (by decide)
  rw [readArgType, dropLast_snoc, show t!"encode_enum<" ++ n ++ t!", " ++ u ++ t!", " ++ natText k =
    t!"encode_enum" ++ '<' :: (n ++ ',' :: (' ' :: u ++ ',' :: (' ' :: natText k))) from by simp,
    splitAt_at (by decide), splitAt_no (by simp [h1, h3, hk1])]
  simp only [if_true]
  rw [splitAt_at h2, splitAt_at (by simp [h4]), splitAt_no (by simp [hk2])]
  have h6 : intOf (' ' :: natText k) = some (k : Int) := by
    have := intOf_space (k : Int)
    rwa [dec_eq, intText, if_neg (by omega), Int.toNat_natCast] at this
  simp only [h6, h5, Option.map_some]

theorem read_split {t : Text} (h : t.dropLast.count '<' ≠ 1) : readArgType t = none := by
  rw [readArgType]
  have := splitAt_length '<' t.dropLast
  split
  · next hs => rw [hs] at this; simp at this; omega
  · rfl

/-! ## What the XML file prints for an enumeration -/

theorem alt_enum (ps : List Part) (t : Text) :
    partsWays (⟨true, [.alt [t!"32", t!"u32", t!"64", t!"u64", t!"enum"]]⟩ :: ps) (t!"enum" ++ t) =
      (partsWays ps t).map fun y => (t!"enum" :: y.1, y.2) := by
  rw [partsWays_alt]
  simp [dropPrefix?]

theorem digits_head (n : Nat) :
    (partsWays [⟨true, [.rep isDigit 1 false]⟩] (natText n)).head? = some ([natText n], []) := by
  have hd : ∀ c ∈ natText n, isDigit c = true := fun c hc => natText_digit hc
  have h1 : (natText n).takeWhile isDigit = natText n := by
    have := List.takeWhile_append_of_pos (l₂ := []) hd
    simpa using this
  have hne : 0 < (natText n).length := List.length_pos_iff.2 (natText_ne n)
  rw [partsWays_rep, h1]
  simp only [Bool.false_eq_true, if_false]
  rw [List.range_succ, List.filter_append, List.reverse_append]
  have : List.filter (fun x => decide (1 ≤ x)) [(natText n).length] = [(natText n).length] := by simp; omega
  rw [this]
  simp [partsWays]

theorem enum_groups_of (name : Text) {ut : Text} (hp : ',' ∉ ut) (n : Nat) :
    reMatch [all, lit t!", ", all, lit t!", ", ⟨true, [.rep isDigit 1 false]⟩]
      (name ++ t!", " ++ ut ++ t!", " ++ natText n) = some [name, ut, natText n] := by
  have hk : ',' ∉ natText n := fun m => by have := natText_digit m; revert this; decide
  have h1 : (partsWays [all, lit t!", ", ⟨true, [.rep isDigit 1 false]⟩] (ut ++ (t!", " ++ natText n))).head? =
      some ([ut, natText n], []) := by
    rw [head_all]
    · rw [List.head?_map, partsWays_lit, digits_head]; rfl
    · rw [partsWays_lit]
      intro e
      have := digits_head n
      rw [e] at this; cases this
    · intro x y e hx
      apply Classical.byContradiction
      intro hne
      obtain ⟨r, rfl, _⟩ := partsWays_lit_some hne
      have := congrArg (List.count ',') e
      cases x with
      | nil => exact hx rfl
      | cons c x =>
        simp at e
        have h2 : List.count ',' (' ' :: natText n) = 0 := List.count_eq_zero.2 (by simp [hk])
        have := congrArg (List.count ',') e.2
        rw [h2] at this
        simp [List.count_append] at this
  have hne : partsWays [all, lit t!", ", ⟨true, [.rep isDigit 1 false]⟩] (ut ++ (t!", " ++ natText n)) ≠ [] := by
    intro e; rw [e] at h1; cases h1
  rw [reMatch, show name ++ t!", " ++ ut ++ t!", " ++ natText n =
    name ++ (t!", " ++ (ut ++ (t!", " ++ natText n))) from by simp, head_all]
  · rw [List.head?_map, partsWays_lit, h1]; rfl
  · rw [partsWays_lit]; exact hne
  · intro x y e hx
    apply Classical.byContradiction
    intro hne
    obtain ⟨r, rfl, hw1⟩ := partsWays_lit_some hne
    obtain ⟨u, w, rfl, _, _, hw2⟩ := partsWays_rep_some hw1
    obtain ⟨r, rfl, _⟩ := partsWays_lit_some hw2
    cases x with
    | nil => exact hx rfl
    | cons c x =>
      simp at e
      have h2 : List.count ',' (' ' :: (ut ++ ',' :: ' ' :: natText n)) = 1 := by
        simp [List.count_append, List.count_eq_zero.2 hk, List.count_eq_zero.2 hp]
      have := congrArg (List.count ',') e.2
      rw [h2] at this
      simp [List.count_append] at this
      omega

theorem enum_groups (name : Text) (p : Prim) (n : Nat) :
    reMatch [all, lit t!", ", all, lit t!", ", ⟨true, [.rep isDigit 1 false]⟩]
      (name ++ t!", " ++ primText p ++ t!", " ++ natText n) = some [name, primText p, natText n] :=
  enum_groups_of name (fun m => (prim_plain p _ m).2.1 rfl) n

theorem encoding_enum (names : Nat → Text) (e : Nat) (p : Prim) (n : Nat) :
    argTypeEncoding (tagText names (.enum e p n)) = some (t!"encode_enum", primText p) := by
  have h : reMatch [lit t!"encode_", ⟨true, [.alt [t!"32", t!"u32", t!"64", t!"u64", t!"enum"]]⟩, lit t!"<", all,
      lit t!">"] (tagText names (.enum e p n)) =
      some [t!"enum", names e ++ t!", " ++ primText p ++ t!", " ++ natText n] := by
    rw [reMatch, tagText, show t!"encode_enum<" ++ names e ++ t!", " ++ primText p ++ t!", " ++ natText n ++ t!">" =
      t!"encode_" ++ (t!"enum" ++ (t!"<" ++ ((names e ++ t!", " ++ primText p ++ t!", " ++ natText n) ++ t!">"))) from by simp,
      partsWays_lit, alt_enum, partsWays_lit, List.head?_map, head_all]
    · rfl
    · decide
    · intro x y e hx
      cases x with
      | nil => exact absurd rfl hx
      | cons c x =>
        simp at e
        rw [e.2.2]; rfl
  rw [argTypeEncoding, h]
  simp only [if_true]
  rw [enum_groups]
  rfl

/-! ## CDATA -/

theorem escape_app (s t : Text) : escapeCdata (s ++ t) = escapeCdata s ++ escapeCdata t := List.flatMap_append ..

theorem escape_id {s : Text} (h : '&' ∉ s) : escapeCdata s = s := by
  induction s with
  | nil => rfl
  | cons c s ih =>
    have hc : ¬ c = '&' := fun e => h (e ▸ List.mem_cons_self ..)
    rw [escapeCdata, List.flatMap_cons, if_neg hc]
    have := ih fun e => h (List.mem_cons_of_mem _ e)
    rw [escapeCdata] at this
    rw [this]; rfl

/-- Within CDATA, up to its end. -/
theorem read_cdata {t : Text} (h : ¬ t!"]]>" <:+: t) : xmlRead 0 true (t ++ t!"]]>") = some t := by
  induction t with
  | nil => rfl
  | cons c t ih =>
    have h1 : ¬ t!"]]>" <:+: t := fun e => h (e.trans (List.infix_cons (List.infix_refl _)))
    rw [List.cons_append, xmlRead, if_neg, ih h1]
    · rfl
    · intro hp
      rw [List.isPrefixOf_iff_prefix] at hp
      obtain ⟨r, hr⟩ := hp
      match t, hr with
      | [], hr => simp at hr
      | [d], hr => simp at hr
      | d :: f :: t, hr =>
        simp at hr
        apply h
        refine ⟨[], t, ?_⟩
        simp [← hr.1, ← hr.2.1, ← hr.2.2.1]

theorem escape_infix {t : Text} (h : ¬ t!"]]>" <:+: t) : ¬ t!"]]>" <:+: escapeCdata t := by
  induction t with
  | nil => exact h
  | cons c t ih =>
    have h1 : ¬ t!"]]>" <:+: t := fun e => h (e.trans (List.infix_cons (List.infix_refl _)))
    have ih := ih h1
    rw [show escapeCdata (c :: t) = (if c = '&' then t!"&amp;" else [c]) ++ escapeCdata t from List.flatMap_cons ..]
    split
    · intro hi
      simp [List.infix_cons_iff] at hi
      exact ih hi
    · next hc =>
      intro hi
      rw [List.singleton_append, List.infix_cons_iff] at hi
      rcases hi with hi | hi
      · obtain ⟨r, hr⟩ := hi
        simp at hr
        obtain ⟨rfl, hr⟩ := hr
        match t, hr with
        | [], hr => simp [escapeCdata] at hr
        | d :: t, hr =>
          rw [show escapeCdata (d :: t) = (if d = '&' then t!"&amp;" else [d]) ++ escapeCdata t from List.flatMap_cons ..] at hr
          split at hr
          · simp at hr
          · simp at hr
            obtain ⟨rfl, hr⟩ := hr
            match t, hr with
            | [], hr => simp [escapeCdata] at hr
            | d :: t, hr =>
              rw [show escapeCdata (d :: t) = (if d = '&' then t!"&amp;" else [d]) ++ escapeCdata t from List.flatMap_cons ..] at hr
              split at hr
              · simp at hr
              · simp at hr
                obtain ⟨rfl, hr⟩ := hr
                exact h ⟨[], t, by simp⟩
      · exact ih hi

theorem read_element {t : Text} (h : ¬ t!"]]>" <:+: t) : xmlRead 0 false (element t) = some (escapeCdata t) := by
  rw [element, escape_app, escape_app, escape_id (s := t!"<![CDATA[") (by decide), escape_id (s := t!"]]>") (by decide),
    ← read_cdata (escape_infix h)]
  rfl

end Verif.Render
