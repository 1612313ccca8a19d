import Verif.Cpp.Spec
import Verif.Symbols.Lemmas
/-! # Lemmas on lines of the generated C++ file -/
namespace Verif.Cpp
open Verif.Symbols (Text Message Module intText natText dec joined castChars)

theorem lines_ne (t : Text) : lines t ≠ [] := by
  cases t with
  | nil => simp [lines]
  | cons c t => rw [lines]; split <;> simp

theorem lines_append (a b : Text) : lines (a ++ '\n' :: b) = lines a ++ lines b := by
  induction a with
  | nil => simp [lines]
  | cons c a ih =>
    rw [List.cons_append, lines, lines, ih]
    split
    · rfl
    · cases h : lines a with
      | nil => exact absurd h (lines_ne a)
      | cons l ls => rfl

theorem lines_one {t : Text} (h : OneLine t) : lines t = [t] := by
  induction t with
  | nil => rfl
  | cons c t ih =>
    have h1 : '\n' ∉ t ∧ '\n' ≠ c := ⟨fun e => h.1 (List.mem_cons_of_mem _ e), fun e => h.1 (e ▸ List.mem_cons_self)⟩
    have h2 : '\r' ∉ t ∧ '\r' ≠ c := ⟨fun e => h.2 (List.mem_cons_of_mem _ e), fun e => h.2 (e ▸ List.mem_cons_self)⟩
    rw [lines, ih ⟨h1.1, h2.1⟩, if_neg (by rintro (e | e); exact h1.2 e.symm; exact h2.2 e.symm)]
    rfl

theorem splice_id {ls : List Text} (h : ∀ l ∈ ls, l.getLast? ≠ some '\\') : splice ls = ls := by
  induction ls with
  | nil => rfl
  | cons l ls ih =>
    rw [splice, if_neg (h l List.mem_cons_self), ih fun l' hl => h l' (List.mem_cons_of_mem _ hl)]

theorem cut_id {t : Text} (h : ¬ t!"//" <:+: t) : cut t = t := by
  induction t with
  | nil => rfl
  | cons c t ih =>
    have h1 : ¬ t!"//" <:+: t := fun e => h (e.trans (List.suffix_cons c t).isInfix)
    rw [cut, if_neg, ih h1]
    rintro ⟨rfl, e⟩
    cases t with
    | nil => cases e
    | cons d t =>
      cases e
      exact h ⟨[], t, rfl⟩

/-- No line ends with a backslash, and this code is left. -/
def Good (t : Text) (cs : List Text) : Prop := (∀ l ∈ lines t, l.getLast? ≠ some '\\') ∧ code t = cs

theorem good_append {a b : Text} {x y : List Text} (ha : Good a x) (hb : Good b y) : Good (a ++ '\n' :: b) (x ++ y) := by
  have h : ∀ l ∈ lines (a ++ '\n' :: b), l.getLast? ≠ some '\\' := by
    rw [lines_append]
    intro l hl
    rcases List.mem_append.1 hl with h | h
    · exact ha.1 l h
    · exact hb.1 l h
  refine ⟨h, ?_⟩
  rw [code, splice_id h, lines_append, List.map_append, List.filter_append, ← ha.2, ← hb.2, code, code, splice_id ha.1,
    splice_id hb.1]

theorem good_nil : Good [] [] := ⟨by simp [lines], by rfl⟩

theorem good_comment {t : Text} (h : OneLine t) (hl : t.getLast? ≠ some '\\') : Good (t!"//" ++ t) [] := by
  have h1 : OneLine (t!"//" ++ t) := by
    constructor
    · intro e; rcases List.mem_append.1 e with e | e
      · revert e; decide
      · exact h.1 e
    · intro e; rcases List.mem_append.1 e with e | e
      · revert e; decide
      · exact h.2 e
  have h2 : ∀ l ∈ lines (t!"//" ++ t), l.getLast? ≠ some '\\' := by
    rw [lines_one h1]
    intro l hl'
    rw [List.mem_singleton.1 hl']
    cases ht : t with
    | nil => decide
    | cons c r =>
      rw [List.getLast?_append, ← ht]
      cases hc : t.getLast? with
      | none => rw [ht] at hc; simp at hc
      | some d => rw [hc] at hl; exact hl
  refine ⟨h2, ?_⟩
  rw [code, splice_id h2, lines_one h1]
  simp [cut]

theorem good_code {t : Text} (h : CodeLine t) : Good t [t] := by
  have h2 : ∀ l ∈ lines t, l.getLast? ≠ some '\\' := by
    rw [lines_one h.one]
    intro l hl
    rw [List.mem_singleton.1 hl]
    exact h.last
  refine ⟨h2, ?_⟩
  rw [code, splice_id h2, lines_one h.one, List.map_singleton, cut_id h.comment, List.filter_cons_of_pos]
  · rfl
  · obtain ⟨c, hc, hn⟩ := h.blank
    exact List.any_eq_true.2 ⟨c, hc, by simpa using hn⟩

theorem good_join {α : Type} {as : List α} {f : α → Text} {g : α → List Text} (h : ∀ a ∈ as, Good (f a) (g a)) :
    Good (join t!"\n" (as.map f)) (as.flatMap g) ∧ Good (join t!"\n\n" (as.map f)) (as.flatMap g) := by
  induction as with
  | nil => exact ⟨good_nil, good_nil⟩
  | cons a as ih =>
    obtain ⟨i1, i2⟩ := ih fun b hb => h b (List.mem_cons_of_mem _ hb)
    have ha := h a List.mem_cons_self
    cases as with
    | nil => simpa [join] using ha
    | cons b as =>
      constructor
      · have := good_append ha i1
        simpa [join] using this
      · have := good_append ha (good_append good_nil i2)
        simpa [join] using this

/-! ## Characters of types -/

/-- No slash, no line end. -/
def Clean (t : Text) : Prop := ∀ c ∈ t, c ≠ '/' ∧ c ≠ '\n' ∧ c ≠ '\r'

theorem clean_append {a b : Text} (ha : Clean a) (hb : Clean b) : Clean (a ++ b) := fun c hc =>
  (List.mem_append.1 hc).elim (ha c) (hb c)

theorem clean_cons {c : Char} {t : Text} (hc : c ≠ '/' ∧ c ≠ '\n' ∧ c ≠ '\r') (ht : Clean t) : Clean (c :: t) :=
  clean_append (a := [c]) (by intro d hd; rw [List.mem_singleton.1 hd]; exact hc) ht

theorem clean_nat (n : Nat) : Clean (natText n) := by
  intro c hc
  have := Symbols.natText_digit hc
  refine ⟨?_, ?_, ?_⟩ <;> (rintro rfl; revert this; decide)

theorem clean_int (n : Int) : Clean (intText n) := by
  rw [intText]
  split
  · exact clean_cons (by decide) (clean_nat _)
  · exact clean_nat _

theorem clean_joined {as : List Text} (h : ∀ a ∈ as, Clean a) : Clean (joined as) := by
  induction as with
  | nil => intro c hc; cases hc
  | cons a as ih =>
    have ha := h a List.mem_cons_self
    have ih := ih fun b hb => h b (List.mem_cons_of_mem _ hb)
    cases as with
    | nil => exact ha
    | cons b as =>
      rw [joined]
      · exact clean_append (clean_append ha (by unfold Clean; decide)) ih
      · intro e; cases e

theorem clean_chars (cs : List Nat) : Clean (castChars cs) := by
  apply clean_joined
  intro a ha
  obtain ⟨c, -, rfl⟩ := List.mem_map.1 ha
  exact clean_append (clean_append (by unfold Clean; decide) (clean_nat c)) (by unfold Clean; decide)

theorem clean_alpha {t : Text} (h : ∀ c ∈ t, c.isAlpha = true) : Clean t := by
  intro c hc
  have := h c hc
  refine ⟨?_, ?_, ?_⟩ <;> (rintro rfl; revert this; decide)

theorem clean_type {t : Text} (h : TypeName t) : Clean t := fun _ hc =>
  ⟨fun e => h.2 (e ▸ hc), fun e => h.1.1 (e ▸ hc), fun e => h.1.2 (e ▸ hc)⟩

theorem clean_message {m : Message} (ha : ∀ a ∈ m.args, TypeName a) (hs : ∀ c ∈ m.suffix, c.isAlpha = true) :
    Clean m.toCpp := by
  have ht : Clean (joined (m.tags.map Symbols.Tag.toCpp)) := by
    apply clean_joined
    intro a ha
    obtain ⟨t, -, rfl⟩ := List.mem_map.1 ha
    exact clean_append (clean_append (clean_append (clean_append (by unfold Clean; decide) (clean_chars _))
      (by unfold Clean; decide)) (clean_chars _)) (by unfold Clean; decide)
  have hn : Clean (joined (m.named.map Symbols.NamedArg.toCpp)) := by
    apply clean_joined
    intro a ha
    obtain ⟨t, -, rfl⟩ := List.mem_map.1 ha
    exact clean_append (clean_append (clean_append (clean_append (clean_append (clean_append (by unfold Clean; decide)
      (clean_chars _)) (by unfold Clean; decide)) (clean_int _)) (by unfold Clean; decide)) (clean_int _))
      (by unfold Clean; decide)
  have hj := clean_joined (as := m.args) fun a h => clean_type (ha a h)
  exact clean_append (clean_append (clean_append (clean_append (clean_append (clean_append (clean_append (clean_append
    (clean_append (clean_append (by unfold Clean; decide) hj) (by unfold Clean; decide)) (clean_int _)) (clean_alpha hs))
    (by unfold Clean; decide)) (clean_chars _)) (by unfold Clean; decide)) ht) (by unfold Clean; decide)) hn |>
    fun h => clean_append h (by unfold Clean; decide)

theorem clean_module {m : Module} (hs : ∀ c ∈ m.suffix, c.isAlpha = true) : Clean m.toCpp :=
  clean_append (clean_append (clean_append (clean_append (clean_append (by unfold Clean; decide) (clean_int _))
    (clean_alpha hs)) (by unfold Clean; decide)) (clean_chars _)) (by unfold Clean; decide)

theorem clean_line {t : Text} (h : Clean t) {c : Char} {r : Text} (e : t = r ++ [c]) (hc : c ≠ '\\' ∧ c ≠ ' ') :
    CodeLine t where
  one := ⟨fun m => (h _ m).2.1 rfl, fun m => (h _ m).2.2 rfl⟩
  comment := fun ⟨a, b, e⟩ => (h '/' (by rw [← e]; simp)).1 rfl
  last := by rw [e]; simpa using hc.1
  blank := ⟨c, by rw [e]; simp, hc.2⟩

/-! ## `repr` -/

theorem repr_one (s : Text) : OneLine (reprStr s) := by
  have key : ∀ q : Char, q = '"' ∨ q = '\'' → OneLine (q :: s.flatMap (reprChar q) ++ [q]) := by
    intro q hq
    have h1 : ∀ d, d = '\n' ∨ d = '\r' → d ∉ s.flatMap (reprChar q) := by
      intro d hd hm
      obtain ⟨c, -, hc⟩ := List.mem_flatMap.1 hm
      rw [reprChar] at hc
      split at hc
      · next h =>
        rcases List.mem_cons.1 hc with rfl | hc
        · rcases hd with h | h <;> cases h
        · rw [List.mem_singleton] at hc
          subst hc
          rcases h with rfl | rfl
          · rcases hd with rfl | rfl <;> rcases hq with h | h <;> cases h
          · rcases hd with h | h <;> cases h
      · split at hc
        · rcases hd with rfl | rfl <;> (revert hc; decide)
        · split at hc
          · rcases hd with rfl | rfl <;> (revert hc; decide)
          · split at hc
            · rcases hd with rfl | rfl <;> (revert hc; decide)
            · next h2 h3 _ =>
              rw [List.mem_singleton] at hc
              subst hc
              rcases hd with rfl | rfl
              · exact h2 rfl
              · exact h3 rfl
    have hq2 : ∀ d : Char, d = '\n' ∨ d = '\r' → d ≠ q := by
      rintro d (rfl | rfl) rfl <;> rcases hq with h | h <;> cases h
    constructor
    · intro hm
      simp only [List.cons_append, List.mem_cons, List.mem_append, List.not_mem_nil, or_false] at hm
      rcases hm with h | h | h
      · exact hq2 _ (.inl rfl) h
      · exact h1 _ (.inl rfl) h
      · exact hq2 _ (.inl rfl) h
    · intro hm
      simp only [List.cons_append, List.mem_cons, List.mem_append, List.not_mem_nil, or_false] at hm
      rcases hm with h | h | h
      · exact hq2 _ (.inr rfl) h
      · exact h1 _ (.inr rfl) h
      · exact hq2 _ (.inr rfl) h
  rw [reprStr]
  apply key
  split
  · exact .inl rfl
  · exact .inr rfl

theorem one_append {a b : Text} (ha : OneLine a) (hb : OneLine b) : OneLine (a ++ b) :=
  ⟨fun h => (List.mem_append.1 h).elim ha.1 hb.1, fun h => (List.mem_append.1 h).elim ha.2 hb.2⟩

theorem one_join {as : List Text} (h : ∀ a ∈ as, OneLine a) : OneLine (join t!", " as) := by
  induction as with
  | nil => exact ⟨by simp [join], by simp [join]⟩
  | cons a as ih =>
    have ha := h a List.mem_cons_self
    have ih := ih fun b hb => h b (List.mem_cons_of_mem _ hb)
    cases as with
    | nil => exact ha
    | cons b as =>
      rw [join]
      exact one_append (one_append ha ⟨by decide, by decide⟩) ih

theorem reprList_one (l : List Text) : OneLine (reprList l) ∧ (reprList l).getLast? ≠ some '\\' := by
  constructor
  · rw [reprList]
    refine one_append (a := '[' :: _) (one_append (a := ['[']) ⟨by decide, by decide⟩ (one_join ?_)) ⟨by decide, by decide⟩
    intro a ha
    obtain ⟨s, -, rfl⟩ := List.mem_map.1 ha
    exact repr_one s
  · rw [reprList, List.getLast?_append]
    simp

end Verif.Cpp
