import Verif.Symbols.Props
import Mathlib.Tactic.Push
/-! # Exactly which symbols can be read -/
namespace Verif.Symbols

/-- A character that is not in the range of `chr` stops the reading of a text. -/
theorem mapM_bad (s : List Int) (h : ¬ ∀ c ∈ s, 0 ≤ c ∧ c < 0x110000) :
    (splitAt ',' (commas (s.map dec))).mapM (fun c => (intOf c).bind chr) = none ∧
    (splitAt ',' (' ' :: commas (s.map dec))).mapM (fun c => (intOf c).bind chr) = none := by
  induction s with
  | nil => exact absurd (by simp) h
  | cons c s ih =>
    have hsp : ',' ∉ ' ' :: dec c := by simp [dec_comma]
    have hc : (intOf (dec c)).bind chr = chr c := by rw [intOf_dec]; rfl
    have hc' : (intOf (' ' :: dec c)).bind chr = chr c := by rw [intOf_space]; rfl
    cases s with
    | nil =>
      have : chr c = none := by rw [chr, if_neg]; simpa using h
      simp only [List.map_cons, List.map_nil, commas_one]
      rw [splitAt_plain (dec_comma c), splitAt_plain hsp]
      simp [hc, hc', this]
    | cons d s =>
      simp only [List.map_cons]
      rw [commas_cons, splitAt_sep (dec_comma c), ← List.cons_append, splitAt_sep hsp]
      simp only [List.mapM_cons, hc, hc']
      by_cases h1 : 0 ≤ c ∧ c < 0x110000
      · have ih := (ih fun h2 => h fun x hx => by
          rcases List.mem_cons.1 hx with rfl | hx
          · exact h1
          · exact h2 x hx).2
        simp only [List.map_cons] at ih
        rw [ih, chr, if_pos h1]
        exact ⟨rfl, rfl⟩
      · rw [chr, if_neg h1]
        exact ⟨rfl, rfl⟩

theorem charsOf_exact (s : List Int) : (Plain s → charsOf (commas (s.map nmChar)) = some (codes s)) ∧
    (¬ Plain s → charsOf (commas (s.map nmChar)) = none) := by
  refine ⟨charsOf_nm, fun h => ?_⟩
  rw [charsOf, remove_all]
  by_cases hs : s = []
  · rw [hs]; decide
  · exact (mapM_bad s fun h' => h ⟨hs, h'⟩).1

theorem Tag.ofCpp_bad {gap : Bool} {t : List Int × List Int} (h : ¬ (Plain t.1 ∧ Plain t.2)) :
    Tag.ofCpp (tagType gap nmChar t) = none := by
  obtain ⟨pad, hp, _, _, _, e⟩ := tmpl_shape gap t!"sc::tag" [strType gap nmChar t.1, strType gap nmChar t.2]
    (by decide)
  have := tag_match (T := commas (t.1.map nmChar)) (V := commas (t.2.map nmChar)) (p := pad)
    (chars_not _ (.inl rfl)) (chars_not _ (.inl rfl)) hp
  rw [Tag.ofCpp, tagType, e, commas_cons, commas_one, strType_eq, strType_eq]
  simp only [List.append_assoc, List.cons_append, List.nil_append] at this ⊢
  rw [this]
  by_cases h1 : Plain t.1
  · simp only [(charsOf_exact _).1 h1, (charsOf_exact _).2 fun h2 => h ⟨h1, h2⟩]
    rfl
  · simp only [(charsOf_exact _).2 h1]
    rfl

theorem mapM_none' {α β : Type} {l : List α} {g : α → Option β} {a : α} (ha : a ∈ l) (e : g a = none) :
    l.mapM g = none := by
  induction l with
  | nil => cases ha
  | cons b l ih =>
    rw [List.mapM_cons]
    rcases List.mem_cons.1 ha with rfl | h
    · rw [e]; rfl
    · rw [ih h]
      cases g b <;> rfl

theorem NamedArg.ofCpp_bad {gap : Bool} {a : List Int × Int × Int} (h : ¬ Plain a.1) :
    NamedArg.ofCpp (namedType gap nmChar a) = none := by
  rw [NamedArg.ofCpp_eq, (charsOf_exact _).2 h]
  rfl

/-- Exactly the messages whose texts are not empty, of characters from `0` to `0x10ffff`, are read, and as
they are; at any other the script stops. -/
theorem C137_exact (n : Nat) (long gap : Bool) (m : Sym) (hargs : ∀ a ∈ m.args, ArgType a)
    (hsuffix : ∀ c ∈ m.suffix, c.isAlpha = true) :
    let texts := m.text :: (m.tags.map Prod.fst ++ m.tags.map Prod.snd ++ m.named.map Prod.fst)
    ((∀ t ∈ texts, t ≠ [] ∧ ∀ c ∈ t, 0 ≤ c ∧ c ≤ 0x10ffff) →
      readLine (nmLine n long gap t!"catalog" (m.type gap nmChar)) = some (some (.message
        ⟨codes m.text, m.args, m.id, m.suffix, m.named.map fun a => ⟨codes a.1, a.2.1, a.2.2⟩,
          m.tags.map fun t => ⟨codes t.1, codes t.2⟩⟩))) ∧
    ((¬ ∀ t ∈ texts, t ≠ [] ∧ ∀ c ∈ t, 0 ≤ c ∧ c ≤ 0x10ffff) →
      readLine (nmLine n long gap t!"catalog" (m.type gap nmChar)) = none) := by
  dsimp only
  have hP : ∀ t : List Int, (t ≠ [] ∧ ∀ c ∈ t, 0 ≤ c ∧ c ≤ 0x10ffff) ↔ Plain t := fun t =>
    ⟨fun h => ⟨h.1, fun c hc => ⟨(h.2 c hc).1, by have := (h.2 c hc).2; omega⟩⟩,
      fun h => ⟨h.1, fun c hc => ⟨(h.2 c hc).1, by have := (h.2 c hc).2; omega⟩⟩⟩
  simp only [hP]
  constructor
  · intro h
    exact C137_message_partial n long gap m ⟨hargs, hsuffix, h _ (by simp),
      fun t ht => ⟨h _ (by simp only [List.mem_cons, List.mem_append, List.mem_map]; exact .inr (.inl (.inl ⟨t, ht, rfl⟩))),
        h _ (by simp only [List.mem_cons, List.mem_append, List.mem_map]; exact .inr (.inl (.inr ⟨t, ht, rfl⟩)))⟩,
      fun a ha => h _ (by simp only [List.mem_cons, List.mem_append, List.mem_map]; exact .inr (.inr ⟨a, ha, rfl⟩))⟩
  · intro h
    obtain ⟨r, hr, e⟩ := readLine_nm n long gap (k := t!"catalog") (.inl rfl)
      (fun x hx => m.type_free (gap := gap) hargs hsuffix hx) (by rw [Sym.type, tmpl, shut]; simp)
    rw [readLine, e]
    simp only [if_true]
    rw [Message.ofCpp_eq hargs hsuffix hr]
    by_cases h1 : Plain m.text
    · rw [(charsOf_exact _).1 h1]
      by_cases h2 : ∀ a ∈ m.named, Plain a.1
      · have h3 : ¬ ∀ t ∈ m.tags, Plain t.1 ∧ Plain t.2 := fun h3 => h fun t ht => by
          simp only [List.mem_cons, List.mem_append, List.mem_map] at ht
          rcases ht with rfl | (⟨a, ha, rfl⟩ | ⟨a, ha, rfl⟩) | ⟨a, ha, rfl⟩
          · exact h1
          · exact (h3 a ha).1
          · exact (h3 a ha).2
          · exact h2 a ha
        push Not at h3
        obtain ⟨t, ht, hb⟩ := h3
        rw [mapM_none' (g := Tag.ofCpp) (List.mem_map_of_mem ht) (Tag.ofCpp_bad fun h => hb h.1 h.2)]
        cases (m.named.map (namedType gap nmChar)).mapM NamedArg.ofCpp <;> rfl
      · push Not at h2
        obtain ⟨a, ha, hb⟩ := h2
        rw [mapM_none' (g := NamedArg.ofCpp) (List.mem_map_of_mem ha) (NamedArg.ofCpp_bad hb)]
        rfl
    · rw [(charsOf_exact _).2 h1]
      rfl

/-- The same for modules. -/
theorem C137_module_exact (n : Nat) (long gap : Bool) (m : ModSym) (hs : ∀ c ∈ m.suffix, c.isAlpha = true) :
    ((m.text ≠ [] ∧ ∀ c ∈ m.text, 0 ≤ c ∧ c ≤ 0x10ffff) →
      readLine (nmLine n long gap t!"module" (m.type gap nmChar)) =
        some (some (.module ⟨codes m.text, m.id, m.suffix⟩))) ∧
    ((¬ (m.text ≠ [] ∧ ∀ c ∈ m.text, 0 ≤ c ∧ c ≤ 0x10ffff)) →
      readLine (nmLine n long gap t!"module" (m.type gap nmChar)) = none) := by
  have hP : (m.text ≠ [] ∧ ∀ c ∈ m.text, 0 ≤ c ∧ c ≤ 0x10ffff) ↔ Plain m.text :=
    ⟨fun h => ⟨h.1, fun c hc => ⟨(h.2 c hc).1, by have := (h.2 c hc).2; omega⟩⟩,
      fun h => ⟨h.1, fun c hc => ⟨(h.2 c hc).1, by have := (h.2 c hc).2; omega⟩⟩⟩
  rw [hP]
  refine ⟨C137_module_partial n long gap m hs, fun h => ?_⟩
  obtain ⟨r, hr, e⟩ := readLine_nm n long gap (k := t!"module") (.inr rfl)
    (fun x hx => m.type_free (gap := gap) hs hx) (by rw [ModSym.type, tmpl, shut]; simp)
  rw [readLine, e]
  simp only [Module.ofCpp_eq hs hr, (charsOf_exact _).2 h]
  rfl

/-- The sample is read; with an empty value of its tag it is not. -/
example : readLine (nmLine 3 true true t!"catalog" (Sym.type true nmChar { sample with tags := [([97], [])] })) = none :=
  (C137_exact 3 true true { sample with tags := [([97], [])] } sample_readable.args sample_readable.suffix).2
    fun h => (h [] (by decide)).1 rfl

end Verif.Symbols
