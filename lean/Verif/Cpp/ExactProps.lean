import Verif.Cpp.Props
/-! # What a compiler reads in the generated C++ file, whatever the texts -/
namespace Verif.Cpp
open Verif.Symbols (Text Message Module intText dec)

/-! ## Specification -/

/-- What is left of the comment with a text, if the text has line ends. -/
def leaks (t : List Nat) : List Text := code (t!"// \"" ++ shown t ++ t!"\"")

/-- What the file should have, with what is left of comments before each definition. -/
def wantedWith (x : Input) : List Text :=
  (x.headers.map fun h => t!"#include \"" ++ h ++ t!"\"") ++
    [t!"#include <log_binary/catalog/arguments.hpp>", t!"#include <log_binary/catalog/catalog.hpp>"] ++ x.decls ++
    x.messages.flatMap (fun m => leaks m.1.text ++ messageCode m) ++ x.modules.flatMap fun m => leaks m.1.text ++ moduleCode m

/-- As `Fine`, with any texts. -/
structure AnyTexts (x : Input) : Prop where
  argv : OneLine x.argv ∧ x.argv.getLast? ≠ some '\\'
  time : OneLine x.time ∧ x.time.getLast? ≠ some '\\'
  headers : ∀ h ∈ x.headers, OneLine h ∧ ¬ t!"//" <:+: h
  decls : ∀ d ∈ x.decls, CodeLine d
  messages : ∀ m ∈ x.messages, (∀ a ∈ m.1.args, TypeName a) ∧ ∀ c ∈ m.1.suffix, c.isAlpha = true
  modules : ∀ m ∈ x.modules, ∀ c ∈ m.1.suffix, c.isAlpha = true

/-! ## Lemmas -/

theorem splice_ne {ls : List Text} (h : ls ≠ []) : splice ls ≠ [] := by
  cases ls with
  | nil => exact absurd rfl h
  | cons l ls => rw [splice]; split <;> simp

theorem splice_append (ls rs : List Text) (h : ∀ l, ls.getLast? = some l → l.getLast? ≠ some '\\') :
    splice (ls ++ rs) = splice ls ++ splice rs := by
  induction ls with
  | nil => rfl
  | cons l ls ih =>
    cases ls with
    | nil =>
      have := h l rfl
      simp [splice, this]
    | cons k ls =>
      have ih := ih fun l hl => h l (by rw [List.getLast?_cons_cons]; exact hl)
      have hne : splice (k :: ls) ≠ [] := splice_ne (by simp)
      rw [List.cons_append, splice, ih, splice.eq_2 l (k :: ls)]
      obtain ⟨a, as, e⟩ := List.exists_cons_of_ne_nil hne
      rw [e]
      split <;> simp

/-- The last line does not end with a backslash, and this code is left. -/
def Ends (t : Text) (cs : List Text) : Prop :=
  (∀ l, (lines t).getLast? = some l → l.getLast? ≠ some '\\') ∧ code t = cs

theorem Good.ends {t : Text} {cs : List Text} (h : Good t cs) : Ends t cs :=
  ⟨fun l hl => h.1 l (List.mem_of_getLast? hl), h.2⟩

theorem ends_append {a b : Text} {x y : List Text} (ha : Ends a x) (hb : Ends b y) : Ends (a ++ '\n' :: b) (x ++ y) := by
  constructor
  · rw [lines_append, List.getLast?_append]
    cases h : (lines b).getLast? with
    | none => exact absurd (List.getLast?_eq_none_iff.1 h) (lines_ne b)
    | some k =>
      intro l hl
      cases hl
      exact hb.1 _ h
  · rw [code, lines_append, splice_append _ _ ha.1, List.map_append, List.filter_append, ← ha.2, ← hb.2, code, code]

theorem ends_join {α : Type} {as : List α} {f : α → Text} {g : α → List Text} (h : ∀ a ∈ as, Ends (f a) (g a)) :
    Ends (join t!"\n\n" (as.map f)) (as.flatMap g) := by
  induction as with
  | nil => exact good_nil.ends
  | cons a as ih =>
    have i2 := ih fun b hb => h b (List.mem_cons_of_mem _ hb)
    have ha := h a List.mem_cons_self
    cases as with
    | nil => simpa [join] using ha
    | cons b as =>
      have := ends_append ha (ends_append good_nil.ends i2)
      simpa [join] using this

theorem lines_last (t : Text) (c : Char) (hc : c ≠ '\n' ∧ c ≠ '\r') (l : Text) (h : (lines (t ++ [c])).getLast? = some l) :
    l.getLast? = some c := by
  induction t generalizing l with
  | nil =>
    simp [lines, hc.1, hc.2] at h
    rw [← h]; rfl
  | cons a t ih =>
    rw [List.cons_append, lines] at h
    split at h
    · rw [List.getLast?_cons] at h
      cases e : (lines (t ++ [c])).getLast? with
      | none => exact absurd (List.getLast?_eq_none_iff.1 e) (lines_ne _)
      | some k => rw [e] at h; cases h; exact ih k e
    · obtain ⟨k, ks, e⟩ := List.exists_cons_of_ne_nil (lines_ne (t ++ [c]))
      rw [e] at h ih
      simp only [List.headD_cons, List.tail_cons] at h
      cases ks with
      | nil =>
        have hk := ih k rfl
        have h : a :: k = l := by simpa using h
        rw [← h, List.getLast?_cons, hk]; rfl
      | cons b ks =>
        rw [List.getLast?_cons_cons] at h
        exact ih l (by rw [List.getLast?_cons_cons]; exact h)

theorem ends_text (t : List Nat) : Ends (t!"// \"" ++ shown t ++ t!"\"") (leaks t) :=
  ⟨fun l hl => by rw [lines_last _ '"' ⟨by decide, by decide⟩ l hl]; decide, rfl⟩

theorem ends_message {m : Message × Int} (h : (∀ a ∈ m.1.args, TypeName a) ∧ ∀ c ∈ m.1.suffix, c.isAlpha = true) :
    Ends (catalogDefn m.1 m.2) (leaks m.1.text ++ messageCode m) := by
  have h2 : Good (t!"// " ++ reprList m.1.args) [] := by
    obtain ⟨h1, h2⟩ := reprList_one m.1.args
    have := good_comment (t := t!" " ++ reprList m.1.args) (one_append ⟨by decide, by decide⟩ h1) (by
      rw [List.getLast?_append]
      cases h : (reprList m.1.args).getLast? with
      | none => simp
      | some c => rw [h] at h2; exact h2)
    simpa using this
  have h3 : Good (t!"template<> auto catalog<" ++ m.1.toCpp ++ t!">() -> string_id {")
      [t!"template<> auto catalog<" ++ m.1.toCpp ++ t!">() -> string_id {"] :=
    good_code (clean_line (r := t!"template<> auto catalog<" ++ m.1.toCpp ++ t!">() -> string_id ")
      (clean_append (clean_append (by unfold Clean; decide) (clean_message h.1 h.2))
      (by unfold Clean; decide)) (by simp) (by decide : '{' ≠ '\\' ∧ '{' ≠ ' '))
  have := ends_append (ends_text m.1.text)
    (good_append h2 (good_append h3 (good_append (return_line m.2) good_brace))).ends
  simpa [catalogDefn, messageCode] using this

theorem ends_module {m : Module × Int} (h : ∀ c ∈ m.1.suffix, c.isAlpha = true) :
    Ends (moduleDefn m.1 m.2) (leaks m.1.text ++ moduleCode m) := by
  have h3 : Good (t!"template<> auto module<" ++ m.1.toCpp ++ t!">() -> module_id {")
      [t!"template<> auto module<" ++ m.1.toCpp ++ t!">() -> module_id {"] :=
    good_code (clean_line (r := t!"template<> auto module<" ++ m.1.toCpp ++ t!">() -> module_id ")
      (clean_append (clean_append (by unfold Clean; decide) (clean_module h))
      (by unfold Clean; decide)) (by simp) (by decide : '{' ≠ '\\' ∧ '{' ≠ ' '))
  have := ends_append (ends_text m.1.text) (good_append h3 (good_append (return_line m.2) good_brace)).ends
  simpa [moduleDefn, moduleCode] using this

theorem flatMap_length_le {α β : Type} (f g : α → List β) (l : List α) :
    (l.flatMap g).length ≤ (l.flatMap fun a => f a ++ g a).length ∧
      ((l.flatMap fun a => f a ++ g a).length = (l.flatMap g).length → ∀ a ∈ l, f a = []) := by
  induction l with
  | nil => simp
  | cons a l ih =>
    simp only [List.flatMap_cons, List.length_append]
    refine ⟨by omega, fun h b hb => ?_⟩
    rcases List.mem_cons.1 hb with rfl | hb
    · exact List.length_eq_zero_iff.1 (by omega)
    · exact ih.2 (by omega) b hb

/-! ## Properties -/

/-- **C154** exactly, whatever the texts: before each definition stands what is left of the comment with its text. -/
theorem C154_exact (x : Input) (h : AnyTexts x) : code (file x) = wantedWith x := by
  rw [wantedWith, List.append_assoc, List.append_assoc, List.append_assoc, file, file_parts,
    (ends_append (good_disclaimer h.argv h.time).ends (ends_append good_nil.ends (ends_append (good_headers h.headers).ends
    (ends_append good_nil.ends (ends_append good_arguments.ends (ends_append good_catalog.ends (ends_append good_nil.ends
    (ends_append (good_decls h.decls).ends (ends_append good_nil.ends
    (ends_append (ends_join fun m hm => ends_message (h.messages m hm)) (ends_append good_nil.ends
    (ends_append (ends_join fun m hm => ends_module (h.modules m hm)) good_nil.ends)))))))))))).2]
  simp only [List.nil_append, List.append_nil, List.cons_append]

/-- **C154** The file has the definitions and nothing else exactly if nothing is left of any comment. -/
theorem C154_exact_iff (x : Input) (h : AnyTexts x) :
    code (file x) = wanted x ↔ (∀ m ∈ x.messages, leaks m.1.text = []) ∧ ∀ m ∈ x.modules, leaks m.1.text = [] := by
  rw [C154_exact x h]
  constructor
  · intro e
    have e := congrArg List.length e
    simp only [wantedWith, wanted, List.length_append] at e
    have h1 := flatMap_length_le (fun m : Message × Int => leaks m.1.text) messageCode x.messages
    have h2 := flatMap_length_le (fun m : Module × Int => leaks m.1.text) moduleCode x.modules
    exact ⟨h1.2 (by omega), h2.2 (by omega)⟩
  · rintro ⟨h1, h2⟩
    have e1 : x.messages.flatMap (fun m => leaks m.1.text ++ messageCode m) = x.messages.flatMap messageCode := by
      rw [List.flatMap_def, List.flatMap_def]
      exact congrArg _ (List.map_congr_left fun m hm => by rw [h1 m hm]; rfl)
    have e2 : x.modules.flatMap (fun m => leaks m.1.text ++ moduleCode m) = x.modules.flatMap moduleCode := by
      rw [List.flatMap_def, List.flatMap_def]
      exact congrArg _ (List.map_congr_left fun m hm => by rw [h2 m hm]; rfl)
    rw [wantedWith, e1, e2, wanted]

/-- Nothing is left of a comment with a text without line ends; a quote is left of one with a text that ends in a line
end. -/
theorem C154_leaks (t : List Nat) : (OneLine (shown t) → leaks t = []) ∧
    (∀ s : List Nat, OneLine (shown s) → (shown s).getLast? ≠ some '\\' → t = s ++ [10] → leaks t = [t!"\""]) := by
  refine ⟨fun h => (comment_text h).2, fun s hs hl e => ?_⟩
  have hg : Good (t!"// \"" ++ shown s) [] := by
    have := good_comment (t := t!" \"" ++ shown s) (one_append ⟨by decide, by decide⟩ hs) (by
      rw [List.getLast?_append]
      cases h : (shown s).getLast? with
      | none => decide
      | some c => rw [h] at hl; exact hl)
    simpa using this
  have hq : Good t!"\"" [t!"\""] := good_code ⟨⟨by decide, by decide⟩, by decide, by decide, ⟨'"', by simp, by decide⟩⟩
  have := (good_append hg hq).2
  rw [e, leaks, ← List.nil_append [t!"\""], ← this]
  simp [shown]

/-- A text of which code is left, and one with a line end of which nothing is left. -/
example : leaks (t!"a\n#if 0\nb".map Char.toNat) = [t!"#if 0", t!"b\""] ∧ leaks (t!"a\n// b".map Char.toNat) = [] := by
  decide +kernel
example : AnyTexts (exInput [117, 112, 10]) where
  argv := ⟨⟨by decide, by decide⟩, by decide⟩
  time := ⟨⟨by decide, by decide⟩, by decide⟩
  headers := fun h hh => by
    rw [List.mem_singleton.1 hh]
    exact ⟨⟨by decide, by decide⟩, by decide⟩
  decls := fun h hh => by
    rw [List.mem_singleton.1 hh]
    exact ⟨⟨by decide, by decide⟩, by decide, by decide, ⟨'e', by decide, by decide⟩⟩
  messages := fun h hh => by
    rw [List.mem_singleton.1 hh]
    refine ⟨fun a ha => ?_, by decide⟩
    rw [List.mem_singleton.1 ha]
    exact ⟨⟨by decide, by decide⟩, by decide⟩
  modules := fun h hh => by
    rw [List.mem_singleton.1 hh]
    decide

end Verif.Cpp
