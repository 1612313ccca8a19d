import Verif.Json.Spec
import Verif.Render.TypeLemmas
import Verif.Symbols.TypeLemmas
/-! # Lemmas about dictionaries and files -/
namespace Verif.Json
open Verif.Symbols

section
variable {κ α : Type} [DecidableEq κ]

theorem dget_cons (e : κ × α) (d : List (κ × α)) (k : κ) :
    dget (e :: d) k = if e.1 = k then some e.2 else dget d k := by
  rw [dget, List.find?_cons]
  split
  · next h => simp only [decide_eq_true_eq] at h; rw [if_pos h]; rfl
  · next h => simp only [decide_eq_false_iff_not] at h; rw [if_neg h]; rfl

theorem dget_nil (k : κ) : dget ([] : List (κ × α)) k = none := rfl

theorem dget_dset (d : List (κ × α)) (k k' : κ) (v : α) :
    dget (dset k v d) k' = if k = k' then some v else dget d k' := by
  induction d with
  | nil => rw [dset, dget_cons]
  | cons e d ih =>
    rw [dset]
    split
    · next h =>
      subst h
      simp only [dget_cons]
      split <;> rfl
    · next h =>
      rw [dget_cons, dget_cons, ih]
      split
      · next h1 =>
        rw [if_neg]
        rintro rfl
        exact h h1
      · rfl

theorem dget_dupdate_not {es : List (κ × α)} {k : κ} (h : ∀ e ∈ es, e.1 ≠ k) (d : List (κ × α)) :
    dget (dupdate d es) k = dget d k := by
  induction es generalizing d with
  | nil => rfl
  | cons e es ih =>
    rw [dupdate, ih fun x hx => h x (List.mem_cons_of_mem _ hx), dget_dset, if_neg (h e (List.mem_cons_self ..))]

theorem dget_dupdate_some (d : List (κ × α)) {es : List (κ × α)} {k : κ} (h : ∃ e ∈ es, e.1 = k) :
    ∃ v, (k, v) ∈ es ∧ dget (dupdate d es) k = some v := by
  induction es generalizing d with
  | nil => obtain ⟨e, he, _⟩ := h; cases he
  | cons e es ih =>
    rw [dupdate]
    by_cases h1 : ∃ e ∈ es, e.1 = k
    · obtain ⟨v, hv, hg⟩ := ih (dset e.1 e.2 d) h1
      exact ⟨v, List.mem_cons_of_mem _ hv, hg⟩
    · rw [dget_dupdate_not fun x hx hk => h1 ⟨x, hx, hk⟩, dget_dset]
      obtain ⟨x, hx, hk⟩ := h
      rcases List.mem_cons.1 hx with rfl | hx
      · subst hk
        exact ⟨x.2, List.mem_cons_self .., by rw [if_pos rfl]⟩
      · exact absurd ⟨x, hx, hk⟩ h1

theorem mem_of_dget {d : List (κ × α)} {k : κ} {v : α} (h : dget d k = some v) : (k, v) ∈ d := by
  induction d with
  | nil => cases h
  | cons e d ih =>
    rw [dget_cons] at h
    split at h
    · next hk => subst hk; cases h; exact List.mem_cons_self ..
    · exact List.mem_cons_of_mem _ (ih h)

theorem nodup_mem {d : List (κ × α)} (h : (d.map Prod.fst).Nodup) {k : κ} {v w : α} (h1 : (k, v) ∈ d) (h2 : (k, w) ∈ d) :
    v = w := by
  induction d with
  | nil => cases h1
  | cons e d ih =>
    rw [List.map_cons, List.nodup_cons] at h
    rcases List.mem_cons.1 h1 with rfl | h1 <;> rcases List.mem_cons.1 h2 with h2 | h2
    · cases h2; rfl
    · exact absurd (List.mem_map.2 ⟨_, h2, rfl⟩) h.1
    · subst h2; exact absurd (List.mem_map.2 ⟨(k, v), ‹(k, v) ∈ d›, rfl⟩) h.1
    · exact ih h.2 h1 h2

theorem dget_of_mem {d : List (κ × α)} (h : (d.map Prod.fst).Nodup) {k : κ} {v : α} (hm : (k, v) ∈ d) :
    dget d k = some v := by
  induction d with
  | nil => cases hm
  | cons e d ih =>
    rw [List.map_cons, List.nodup_cons] at h
    rw [dget_cons]
    rcases List.mem_cons.1 hm with rfl | hm
    · rw [if_pos rfl]
    · rw [if_neg, ih h.2 hm]
      rintro rfl
      exact h.1 (List.mem_map.2 ⟨_, hm, rfl⟩)

theorem dget_none {d : List (κ × α)} {k : κ} (h : dget d k = none) : ∀ e ∈ d, e.1 ≠ k := by
  induction d with
  | nil => intro e he; cases he
  | cons x d ih =>
    rw [dget_cons] at h
    split at h
    · cases h
    · next hk =>
      intro e he
      rcases List.mem_cons.1 he with rfl | he
      · exact hk
      · exact ih h e he

theorem dset_not {d : List (κ × α)} {k : κ} (h : ∀ e ∈ d, e.1 ≠ k) (v : α) : dset k v d = d ++ [(k, v)] := by
  induction d with
  | nil => rfl
  | cons e d ih =>
    rw [dset, if_neg (h e (List.mem_cons_self ..)), ih fun x hx => h x (List.mem_cons_of_mem _ hx)]
    rfl

theorem dupdate_nodup (d es : List (κ × α)) (h : ((d ++ es).map Prod.fst).Nodup) : dupdate d es = d ++ es := by
  induction es generalizing d with
  | nil => rw [dupdate, List.append_nil]
  | cons e es ih =>
    have hd : ∀ x ∈ d, x.1 ≠ e.1 := by
      intro x hx he
      rw [List.map_append, List.nodup_append] at h
      exact h.2.2 _ (List.mem_map_of_mem hx) _ (List.mem_map_of_mem (List.mem_cons_self ..)) he
    rw [dupdate, dset_not hd, ih, List.append_assoc]
    · rfl
    · rw [List.append_assoc]; exact h

theorem keys_dset (k : κ) (v : α) (d : List (κ × α)) :
    (dset k v d).map Prod.fst = if k ∈ d.map Prod.fst then d.map Prod.fst else d.map Prod.fst ++ [k] := by
  induction d with
  | nil => simp [dset]
  | cons e d ih =>
    rw [dset]
    split
    · next h => subst h; simp
    · next h =>
      rw [List.map_cons, ih, List.map_cons]
      by_cases hk : k ∈ d.map Prod.fst
      · rw [if_pos hk, if_pos (List.mem_cons_of_mem _ hk)]
      · rw [if_neg hk, if_neg]
        · rfl
        · intro hm
          rcases List.mem_cons.1 hm with e' | e'
          · exact h e'.symm
          · exact hk e'

theorem nodup_dset {d : List (κ × α)} (h : (d.map Prod.fst).Nodup) (k : κ) (v : α) :
    ((dset k v d).map Prod.fst).Nodup := by
  rw [keys_dset]
  split
  · exact h
  · next hk =>
    rw [List.nodup_append]
    exact ⟨h, by simp, fun a ha b hb => by simp only [List.mem_singleton] at hb; subst hb; rintro rfl; exact hk ha⟩

theorem nodup_dupdate {d : List (κ × α)} (h : (d.map Prod.fst).Nodup) (es : List (κ × α)) :
    ((dupdate d es).map Prod.fst).Nodup := by
  induction es generalizing d with
  | nil => exact h
  | cons e es ih => exact ih (nodup_dset h e.1 e.2)

theorem mem_dset {d : List (κ × α)} {k : κ} {v : α} {e : κ × α} (h : e ∈ dset k v d) : e ∈ d ∨ e = (k, v) := by
  induction d with
  | nil => simp only [dset, List.mem_singleton] at h; exact .inr h
  | cons x d ih =>
    rw [dset] at h
    split at h
    · rcases List.mem_cons.1 h with rfl | h
      · exact .inr rfl
      · exact .inl (List.mem_cons_of_mem _ h)
    · rcases List.mem_cons.1 h with rfl | h
      · exact .inl (List.mem_cons_self ..)
      · rcases ih h with h | h
        · exact .inl (List.mem_cons_of_mem _ h)
        · exact .inr h

theorem mem_dupdate {d es : List (κ × α)} {e : κ × α} (h : e ∈ dupdate d es) : e ∈ d ∨ e ∈ es := by
  induction es generalizing d with
  | nil => exact .inl h
  | cons x es ih =>
    rcases ih h with h | h
    · rcases mem_dset h with h | h
      · exact .inl h
      · exact .inr (h ▸ List.mem_cons_self ..)
    · exact .inr (List.mem_cons_of_mem _ h)
end

/-! ## Files -/

theorem files_eq (l : List J) : J.file.files l = l.map J.file := by
  induction l with
  | nil => rfl
  | cons j l ih => rw [J.file.files, ih]; rfl

theorem fileFields_eq (l : List (PyKey × J)) : J.file.fileFields l = l.map fun e => (PyKey.str e.1.text, e.2.file) := by
  induction l with
  | nil => rfl
  | cons e l ih => rw [J.file.fileFields, ih]; rfl

mutual
theorem file_loaded : ∀ (j : J), j.Loaded → j.file = j
  | .str _, _ => rfl
  | .int _, _ => rfl
  | .atom _, _ => rfl
  | .arr l, h => by rw [J.file, files_loaded l (by simpa only [J.Loaded] using h)]
  | .obj l, h => by
    rw [J.Loaded] at h
    rw [J.file, fields_loaded l h.2, dupdate_nodup [] l (by simpa using h.1)]
    rfl
theorem files_loaded : ∀ (l : List J), LoadedL l → J.file.files l = l
  | [], _ => rfl
  | j :: js, h => by
    rw [LoadedL] at h
    rw [J.file.files, file_loaded j h.1, files_loaded js h.2]
theorem fields_loaded : ∀ (l : List (PyKey × J)), LoadedO l → J.file.fileFields l = l
  | [], _ => rfl
  | (k, j) :: l, h => by
    rw [LoadedO] at h
    obtain ⟨⟨t, rfl⟩, hj, hl⟩ := h
    rw [J.file.fileFields, file_loaded j hj, fields_loaded l hl]
    rfl
end

theorem loadedL_iff (l : List J) : LoadedL l ↔ ∀ j ∈ l, j.Loaded := by
  induction l with
  | nil => simp [LoadedL]
  | cons j l ih => simp [LoadedL, ih]

theorem loadedO_iff (l : List (PyKey × J)) : LoadedO l ↔ ∀ e ∈ l, (∃ t, e.1 = .str t) ∧ e.2.Loaded := by
  induction l with
  | nil => simp [LoadedO]
  | cons e l ih => simp [LoadedO, ih, and_assoc]

/-! ## Entries -/

theorem code_back (t : Text) : (code t).map Char.ofNat = t := by
  rw [code, List.map_map]
  conv => rhs; rw [← List.map_id t]
  apply List.map_congr_left
  intro c _
  exact Char.ofNat_toNat c

theorem NamedArg.loaded (a : NamedArg) : a.toJson.Loaded := by
  rw [NamedArg.toJson]
  split <;> simp [J.Loaded, LoadedO]

theorem Tag.loaded (a : Tag) : a.toJson.Loaded := by
  rw [Tag.toJson]
  simp [J.Loaded, LoadedO]

theorem Message.loaded (m : Message) : m.toJson.Loaded := by
  have h1 : LoadedL (m.args.map J.str) := by
    rw [loadedL_iff]; intro j hj; obtain ⟨s, _, rfl⟩ := List.mem_map.1 hj; rw [J.Loaded]; trivial
  have h2 : LoadedL (m.named.map NamedArg.toJson) := by
    rw [loadedL_iff]; intro j hj; obtain ⟨s, _, rfl⟩ := List.mem_map.1 hj; exact s.loaded
  have h3 : LoadedL (m.tags.map Tag.toJson) := by
    rw [loadedL_iff]; intro j hj; obtain ⟨s, _, rfl⟩ := List.mem_map.1 hj; exact s.loaded
  rw [Message.toJson]
  simp [J.Loaded, LoadedO, h1, h2, h3]

theorem Module.loaded (m : Module) : m.toJson.Loaded := by
  rw [Module.toJson]
  simp [J.Loaded, LoadedO]

theorem loc_match (a b : Nat) :
    reMatch [lit t!"[", digits, lit t!":", digits, lit t!"]"] (t!"[" ++ natText a ++ t!":" ++ natText b ++ t!"]") =
      some [natText a, natText b] := by
  rw [reMatch]
  simp only [List.append_assoc]
  rw [partsWays_lit, digits_one, partsWays_lit, digits_one, show partsWays [lit t!"]"] t!"]" = [([], [])] from rfl]
  · rfl
  · intro c r e; cases e; rfl
  · intro c r h; exact lit_no (digit_ne h (by decide))
  · intro c r e; cases e; rfl
  · intro c r h; exact lit_no (digit_ne h (by decide))

theorem intText_nat {n : Int} (h : 0 ≤ n) : intText n = natText n.toNat := by rw [intText, if_neg (by omega)]

theorem intOf_natText (n : Nat) : intOf (natText n) = some (n : Int) := by
  have := intOf_dec (n : Int)
  rwa [dec_eq, intText_nat (by omega), Int.toNat_natCast] at this

theorem NamedArg.round {a : NamedArg} (h : a.Ok) : NamedArg.ofJson a.toJson = some a := by
  obtain ⟨n, f, l⟩ := a
  rcases h with ⟨h1, h2⟩ | h
  · simp only at h1 h2
    have hg : ∀ s : Str, J.get (.obj [(.str t!"loc", .str s), (.str t!"name", .str n)]) t!"ref" = none := fun _ => rfl
    have hl : ∀ s : Str, J.get (.obj [(.str t!"loc", .str s), (.str t!"name", .str n)]) t!"loc" = some (.str s) := fun _ => rfl
    have hn : ∀ s : Str, J.get (.obj [(.str t!"loc", .str s), (.str t!"name", .str n)]) t!"name" = some (.str n) := fun _ => rfl
    rw [NamedArg.toJson, if_neg (by simp only; omega), NamedArg.ofJson, hg]
    simp only [hl, hn, Option.bind_some, J.str?]
    rw [code_back, intText_nat h1, intText_nat (Int.le_trans h1 h2), loc_match]
    simp only [intOf_natText, Option.bind_some, Option.map_some]
    rw [Int.toNat_of_nonneg h1, Int.toNat_of_nonneg (Int.le_trans h1 h2)]
  · simp only at h
    subst h
    rw [NamedArg.toJson, if_pos (by simp only; omega)]
    rfl

theorem Tag.round (t : Tag) : Tag.ofJson t.toJson = some t := rfl

theorem mapM_id {α β : Type} {f : α → β} {g : β → Option α} {l : List α} (h : ∀ x ∈ l, g (f x) = some x) :
    (l.map f).mapM g = some l := by
  have := mapM_map (g := g) (h := fun x => x) (f := f) (l := l) h
  rwa [List.map_id'] at this

theorem Message.round {m : Message} (h : m.Ok) : Message.ofJson m.toJson = some m := by
  have h1 : (m.args.map J.str).mapM J.str? = some m.args := mapM_id fun _ _ => rfl
  have h2 : (m.named.map NamedArg.toJson).mapM NamedArg.ofJson = some m.named := mapM_id fun a ha => NamedArg.round (h a ha)
  have h3 : (m.tags.map Tag.toJson).mapM Tag.ofJson = some m.tags := mapM_id fun t _ => t.round
  have g1 : m.toJson.get t!"msg" = some (.str m.text) := rfl
  have g2 : m.toJson.get t!"arg_types" = some (.arr (m.args.map J.str)) := rfl
  have g3 : m.toJson.get t!"id" = some (.int m.id) := rfl
  have g4 : m.toJson.get t!"args" = some (.arr (m.named.map NamedArg.toJson)) := rfl
  have g5 : m.toJson.get t!"tags" = some (.arr (m.tags.map Tag.toJson)) := rfl
  rw [Message.ofJson]
  simp only [g1, g2, g3, J.listOr, g4, g5, Option.bind_some, J.str?, J.arr?, J.int?, h1, h2, h3, Option.map_some]

theorem Module.round (m : Module) : Module.ofJson m.toJson = some m := rfl

end Verif.Json
