import Verif.Render.PrintLemmas
/-! # Lemmas about enumerators in texts -/
namespace Verif.Render
open Verif.Symbols

theorem ctAt_ne {c : Char} {t : Text} (h : c ≠ '(') : ctAt (c :: t) = none := by
  unfold ctAt
  split
  · next e => simp at e; exact absurd e.1 h
  · rfl

theorem ctAt_nil : ctAt [] = none := rfl

theorem search_skip {s t : Text} (h : '(' ∉ s) : searchCt (s ++ t) = searchCt t := by
  induction s with
  | nil => rfl
  | cons c s ih =>
    rw [List.cons_append, searchCt, ctAt_ne fun e => h (e ▸ List.mem_cons_self ..)]
    exact ih fun e => h (List.mem_cons_of_mem _ e)

theorem sub_skip {r s t : Text} (h : '(' ∉ s) : subCt r 0 (s ++ t) = s ++ subCt r 0 t := by
  induction s with
  | nil => rfl
  | cons c s ih =>
    rw [List.cons_append, subCt, ctAt_ne fun e => h (e ▸ List.mem_cons_self ..)]
    simp only [List.cons_append]
    rw [ih fun e => h (List.mem_cons_of_mem _ e)]

theorem sub_drop (r : Text) (s t : Text) : subCt r s.length (s ++ t) = subCt r 0 t := by
  induction s with
  | nil => rfl
  | cons c s ih => rw [List.cons_append, List.length_cons, subCt]; exact ih

theorem word_iff (c : Char) : isWord c = true ↔ WordChar c := by
  simp [isWord, Char.isAlphanum, WordChar, or_assoc]

def ApartW (t : Text) : Prop := ∀ c r, t = c :: r → isWord c = false

theorem Apart.word {t : Text} (h : Apart t) : ApartW t := by
  intro c r e
  have := h c r e
  rw [← word_iff] at this
  simpa using this

def CtOkW : List CtPiece → Prop
  | [] => True
  | .lit s :: ps => '(' ∉ s ∧ CtOkW ps
  | .ct e _ :: ps => e ≠ [] ∧ (∀ c ∈ e, isWord c = true) ∧ ApartW (ctText ps) ∧ CtOkW ps

theorem CtOk.word : ∀ {ps : List CtPiece}, CtOk ps → CtOkW ps
  | [], _ => trivial
  | .lit _ :: _, h => ⟨h.1, CtOk.word h.2⟩
  | .ct _ _ :: _, h => ⟨h.1, fun c hc => (word_iff c).2 (h.2.1 c hc), h.2.2.1.word, CtOk.word h.2.2.2⟩

theorem digit_word {c : Char} (h : isDigit c = true) : isWord c = true := by
  have : c.isDigit = true := h
  simp [isWord, Char.isAlphanum, this]

theorem takeWhile_apart {p : Char → Bool} {s t : Text} (hs : ∀ x ∈ s, p x = true) (ht : ∀ c r, t = c :: r → p c = false) :
    (s ++ t).takeWhile p = s ∧ (s ++ t).dropWhile p = t := by
  cases t with
  | nil =>
    simp only [List.append_nil]
    have h1 := List.takeWhile_append_of_pos (l₂ := []) hs
    have h2 := List.dropWhile_append_of_pos (l₂ := []) hs
    simp only [List.append_nil] at h1 h2
    exact ⟨by simpa using h1, by simpa using h2⟩
  | cons c t => exact takeWhile_stop hs (ht c t rfl)

theorem ctAt_ct {e : Text} {v : Nat} {t : Text} (he : e ≠ []) (hw : ∀ c ∈ e, isWord c = true) (ht : ApartW t) :
    ctAt (t!"(" ++ e ++ t!")" ++ natText v ++ t) = some (e, natText v, t) := by
  have h1 := takeWhile_stop (p := isWord) (s := e) (c := ')') (t := natText v ++ t) hw (by decide)
  have h2 := takeWhile_apart (p := isDigit) (s := natText v) (t := t) (fun x hx => natText_digit hx) (by
    intro c r hc
    cases hd : isDigit c with
    | false => rfl
    | true => exact absurd (digit_word hd) (by simp [ht c r hc]))
  rw [show t!"(" ++ e ++ t!")" ++ natText v ++ t = '(' :: (e ++ ')' :: (natText v ++ t)) from by simp, ctAt]
  simp only [h1.1, h1.2, h2.1, h2.2]
  have h3 : (t.head?.map isWord).getD false = false := by
    cases t with
    | nil => rfl
    | cons c r => simpa using ht c r rfl
  have h4 : natText v ≠ [] := natText_ne v
  rw [if_neg]
  simp [he, h3, h4]

theorem ctAt_end {w t : Text} (hw : ∀ c ∈ w, isWord c = true) (ht : NoDigit t) : ctAt (t!"(" ++ w ++ t!")" ++ t) = none := by
  have h1 := takeWhile_stop (p := isWord) (s := w) (c := ')') (t := t) hw (by decide)
  have h2 := takeWhile_apart (p := isDigit) (s := []) (t := t) (by simp) ht
  rw [List.nil_append] at h2
  rw [show t!"(" ++ w ++ t!")" ++ t = '(' :: (w ++ ')' :: t) from by simp, ctAt]
  simp only [h1.1, h1.2, h2.1]
  simp

theorem search_ct {e : Text} {v : Nat} {t : Text} (he : e ≠ []) (hw : ∀ c ∈ e, isWord c = true) (ht : ApartW t) :
    searchCt (t!"(" ++ e ++ t!")" ++ natText v ++ t) = some (e, natText v) := by
  have := ctAt_ct (v := v) he hw ht
  rw [show t!"(" ++ e ++ t!")" ++ natText v ++ t = '(' :: (e ++ t!")" ++ natText v ++ t) from by simp] at this ⊢
  rw [searchCt, this]

theorem sub_ct {r e : Text} {v : Nat} {t : Text} (he : e ≠ []) (hw : ∀ c ∈ e, isWord c = true) (ht : ApartW t) :
    subCt r 0 (t!"(" ++ e ++ t!")" ++ natText v ++ t) = r ++ subCt r 0 t := by
  have := ctAt_ct (v := v) he hw ht
  rw [show t!"(" ++ e ++ t!")" ++ natText v ++ t = '(' :: ((e ++ t!")" ++ natText v) ++ t) from by simp] at this ⊢
  rw [subCt, this]
  simp only
  rw [show ('(' :: (e ++ t!")" ++ natText v ++ t)).length - t.length - 1 = (e ++ t!")" ++ natText v).length from by
    simp only [List.length_cons, List.length_append]; omega, sub_drop]

/-! ## Pieces -/

theorem ctText_lit (s : Text) (ps : List CtPiece) : ctText (.lit s :: ps) = s ++ ctText ps := by
  rw [ctText, List.flatMap_cons]; rfl

theorem ctText_ct (e : Text) (v : Nat) (ps : List CtPiece) :
    ctText (.ct e v :: ps) = t!"(" ++ e ++ t!")" ++ natText v ++ ctText ps := by
  rw [ctText, List.flatMap_cons]; rfl

theorem ctShown_lit (f : Text → Nat → Text) (s : Text) (ps : List CtPiece) :
    ctShown f (.lit s :: ps) = s ++ ctShown f ps := by
  rw [ctShown, List.flatMap_cons]; rfl

theorem ctShown_ct (f : Text → Nat → Text) (e : Text) (v : Nat) (ps : List CtPiece) :
    ctShown f (.ct e v :: ps) = f e v ++ ctShown f ps := by
  rw [ctShown, List.flatMap_cons]; rfl

theorem sub_pieces {ps : List CtPiece} (h : CtOkW ps) (r : Text) :
    subCt r 0 (ctText ps) = ctShown (fun _ _ => r) ps := by
  induction ps with
  | nil => rfl
  | cons p ps ih =>
    cases p with
    | lit s => rw [ctText_lit, sub_skip h.1, ih h.2, ctShown_lit]
    | ct e v => rw [ctText_ct, sub_ct h.1 h.2.1 h.2.2.1, ih h.2.2.2, ctShown_ct]

theorem search_pieces {ps : List CtPiece} (h : CtOkW ps) :
    searchCt (ctText ps) = (firstCt ps).map fun x => (x.1, natText x.2) := by
  induction ps with
  | nil => rfl
  | cons p ps ih =>
    cases p with
    | lit s => rw [ctText_lit, search_skip h.1, ih h.2]; rfl
    | ct e v => rw [ctText_ct, search_ct h.1 h.2.1 h.2.2.1]; rfl

/-- A name in place of an enumerator does not make a new one. -/
def Inert (r : Text) : Prop := ∀ t, NoDigit t → searchCt (r ++ t) = searchCt t

theorem inert_plain {r : Text} (h : '(' ∉ r) : Inert r := fun _ _ => search_skip h

theorem search_step {t : Text} (h : ctAt t = none) : searchCt t = searchCt t.tail := by
  cases t with
  | nil => rfl
  | cons c t => rw [searchCt, h]; rfl

theorem inert_cast {e w : Text} (he : ∀ c ∈ e, isWord c = true) (hw : ∀ c ∈ w, isWord c = true) :
    Inert (t!"static_cast<" ++ e ++ t!">(" ++ w ++ t!")") := by
  intro t ht
  have he' : '(' ∉ e := fun m => by have := he _ m; revert this; decide
  have hw' : '(' ∉ w := fun m => by have := hw _ m; revert this; decide
  rw [show t!"static_cast<" ++ e ++ t!">(" ++ w ++ t!")" ++ t =
    (t!"static_cast<" ++ e ++ t!">") ++ (t!"(" ++ w ++ t!")" ++ t) from by simp]
  rw [search_skip (by simp [he']), search_step (ctAt_end hw ht)]
  rw [show (t!"(" ++ w ++ t!")" ++ t).tail = (w ++ t!")") ++ t from by simp]
  exact search_skip (by simp [hw'])

theorem ApartW.noDigit {t : Text} (h : ApartW t) : NoDigit t := by
  intro c r e
  cases hd : isDigit c with
  | false => rfl
  | true => exact absurd (digit_word hd) (by simp [h c r e])

theorem shown_noDigit {r : Text} {ps : List CtPiece} (hr : r ≠ [] ∧ NoDigit r) (h : ApartW (ctText ps)) :
    NoDigit (ctShown (fun _ _ => r) ps) := by
  induction ps with
  | nil => intro c t e; cases e
  | cons p ps ih =>
    cases p with
    | lit s =>
      rw [ctText_lit] at h
      rw [ctShown_lit]
      cases s with
      | nil => exact ih h
      | cons c s => exact ApartW.noDigit fun d t e => h d (s ++ ctText ps) (by cases e; rfl)
    | ct e v =>
      rw [ctShown_ct]
      obtain ⟨hr1, hr2⟩ := hr
      cases r with
      | nil => exact absurd rfl hr1
      | cons c r => intro d t e; cases e; exact hr2 c r rfl

theorem search_shown {r : Text} {ps : List CtPiece} (h : CtOkW ps) (hr : r ≠ [] ∧ NoDigit r) (hi : Inert r) :
    searchCt (ctShown (fun _ _ => r) ps) = none := by
  induction ps with
  | nil => rfl
  | cons p ps ih =>
    cases p with
    | lit s => rw [ctShown_lit, search_skip h.1, ih h.2]
    | ct e v => rw [ctShown_ct, hi _ (shown_noDigit hr h.2.2.1), ih h.2.2.2]

theorem lookup_named {db : Enums} (h : Names db) (e v : Text) : enumLookup db e v ≠ [] ∧ NoDigit (enumLookup db e v) := by
  rw [enumLookup]
  cases hd : db e v with
  | none => exact ⟨by simp, by intro c r e; cases e; rfl⟩
  | some n => exact ⟨(h e v n hd).1, (h e v n hd).2.1⟩

theorem lookup_inert {db : Enums} (h : Names db) {e v : Text} (he : ∀ c ∈ e, isWord c = true)
    (hv : ∀ c ∈ v, isDigit c = true) : Inert (enumLookup db e v) := by
  rw [enumLookup]
  cases hd : db e v with
  | none => exact inert_cast he fun c hc => digit_word (hv c hc)
  | some n => exact inert_plain (h e v n hd).2.2.1

theorem first_word {ps : List CtPiece} (h : CtOkW ps) {x : Text × Nat} (hx : firstCt ps = some x) :
    ∀ c ∈ x.1, isWord c = true := by
  induction ps with
  | nil => cases hx
  | cons p ps ih =>
    cases p with
    | lit s => exact ih h.2 hx
    | ct e v => cases hx; exact h.2.1

/-- Every enumerator gets the name of the first. -/
theorem convert_pieces {db : Enums} (hdb : Names db) {ps : List CtPiece} (h : CtOkW ps) {n : Nat} (hn : 2 ≤ n) :
    convertCt db n (ctText ps) = some (match firstCt ps with
      | none => ctText ps
      | some x => ctShown (fun _ _ => enumLookup db x.1 (natText x.2)) ps) := by
  obtain ⟨n, rfl⟩ : ∃ m, n = m + 2 := ⟨n - 2, by omega⟩
  rw [convertCt, search_pieces h]
  cases hf : firstCt ps with
  | none => rfl
  | some x =>
    simp only [Option.map_some]
    rw [sub_pieces h, convertCt, search_shown h (lookup_named hdb ..)
      (lookup_inert hdb (first_word h hf) fun c hc => natText_digit hc)]

/-! ## The loop ends -/

/-- How often `)` stands before a digit. -/
def closers : Text → Nat
  | [] => 0
  | c :: t => (if c = ')' ∧ (t.head?.map isDigit).getD false = true then 1 else 0) + closers t

theorem closers_le (t : Text) : closers t ≤ t.length := by
  induction t with
  | nil => exact Nat.le_refl _
  | cons c t ih => rw [closers, List.length_cons]; split <;> omega

theorem closers_plain {s t : Text} (h : ')' ∉ s) : closers (s ++ t) = closers t := by
  induction s with
  | nil => rfl
  | cons c s ih =>
    rw [List.cons_append, closers, if_neg, ih fun e => h (List.mem_cons_of_mem _ e), Nat.zero_add]
    rintro ⟨rfl, _⟩
    exact h (List.mem_cons_self ..)

theorem closers_append_le (s t : Text) : closers t ≤ closers (s ++ t) := by
  induction s with
  | nil => exact Nat.le_refl _
  | cons c s ih => rw [List.cons_append, closers]; omega

theorem closers_close {t : Text} (h : NoDigit t) : closers (')' :: t) = closers t := by
  rw [closers, if_neg, Nat.zero_add]
  rintro ⟨_, h1⟩
  cases t with
  | nil => cases h1
  | cons c t => simp [h c t rfl] at h1

theorem lookup_closers {db : Enums} (h : Names db) {e v t : Text} (he : ∀ c ∈ e, isWord c = true)
    (hv : ∀ c ∈ v, isDigit c = true) (ht : NoDigit t) : closers (enumLookup db e v ++ t) = closers t := by
  rw [enumLookup]
  cases hd : db e v with
  | none =>
    have he' : ')' ∉ e := fun m => by have := he _ m; revert this; decide
    have hv' : ')' ∉ v := fun m => by have := hv _ m; revert this; decide
    rw [Option.getD_none, show t!"static_cast<" ++ e ++ t!">(" ++ v ++ t!")" ++ t =
      (t!"static_cast<" ++ e ++ t!">(" ++ v) ++ (')' :: t) from by simp, closers_plain (by simp [he', hv']),
      closers_close ht]
  | some n => exact closers_plain (h e v n hd).2.2.2

theorem ctAt_some {t e v a : Text} (h : ctAt t = some (e, v, a)) :
    t = t!"(" ++ e ++ t!")" ++ v ++ a ∧ (∀ c ∈ e, isWord c = true) ∧ v ≠ [] ∧ (∀ c ∈ v, isDigit c = true) ∧ ApartW a := by
  unfold ctAt at h
  split at h
  · next r =>
    simp only at h
    split at h
    · next s hs =>
      split at h
      · cases h
      · next hc =>
        cases h
        simp only [Bool.or_eq_true, not_or, Bool.not_eq_true] at hc
        refine ⟨?_, fun c hc => mem_takeWhile_imp' hc, by simpa using hc.1.2, fun c hc => mem_takeWhile_imp' hc, ?_⟩
        · have h1 := List.takeWhile_append_dropWhile (p := isWord) (l := r)
          have h2 := List.takeWhile_append_dropWhile (p := isDigit) (l := s)
          conv => lhs; rw [← h1, hs, ← h2]
          simp
        · intro c t e
          rw [e] at hc
          simpa using hc.2
    · cases h
  · cases h

theorem sub_head {r t : Text} (hr : r ≠ [] ∧ NoDigit r) (h : NoDigit t) : NoDigit (subCt r 0 t) := by
  cases t with
  | nil => exact h
  | cons c t =>
    rw [subCt]
    split
    · obtain ⟨hr1, hr2⟩ := hr
      cases r with
      | nil => exact absurd rfl hr1
      | cons d r => intro x y e; cases e; exact hr2 d r rfl
    · intro x y e; cases e; exact h c t rfl

theorem sub_closers {r : Text} (hr : r ≠ [] ∧ NoDigit r) (hc : ∀ t, NoDigit t → closers (r ++ t) = closers t) (t : Text) :
    closers (subCt r 0 t) ≤ closers t ∧ (searchCt t ≠ none → closers (subCt r 0 t) < closers t) := by
  induction hn : t.length using Nat.strongRecOn generalizing t with
  | _ n ih =>
    cases t with
    | nil => exact ⟨Nat.le_refl _, fun h => absurd rfl h⟩
    | cons c t =>
      rw [subCt, searchCt]
      cases hx : ctAt (c :: t) with
      | none =>
        simp only
        obtain ⟨h1, h2⟩ := ih t.length (by rw [← hn]; simp) t rfl
        have h3 : (if c = ')' ∧ ((subCt r 0 t).head?.map isDigit).getD false = true then 1 else 0) ≤
            (if c = ')' ∧ (t.head?.map isDigit).getD false = true then 1 else 0) := by
          by_cases hd : (t.head?.map isDigit).getD false = true
          · simp only [hd]
            split <;> split <;> simp_all
          · have hnd : NoDigit t := by
              intro x y e
              rw [e] at hd
              simpa using hd
            have hnd' := sub_head hr hnd
            rw [if_neg]
            · exact Nat.zero_le _
            · rintro ⟨_, h4⟩
              cases hs : subCt r 0 t with
              | nil => rw [hs] at h4; cases h4
              | cons x y => rw [hs] at h4; simp [hnd' x y hs] at h4
        rw [closers, closers]
        exact ⟨by omega, fun h => by have := h2 h; omega⟩
      | some x =>
        obtain ⟨e, v, a⟩ := x
        simp only
        obtain ⟨h1, h2, h3, h4, h5⟩ := ctAt_some hx
        have hlt : a.length < n := by rw [← hn, h1]; simp; omega
        obtain ⟨h6, _⟩ := ih a.length hlt a rfl
        have h7 : t = (e ++ t!")" ++ v) ++ a := by simp at h1; simp [h1.2]
        have h8 : (c :: t).length - a.length - 1 = (e ++ t!")" ++ v).length := by
          rw [h7]; simp only [List.length_cons, List.length_append]; omega
        rw [h8]
        conv => lhs; rw [h7, sub_drop]
        conv => rhs; rw [h7, sub_drop]
        rw [hc _ (sub_head hr h5.noDigit)]
        have h9 : closers a < closers (c :: (e ++ t!")" ++ v ++ a)) := by
          have : c :: (e ++ t!")" ++ v ++ a) = (c :: e) ++ (')' :: (v ++ a)) := by simp
          rw [this]
          refine Nat.lt_of_lt_of_le ?_ (closers_append_le _ _)
          rw [closers, if_pos]
          · have := closers_append_le v a; omega
          · refine ⟨rfl, ?_⟩
            cases v with
            | nil => exact absurd rfl h3
            | cons d v => simpa using h4 d (List.mem_cons_self ..)
        exact ⟨by omega, fun _ => by omega⟩

theorem search_some {t e v : Text} (h : searchCt t = some (e, v)) :
    (∀ c ∈ e, isWord c = true) ∧ (∀ c ∈ v, isDigit c = true) := by
  induction t with
  | nil => cases h
  | cons c t ih =>
    rw [searchCt] at h
    split at h
    · next e' v' a hx =>
      cases h
      obtain ⟨_, h2, _, h4, _⟩ := ctAt_some hx
      exact ⟨h2, h4⟩
    · exact ih h

theorem convert_ends {db : Enums} (hdb : Names db) (n : Nat) (t : Text) (h : closers t < n) :
    ∃ x, convertCt db n t = some x ∧ searchCt x = none := by
  induction n generalizing t with
  | zero => cases h
  | succ n ih =>
    rw [convertCt]
    cases hs : searchCt t with
    | none => exact ⟨t, rfl, hs⟩
    | some x =>
      obtain ⟨e, v⟩ := x
      simp only
      obtain ⟨h1, h2⟩ := search_some hs
      have := (sub_closers (lookup_named hdb e v) (fun t ht => lookup_closers hdb h1 h2 ht) t).2 (by simp [hs])
      exact ih _ (by omega)

end Verif.Render
