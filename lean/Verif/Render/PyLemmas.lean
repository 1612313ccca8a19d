import Verif.Render.PrintLemmas
/-! # What Python prints for a format string -/
namespace Verif.Render
open Verif.Symbols
open Verif.Log (Prim)

theorem py_lit {s t : Text} {os : List PyObj} :
    pyFormat .out (Piece.text (.lit s) ++ t) os = (pyFormat .out t os).map (s ++ ·) := by
  induction s with
  | nil => simp [Piece.text]
  | cons c s ih =>
    rw [Piece.text, List.flatMap_cons, List.append_assoc]
    rw [Piece.text] at ih
    by_cases h1 : c = '{'
    · subst h1
      rw [if_pos (.inl rfl), List.cons_append, List.cons_append, List.nil_append, pyFormat, if_pos rfl, pyFormat, if_pos rfl,
        ih, Option.map_map]
      rfl
    · by_cases h2 : c = '}'
      · subst h2
        rw [if_pos (.inr rfl), List.cons_append, List.cons_append, List.nil_append, pyFormat, if_neg (by decide), if_pos rfl,
          pyFormat, if_pos rfl, ih, Option.map_map]
        rfl
      · rw [if_neg (by simp [h1, h2]), List.cons_append, List.nil_append, pyFormat, if_neg h1, if_neg h2, ih, Option.map_map]
        rfl

theorem py_plain {t : Text} {o : PyObj} {os : List PyObj} :
    pyFormat .out (t!"{}" ++ t) (o :: os) = (pyField o []).bind fun s => (pyFormat .out t os).map (s ++ ·) := by
  rw [show t!"{}" ++ t = '{' :: '}' :: t from rfl, pyFormat, if_pos rfl, pyFormat, if_neg (by decide), if_pos rfl]
  rfl

theorem py_field {g acc t : Text} {o : PyObj} {os : List PyObj} (h1 : '{' ∉ g) (h2 : '}' ∉ g) :
    pyFormat (.field acc) (g ++ '}' :: t) (o :: os) =
      (pyArg (acc.reverse ++ g) o).bind fun s => (pyFormat .out t os).map (s ++ ·) := by
  induction g generalizing acc with
  | nil => rw [List.nil_append, pyFormat, if_pos rfl, List.append_nil]; rfl
  | cons c g ih =>
    have hc1 : ¬ c = '{' := fun e => h1 (e ▸ List.mem_cons_self ..)
    have hc2 : ¬ c = '}' := fun e => h2 (e ▸ List.mem_cons_self ..)
    rw [List.cons_append, pyFormat, if_neg hc2, if_neg hc1,
      ih (fun e => h1 (List.mem_cons_of_mem _ e)) (fun e => h2 (List.mem_cons_of_mem _ e))]
    simp

theorem py_spec {g t : Text} {o : PyObj} {os : List PyObj} (h1 : '{' ∉ g) (h2 : '}' ∉ g) :
    pyFormat .out (t!"{:" ++ g ++ t!"}" ++ t) (o :: os) =
      (pyField o g).bind fun s => (pyFormat .out t os).map (s ++ ·) := by
  rw [show t!"{:" ++ g ++ t!"}" ++ t = '{' :: ':' :: (g ++ '}' :: t) from by simp, pyFormat, if_pos rfl, pyFormat,
    if_neg (by decide), if_neg (by decide), py_field h1 h2]
  rfl

theorem takeWhile_all_stop {p : Char → Bool} {s : Text} {c : Char} (hs : ∀ x ∈ s, p x = true) (hc : p c = false) :
    (s ++ [c]).takeWhile p = s ∧ (s ++ [c]).dropWhile p = [c] := takeWhile_stop hs hc

theorem readSpec_eq {z : Bool} {w : Nat} {c : Char} (hc : c = 'd' ∨ c = 'x' ∨ c = 'X') :
    readSpec ((if z then t!"0" else []) ++ widthText w ++ [c]) = some (z, w, c) := by
  have hcd : isDigit c = false := by rcases hc with rfl | rfl | rfl <;> decide
  have hc0 : c ≠ '0' := by rcases hc with rfl | rfl | rfl <;> decide
  have hw := takeWhile_all_stop (p := isDigit) (s := widthText w) (c := c) (fun x hx => widthText_digit hx) hcd
  have hn : Nat.ofDigitChars 10 (widthText w) 0 = w := by
    rw [widthText]; split
    · next h => rw [h]; rfl
    · exact ofDigits_natText w
  cases z with
  | true =>
    simp only [if_true, List.cons_append, List.nil_append]
    rw [readSpec]
    simp only [List.head?_cons, decide_true, if_true, List.tail_cons]
    rw [hw.1, hw.2]
    simp [hn, hc]
  | false =>
    have hh : (widthText w ++ [c]).head? ≠ some '0' := by
      rw [widthText]
      split
      · simpa using hc0
      · next h =>
        obtain ⟨d, r, h1, h2⟩ := natText_head h
        rw [h1]; simpa using h2
    simp only [Bool.false_eq_true, if_false, List.nil_append]
    rw [readSpec]
    simp only [hh, decide_false, Bool.false_eq_true, if_false]
    rw [hw.1, hw.2]
    simp [hn, hc]

theorem pyField_plain (v : Int) : pyField (.int v) [] = some (intText v) := by
  rw [pyField, show readSpec [] = some (false, 0, 'd') from rfl]
  simp only [Option.map_some]
  rw [show digitsOf 'd' v.natAbs = natText v.natAbs from rfl, intText_padded]

theorem pyField_spec {v : Int} {z : Bool} {w : Nat} {c : Char} (hc : c = 'd' ∨ c = 'x' ∨ c = 'X') :
    pyField (.int v) ((if z then t!"0" else []) ++ widthText w ++ [c]) =
      some (padded (v < 0) (digitsOf c v.natAbs) z w) := by
  rw [pyField, readSpec_eq hc]
  rfl

end Verif.Render
