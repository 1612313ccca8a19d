import Verif.Front.RunLemmas

/-! # Helpers about reading lines -/
namespace Verif.Front
open Spec

theorem digits_isDigit {n : Nat} {a : Char} (h : a ∈ (Nat.repr n).toList) : a.isDigit = true := by
  rw [Nat.toList_repr] at h
  exact Nat.isDigit_of_mem_toDigits (by decide) (by decide) h

theorem digits_ne {n : Nat} {b : Char} (hb : b.isDigit = false) : b ∉ (Nat.repr n).toList := fun h => by
  rw [digits_isDigit h] at hb; cases hb

theorem digits_cons (n : Nat) : ∃ a r, (Nat.repr n).toList = a :: r := by
  rw [Nat.toList_repr]
  exact List.exists_cons_of_ne_nil Nat.toDigits_ne_nil

theorem digits_read (n : Nat) : Nat.ofDigitChars 10 (Nat.repr n).toList 0 = n := by
  rw [Nat.toList_repr, Nat.ofDigitChars_ten_toDigits]

theorem takeWhile_stop {p : Char → Bool} (a : Str) (b : Char) (r : Str) (ha : ∀ x ∈ a, p x = true)
    (hb : p b = false) : (a ++ b :: r).takeWhile p = a := by
  induction a with
  | nil => rw [List.nil_append, List.takeWhile_cons, hb]; rfl
  | cons x a ih =>
    rw [List.cons_append, List.takeWhile_cons, ha x List.mem_cons_self, if_pos rfl,
      ih fun y hy => ha y (List.mem_cons_of_mem _ hy)]

theorem dropWhile_spaces (n : Nat) (a : Char) (r : Str) (ha : a ≠ ' ') :
    (List.replicate n ' ' ++ a :: r).dropWhile (· = ' ') = a :: r := by
  induction n with
  | zero => simp [List.dropWhile_cons, ha]
  | succ n ih => rw [List.replicate_succ, List.cons_append, List.dropWhile_cons]; simpa using ih

theorem levelName_chars : ∀ l : Option Nat, ∀ a ∈ levelName l, a ≠ ' ' ∧ a ≠ '\n'
  | none => by simp [levelName]
  | some 0 | some 1 | some 2 | some 3 | some 4 | some 5 | some 6 | some 7 => by decide
  | some (n + 8) => by simp [levelName]

/-- A line without its line break. -/
def body (c : Fixed) (m : Said) : Str :=
  List.replicate (8 - (Nat.repr m.time).toList.length) ' ' ++ ((Nat.repr m.time).toList ++ ('u' :: 's' :: ' ' ::
    (levelName m.level ++ (' ' :: '[' :: (m.module ++ (']' :: ':' :: ' ' :: c.format m.fmt m.args))))))

theorem line_body (c : Fixed) (m : Said) : line c m = body c m ++ ['\n'] := by
  simp only [line, body, List.append_assoc, List.cons_append]
  rfl

theorem drop_left (a b : Str) (n : Nat) : (a ++ b).drop (a.length + n) = b.drop n := by
  rw [List.drop_append]; simp

theorem readLine_body (c : Fixed) (m : Said) (hm : ']' ∉ m.module) : readLine (body c m) = some (lineOf c m) := by
  obtain ⟨a, r, hd⟩ := digits_cons m.time
  have ha : a ≠ ' ' := by
    rintro rfl
    exact digits_ne (n := m.time) (b := ' ') (by decide) (by rw [hd]; exact List.mem_cons_self)
  have h1 : (body c m).dropWhile (· = ' ') = (Nat.repr m.time).toList ++ ('u' :: 's' :: ' ' ::
      (levelName m.level ++ (' ' :: '[' :: (m.module ++ (']' :: ':' :: ' ' :: c.format m.fmt m.args))))) := by
    rw [body, hd, List.cons_append]
    exact dropWhile_spaces _ a _ ha
  have h2 := takeWhile_stop (p := (· ≠ 'u')) (Nat.repr m.time).toList 'u' ('s' :: ' ' ::
      (levelName m.level ++ (' ' :: '[' :: (m.module ++ (']' :: ':' :: ' ' :: c.format m.fmt m.args)))))
      (fun x hx => by
        simp only [decide_not, Bool.not_eq_true', decide_eq_false_iff_not]
        rintro rfl
        exact digits_ne (by decide) hx) (by simp)
  have h3 := takeWhile_stop (p := (· ≠ ' ')) (levelName m.level) ' '
      ('[' :: (m.module ++ (']' :: ':' :: ' ' :: c.format m.fmt m.args)))
      (fun x hx => by simpa using (levelName_chars m.level x hx).1) (by simp)
  have h4 := takeWhile_stop (p := (· ≠ ']')) m.module ']' (':' :: ' ' :: c.format m.fmt m.args)
      (fun x hx => by
        simp only [decide_not, Bool.not_eq_true', decide_eq_false_iff_not]
        rintro rfl
        exact hm hx) (by simp)
  rw [readLine]
  rw [h1, h2, drop_left]
  simp only [List.drop_succ_cons, List.drop_zero]
  rw [h3, drop_left]
  simp only [List.drop_succ_cons, List.drop_zero]
  rw [h4, List.drop_left, digits_read]
  rfl

theorem cut_line (l : Str) (hl : '\n' ∉ l) (s : Str) : cut (l ++ '\n' :: s) = (l :: (cut s).1, (cut s).2) := by
  induction l with
  | nil => rw [List.nil_append, cut]
  | cons a l ih =>
    have ha : a ≠ '\n' := fun e => hl (by rw [e]; exact List.mem_cons_self)
    rw [List.cons_append, cut]
    · rw [ih fun h => hl (List.mem_cons_of_mem _ h)]
    · exact fun e => ha e

theorem body_break (c : Fixed) (m : Said) (h1 : '\n' ∉ m.module) (h2 : '\n' ∉ c.format m.fmt m.args) :
    '\n' ∉ body c m := by
  intro h
  simp only [body, List.mem_append, List.mem_cons, List.mem_replicate] at h
  rcases h with ⟨-, h⟩ | h | h | h | h | h | h | h | h | h | h | h | h
  · exact absurd h (by decide)
  · exact digits_ne (by decide) h
  · exact absurd h (by decide)
  · exact absurd h (by decide)
  · exact absurd h (by decide)
  · exact (levelName_chars _ _ h).2 rfl
  · exact absurd h (by decide)
  · exact absurd h (by decide)
  · exact h1 h
  · exact absurd h (by decide)
  · exact absurd h (by decide)
  · exact absurd h (by decide)
  · exact h2 h

theorem readLog_lines (c : Fixed) (ms : List Said)
    (h : ∀ m ∈ ms, ']' ∉ m.module ∧ '\n' ∉ m.module ∧ '\n' ∉ c.format m.fmt m.args) :
    readLog (ms.flatMap (line c)) = some (ms.map (lineOf c)) := by
  have key : cut (ms.flatMap (line c)) = (ms.map (body c), []) := by
    induction ms with
    | nil => rfl
    | cons m ms ih =>
      obtain ⟨-, h2, h3⟩ := h m List.mem_cons_self
      rw [List.flatMap_cons, line_body, List.append_assoc, List.singleton_append,
        cut_line _ (body_break c m h2 h3), ih fun x hx => h x (List.mem_cons_of_mem _ hx)]
      rfl
  rw [readLog, key, if_pos rfl]
  clear key
  induction ms with
  | nil => rfl
  | cons m ms ih =>
    rw [List.map_cons, List.mapM_cons, readLine_body c m (h m List.mem_cons_self).1]
    simp only [bind, Option.bind_some, ih fun x hx => h x (List.mem_cons_of_mem _ hx)]
    rfl

end Verif.Front
