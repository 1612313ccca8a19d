import Verif.Front.LogProps
/-! # Logs of texts with line breaks -/
namespace Verif.Front
open Spec

variable {S : Type}

/-! ## Specification -/

/-- A text as lines: the first one, and those after line breaks. -/
def splitBreaks : Str → Str × List Str
  | [] => ([], [])
  | a :: s => if a = '\n' then ([], (splitBreaks s).1 :: (splitBreaks s).2) else (a :: (splitBreaks s).1, (splitBreaks s).2)

/-- A line in the form that a text logger writes, with the line break. -/
def Spec.Line.render (x : Line) : Str :=
  List.replicate (8 - (Nat.repr x.time).toList.length) ' ' ++ ((Nat.repr x.time).toList ++ ('u' :: 's' :: ' ' ::
    (x.level ++ (' ' :: '[' :: (x.module ++ (']' :: ':' :: ' ' :: (x.text ++ ['\n'])))))))

/-- The names of levels (none for a level without a name). -/
def levelNames : List Str := [] :: (List.range 8).map fun k => levelName (some k)

/-- Reading a line that has exactly the form that a text logger writes. -/
def readExact (s : Str) : Option Line :=
  (readLine s).bind fun x => if x.render = s ++ ['\n'] ∧ x.level ∈ levelNames then some x else none

/-- Reading lines, where those that do not have the form of a message belong to the text before. -/
def regroup : List Str → List Str × List Line
  | [] => ([], [])
  | l :: ls =>
    match readExact l with
    | some x => ([], { x with text := x.text ++ (regroup ls).1.flatMap ('\n' :: ·) } :: (regroup ls).2)
    | none => (l :: (regroup ls).1, (regroup ls).2)

/-- Reading a log with texts of several lines. -/
def readLong (s : Str) : Option (List Line) :=
  if (cut s).2 = [] ∧ (regroup (cut s).1).1 = [] then some (regroup (cut s).1).2 else none

/-! ## Properties -/

theorem splitBreaks_join (s : Str) : (splitBreaks s).1 ++ (splitBreaks s).2.flatMap ('\n' :: ·) = s := by
  induction s with
  | nil => rfl
  | cons a s ih =>
    rw [splitBreaks]
    split
    · next h => subst h; simpa using ih
    · simpa using ih

theorem splitBreaks_free (s : Str) : '\n' ∉ (splitBreaks s).1 ∧ ∀ l ∈ (splitBreaks s).2, '\n' ∉ l := by
  induction s with
  | nil => simp [splitBreaks]
  | cons a s ih =>
    rw [splitBreaks]
    split
    · next h => simpa using ih
    · next h => exact ⟨by simpa [Ne.symm h] using ih.1, ih.2⟩

theorem render_body (c : Fixed) (m : Said) : (lineOf c m).render = body c m ++ ['\n'] := by
  simp [Spec.Line.render, lineOf, body]

theorem levelNames_iff (l : Str) : l ∈ levelNames ↔ ∃ v, levelName v = l := by
  constructor
  · intro h
    rcases List.mem_cons.mp h with h | h
    · exact ⟨none, h.symm⟩
    · obtain ⟨k, -, hk⟩ := List.mem_map.mp h
      exact ⟨some k, hk⟩
  · rintro ⟨v, rfl⟩
    rcases v with _ | v
    · exact List.mem_cons_self
    · by_cases hv : v < 8
      · exact List.mem_cons_of_mem _ (List.mem_map.mpr ⟨v, List.mem_range.mpr hv, rfl⟩)
      · have : levelName (some v) = [] := by
          rcases v with _ | _ | _ | _ | _ | _ | _ | _ | v <;> first | rfl | omega
        rw [this]
        exact List.mem_cons_self

theorem readExact_body (c : Fixed) (m : Said) (hm : ']' ∉ m.module) : readExact (body c m) = some (lineOf c m) := by
  rw [readExact, readLine_body c m hm, Option.bind_some, if_pos ⟨render_body c m, (levelNames_iff _).mpr ⟨m.level, rfl⟩⟩]

theorem cut_lines (ls : List Str) (hls : ∀ l ∈ ls, '\n' ∉ l) (s : Str) : ∀ l : Str, '\n' ∉ l →
    cut (l ++ ls.flatMap ('\n' :: ·) ++ '\n' :: s) = (l :: ls ++ (cut s).1, (cut s).2) := by
  induction ls with
  | nil => intro l hl; simpa using cut_line l hl s
  | cons k ks ih =>
    intro l hl
    have h := ih (fun x hx => hls x (List.mem_cons_of_mem _ hx)) k (hls k List.mem_cons_self)
    rw [List.flatMap_cons, List.append_assoc, List.append_assoc, List.cons_append,
      cut_line l hl, ← List.append_assoc, h]
    simp

/-- The same, with another text. -/
def withText (c : Fixed) (t : Str) : Fixed := { c with format := fun _ _ => t }

theorem body_split (c : Fixed) (m : Said) (t u : Str) (h : c.format m.fmt m.args = t ++ u) :
    body c m = body (withText c t) m ++ u := by
  simp [body, withText, h]

theorem regroup_rest (ls rest : List Str) (h : ∀ l ∈ ls, readExact l = none) :
    regroup (ls ++ rest) = (ls ++ (regroup rest).1, (regroup rest).2) := by
  induction ls with
  | nil => rfl
  | cons l ls ih =>
    rw [List.cons_append, regroup, h l List.mem_cons_self]
    simp only
    rw [ih fun x hx => h x (List.mem_cons_of_mem _ hx)]
    rfl

/-- **C104** (part) A log of texts with any line breaks can be read back, if no line of a text after a line break has
the form of a message. -/
theorem C104_breaks_partial (c : Fixed) (f : Option Nat) (xs : List Exec) (s s' : Sys S)
    (h : s.run c xs = some s') (ds : List Sink) (hd : s.loggers f = .text ds) (i : Nat)
    (hi : ds[i]? = some (.append []))
    (ht : ∀ m ∈ xs.flatMap (saidTo c f), ']' ∉ m.module ∧ '\n' ∉ m.module ∧
      ∀ l ∈ (splitBreaks (c.format m.fmt m.args)).2, readExact l = none) :
    ∃ ds' t, s'.loggers f = .text ds' ∧ ds'[i]? = some (.append t) ∧
      readLong t = some ((xs.flatMap (saidTo c f)).map (lineOf c)) := by
  obtain ⟨ds', h1, -, h3⟩ := C103_text_partial c f xs s s' h ds hd
  refine ⟨ds', _, h1, h3 i _ hi, ?_⟩
  rw [List.nil_append]
  generalize xs.flatMap (saidTo c f) = ms at ht
  have key : (cut (ms.flatMap (line c))).2 = [] ∧
      regroup (cut (ms.flatMap (line c))).1 = ([], ms.map (lineOf c)) := by
    induction ms with
    | nil => exact ⟨rfl, rfl⟩
    | cons m ms ih =>
      obtain ⟨a1, a2, a3⟩ := ht m List.mem_cons_self
      obtain ⟨i1, i2⟩ := ih fun x hx => ht x (List.mem_cons_of_mem _ hx)
      have hj := splitBreaks_join (c.format m.fmt m.args)
      have hb := splitBreaks_free (c.format m.fmt m.args)
      have hc : cut ((m :: ms).flatMap (line c)) =
          (body (withText c (splitBreaks (c.format m.fmt m.args)).1) m :: (splitBreaks (c.format m.fmt m.args)).2 ++
            (cut (ms.flatMap (line c))).1, (cut (ms.flatMap (line c))).2) := by
        rw [List.flatMap_cons, line_body, body_split c m _ _ hj.symm, List.append_assoc, List.singleton_append]
        exact cut_lines _ hb.2 _ _ (body_break _ m a2 hb.1)
      rw [hc]
      refine ⟨i1, ?_⟩
      rw [List.cons_append, regroup, readExact_body _ m a1]
      simp only
      rw [regroup_rest _ _ a3, i2]
      have hl : ({ lineOf (withText c (splitBreaks (c.format m.fmt m.args)).1) m with
          text := (lineOf (withText c (splitBreaks (c.format m.fmt m.args)).1) m).text ++
            (splitBreaks (c.format m.fmt m.args)).2.flatMap ('\n' :: ·) } : Line) = lineOf c m := by
        simp only [lineOf, withText, hj]
      rw [List.append_nil, hl, List.map_cons]
  rw [readLong, if_pos ⟨key.1, by rw [key.2]⟩, key.2]

/-- **C104** is violated by every other text: if a line after a line break has the form of a message, then the line of
the message is the same as the lines of two messages. -/
theorem C104_violated_every_break (c : Fixed) (m : Said) (l : Str)
    (hs : l ∈ (splitBreaks (c.format m.fmt m.args)).2) (hx : (readExact l).isSome) :
    ∃ (c₁ c₂ : Fixed) (n : Said), line c m = line c₁ m ++ line c₂ n := by
  obtain ⟨ls, ks, hs⟩ := List.append_of_mem hs
  obtain ⟨x, hx⟩ := Option.isSome_iff_exists.mp hx
  have hj := splitBreaks_join (c.format m.fmt m.args)
  rw [hs, List.flatMap_append, List.flatMap_cons, ← List.append_assoc] at hj
  rw [readExact, Option.bind_eq_some_iff] at hx
  obtain ⟨y, -, hy⟩ := hx
  split at hy
  swap
  · cases hy
  next hr =>
  obtain ⟨v, hv⟩ := (levelNames_iff _).mp hr.2
  have hl : l = body (withText c y.text) { m with time := y.time, level := v, module := y.module } := by
    refine List.append_cancel_right (bs := ['\n']) ?_
    rw [← hr.1, ← render_body]
    simp only [Spec.Line.render, lineOf, withText, hv]
  refine ⟨withText c ((splitBreaks (c.format m.fmt m.args)).1 ++ ls.flatMap ('\n' :: ·)),
    withText c (y.text ++ ks.flatMap ('\n' :: ·)), { m with time := y.time, level := v, module := y.module }, ?_⟩
  rw [line_body, body_split c m _ _ hj.symm, line_body, line_body,
    body_split (withText c (y.text ++ ks.flatMap ('\n' :: ·))) _ y.text _ rfl]
  conv_lhs => rw [hl]
  simp [withText, body]

/-- A text with a line break that does no harm, and one that does. -/
example : readLong "      17us INFO [net]: x\n  y = 5\n123456789us WARN [net]: low\n".toList =
      some [⟨17, "INFO".toList, "net".toList, "x\n  y = 5".toList⟩,
        ⟨123456789, "WARN".toList, "net".toList, "low".toList⟩] ∧
    (splitBreaks "x\n  y = 5".toList).2 = ["  y = 5".toList] ∧ readExact "  y = 5".toList = none ∧
    (splitBreaks "a\n       1us FATAL [net]: b".toList).2 = ["       1us FATAL [net]: b".toList] ∧
    (readExact "       1us FATAL [net]: b".toList).isSome := by decide +kernel

end Verif.Front
