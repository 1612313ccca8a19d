import Verif.Extract.Spec
import Mathlib.Tactic.ByContra

/-! # Lemmas on lines -/

namespace Verif.Extract

open Verif.Viz (Str)

theorem break_ne (pat : Str) : ∀ (k : Nat) (s : Str), breakAt pat k s ≠ []
  | _, [] => by simp [breakAt]
  | k + 1, _ :: t => by rw [breakAt]; exact break_ne pat k t
  | 0, c :: t => by
    rw [breakAt]
    split
    · simp
    · cases h : breakAt pat 0 t with
      | nil => exact absurd h (break_ne pat 0 t)
      | cons l ls => simp [consHead]

theorem break_infix (pat : Str) : ∀ (k : Nat) (s : Str), (∀ l ∈ breakAt pat k s, l <:+: s) ∧
    (k = 0 → ∀ h ∈ (breakAt pat k s).head?, h <+: s)
  | _, [] => by simp [breakAt]
  | k + 1, c :: t => by
    rw [breakAt]
    refine ⟨fun l hl => ?_, fun h => absurd h (by omega)⟩
    exact ((break_infix pat k t).1 l hl).trans (List.suffix_cons c t).isInfix
  | 0, c :: t => by
    rw [breakAt]
    split
    · refine ⟨fun l hl => ?_, fun _ h hh => ?_⟩
      · rcases List.mem_cons.1 hl with e | e
        · subst e; exact List.nil_infix
        · exact ((break_infix pat _ t).1 l e).trans (List.suffix_cons c t).isInfix
      · simp only [List.head?_cons, Option.mem_def, Option.some.injEq] at hh
        subst hh; exact List.nil_prefix
    · obtain ⟨h1, h2⟩ := break_infix pat 0 t
      cases h : breakAt pat 0 t with
      | nil => exact absurd h (break_ne pat 0 t)
      | cons l ls =>
        rw [h] at h1 h2
        have hp : c :: l <+: c :: t := List.cons_prefix_cons.2 ⟨rfl, h2 rfl l rfl⟩
        refine ⟨fun x hx => ?_, fun _ x hx => ?_⟩
        · rcases List.mem_cons.1 hx with e | e
          · subst e; exact hp.isInfix
          · exact (h1 x (by simp [e])).trans (List.suffix_cons c t).isInfix
        · simp only [consHead, List.head?_cons, Option.mem_def, Option.some.injEq] at hx
          subst hx; exact hp

/-- Text without backslash is in front of the first line of what follows. -/
theorem break_plain {pat : Str} (hp : pat.head? = some '\\') {y h : Str} {r : List Str} : ∀ {x : Str}, '\\' ∉ x →
    breakAt pat 0 y = h :: r → breakAt pat 0 (x ++ y) = (x ++ h) :: r
  | [], _, hy => hy
  | c :: x, hx, hy => by
    have hc : c ≠ '\\' := fun e => hx (by simp [e])
    have ih := break_plain hp (x := x) (fun m => hx (by simp [m])) hy
    rw [List.cons_append, breakAt, if_neg, ih]
    · rfl
    · cases pat with
      | nil => cases hp
      | cons p ps =>
        simp only [List.head?_cons, Option.some.injEq] at hp
        subst hp
        simp [List.isPrefixOf, Ne.symm hc]

theorem break_skip (pat : Str) (y : Str) : ∀ (ps : Str), breakAt pat ps.length (ps ++ y) = breakAt pat 0 y
  | [] => rfl
  | p :: ps => by rw [List.length_cons, List.cons_append, breakAt, break_skip pat y ps]

/-- A match. -/
theorem break_match {pat : Str} (hp : pat ≠ []) (y : Str) : breakAt pat 0 (pat ++ y) = [] :: breakAt pat 0 y := by
  cases pat with
  | nil => exact absurd rfl hp
  | cons p ps =>
    rw [List.cons_append, breakAt, if_pos, List.length_cons, Nat.add_sub_cancel, break_skip]
    rw [List.isPrefixOf_iff_prefix, ← List.cons_append]
    exact List.prefix_append _ _

/-- Lines that end with the pattern. -/
theorem break_lines {pat : Str} (hp : pat.head? = some '\\') (y : Str) : ∀ {segs : List Str},
    (∀ s ∈ segs, '\\' ∉ s) → breakAt pat 0 (segs.flatMap (· ++ pat) ++ y) = segs ++ breakAt pat 0 y
  | [], _ => rfl
  | s :: segs, h => by
    have ih := break_lines hp y (segs := segs) (fun x hx => h x (by simp [hx]))
    rw [List.flatMap_cons, List.append_assoc, List.append_assoc]
    rw [break_plain hp (h s (by simp)) (break_match (by intro e; rw [e] at hp; cases hp) _), ih]
    simp

/-- The front of a text with a character that the pattern does not have. -/
theorem break_front {pat : Str} {c : Char} (hc : c ∉ pat) {v h : Str} {r : List Str} :
    ∀ (u : Str) (k : Nat), k ≤ u.length → breakAt pat 0 (c :: v) = h :: r →
      ∃ p w, breakAt pat k (u ++ c :: v) = p ++ (w ++ h) :: r
  | [], k, hk, hv => by
    have : k = 0 := by simpa using hk
    subst this
    exact ⟨[], [], by simpa using hv⟩
  | a :: u, k + 1, hk, hv => by
    rw [List.cons_append, breakAt]
    exact break_front hc u k (by simpa using hk) hv
  | a :: u, 0, _, hv => by
    rw [List.cons_append, breakAt]
    split
    · rename_i hm
      rw [List.isPrefixOf_iff_prefix] at hm
      have hl : pat.length ≤ (a :: u).length := by
        by_contra hlt
        obtain ⟨z, hz⟩ := hm
        have h1 : (a :: (u ++ c :: v))[(a :: u).length]? = some c := by
          rw [← List.cons_append, List.getElem?_append_right (by omega)]; simp
        rw [← hz, List.getElem?_append_left (by omega)] at h1
        exact hc (List.mem_of_getElem? h1)
      obtain ⟨p, w, e⟩ := break_front hc u (pat.length - 1) (by simp at hl; omega) hv
      exact ⟨[] :: p, w, by rw [e]; rfl⟩
    · obtain ⟨p, w, e⟩ := break_front hc u 0 (by omega) hv
      rw [e]
      cases p with
      | nil => exact ⟨[], a :: w, rfl⟩
      | cons x p => exact ⟨(a :: x) :: p, w, rfl⟩

/-- `\n` is not changed by the first command. -/
theorem break_other {y h : Str} {r : List Str} (hy : breakAt "\\012".toList 0 y = h :: r) : ∀ {segs : List Str},
    (∀ s ∈ segs, '\\' ∉ s) → breakAt "\\012".toList 0 (segs.flatMap (· ++ "\\n".toList) ++ y) =
      (segs.flatMap (· ++ "\\n".toList) ++ h) :: r
  | [], _ => hy
  | s :: segs, hs => by
    have ih := break_other hy (segs := segs) (fun x hx => hs x (by simp [hx]))
    rw [List.flatMap_cons, List.append_assoc, List.append_assoc, List.append_assoc, List.append_assoc]
    refine break_plain rfl (hs s (by simp)) ?_
    have e : "\\n".toList = ['\\', 'n'] := by decide
    have e0 : "\\012".toList = ['\\', '0', '1', '2'] := by decide
    rw [e, e0] at ih
    rw [e, e0]
    have hn : ∀ t : Str, List.isPrefixOf ['\\', '0', '1', '2'] ('\\' :: 'n' :: t) = false := fun t => by
      simp [List.isPrefixOf]
    have hn' : ∀ t : Str, List.isPrefixOf ['\\', '0', '1', '2'] ('n' :: t) = false := fun t => by
      simp [List.isPrefixOf]
    rw [List.cons_append, List.cons_append, List.nil_append, breakAt, if_neg (by rw [hn]; decide), breakAt,
      if_neg (by rw [hn']; decide), ih]
    rfl

/-! ## Taking the lines out -/

theorem sed_skip : ∀ {q : List Str} (x : List Str), (∀ l ∈ q, ¬ "~~~~END".toList <+: l) →
    sedRange false (q ++ x) = sedRange false x
  | [], _, _ => rfl
  | l :: q, x, h => by
    rw [List.cons_append, sedRange, if_neg, sed_skip x (fun y hy => h y (by simp [hy]))]
    rw [List.isPrefixOf_iff_prefix]
    exact h l (by simp)

theorem sed_take : ∀ {bs : List Str} {s : Str} (x : List Str), (∀ l ∈ bs, ¬ "~~~~START".toList <+: l) →
    "~~~~START".toList <+: s → sedRange true (bs ++ s :: x) = bs ++ [s]
  | [], s, x, _, hs => by
    rw [List.nil_append, sedRange, if_pos (List.isPrefixOf_iff_prefix.2 hs)]; rfl
  | b :: bs, s, x, h, hs => by
    rw [List.cons_append, sedRange, if_neg, sed_take x (fun y hy => h y (by simp [hy])) hs]
    · rfl
    · rw [List.isPrefixOf_iff_prefix]
      exact h b (by simp)

theorem extract_lines {output p bs q : List Str} {e : Str}
    (h : unescape output = p ++ "~~~~START".toList :: (bs ++ ("~~~~END".toList ++ e) :: q))
    (hb : ∀ l ∈ bs, ¬ "~~~~START".toList <+: l) (hq : ∀ l ∈ q, ¬ "~~~~END".toList <+: l) :
    extract output = bs := by
  unfold extract
  have hr : (unescape output).reverse =
      q.reverse ++ ("~~~~END".toList ++ e) :: (bs.reverse ++ "~~~~START".toList :: p.reverse) := by
    rw [h]; simp
  rw [hr, sed_skip _ (fun l hl => hq l (by simpa using hl)), sedRange,
    if_pos (List.isPrefixOf_iff_prefix.2 (List.prefix_append _ _)),
    sed_take _ (fun l hl => hb l (by simpa using hl)) (List.prefix_refl _)]
  simp

end Verif.Extract
