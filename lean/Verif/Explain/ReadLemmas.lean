import Verif.Explain.Spec
import Verif.Match.Lemmas

/-! # Lemmas on reading conditions -/
namespace Verif.Explain
open Verif.Match Spec

/-! ## Parentheses -/

theorem closing_other {a : Char} (h1 : a ≠ '(') (h2 : a ≠ ')') (n : Nat) (s : Str) :
    closing n (a :: s) = (closing n s).map fun p => (a :: p.1, p.2) := by
  cases n <;> simp [closing, h1, h2]

theorem closing_open (n : Nat) (s : Str) :
    closing n ('(' :: s) = (closing (n + 1) s).map fun p => ('(' :: p.1, p.2) := by
  cases n <;> simp [closing]

theorem depth_other {a : Char} (h1 : a ≠ '(') (h2 : a ≠ ')') (n : Nat) (s : Str) :
    depth n (a :: s) = depth n s := by
  cases n <;> simp [depth, h1, h2]

theorem depth_open (n : Nat) (s : Str) : depth n ('(' :: s) = depth (n + 1) s := by
  cases n <;> simp [depth]

theorem closing_append (s : Str) : ∀ j j' k t, depth j s = some j' →
    closing (j + k) (s ++ t) = (closing (j' + k) t).map fun p => (s ++ p.1, p.2) := by
  induction s with
  | nil =>
    intro j j' k t h
    simp only [depth, Option.some.injEq] at h
    subst h
    simp
  | cons a s ih =>
    intro j j' k t h
    by_cases h1 : a = '('
    · subst h1
      rw [depth_open] at h
      rw [List.cons_append, closing_open, show j + k + 1 = (j + 1) + k by omega, ih _ _ _ _ h, Option.map_map]
      rfl
    · by_cases h2 : a = ')'
      · subst h2
        cases j with
        | zero => simp [depth] at h
        | succ j =>
          rw [depth] at h
          rw [List.cons_append, show j + 1 + k = (j + k) + 1 by omega, closing, ih _ _ _ _ h, Option.map_map]
          rfl
      · rw [depth_other h1 h2] at h
        rw [List.cons_append, closing_other h1 h2, ih _ _ _ _ h, Option.map_map]
        rfl

theorem closing_balanced {s : Str} (h : Balanced s) (t : Str) : closing 0 (s ++ ')' :: t) = some (s, t) := by
  rw [closing_append s 0 0 0 _ h]
  simp [closing]

theorem depth_append (s : Str) : ∀ j t, depth j (s ++ t) = (depth j s).bind fun n => depth n t := by
  induction s with
  | nil => intro j t; simp [depth]
  | cons a s ih =>
    intro j t
    rw [List.cons_append]
    by_cases h1 : a = '('
    · subst h1; rw [depth_open, depth_open, ih]
    · by_cases h2 : a = ')'
      · subst h2
        cases j with
        | zero => simp [depth]
        | succ j => simp only [depth, ih]
      · rw [depth_other h1 h2, depth_other h1 h2, ih]

theorem depth_shift (s : Str) : ∀ j j' k, depth j s = some j' → depth (j + k) s = some (j' + k) := by
  induction s with
  | nil => intro j j' k h; simp only [depth, Option.some.injEq] at h ⊢; omega
  | cons a s ih =>
    intro j j' k h
    by_cases h1 : a = '('
    · subst h1
      rw [depth_open] at h ⊢
      rw [show j + k + 1 = (j + 1) + k by omega]; exact ih _ _ _ h
    · by_cases h2 : a = ')'
      · subst h2
        cases j with
        | zero => simp [depth] at h
        | succ j =>
          rw [depth] at h
          rw [show j + 1 + k = (j + k) + 1 by omega, depth]; exact ih _ _ _ h
      · rw [depth_other h1 h2] at h ⊢; exact ih _ _ _ h

theorem balanced_append {s t : Str} (hs : Balanced s) (ht : Balanced t) : Balanced (s ++ t) := by
  rw [Balanced, depth_append, show depth 0 s = some 0 from hs]; exact ht

theorem balanced_paren {s : Str} (hs : Balanced s) : Balanced ("(".toList ++ s ++ ")".toList) := by
  have h := depth_shift s 0 0 1 hs
  show depth 0 ('(' :: (s ++ [')'])) = some 0
  rw [depth_open, depth_append, show depth (0 + 1) s = some (0 + 1) from h]
  rfl

theorem balanced_free {s : Str} (h1 : '(' ∉ s) (h2 : ')' ∉ s) : Balanced s := by
  unfold Balanced
  induction s with
  | nil => rfl
  | cons a s ih =>
    simp only [List.mem_cons, not_or] at h1 h2
    rw [depth_other (Ne.symm h1.1) (Ne.symm h2.1)]
    exact ih h1.2 h2.2

/-! ## Conditions -/

section
variable {α : Type} (text : α → Str)

/-- The condition that was read has the terms of the matcher and means the same. -/
def Good (m : M α) (x : Expr) : Prop :=
  x.terms = (leaves m).map text ∧
    ∀ (τ : Str → Bool) (E : Type) (ev : α → E → Bool) (e : E), (∀ a ∈ leaves m, τ (text a) = ev a e) →
      x.eval τ = eval ev m e

theorem describe_balanced (m : M α) (h : ∀ a ∈ leaves m, PlainTerm (text a)) : Balanced (describe text m) := by
  have hop : ∀ b s, Balanced s → Balanced (operand b s) := by
    intro b s hs
    unfold operand
    split
    · exact hs
    · exact balanced_paren hs
  induction m with
  | always => exact (by decide : Balanced "true".toList)
  | never => exact (by decide : Balanced "false".toList)
  | leaf a => exact (h a (by simp [leaves])).1
  | not m ih =>
    have := balanced_append (show Balanced "not ".toList by decide)
      (balanced_paren (ih (fun a ha => h a (by simpa [leaves] using ha))))
    simpa [describe] using this
  | and l r ihl ihr =>
    exact balanced_append (balanced_append (hop _ _ (ihl fun a ha => h a (by simp [leaves, ha])))
      (by decide)) (hop _ _ (ihr fun a ha => h a (by simp [leaves, ha])))
  | or l r ihl ihr =>
    exact balanced_append (balanced_append (hop _ _ (ihl fun a ha => h a (by simp [leaves, ha])))
      (by decide)) (hop _ _ (ihr fun a ha => h a (by simp [leaves, ha])))

theorem read_term {s : Str} (h : PlainTerm s) (n : Nat) (hn : 0 < n) : readExpr n none s = some (.term s) := by
  obtain ⟨-, h2, h3, h4, h5⟩ := h
  cases n with
  | zero => omega
  | succ n =>
    cases s with
    | nil => simp [readExpr]
    | cons a s =>
      have ha : a ≠ '(' := fun e => h2 (by simp [e])
      rw [readExpr.eq_3 _ _ (by rintro t ht; exact ha (List.cons.inj ht).1), if_neg h3, if_neg h4, if_neg h5]

theorem read_not {s : Str} (hs : Balanced s) (n : Nat) :
    readExpr (n + 1) none ("not (".toList ++ s ++ ")".toList) = (readExpr n none s).map .not := by
  have h : "not (".toList ++ s ++ ")".toList = 'n' :: 'o' :: 't' :: ' ' :: '(' :: (s ++ [')']) := by simp
  have hc := closing_balanced hs []
  rw [h, readExpr.eq_3 _ _ (by intro t ht; simp at ht), if_neg (by simp), if_neg (by simp), if_pos]
  · simp only [List.drop_succ_cons, List.drop_zero, hc, Option.bind_some]
  · constructor
    · simp
    · simp only [List.drop_succ_cons, List.drop_zero, hc]; rfl

theorem read_paren {s : Str} (hs : Balanced s) (n : Nat) (ctx : Option Bool) :
    readExpr (n + 1) ctx ("(".toList ++ s ++ ")".toList) = readExpr n none s := by
  have h : "(".toList ++ s ++ ")".toList = '(' :: (s ++ [')']) := by simp
  rw [h, readExpr.eq_2, closing_balanced hs]
  simp

theorem read_and {s : Str} (hs : Balanced s) (n : Nat) (ctx : Option Bool) (hc : ctx ≠ some false) (r : Str)
    (hr : r.head? = some '(') :
    readExpr (n + 1) ctx ("(".toList ++ s ++ ")".toList ++ " and ".toList ++ r) =
      (readExpr n none s).bind fun x => (readExpr n (some true) r).map (.and x) := by
  obtain ⟨r, rfl⟩ : ∃ r', r = '(' :: r' := by
    cases r with
    | nil => simp at hr
    | cons a r => simp only [List.head?_cons, Option.some.injEq] at hr; exact ⟨r, by rw [hr]⟩
  have h : "(".toList ++ s ++ ")".toList ++ " and ".toList ++ '(' :: r =
      '(' :: (s ++ ')' :: (' ' :: 'a' :: 'n' :: 'd' :: ' ' :: '(' :: r)) := by simp
  rw [h, readExpr.eq_2, closing_balanced hs, Option.bind_some]
  dsimp only
  rw [if_neg (by simp), if_pos ⟨by simp, hc⟩]
  rfl

theorem read_or {s : Str} (hs : Balanced s) (n : Nat) (ctx : Option Bool) (hc : ctx ≠ some true) (r : Str)
    (hr : r.head? = some '(') :
    readExpr (n + 1) ctx ("(".toList ++ s ++ ")".toList ++ " or ".toList ++ r) =
      (readExpr n none s).bind fun x => (readExpr n (some false) r).map (.or x) := by
  obtain ⟨r, rfl⟩ : ∃ r', r = '(' :: r' := by
    cases r with
    | nil => simp at hr
    | cons a r => simp only [List.head?_cons, Option.some.injEq] at hr; exact ⟨r, by rw [hr]⟩
  have h : "(".toList ++ s ++ ")".toList ++ " or ".toList ++ '(' :: r =
      '(' :: (s ++ ')' :: (' ' :: 'o' :: 'r' :: ' ' :: '(' :: r)) := by simp
  rw [h, readExpr.eq_2, closing_balanced hs, Option.bind_some]
  dsimp only
  rw [if_neg (by simp), if_neg (by simp), if_pos ⟨by simp, hc⟩]
  rfl

theorem head_operand_and (m : M α) : (operand (isAnd m) (describe text m)).head? = some '(' := by
  induction m with
  | and l r ihl _ =>
    simp only [isAnd, operand, if_true, describe] at *
    rw [List.append_assoc, List.head?_append, ihl]
    rfl
  | _ => rfl

theorem head_operand_or (m : M α) : (operand (isOr m) (describe text m)).head? = some '(' := by
  induction m with
  | or l r ihl _ =>
    simp only [isOr, operand, if_true, describe] at *
    rw [List.append_assoc, List.head?_append, ihl]
    rfl
  | _ => rfl

theorem good_and {l r : M α} {x y : Expr} (hx : Good text l x) (hy : Good text r y) :
    Good text (.and l r) (.and x y) := by
  refine ⟨by simp only [Expr.terms, leaves, hx.1, hy.1, List.map_append], ?_⟩
  intro τ E ev e h
  simp only [leaves, List.mem_append] at h
  simp only [Expr.eval, Match.eval, hx.2 τ E ev e (fun a ha => h a (.inl ha)),
    hy.2 τ E ev e (fun a ha => h a (.inr ha))]

theorem good_or {l r : M α} {x y : Expr} (hx : Good text l x) (hy : Good text r y) :
    Good text (.or l r) (.or x y) := by
  refine ⟨by simp only [Expr.terms, leaves, hx.1, hy.1, List.map_append], ?_⟩
  intro τ E ev e h
  simp only [leaves, List.mem_append] at h
  simp only [Expr.eval, Match.eval, hx.2 τ E ev e (fun a ha => h a (.inl ha)),
    hy.2 τ E ev e (fun a ha => h a (.inr ha))]

theorem good_and_assoc {l r m : M α} {x : Expr} (h : Good text (.and l (.and r m)) x) :
    Good text (.and (.and l r) m) x := by
  refine ⟨by simpa [leaves] using h.1, ?_⟩
  intro τ E ev e ha
  rw [h.2 τ E ev e (by simpa [leaves, or_assoc] using ha)]
  simp only [Match.eval, Bool.and_assoc]

theorem good_or_assoc {l r m : M α} {x : Expr} (h : Good text (.or l (.or r m)) x) :
    Good text (.or (.or l r) m) x := by
  refine ⟨by simpa [leaves] using h.1, ?_⟩
  intro τ E ev e ha
  rw [h.2 τ E ev e (by simpa [leaves, or_assoc] using ha)]
  simp only [Match.eval, Bool.or_assoc]

/-- A text is read as a condition that means what the matcher means. -/
def Reads (m : M α) (ok : Option Bool → Prop) (s : Str) : Prop :=
  ∃ x, Good text m x ∧ ∀ n ctx, ok ctx → s.length < n → readExpr n ctx s = some x

theorem reads_all (m : M α) (h : ∀ a ∈ leaves m, PlainTerm (text a)) :
    Reads text m (· = none) (describe text m) ∧
    (Reads text m (· ≠ some false) (operand (isAnd m) (describe text m)) ∧
      ∀ r m', r.head? = some '(' → Reads text m' (· = some true) r →
        Reads text (.and m m') (· ≠ some false)
          (operand (isAnd m) (describe text m) ++ " and ".toList ++ r)) ∧
    (Reads text m (· ≠ some true) (operand (isOr m) (describe text m)) ∧
      ∀ r m', r.head? = some '(' → Reads text m' (· = some false) r →
        Reads text (.or m m') (· ≠ some true)
          (operand (isOr m) (describe text m) ++ " or ".toList ++ r)) := by
  have weak : ∀ {m : M α} {p q : Option Bool → Prop} {s : Str}, (∀ c, q c → p c) → Reads text m p s →
      Reads text m q s := by
    rintro m p q s hpq ⟨x, h1, h2⟩
    exact ⟨x, h1, fun n ctx hc hn => h2 n ctx (hpq _ hc) hn⟩
  -- an operand in parentheses
  have hand : ∀ m : M α, (∀ a ∈ leaves m, PlainTerm (text a)) → isAnd m = false →
      Reads text m (· = none) (describe text m) →
      Reads text m (· ≠ some false) (operand (isAnd m) (describe text m)) ∧
      ∀ r m', r.head? = some '(' → Reads text m' (· = some true) r →
        Reads text (.and m m') (· ≠ some false)
          (operand (isAnd m) (describe text m) ++ " and ".toList ++ r) := by
    rintro m hm hb ⟨x, hx, hr⟩
    have hbal := describe_balanced text m hm
    rw [hb]
    simp only [operand, Bool.false_eq_true, if_false]
    refine ⟨⟨x, hx, ?_⟩, ?_⟩
    · intro n ctx _ hn
      cases n with
      | zero => omega
      | succ n =>
        rw [read_paren hbal]
        refine hr n none rfl ?_
        simp at hn; omega
    · rintro r m' hh ⟨y, hy, hry⟩
      refine ⟨.and x y, good_and text hx hy, ?_⟩
      intro n ctx hc hn
      cases n with
      | zero => omega
      | succ n =>
        simp at hn
        rw [read_and hbal n ctx hc r hh, hr n none rfl (by omega), Option.bind_some,
          hry n (some true) rfl (by omega), Option.map_some]
  have hor : ∀ m : M α, (∀ a ∈ leaves m, PlainTerm (text a)) → isOr m = false →
      Reads text m (· = none) (describe text m) →
      Reads text m (· ≠ some true) (operand (isOr m) (describe text m)) ∧
      ∀ r m', r.head? = some '(' → Reads text m' (· = some false) r →
        Reads text (.or m m') (· ≠ some true)
          (operand (isOr m) (describe text m) ++ " or ".toList ++ r) := by
    rintro m hm hb ⟨x, hx, hr⟩
    have hbal := describe_balanced text m hm
    rw [hb]
    simp only [operand, Bool.false_eq_true, if_false]
    refine ⟨⟨x, hx, ?_⟩, ?_⟩
    · intro n ctx _ hn
      cases n with
      | zero => omega
      | succ n =>
        rw [read_paren hbal]
        refine hr n none rfl ?_
        simp at hn; omega
    · rintro r m' hh ⟨y, hy, hry⟩
      refine ⟨.or x y, good_or text hx hy, ?_⟩
      intro n ctx hc hn
      cases n with
      | zero => omega
      | succ n =>
        simp at hn
        rw [read_or hbal n ctx hc r hh, hr n none rfl (by omega), Option.bind_some,
          hry n (some false) rfl (by omega), Option.map_some]
  induction m with
  | always =>
    suffices hr : Reads text _ (· = none) _ from ⟨hr, hand _ h rfl hr, hor _ h rfl hr⟩
    refine ⟨.const true, ⟨rfl, fun _ _ _ _ _ => rfl⟩, ?_⟩
    rintro n ctx rfl hn
    cases n with
    | zero => omega
    | succ n => rfl
  | never =>
    suffices hr : Reads text _ (· = none) _ from ⟨hr, hand _ h rfl hr, hor _ h rfl hr⟩
    refine ⟨.const false, ⟨rfl, fun _ _ _ _ _ => rfl⟩, ?_⟩
    rintro n ctx rfl hn
    cases n with
    | zero => omega
    | succ n => rfl
  | leaf a =>
    suffices hr : Reads text _ (· = none) _ from ⟨hr, hand _ h rfl hr, hor _ h rfl hr⟩
    refine ⟨.term (text a), ⟨rfl, fun τ _ ev e ht => ht a (by simp [leaves])⟩, ?_⟩
    rintro n ctx rfl hn
    exact read_term (h a (by simp [leaves])) n (by omega)
  | not m ih =>
    have hm : ∀ a ∈ leaves m, PlainTerm (text a) := fun a ha => h a (by simpa [leaves] using ha)
    obtain ⟨x, hx, hr⟩ := (ih hm).1
    suffices hr : Reads text _ (· = none) _ from ⟨hr, hand _ h rfl hr, hor _ h rfl hr⟩
    refine ⟨.not x, ⟨hx.1, fun τ E ev e ht => ?_⟩, ?_⟩
    · simp only [Expr.eval, Match.eval, hx.2 τ E ev e (by simpa [leaves] using ht)]
    · rintro n ctx rfl hn
      cases n with
      | zero => omega
      | succ n =>
        simp only [describe] at hn ⊢
        rw [read_not (describe_balanced text m hm), hr n none rfl (by simp at hn; omega)]
        rfl
  | and l r ihl ihr =>
    have ihl := ihl (fun a ha => h a (by simp [leaves, ha]))
    have ihr := ihr (fun a ha => h a (by simp [leaves, ha]))
    have h1 : Reads text (.and l r) (· ≠ some false) (describe text (.and l r)) :=
      ihl.2.1.2 _ r (head_operand_and text r) (weak (by rintro c rfl; simp) ihr.2.1.1)
    have h0 : Reads text (.and l r) (· = none) (describe text (.and l r)) := weak (by rintro c rfl; simp) h1
    refine ⟨h0, ⟨h1, ?_⟩, hor _ h rfl h0⟩
    intro s m' hs hr
    have h2 := ihr.2.1.2 s m' hs hr
    have h3 := ihl.2.1.2 _ (.and r m') (by
      rw [List.append_assoc, List.head?_append, head_operand_and text r]; rfl)
      (weak (q := (· = some true)) (by rintro c rfl; simp) h2)
    obtain ⟨x, hx, hx2⟩ := h3
    refine ⟨x, good_and_assoc text hx, ?_⟩
    simpa only [isAnd, operand, if_true, describe, List.append_assoc] using hx2
  | or l r ihl ihr =>
    have ihl := ihl (fun a ha => h a (by simp [leaves, ha]))
    have ihr := ihr (fun a ha => h a (by simp [leaves, ha]))
    have h1 : Reads text (.or l r) (· ≠ some true) (describe text (.or l r)) :=
      ihl.2.2.2 _ r (head_operand_or text r) (weak (by rintro c rfl; simp) ihr.2.2.1)
    have h0 : Reads text (.or l r) (· = none) (describe text (.or l r)) := weak (by rintro c rfl; simp) h1
    refine ⟨h0, hand _ h rfl h0, ⟨h1, ?_⟩⟩
    intro s m' hs hr
    have h2 := ihr.2.2.2 s m' hs hr
    have h3 := ihl.2.2.2 _ (.or r m') (by
      rw [List.append_assoc, List.head?_append, head_operand_or text r]; rfl)
      (weak (q := (· = some false)) (by rintro c rfl; simp) h2)
    obtain ⟨x, hx, hx2⟩ := h3
    refine ⟨x, good_or_assoc text hx, ?_⟩
    simpa only [isOr, operand, if_true, describe, List.append_assoc] using hx2

/-- The description of a matcher is read as a condition that means what the matcher means. -/
theorem readText_describe (m : M α) (h : ∀ a ∈ leaves m, PlainTerm (text a)) :
    ∃ x, readText (describe text m) = some x ∧ Good text m x := by
  obtain ⟨x, hx, hr⟩ := (reads_all text m h).1
  exact ⟨x, hr _ none rfl (by omega), hx⟩

/-- `describe_match` is `describe` with the texts that the terms give on the data. -/
theorem describeMatch_eq (f : α → Option Str) (m : M α) (t : Str) (h : describeMatch f m = some t) :
    (∀ a ∈ leaves m, ∃ s, f a = some s) ∧ t = describe (fun a => (f a).getD []) m := by
  induction m generalizing t with
  | always => simp_all [describeMatch, describe, leaves]
  | never => simp_all [describeMatch, describe, leaves]
  | leaf a =>
    simp only [describeMatch] at h
    exact ⟨by simp [leaves, h], by simp [describe, h]⟩
  | not m ih =>
    simp only [describeMatch, Option.map_eq_some_iff] at h
    obtain ⟨s, h1, rfl⟩ := h
    obtain ⟨h2, rfl⟩ := ih s h1
    exact ⟨h2, rfl⟩
  | and l r ihl ihr =>
    simp only [describeMatch, Option.bind_eq_some_iff, Option.map_eq_some_iff] at h
    obtain ⟨a, h1, b, h2, rfl⟩ := h
    obtain ⟨h3, rfl⟩ := ihl a h1
    obtain ⟨h4, rfl⟩ := ihr b h2
    refine ⟨?_, rfl⟩
    intro c hc
    rcases List.mem_append.1 hc with hc | hc
    · exact h3 c hc
    · exact h4 c hc
  | or l r ihl ihr =>
    simp only [describeMatch, Option.bind_eq_some_iff, Option.map_eq_some_iff] at h
    obtain ⟨a, h1, b, h2, rfl⟩ := h
    obtain ⟨h3, rfl⟩ := ihl a h1
    obtain ⟨h4, rfl⟩ := ihr b h2
    refine ⟨?_, rfl⟩
    intro c hc
    rcases List.mem_append.1 hc with hc | hc
    · exact h3 c hc
    · exact h4 c hc

end

end Verif.Explain
