import Verif.Flow.Spec
import Mathlib.Data.List.Perm.Basic
import Mathlib.Data.List.Nodup
import Mathlib.Tactic.Tauto

/-! # Lemmas about the expression language -/
namespace Verif.Flow
open Spec

/-! ## Conditions -/

/-- A leaf with further predicates. -/
def Leaf.mapCond (c : List Nat) (l : Leaf) : Leaf :=
  if l.kind = .action ∧ l.starred = true then { l with cond := l.cond ++ c } else l

/-- The total form of `Sub.conditional`. -/
def Sub.mapCond (c : List Nat) : Sub → Sub
  | .leaf l => .leaf (l.mapCond c)
  | .par s l r => .par s (l.mapCond c) (r.mapCond c)
  | .seq s ec l r => .seq s (ec ++ c) (l.mapCond c) (r.mapCond c)

theorem Leaf.mapCond_nil (l : Leaf) : l.mapCond [] = l := by
  unfold Leaf.mapCond
  split <;> simp

theorem Leaf.mapCond_mapCond (c d : List Nat) (l : Leaf) :
    (l.mapCond c).mapCond d = l.mapCond (c ++ d) := by
  unfold Leaf.mapCond
  by_cases h : l.kind = .action ∧ l.starred = true
  · simp [h]
  · simp [h]

theorem Sub.mapCond_nil (s : Sub) : s.mapCond [] = s := by
  induction s with
  | leaf l => simp [Sub.mapCond, Leaf.mapCond_nil]
  | par s l r ihl ihr => simp [Sub.mapCond, ihl, ihr]
  | seq s c l r ihl ihr => simp [Sub.mapCond, ihl, ihr]

theorem Sub.mapCond_mapCond (c d : List Nat) (s : Sub) :
    (s.mapCond c).mapCond d = s.mapCond (c ++ d) := by
  induction s with
  | leaf l => simp [Sub.mapCond, Leaf.mapCond_mapCond]
  | par s l r ihl ihr => simp [Sub.mapCond, ihl, ihr]
  | seq s c l r ihl ihr => simp [Sub.mapCond, ihl, ihr]

theorem Sub.conditional_eq {c : List Nat} {s s' : Sub} (h : s.conditional c = some s') :
    s' = s.mapCond c := by
  induction s generalizing s' with
  | leaf l =>
    simp only [Sub.conditional, Leaf.conditional, Option.map_eq_some_iff] at h
    obtain ⟨l', hl, rfl⟩ := h
    split at hl
    · rename_i hk
      simp only [Option.some.injEq] at hl
      subst hl
      simp only [Sub.mapCond, Leaf.mapCond, hk, true_and, condAnd]
    · cases hl
  | par s l r ihl ihr =>
    simp only [Sub.conditional, Option.bind_eq_bind, Option.bind_eq_some_iff] at h
    obtain ⟨l', hl, r', hr, h⟩ := h
    cases h
    rw [ihl hl, ihr hr, Sub.mapCond]
  | seq s ec l r ihl ihr =>
    simp only [Sub.conditional, Option.bind_eq_bind, Option.bind_eq_some_iff] at h
    obtain ⟨l', hl, r', hr, h⟩ := h
    cases h
    rw [ihl hl, ihr hr, Sub.mapCond, condAnd]

theorem applyWhens_eq {ws : List (List Nat)} {s s' : Sub} (h : applyWhens ws s = some s') :
    s' = s.mapCond ws.flatten := by
  induction ws generalizing s with
  | nil =>
    cases h
    simp [Sub.mapCond_nil]
  | cons c cs ih =>
    simp only [applyWhens, Option.bind_eq_bind, Option.bind_eq_some_iff] at h
    obtain ⟨s1, h1, h⟩ := h
    rw [ih h, Sub.conditional_eq h1, Sub.mapCond_mapCond, List.flatten_cons]

theorem Frag.eval_eq {f : Frag} {s : Sub} (h : f.eval = some s) :
    ∃ s0, f.expr.eval = some s0 ∧ s = s0.mapCond f.whens.flatten := by
  simp only [Frag.eval, Option.bind_eq_bind, Option.bind_eq_some_iff] at h
  obtain ⟨s0, h0, h⟩ := h
  exact ⟨s0, h0, applyWhens_eq h⟩

/-! ## Names -/

theorem Leaf.ty_name (l : Leaf) : l.ty.name = l.name := by
  unfold Leaf.ty
  split <;> rfl

theorem Leaf.ty_ty (l : Leaf) : l.ty.ty = l.ty := by
  obtain ⟨k, n, s, c, f⟩ := l
  cases k <;> rfl

theorem Leaf.mapCond_name (c : List Nat) (l : Leaf) : (l.mapCond c).name = l.name := by
  unfold Leaf.mapCond
  split <;> rfl

theorem Sub.mentioned_names_mapCond (c : List Nat) (s : Sub) :
    (s.mapCond c).mentioned.map (·.name) = s.mentioned.map (·.name) := by
  induction s with
  | leaf l => simp [Sub.mapCond, Sub.mentioned, Leaf.ty_name, Leaf.mapCond_name]
  | par s l r ihl ihr => simp [Sub.mapCond, Sub.mentioned, ihl, ihr]
  | seq s c l r ihl ihr => simp [Sub.mapCond, Sub.mentioned, ihl, ihr]

theorem Sub.initials_names_mapCond (c : List Nat) (s : Sub) :
    (s.mapCond c).initials.map (·.name) = s.initials.map (·.name) := by
  induction s with
  | leaf l => simp [Sub.mapCond, Sub.initials, Leaf.ty_name, Leaf.mapCond_name]
  | par s l r ihl ihr => simp [Sub.mapCond, Sub.initials, ihl, ihr]
  | seq s c l r ihl ihr => simp [Sub.mapCond, Sub.initials, ihl]

theorem Sub.finals_names_mapCond (c : List Nat) (s : Sub) :
    (s.mapCond c).finals.map (·.name) = s.finals.map (·.name) := by
  induction s with
  | leaf l => simp [Sub.mapCond, Sub.finals, Leaf.ty_name, Leaf.mapCond_name]
  | par s l r ihl ihr => simp [Sub.mapCond, Sub.finals, ihl, ihr]
  | seq s c l r ihl ihr => simp [Sub.mapCond, Sub.finals, ihr]

theorem Sub.mentioned_init (s : Sub) : s.init.mentioned = s.mentioned := by
  induction s with
  | leaf l => simp [Sub.init, Sub.mentioned, Leaf.ty_ty]
  | par s l r ihl ihr => simp [Sub.init, Sub.mentioned, ihl, ihr]
  | seq s c l r ihl ihr => simp [Sub.init, Sub.mentioned, ihl, ihr]

theorem Sub.initials_init (s : Sub) : s.init.initials = s.initials := by
  induction s with
  | leaf l => simp [Sub.init, Sub.initials, Leaf.ty_ty]
  | par s l r ihl ihr => simp [Sub.init, Sub.initials, ihl, ihr]
  | seq s c l r ihl ihr => simp [Sub.init, Sub.initials, ihl]

theorem Sub.finals_init (s : Sub) : s.init.finals = s.finals := by
  induction s with
  | leaf l => simp [Sub.init, Sub.finals, Leaf.ty_ty]
  | par s l r ihl ihr => simp [Sub.init, Sub.finals, ihl, ihr]
  | seq s c l r ihl ihr => simp [Sub.init, Sub.finals, ihr]

theorem Sub.edges_init (s : Sub) : s.init.edges = s.edges := by
  induction s with
  | leaf l => simp [Sub.init, Sub.edges]
  | par s l r ihl ihr => simp [Sub.init, Sub.edges, ihl, ihr]
  | seq s c l r ihl ihr =>
    simp [Sub.init, Sub.edges, ihl, ihr, Sub.finals_init, Sub.initials_init]

theorem Leaf.star_name {l l' : Leaf} (h : l.star = some l') : l'.name = l.name := by
  unfold Leaf.star at h
  split at h
  · cases h
  · cases h
    rfl

/-- `*` changes neither names nor edges. -/
theorem Sub.star_names {s s' : Sub} (h : s.star = some s') :
    s'.mentioned.map (·.name) = s.mentioned.map (·.name) ∧
    s'.initials.map (·.name) = s.initials.map (·.name) ∧
    s'.finals.map (·.name) = s.finals.map (·.name) ∧ s'.edges = s.edges := by
  cases s with
  | leaf l =>
    simp only [Sub.star, Option.map_eq_some_iff] at h
    obtain ⟨l', hl, rfl⟩ := h
    simp [Sub.mentioned, Sub.initials, Sub.finals, Sub.edges, Leaf.ty_name, Leaf.star_name hl]
  | par st l r =>
    cases h
    simp [Sub.mentioned, Sub.initials, Sub.finals, Sub.edges, Sub.mentioned_init,
      Sub.initials_init, Sub.finals_init, Sub.edges_init]
  | seq st c l r =>
    cases h
    simp [Sub.mentioned, Sub.initials, Sub.finals, Sub.edges, Sub.mentioned_init,
      Sub.initials_init, Sub.finals_init, Sub.edges_init]

theorem mem_cross {c : List Nat} {as bs : List Leaf} {e : Edge} :
    e ∈ cross c as bs ↔
      e.cond = c ∧ e.src ∈ as.map (·.name) ∧ e.dst ∈ bs.map (·.name) := by
  simp only [cross, List.mem_flatMap, List.mem_map]
  constructor
  · rintro ⟨a, ha, b, hb, rfl⟩
    exact ⟨rfl, ⟨a, ha, rfl⟩, ⟨b, hb, rfl⟩⟩
  · rintro ⟨rfl, ⟨a, ha, h1⟩, ⟨b, hb, h2⟩⟩
    exact ⟨a, ha, b, hb, by rw [h1, h2]⟩

/-- What the value of an expression says about names and edges. -/
theorem Expr.eval_spec {e : Expr} {s : Sub} (h : e.eval = some s) :
    s.mentioned.map (·.name) = names e ∧
    (∀ x, x ∈ s.initials.map (·.name) ↔ First e x) ∧
    (∀ x, x ∈ s.finals.map (·.name) ↔ Last e x) ∧
    (∀ x y c, ⟨x, y, c⟩ ∈ s.edges ↔ Follows e x y ∧ c = []) := by
  induction e generalizing s with
  | action n f =>
    cases h
    simp [Sub.mentioned, Sub.initials, Sub.finals, Sub.edges, names, First, Last, Follows,
      Leaf.ty_name]
  | ref n =>
    cases h
    simp [Sub.mentioned, Sub.initials, Sub.finals, Sub.edges, names, First, Last, Follows,
      Leaf.ty_name]
  | step n f =>
    cases h
    simp [Sub.mentioned, Sub.initials, Sub.finals, Sub.edges, names, First, Last, Follows,
      Leaf.ty_name]
  | star e ih =>
    simp only [Expr.eval, Option.bind_eq_bind, Option.bind_eq_some_iff] at h
    obtain ⟨s0, h0, h⟩ := h
    obtain ⟨i1, i2, i3, i4⟩ := ih h0
    obtain ⟨j1, j2, j3, j4⟩ := Sub.star_names h
    rw [j1, j2, j3, j4]
    exact ⟨i1, i2, i3, i4⟩
  | par a b iha ihb =>
    simp only [Expr.eval, Option.bind_eq_bind, Option.bind_eq_some_iff] at h
    obtain ⟨sa, ha, sb, hb, h⟩ := h
    cases h
    obtain ⟨i1, i2, i3, i4⟩ := iha ha
    obtain ⟨j1, j2, j3, j4⟩ := ihb hb
    refine ⟨by simp [Sub.mentioned, names, i1, j1], ?_, ?_, ?_⟩
    · intro x
      rw [Sub.initials, List.map_append, List.mem_append, i2, j2, First]
    · intro x
      rw [Sub.finals, List.map_append, List.mem_append, i3, j3, Last]
    · intro x y c
      rw [Sub.edges, List.mem_append, i4, j4, Follows]
      tauto
  | seq a b iha ihb =>
    simp only [Expr.eval, Option.bind_eq_bind, Option.bind_eq_some_iff] at h
    obtain ⟨sa, ha, sb, hb, h⟩ := h
    cases h
    obtain ⟨i1, i2, i3, i4⟩ := iha ha
    obtain ⟨j1, j2, j3, j4⟩ := ihb hb
    refine ⟨by simp [Sub.mentioned, names, i1, j1], ?_, ?_, ?_⟩
    · intro x
      rw [Sub.initials, i2, First]
    · intro x
      rw [Sub.finals, j3, Last]
    · intro x y c
      rw [Sub.edges, List.mem_append, List.mem_append, i4, j4, mem_cross, i3, j2, Follows]
      tauto

/-- The edges under conditions. -/
theorem Sub.edges_mapCond (d : List Nat) (s : Sub) (x y : Nat) (c : List Nat) :
    ⟨x, y, c⟩ ∈ (s.mapCond d).edges ↔ ∃ c0, ⟨x, y, c0⟩ ∈ s.edges ∧ c = c0 ++ d := by
  induction s with
  | leaf l => simp [Sub.mapCond, Sub.edges]
  | par st l r ihl ihr =>
    simp only [Sub.mapCond, Sub.edges, List.mem_append, ihl, ihr]
    constructor
    · rintro (⟨c0, h, rfl⟩ | ⟨c0, h, rfl⟩)
      · exact ⟨c0, Or.inl h, rfl⟩
      · exact ⟨c0, Or.inr h, rfl⟩
    · rintro ⟨c0, h | h, rfl⟩
      · exact Or.inl ⟨c0, h, rfl⟩
      · exact Or.inr ⟨c0, h, rfl⟩
  | seq st ec l r ihl ihr =>
    simp only [Sub.mapCond, Sub.edges, List.mem_append, ihl, ihr, mem_cross,
      Sub.finals_names_mapCond, Sub.initials_names_mapCond]
    constructor
    · rintro ((⟨c0, h, rfl⟩ | ⟨c0, h, rfl⟩) | ⟨rfl, h⟩)
      · exact ⟨c0, Or.inl (Or.inl h), rfl⟩
      · exact ⟨c0, Or.inl (Or.inr h), rfl⟩
      · exact ⟨ec, Or.inr ⟨rfl, h⟩, rfl⟩
    · rintro ⟨c0, (h | h) | ⟨rfl, h⟩, rfl⟩
      · exact Or.inl (Or.inl ⟨c0, h, rfl⟩)
      · exact Or.inl (Or.inr ⟨c0, h, rfl⟩)
      · exact Or.inr ⟨rfl, h⟩

/-! ## Direct and declared order -/

theorem Spec.First.mem {e : Expr} {x : Nat} (h : First e x) : x ∈ names e := by
  induction e with
  | action n f => simpa [names, First] using h
  | ref n => simpa [names, First] using h
  | step n f => simpa [names, First] using h
  | star e ih => exact ih h
  | par a b iha ihb =>
    rw [names, List.mem_append]
    exact h.imp iha ihb
  | seq a b iha ihb =>
    rw [names, List.mem_append]
    exact Or.inl (iha h)

theorem Spec.Last.mem {e : Expr} {x : Nat} (h : Last e x) : x ∈ names e := by
  induction e with
  | action n f => simpa [names, Last] using h
  | ref n => simpa [names, Last] using h
  | step n f => simpa [names, Last] using h
  | star e ih => exact ih h
  | par a b iha ihb =>
    rw [names, List.mem_append]
    exact h.imp iha ihb
  | seq a b iha ihb =>
    rw [names, List.mem_append]
    exact Or.inr (ihb h)

theorem Spec.First.exists (e : Expr) : ∃ x, First e x := by
  induction e with
  | action n f => exact ⟨n, rfl⟩
  | ref n => exact ⟨n, rfl⟩
  | step n f => exact ⟨n, rfl⟩
  | star e ih => exact ih
  | par a b iha ihb => exact iha.imp fun _ => Or.inl
  | seq a b iha ihb => exact iha

theorem Spec.Last.exists (e : Expr) : ∃ x, Last e x := by
  induction e with
  | action n f => exact ⟨n, rfl⟩
  | ref n => exact ⟨n, rfl⟩
  | step n f => exact ⟨n, rfl⟩
  | star e ih => exact ih
  | par a b iha ihb => exact iha.imp fun _ => Or.inl
  | seq a b iha ihb => exact ihb

theorem Spec.Follows.mem {e : Expr} {x y : Nat} (h : Follows e x y) : x ∈ names e ∧ y ∈ names e := by
  induction e with
  | action n f => exact h.elim
  | ref n => exact h.elim
  | step n f => exact h.elim
  | star e ih => exact ih h
  | par a b iha ihb =>
    simp only [names, List.mem_append]
    rcases h with h | h
    · have := iha h; tauto
    · have := ihb h; tauto
  | seq a b iha ihb =>
    simp only [names, List.mem_append]
    rcases h with h | h | ⟨h, h'⟩
    · have := iha h; tauto
    · have := ihb h; tauto
    · have := h.mem; have := h'.mem; tauto

theorem Spec.Follows.declared {e : Expr} {x y : Nat} (h : Follows e x y) : Declared e x y := by
  induction e with
  | action n f => exact h
  | ref n => exact h
  | step n f => exact h
  | star e ih => exact ih h
  | par a b iha ihb => exact h.imp iha ihb
  | seq a b iha ihb =>
    rcases h with h | h | ⟨h, h'⟩
    · exact Or.inl (iha h)
    · exact Or.inr (Or.inl (ihb h))
    · exact Or.inr (Or.inr ⟨h.mem, h'.mem⟩)

open Relation

theorem tgMono {α : Type} {r p : α → α → Prop} {a b : α} (h : TransGen r a b)
    (hm : ∀ x y, r x y → p x y) : TransGen p a b := TransGen.mono hm _ _ h

theorem rtgMono {α : Type} {r p : α → α → Prop} {a b : α} (h : ReflTransGen r a b)
    (hm : ∀ x y, r x y → p x y) : ReflTransGen p a b := ReflTransGen.mono hm _ _ h

/-- Every action of an expression is a last one or leads to a last one. -/
theorem to_last {e : Expr} {x : Nat} (h : x ∈ names e) :
    ∃ y, Last e y ∧ ReflTransGen (Follows e) x y := by
  induction e generalizing x with
  | action n f => exact ⟨n, rfl, by simp only [names, List.mem_singleton] at h; rw [h]⟩
  | ref n => exact ⟨n, rfl, by simp only [names, List.mem_singleton] at h; rw [h]⟩
  | step n f => exact ⟨n, rfl, by simp only [names, List.mem_singleton] at h; rw [h]⟩
  | star e ih => exact ih h
  | par a b iha ihb =>
    rw [names, List.mem_append] at h
    rcases h with h | h
    · obtain ⟨y, hy, hr⟩ := iha h
      exact ⟨y, Or.inl hy, rtgMono hr (fun _ _ => Or.inl)⟩
    · obtain ⟨y, hy, hr⟩ := ihb h
      exact ⟨y, Or.inr hy, rtgMono hr (fun _ _ => Or.inr)⟩
  | seq a b iha ihb =>
    rw [names, List.mem_append] at h
    rcases h with h | h
    · obtain ⟨y, hy, hr⟩ := iha h
      obtain ⟨z, hz⟩ := First.exists b
      obtain ⟨w, hw, hr'⟩ := ihb hz.mem
      refine ⟨w, hw, (rtgMono hr (fun _ _ => Or.inl)).trans ?_⟩
      exact ReflTransGen.head (Or.inr (Or.inr ⟨hy, hz⟩)) (rtgMono hr' (fun _ _ h => Or.inr (Or.inl h)))
    · obtain ⟨y, hy, hr⟩ := ihb h
      exact ⟨y, hy, rtgMono hr (fun _ _ h => Or.inr (Or.inl h))⟩

/-- Every action of an expression is a first one or is led to from a first one. -/
theorem from_first {e : Expr} {x : Nat} (h : x ∈ names e) :
    ∃ y, First e y ∧ ReflTransGen (Follows e) y x := by
  induction e generalizing x with
  | action n f => exact ⟨n, rfl, by simp only [names, List.mem_singleton] at h; rw [h]⟩
  | ref n => exact ⟨n, rfl, by simp only [names, List.mem_singleton] at h; rw [h]⟩
  | step n f => exact ⟨n, rfl, by simp only [names, List.mem_singleton] at h; rw [h]⟩
  | star e ih => exact ih h
  | par a b iha ihb =>
    rw [names, List.mem_append] at h
    rcases h with h | h
    · obtain ⟨y, hy, hr⟩ := iha h
      exact ⟨y, Or.inl hy, rtgMono hr (fun _ _ => Or.inl)⟩
    · obtain ⟨y, hy, hr⟩ := ihb h
      exact ⟨y, Or.inr hy, rtgMono hr (fun _ _ => Or.inr)⟩
  | seq a b iha ihb =>
    rw [names, List.mem_append] at h
    rcases h with h | h
    · obtain ⟨y, hy, hr⟩ := iha h
      exact ⟨y, hy, rtgMono hr (fun _ _ => Or.inl)⟩
    · obtain ⟨y, hy, hr⟩ := ihb h
      obtain ⟨z, hz⟩ := Last.exists a
      obtain ⟨w, hw, hr'⟩ := iha hz.mem
      refine ⟨w, hw, (rtgMono hr' (fun _ _ => Or.inl)).trans ?_⟩
      exact ReflTransGen.head (Or.inr (Or.inr ⟨hz, hy⟩)) (rtgMono hr (fun _ _ h => Or.inr (Or.inl h)))

/-- Declared orders follow from direct ones. -/
theorem Spec.Declared.follows {e : Expr} {x y : Nat} (h : Declared e x y) : TransGen (Follows e) x y := by
  induction e with
  | action n f => exact h.elim
  | ref n => exact h.elim
  | step n f => exact h.elim
  | star e ih => exact ih h
  | par a b iha ihb =>
    rcases h with h | h
    · exact tgMono (iha h) (fun _ _ => Or.inl)
    · exact tgMono (ihb h) (fun _ _ => Or.inr)
  | seq a b iha ihb =>
    rcases h with h | h | ⟨h, h'⟩
    · exact tgMono (iha h) (fun _ _ => Or.inl)
    · exact tgMono (ihb h) (fun _ _ h => Or.inr (Or.inl h))
    · obtain ⟨u, hu, hr⟩ := to_last h
      obtain ⟨v, hv, hr'⟩ := from_first h'
      have h1 : ReflTransGen (Follows (.seq a b)) x u := rtgMono hr (fun _ _ => Or.inl)
      have h2 : ReflTransGen (Follows (.seq a b)) v y := rtgMono hr' (fun _ _ h => Or.inr (Or.inl h))
      have h3 : TransGen (Follows (.seq a b)) x v := TransGen.tail' h1 (Or.inr (Or.inr ⟨hu, hv⟩))
      exact h3.trans_left h2

/-- Direct orders of a program. -/
def ProgFollows (fs : List Frag) (x y : Nat) : Prop := ∃ f ∈ fs, Follows f.expr x y

theorem progFollows_iff (fs : List Frag) (x y : Nat) :
    TransGen (ProgFollows fs) x y ↔ TransGen (ProgDeclared fs) x y := by
  constructor
  · exact fun h => tgMono h fun _ _ ⟨f, hf, h⟩ => ⟨f, hf, h.declared⟩
  · intro h
    induction h with
    | single h =>
      obtain ⟨f, hf, h⟩ := h
      exact tgMono h.follows fun _ _ h => ⟨f, hf, h⟩
    | tail _ h ih =>
      obtain ⟨f, hf, h⟩ := h
      exact ih.trans (tgMono h.follows fun _ _ h => ⟨f, hf, h⟩)

end Verif.Flow
