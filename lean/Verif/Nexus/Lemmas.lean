import Verif.Nexus.Spec
import Mathlib.Data.List.Basic
import Mathlib.Data.List.Perm.Basic
import Mathlib.Data.List.Nodup

namespace Verif.Nexus
open Spec

variable {A : Type} {mk : Nat → A → Option A}

/-! ## `mapM` -/

theorem mapM_bind {α β γ : Type} (f : α → Option β) (g : β → Option γ) (l : List α) :
    (l.mapM f).bind (fun m => m.mapM g) = l.mapM fun x => (f x).bind g := by
  induction l with
  | nil => rfl
  | cons a l ih =>
    simp only [List.mapM_cons]
    cases hf : f a with
    | none => rfl
    | some b =>
      cases hm : l.mapM f with
      | none =>
        rw [hm] at ih
        simp only [Option.bind_none] at ih
        cases hg : g b with
        | none => simp [hg]
        | some c => simp [hg, ← ih]
      | some m =>
        rw [hm] at ih
        simp only [Option.bind_some] at ih
        simp [List.mapM_cons, ← ih]

theorem mapM_map {α β γ : Type} (f : α → β) (g : β → Option γ) (l : List α) :
    (l.map f).mapM g = l.mapM fun x => g (f x) := by
  induction l with
  | nil => rfl
  | cons a l ih => simp [List.mapM_cons, ih]

theorem mapM_isSome {α β : Type} (f : α → Option β) (l : List α) :
    (l.mapM f).isSome ↔ ∀ x ∈ l, (f x).isSome := by
  induction l with
  | nil => simp
  | cons a l ih =>
    rw [List.mapM_cons, List.forall_mem_cons, ← ih]
    cases f a with
    | none => simp
    | some b => cases l.mapM f <;> simp

theorem mapM_congr {α β : Type} {f g : α → Option β} {l : List α} (h : ∀ x ∈ l, f x = g x) :
    l.mapM f = l.mapM g := by
  induction l with
  | nil => rfl
  | cons a l ih =>
    rw [List.mapM_cons, List.mapM_cons, h a List.mem_cons_self,
      ih fun x hx => h x (List.mem_cons_of_mem _ hx)]

theorem mapM_some_eq {α β : Type} {f : α → β} {l : List α} : l.mapM (fun x => some (f x)) = some (l.map f) := by
  induction l with
  | nil => rfl
  | cons a l ih => simp [List.mapM_cons, ih]

theorem mapM_append {α β : Type} (f : α → Option β) (l m : List α) :
    (l ++ m).mapM f = (l.mapM f).bind fun a => (m.mapM f).map fun b => a ++ b := by
  induction l with
  | nil =>
    simp only [List.nil_append, List.mapM_nil]
    cases m.mapM f <;> rfl
  | cons x l ih =>
    rw [List.cons_append, List.mapM_cons, List.mapM_cons, ih]
    cases f x with
    | none => rfl
    | some y => cases l.mapM f with
      | none => rfl
      | some a => cases m.mapM f <;> rfl

/-! ## Nodes -/

/-- The extensions with the empty ones that `exports` makes. -/
def allNodes (consts : List Bool) (conds : List Nat) : Cfg A → List (Node A)
  | .config cs => goAll consts conds cs
  | .components cs => goAll consts conds cs
  | .exports ss => ss.map fun s => ⟨consts, conds, .type s, []⟩
  | .extend t as => [⟨consts, conds, t, as⟩]
  | .constIf ps cs => goAll (ps ++ consts) conds cs
  | .runIf c cs => goAll consts (c :: conds) cs
where
  goAll (consts : List Bool) (conds : List Nat) : List (Cfg A) → List (Node A)
    | [] => []
    | c :: cs => allNodes consts conds c ++ goAll consts conds cs

/-- Conditions around an extension. -/
def wrapExt (mk : Nat → A → Option A) : List Nat → Ext A → Option (Ext A)
  | [], e => some e
  | c :: cs, e => (condExt mk c e).bind (wrapExt mk cs)

def wrapNode (mk : Nat → A → Option A) (n : Node A) : Option (Ext A) := wrapExt mk n.conds ⟨n.target, n.args⟩

mutual

theorem allNodes_consts (consts : List Bool) (conds : List Nat) :
    ∀ (c : Cfg A), ∀ n ∈ allNodes consts conds c, ∃ ps, n.consts = ps ++ consts
  | .config cs => fun n hn => goAll_consts consts conds cs n hn
  | .components cs => fun n hn => goAll_consts consts conds cs n hn
  | .exports ss => fun n hn => by
    rw [allNodes, List.mem_map] at hn
    obtain ⟨s, -, rfl⟩ := hn
    exact ⟨[], rfl⟩
  | .extend t as => fun n hn => by
    rw [allNodes, List.mem_singleton] at hn
    rw [hn]
    exact ⟨[], rfl⟩
  | .constIf ps cs => fun n hn => by
    obtain ⟨qs, h⟩ := goAll_consts (ps ++ consts) conds cs n hn
    exact ⟨qs ++ ps, by rw [h, List.append_assoc]⟩
  | .runIf c cs => fun n hn => goAll_consts consts (c :: conds) cs n hn

theorem goAll_consts (consts : List Bool) (conds : List Nat) :
    ∀ (cs : List (Cfg A)), ∀ n ∈ allNodes.goAll consts conds cs, ∃ ps, n.consts = ps ++ consts
  | [] => fun _ hn => by cases hn
  | c :: cs => fun n hn => by
    rw [allNodes.goAll, List.mem_append] at hn
    rcases hn with hn | hn
    · exact allNodes_consts consts conds c n hn
    · exact goAll_consts consts conds cs n hn

end

theorem goAll_inactive {consts : List Bool} (h : consts.all id = false) (conds : List Nat) (cs : List (Cfg A)) :
    (allNodes.goAll consts conds cs).filter Node.active = [] := by
  rw [List.filter_eq_nil_iff]
  intro n hn ha
  obtain ⟨ps, e⟩ := goAll_consts consts conds cs n hn
  rw [Node.active, e, List.all_append, h, Bool.and_false] at ha
  cases ha

mutual

/-- `extends_tuple` collects the nodes that count. -/
theorem extends_eq (consts : List Bool) (h : consts.all id = true) (conds : List Nat) : ∀ c : Cfg A,
    (c.extends mk).bind (fun es => es.mapM (wrapExt mk conds)) =
      ((allNodes consts conds c).filter Node.active).mapM (wrapNode mk)
  | .config cs => extendsAll_eq consts h conds cs
  | .components cs => extendsAll_eq consts h conds cs
  | .exports ss => by
    rw [allNodes, Cfg.extends, Option.bind_some, mapM_map, List.filter_eq_self.mpr, mapM_map]
    · rfl
    · intro n hn
      obtain ⟨s, -, rfl⟩ := List.mem_map.mp hn
      exact h
  | .extend t as => by
    rw [allNodes, Cfg.extends, Option.bind_some, List.filter_eq_self.mpr]
    · simp only [List.mapM_cons, wrapNode]
      rfl
    · intro n hn
      rw [List.mem_singleton] at hn
      rw [hn]
      exact h
  | .constIf ps cs => by
    rw [allNodes, Cfg.extends]
    cases hp : ps.all id with
    | true =>
      rw [if_pos rfl]
      exact extendsAll_eq (ps ++ consts) (by rw [List.all_append, hp, h]; rfl) conds cs
    | false =>
      rw [if_neg (by decide), goAll_inactive (by rw [List.all_append, hp]; rfl)]
      rfl
  | .runIf c cs => by
    rw [allNodes, Cfg.extends, ← extendsAll_eq consts h (c :: conds) cs]
    cases extendsAll mk cs with
    | none => rfl
    | some es =>
      simp only [Option.bind_eq_bind, Option.bind_some]
      rw [mapM_bind]
      rfl

theorem extendsAll_eq (consts : List Bool) (h : consts.all id = true) (conds : List Nat) : ∀ cs : List (Cfg A),
    (extendsAll mk cs).bind (fun es => es.mapM (wrapExt mk conds)) =
      ((allNodes.goAll consts conds cs).filter Node.active).mapM (wrapNode mk)
  | [] => rfl
  | c :: cs => by
    rw [allNodes.goAll, List.filter_append, mapM_append, ← extends_eq consts h conds c,
      ← extendsAll_eq consts h conds cs, extendsAll]
    cases c.extends mk with
    | none => rfl
    | some a =>
      cases extendsAll mk cs with
      | none =>
        simp only [Option.bind_eq_bind, Option.bind_some, Option.bind_none, Option.map_none]
        cases a.mapM (wrapExt mk conds) <;> rfl
      | some b =>
        simp only [Option.bind_eq_bind, Option.bind_some, Option.pure_def, mapM_append]

end

theorem wrapExt_nil : wrapExt mk [] = some := rfl

theorem extends_nodes (c : Cfg A) : c.extends mk = ((allNodes [] [] c).filter Node.active).mapM (wrapNode mk) := by
  rw [← extends_eq [] rfl [] c]
  cases c.extends mk with
  | none => rfl
  | some es =>
    rw [Option.bind_some, wrapExt_nil]
    have := mapM_some_eq (f := fun e : Ext A => e) (l := es)
    simp only [List.map_id'] at this
    exact this.symm

mutual

/-- The nodes of the specification are the ones with the empty extensions left out. -/
theorem allNodes_nodes (consts : List Bool) (conds : List Nat) : ∀ (c : Cfg A) (B : Type) (g : Node A → List B),
    (∀ n, n.args = [] → g n = []) → (allNodes consts conds c).flatMap g = (nodes consts conds c).flatMap g
  | .config cs => goAll_nodes consts conds cs
  | .components cs => goAll_nodes consts conds cs
  | .exports ss => fun B g hg => by
    rw [allNodes, nodes, List.flatMap_map, List.flatMap_nil, List.flatMap_eq_nil_iff]
    exact fun s _ => hg _ rfl
  | .extend t as => fun _ _ _ => by rw [allNodes, nodes]
  | .constIf ps cs => goAll_nodes (ps ++ consts) conds cs
  | .runIf c cs => goAll_nodes consts (c :: conds) cs

theorem goAll_nodes (consts : List Bool) (conds : List Nat) : ∀ (cs : List (Cfg A)) (B : Type)
    (g : Node A → List B), (∀ n, n.args = [] → g n = []) →
    (allNodes.goAll consts conds cs).flatMap g = (nodesAll consts conds cs).flatMap g
  | [] => fun _ _ _ => rfl
  | c :: cs => fun B g hg => by
    rw [allNodes.goAll, nodesAll, List.flatMap_append, List.flatMap_append,
      allNodes_nodes consts conds c B g hg, goAll_nodes consts conds cs B g hg]

end

mutual

/-- The nodes are those of the specification and the empty ones of the exports. -/
theorem mem_allNodes (consts : List Bool) (h : consts.all id = true) (conds : List Nat) : ∀ (c : Cfg A) (n : Node A),
    n ∈ allNodes consts conds c ∧ n.active = true ↔
      (n ∈ nodes consts conds c ∧ n.active = true) ∨
      (n ∈ allNodes consts conds c ∧ n.active = true ∧ n.args = [] ∧ ∃ s ∈ c.exported, n.target = .type s)
  | .config cs => mem_goAll consts h conds cs
  | .components cs => mem_goAll consts h conds cs
  | .exports ss => fun n => by
    rw [allNodes, nodes, Cfg.exported]
    constructor
    · rintro ⟨hn, ha⟩
      obtain ⟨s, hs, rfl⟩ := List.mem_map.mp hn
      exact .inr ⟨hn, ha, rfl, s, hs, rfl⟩
    · rintro (⟨hn, -⟩ | ⟨hn, ha, -⟩)
      · cases hn
      · exact ⟨hn, ha⟩
  | .extend t as => fun n => by
    rw [allNodes, nodes]
    constructor
    · exact fun h => .inl h
    · rintro (h | ⟨hn, ha, -⟩)
      · exact h
      · exact ⟨hn, ha⟩
  | .constIf ps cs => fun n => by
    rw [allNodes, nodes, Cfg.exported]
    cases hp : ps.all id with
    | true =>
      rw [if_pos rfl]
      exact mem_goAll (ps ++ consts) (by rw [List.all_append, hp, h]; rfl) conds cs n
    | false =>
      have hno : ¬ (n ∈ allNodes.goAll (ps ++ consts) conds cs ∧ n.active = true) := by
        rintro ⟨hn, ha⟩
        have := List.mem_filter.mpr ⟨hn, ha⟩
        rw [goAll_inactive (by rw [List.all_append, hp]; rfl)] at this
        cases this
      constructor
      · exact fun h => absurd h hno
      · rintro (⟨hn, ha⟩ | ⟨hn, ha, -⟩)
        · have hsub : ∀ m ∈ nodesAll (ps ++ consts) conds cs, m ∈ allNodes.goAll (ps ++ consts) conds cs :=
            nodesAll_sub _ _ cs
          exact ⟨hsub n hn, ha⟩
        · exact ⟨hn, ha⟩
  | .runIf c cs => mem_goAll consts h (c :: conds) cs

theorem mem_goAll (consts : List Bool) (h : consts.all id = true) (conds : List Nat) :
    ∀ (cs : List (Cfg A)) (n : Node A),
    n ∈ allNodes.goAll consts conds cs ∧ n.active = true ↔
      (n ∈ nodesAll consts conds cs ∧ n.active = true) ∨
      (n ∈ allNodes.goAll consts conds cs ∧ n.active = true ∧ n.args = [] ∧
        ∃ s ∈ exportedAll cs, n.target = .type s)
  | [] => fun n => by simp [allNodes.goAll, nodesAll]
  | c :: cs => fun n => by
    have h1 := mem_allNodes consts h conds c n
    have h2 := mem_goAll consts h conds cs n
    rw [allNodes.goAll, nodesAll, exportedAll]
    simp only [List.mem_append]
    constructor
    · rintro ⟨hn | hn, ha⟩
      · rcases h1.mp ⟨hn, ha⟩ with ⟨k, -⟩ | ⟨-, -, he, s, hs, ht⟩
        · exact .inl ⟨.inl k, ha⟩
        · exact .inr ⟨.inl hn, ha, he, s, .inl hs, ht⟩
      · rcases h2.mp ⟨hn, ha⟩ with ⟨k, -⟩ | ⟨-, -, he, s, hs, ht⟩
        · exact .inl ⟨.inr k, ha⟩
        · exact .inr ⟨.inr hn, ha, he, s, .inr hs, ht⟩
    · rintro (⟨hn | hn, ha⟩ | ⟨hn, ha, -⟩)
      · exact ⟨.inl (h1.mpr (.inl ⟨hn, ha⟩)).1, ha⟩
      · exact ⟨.inr (h2.mpr (.inl ⟨hn, ha⟩)).1, ha⟩
      · exact ⟨hn, ha⟩

theorem nodes_sub (consts : List Bool) (conds : List Nat) : ∀ (c : Cfg A), ∀ m ∈ nodes consts conds c,
    m ∈ allNodes consts conds c
  | .config cs => nodesAll_sub consts conds cs
  | .components cs => nodesAll_sub consts conds cs
  | .exports ss => fun m hm => by cases hm
  | .extend t as => fun m hm => hm
  | .constIf ps cs => nodesAll_sub (ps ++ consts) conds cs
  | .runIf c cs => nodesAll_sub consts (c :: conds) cs

theorem nodesAll_sub (consts : List Bool) (conds : List Nat) : ∀ (cs : List (Cfg A)),
    ∀ m ∈ nodesAll consts conds cs, m ∈ allNodes.goAll consts conds cs
  | [] => fun m hm => by cases hm
  | c :: cs => fun m hm => by
    rw [nodesAll, List.mem_append] at hm
    rw [allNodes.goAll, List.mem_append]
    rcases hm with hm | hm
    · exact .inl (nodes_sub consts conds c m hm)
    · exact .inr (nodesAll_sub consts conds cs m hm)

end

end Verif.Nexus
