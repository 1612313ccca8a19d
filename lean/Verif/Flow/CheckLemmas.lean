import Verif.Flow.BuildLemmas

/-! # Lemmas: which programs compile, and steps of a sequencer -/
namespace Verif.Flow
open Spec

theorem noRef_kinds {e : Expr} {s : Sub} (h : e.eval = some s) (hr : NoStarredRef.NoRef e) :
    ∀ l ∈ s.mentioned, l.kind ≠ .ref := by
  induction e generalizing s with
  | action n f =>
    cases h
    intro l hl
    simp only [Sub.mentioned, List.mem_singleton] at hl
    subst hl
    simp [Leaf.ty]
  | ref n => exact hr.elim
  | step n f =>
    cases h
    intro l hl
    simp only [Sub.mentioned, List.mem_singleton] at hl
    subst hl
    simp [Leaf.ty]
  | star e ih =>
    simp only [Expr.eval, Option.bind_eq_bind, Option.bind_eq_some_iff] at h
    obtain ⟨s0, h0, h⟩ := h
    have ih' := ih h0 hr
    cases s0 with
    | leaf l0 =>
      simp only [Sub.star, Option.map_eq_some_iff] at h
      obtain ⟨l', hl', rfl⟩ := h
      intro l hl
      simp only [Sub.mentioned, List.mem_singleton] at hl
      subst hl
      obtain ⟨k, n, st, c, f⟩ := l0
      cases k
      · cases hl'; simp [Leaf.ty]
      · cases hl'
      · cases hl'; simp [Leaf.ty]
    | par _ a b =>
      cases h
      simpa [Sub.mentioned, Sub.mentioned_init] using ih'
    | seq _ _ a b =>
      cases h
      simpa [Sub.mentioned, Sub.mentioned_init] using ih'
  | par a b iha ihb =>
    simp only [Expr.eval, Option.bind_eq_bind, Option.bind_eq_some_iff] at h
    obtain ⟨sa, ha, sb, hb, h⟩ := h
    cases h
    intro l hl
    rcases List.mem_append.mp hl with hl | hl
    · exact iha ha hr.1 l hl
    · exact ihb hb hr.2 l hl
  | seq a b iha ihb =>
    simp only [Expr.eval, Option.bind_eq_bind, Option.bind_eq_some_iff] at h
    obtain ⟨sa, ha, sb, hb, h⟩ := h
    cases h
    intro l hl
    rcases List.mem_append.mp hl with hl | hl
    · exact iha ha hr.1 l hl
    · exact ihb hb hr.2 l hl

theorem noRef_noStarredRef {e : Expr} (h : NoStarredRef.NoRef e) : NoStarredRef e := by
  induction e with
  | action n f => trivial
  | ref n => trivial
  | step n f => trivial
  | star e ih => exact h
  | par a b iha ihb => exact ⟨iha h.1, ihb h.2⟩
  | seq a b iha ihb => exact ⟨iha h.1, ihb h.2⟩

theorem Leaf.star_total {l : Leaf} (h : l.kind ≠ .ref) : ∃ l', l.star = some l' := by
  obtain ⟨k, n, st, c, f⟩ := l
  cases k
  · exact ⟨_, rfl⟩
  · exact absurd rfl h
  · exact ⟨_, rfl⟩

theorem Leaf.ty_kind (l : Leaf) : l.ty.kind = l.kind := by
  unfold Leaf.ty
  split <;> rfl

theorem Leaf.mapCond_kind (c : List Nat) (l : Leaf) : (l.mapCond c).kind = l.kind := by
  unfold Leaf.mapCond
  split <;> rfl

theorem eval_total {e : Expr} (h : NoStarredRef e) : ∃ s, e.eval = some s := by
  induction e with
  | action n f => exact ⟨_, rfl⟩
  | ref n => exact ⟨_, rfl⟩
  | step n f => exact ⟨_, rfl⟩
  | star e ih =>
    obtain ⟨s0, h0⟩ := ih (noRef_noStarredRef h)
    have hk := noRef_kinds h0 h
    cases s0 with
    | leaf l =>
      obtain ⟨l', hl'⟩ := Leaf.star_total (l := l) (by
        have := hk _ (List.mem_singleton.mpr rfl)
        rwa [Leaf.ty_kind] at this)
      exact ⟨.leaf l', by simp [Expr.eval, h0, Sub.star, hl']⟩
    | par st a b => exact ⟨.par true a.init b.init, by simp [Expr.eval, h0, Sub.star]⟩
    | seq st c a b => exact ⟨.seq true c a.init b.init, by simp [Expr.eval, h0, Sub.star]⟩
  | par a b iha ihb =>
    obtain ⟨sa, ha⟩ := iha h.1
    obtain ⟨sb, hb⟩ := ihb h.2
    exact ⟨.par false sa sb, by simp [Expr.eval, ha, hb]⟩
  | seq a b iha ihb =>
    obtain ⟨sa, ha⟩ := iha h.1
    obtain ⟨sb, hb⟩ := ihb h.2
    exact ⟨.seq false [] sa sb, by simp [Expr.eval, ha, hb]⟩

theorem starAll_total {ls : List Leaf} (h : ∀ l ∈ ls, l.kind ≠ .ref) : ∃ ns, starAll ls = some ns := by
  induction ls with
  | nil => exact ⟨_, rfl⟩
  | cons a ls ih =>
    obtain ⟨a', ha⟩ := Leaf.star_total (h a List.mem_cons_self)
    obtain ⟨ns, hns⟩ := ih fun l hl => h l (List.mem_cons_of_mem _ hl)
    exact ⟨a'.ty :: ns, by simp [starAll, ha, hns]⟩

theorem nodes_total {e : Expr} {s : Sub} (he : e.eval = some s) (h : NoStarredRef e) (c : List Nat) :
    ∃ ns, (s.mapCond c).nodes = some ns := by
  induction e generalizing s with
  | action n f => cases he; exact ⟨_, rfl⟩
  | ref n => cases he; exact ⟨_, rfl⟩
  | step n f => cases he; exact ⟨_, rfl⟩
  | star e ih =>
    have hk := noRef_kinds he h
    simp only [Expr.eval, Option.bind_eq_bind, Option.bind_eq_some_iff] at he
    obtain ⟨s0, h0, hs⟩ := he
    have hkc : ∀ l ∈ (s.mapCond c).mentioned, l.kind ≠ .ref := by
      intro l hl
      rw [Sub.mentioned_mapCond] at hl
      obtain ⟨l0, hl0, rfl⟩ := List.mem_map.mp hl
      rw [Leaf.mapCond_kind]
      exact hk l0 hl0
    cases s0 with
    | leaf l =>
      simp only [Sub.star, Option.map_eq_some_iff] at hs
      obtain ⟨l', hl', rfl⟩ := hs
      exact ⟨_, rfl⟩
    | par st a b =>
      cases hs
      exact starAll_total fun l hl => hkc l (mem_unique.mp hl)
    | seq st ec a b =>
      cases hs
      exact starAll_total fun l hl => hkc l (mem_unique.mp hl)
  | par a b iha ihb =>
    simp only [Expr.eval, Option.bind_eq_bind, Option.bind_eq_some_iff] at he
    obtain ⟨sa, ha, sb, hb, he⟩ := he
    cases he
    obtain ⟨na, hna⟩ := iha ha h.1
    obtain ⟨nb, hnb⟩ := ihb hb h.2
    exact ⟨na ++ nb, by simp [Sub.mapCond, Sub.nodes, hna, hnb]⟩
  | seq a b iha ihb =>
    simp only [Expr.eval, Option.bind_eq_bind, Option.bind_eq_some_iff] at he
    obtain ⟨sa, ha, sb, hb, he⟩ := he
    cases he
    obtain ⟨na, hna⟩ := iha ha h.1
    obtain ⟨nb, hnb⟩ := ihb hb h.2
    exact ⟨na ++ nb, by simp [Sub.mapCond, Sub.nodes, hna, hnb]⟩

/-- All leaves are actions. -/
def Sub.Actions : Sub → Prop
  | .leaf l => l.kind = .action
  | .par _ l r => l.Actions ∧ r.Actions
  | .seq _ _ l r => l.Actions ∧ r.Actions

theorem Sub.init_actions {s : Sub} (h : s.Actions) : s.init.Actions := by
  induction s with
  | leaf l => simpa [Sub.init, Sub.Actions, Leaf.ty_kind] using h
  | par _ l r ihl ihr => exact ⟨ihl h.1, ihr h.2⟩
  | seq _ _ l r ihl ihr => exact ⟨ihl h.1, ihr h.2⟩

theorem eval_actions {e : Expr} {s : Sub} (he : e.eval = some s) (hf : FlowExpr e)
    (hr : NoStarredRef.NoRef e) : s.Actions := by
  induction e generalizing s with
  | action n f => cases he; rfl
  | ref n => exact hr.elim
  | step n f => exact hf.elim
  | star e ih =>
    simp only [Expr.eval, Option.bind_eq_bind, Option.bind_eq_some_iff] at he
    obtain ⟨s0, h0, hs⟩ := he
    have ih' := ih h0 hf hr
    cases s0 with
    | leaf l =>
      simp only [Sub.star, Option.map_eq_some_iff] at hs
      obtain ⟨l', hl', rfl⟩ := hs
      have hk : l.kind = .action := ih'
      simp only [Leaf.star, hk, Option.some.injEq] at hl'
      subst hl'
      rfl
    | par _ a b =>
      cases hs
      exact ⟨Sub.init_actions ih'.1, Sub.init_actions ih'.2⟩
    | seq _ _ a b =>
      cases hs
      exact ⟨Sub.init_actions ih'.1, Sub.init_actions ih'.2⟩
  | par a b iha ihb =>
    simp only [Expr.eval, Option.bind_eq_bind, Option.bind_eq_some_iff] at he
    obtain ⟨sa, ha, sb, hb, he⟩ := he
    cases he
    exact ⟨iha ha hf.1 hr.1, ihb hb hf.2 hr.2⟩
  | seq a b iha ihb =>
    simp only [Expr.eval, Option.bind_eq_bind, Option.bind_eq_some_iff] at he
    obtain ⟨sa, ha, sb, hb, he⟩ := he
    cases he
    exact ⟨iha ha hf.1 hr.1, ihb hb hf.2 hr.2⟩

theorem conditional_total (c : List Nat) {s : Sub} (h : s.Actions) :
    ∃ s', s.conditional c = some s' ∧ s'.Actions := by
  induction s with
  | leaf l =>
    have hk : l.kind = .action := h
    refine ⟨.leaf (if l.starred then { l with cond := condAnd l.cond c } else l), ?_, ?_⟩
    · simp [Sub.conditional, Leaf.conditional, hk]
    · show Leaf.kind _ = _
      split <;> exact hk
  | par st l r ihl ihr =>
    obtain ⟨l', hl, al⟩ := ihl h.1
    obtain ⟨r', hr, ar⟩ := ihr h.2
    exact ⟨.par st l' r', by simp [Sub.conditional, hl, hr], al, ar⟩
  | seq st ec l r ihl ihr =>
    obtain ⟨l', hl, al⟩ := ihl h.1
    obtain ⟨r', hr, ar⟩ := ihr h.2
    exact ⟨.seq st (condAnd ec c) l' r', by simp [Sub.conditional, hl, hr], al, ar⟩

theorem applyWhens_total (ws : List (List Nat)) {s : Sub} (h : s.Actions) :
    ∃ s', applyWhens ws s = some s' := by
  induction ws generalizing s with
  | nil => exact ⟨s, rfl⟩
  | cons c cs ih =>
    obtain ⟨s1, h1, a1⟩ := conditional_total c h
    obtain ⟨s', h'⟩ := ih a1
    exact ⟨s', by simp [applyWhens, h1, h']⟩

/-- A well-formed program has values and nodes. -/
theorem wellFormed_total {fs : List Frag} (h : WellFormed fs) :
    ∃ ss ts, evalAll fs = some ss ∧ allNodes ss = some ts := by
  induction fs with
  | nil => exact ⟨[], [], rfl, rfl⟩
  | cons f fs ih =>
    obtain ⟨ss, ts, h1, h2⟩ := ih fun f' hf' => h f' (List.mem_cons_of_mem _ hf')
    obtain ⟨hf, hs, hw⟩ := h f List.mem_cons_self
    obtain ⟨s0, h0⟩ := eval_total hs
    have : ∃ s, f.eval = some s := by
      unfold Frag.eval
      rw [h0]
      rcases hw with hw | hw
      · rw [hw]
        exact ⟨s0, rfl⟩
      · exact applyWhens_total _ (eval_actions h0 hf hw)
    obtain ⟨s, hs'⟩ := this
    obtain ⟨s0', h0', rfl⟩ := Frag.eval_eq hs'
    obtain ⟨ns, hns⟩ := nodes_total h0' hs f.whens.flatten
    exact ⟨_ :: ss, ns ++ ts, by simp only [evalAll, hs', h1, Option.bind_eq_bind, Option.bind_some]; rfl, by simp [allNodes, hns, h2]⟩

/-! ## Steps with their own `*` -/

/-- The leaf made for `*step<n>(f)`. -/
def stepLeaf (a : Nat × Nat) : Leaf := ⟨.step, a.1, true, [], some a.2⟩

theorem starredSteps_eval {e : Expr} (h : StarredSteps e) :
    ∃ s, e.eval = some s ∧ s.values = (added e).map stepLeaf ∧
      s.nodes = some ((added e).map fun a => (stepLeaf a).ty) ∧
      names e = (added e).map (·.1) := by
  induction e with
  | action n f => exact h.elim
  | ref n => exact h.elim
  | step n f => exact h.elim
  | star e _ =>
    cases e with
    | step n f => exact ⟨.leaf ⟨.step, n, true, [], some f⟩, rfl, rfl, rfl, rfl⟩
    | action n f => exact h.elim
    | ref n => exact h.elim
    | star e => exact h.elim
    | par a b => exact h.elim
    | seq a b => exact h.elim
  | par a b iha ihb =>
    obtain ⟨sa, ha, va, na, ma⟩ := iha h.1
    obtain ⟨sb, hb, vb, nb, mb⟩ := ihb h.2
    exact ⟨.par false sa sb, by simp [Expr.eval, ha, hb], by simp [Sub.values, va, vb, added],
      by simp [Sub.nodes, na, nb, added], by simp [names, ma, mb, added]⟩
  | seq a b iha ihb =>
    obtain ⟨sa, ha, va, na, ma⟩ := iha h.1
    obtain ⟨sb, hb, vb, nb, mb⟩ := ihb h.2
    exact ⟨.seq false [] sa sb, by simp [Expr.eval, ha, hb], by simp [Sub.values, va, vb, added],
      by simp [Sub.nodes, na, nb, added], by simp [names, ma, mb, added]⟩

theorem starredSteps_all {fs : List Frag} (h : ∀ f ∈ fs, StarredSteps f.expr ∧ f.whens = []) :
    ∃ ss, evalAll fs = some ss ∧ ss.flatMap Sub.values = (progAdded fs).map stepLeaf ∧
      allNodes ss = some ((progAdded fs).map fun a => (stepLeaf a).ty) ∧
      progNames fs = (progAdded fs).map (·.1) := by
  induction fs with
  | nil => exact ⟨[], rfl, rfl, rfl, rfl⟩
  | cons f fs ih =>
    obtain ⟨ss, h1, h2, h3, h4⟩ := ih fun f' hf' => h f' (List.mem_cons_of_mem _ hf')
    obtain ⟨hf, hw⟩ := h f List.mem_cons_self
    obtain ⟨s, e1, e2, e3, e4⟩ := starredSteps_eval hf
    have he : f.eval = some s := by
      rw [Frag.eval, e1, hw]
      rfl
    refine ⟨s :: ss, by simp [evalAll, he, h1], ?_, by simp [allNodes, e3, h3, progAdded], ?_⟩
    · rw [List.flatMap_cons, e2, h2, progAdded, progAdded, List.flatMap_cons, List.map_append]
    · simp only [progNames, progAdded, List.flatMap_cons, List.map_append, e4] at h4 ⊢
      rw [h4]

/-- Every starred step gets its own functions back, when names are not reused. -/
theorem pickNode_step {l : List (Nat × Nat)} (hd : (l.map (·.1)).Nodup) {a : Nat × Nat} (ha : a ∈ l) :
    pickNode (l.map stepLeaf) (stepLeaf a).ty = stepLeaf a := by
  have hfind : (l.map stepLeaf).find? (fun v => decide (v.star.map Leaf.ty = some (stepLeaf a).ty)) =
      some (stepLeaf a) := by
    cases hfi : (l.map stepLeaf).find? (fun v => decide (v.star.map Leaf.ty = some (stepLeaf a).ty)) with
    | none =>
      have := List.find?_eq_none.mp hfi (stepLeaf a) (List.mem_map_of_mem ha)
      simp [Leaf.star, stepLeaf] at this
    | some v =>
      have hv := List.mem_of_find?_eq_some hfi
      have hp := List.find?_some hfi
      obtain ⟨b, hb, rfl⟩ := List.mem_map.mp hv
      simp only [Leaf.star, stepLeaf, Leaf.ty, Option.map_some, Option.some.injEq, Leaf.mk.injEq,
        decide_eq_true_eq, true_and, and_true] at hp
      rw [List.inj_on_of_nodup_map hd hb ha hp]
  rw [pickNode, hfind]
  rfl

end Verif.Flow
