import Verif.Flow.DslLemmas

/-! # Lemmas about the nodes of a flow -/
namespace Verif.Flow
open Spec

theorem mem_unique {α : Type} [DecidableEq α] {l : List α} {a : α} : a ∈ unique l ↔ a ∈ l := by
  induction l with
  | nil => simp [unique]
  | cons b l ih =>
    simp only [unique, List.mem_cons, List.mem_filter, ih, decide_eq_true_eq]
    by_cases h : a = b <;> simp [h]

theorem nodup_unique {α : Type} [DecidableEq α] (l : List α) : (unique l).Nodup := by
  induction l with
  | nil => simp [unique]
  | cons b l ih =>
    simp only [unique, List.nodup_cons, List.mem_filter, decide_eq_true_eq]
    exact ⟨fun h => h.2 rfl, ih.filter _⟩

theorem unique_of_nodup {α : Type} [DecidableEq α] {l : List α} (h : l.Nodup) : unique l = l := by
  induction l with
  | nil => rfl
  | cons b l ih =>
    rw [List.nodup_cons] at h
    rw [unique, ih h.2]
    congr 1
    rw [List.filter_eq_self]
    intro a ha
    simp only [ne_eq, decide_eq_true_eq]
    rintro rfl
    exact h.1 ha

theorem unique_map {α β : Type} [DecidableEq α] [DecidableEq β] {f : α → β}
    (hf : ∀ a b, f a = f b → a = b) (l : List α) : unique (l.map f) = (unique l).map f := by
  induction l with
  | nil => rfl
  | cons a l ih =>
    simp only [List.map_cons, unique, ih, List.map_cons, List.filter_map]
    congr 1
    congr 1
    apply List.filter_congr
    intro b _
    simp only [Function.comp, ne_eq, decide_eq_decide, not_iff_not]
    exact ⟨fun h => hf _ _ h, fun h => by rw [h]⟩

theorem unique_perm_dedup {α : Type} [DecidableEq α] (l : List α) : (unique l).Perm l.dedup :=
  (List.perm_ext_iff_of_nodup (nodup_unique l) (List.nodup_dedup l)).mpr fun a => by
    rw [mem_unique, List.mem_dedup]

/-- The leaf made for an occurrence under conditions `c`. -/
def leafOf (c : List Nat) (o : Nat × Nat × Bool) : Leaf :=
  ⟨.action, o.1, o.2.2, if o.2.2 then c else [], some o.2.1⟩

theorem leafOf_inj (c : List Nat) (a b : Nat × Nat × Bool) (h : leafOf c a = leafOf c b) : a = b := by
  obtain ⟨a1, a2, a3⟩ := a
  obtain ⟨b1, b2, b3⟩ := b
  simp only [leafOf, Leaf.mk.injEq, Option.some.injEq] at h
  obtain ⟨-, rfl, rfl, -, rfl⟩ := h
  rfl

theorem mapCond_leafOf (c : List Nat) (o : Nat × Nat × Bool) :
    (leafOf [] o).mapCond c = leafOf c o := by
  obtain ⟨a1, a2, a3⟩ := o
  cases a3 <;> simp [leafOf, Leaf.mapCond]

theorem Leaf.mapCond_ty (c : List Nat) (l : Leaf) : (l.mapCond c).ty = l.ty.mapCond c := by
  obtain ⟨k, n, s, cc, f⟩ := l
  cases k <;> cases s <;> rfl

theorem Sub.mentioned_mapCond (c : List Nat) (s : Sub) :
    (s.mapCond c).mentioned = s.mentioned.map (Leaf.mapCond c) := by
  induction s with
  | leaf l => simp [Sub.mapCond, Sub.mentioned, Leaf.mapCond_ty]
  | par s l r ihl ihr => simp [Sub.mapCond, Sub.mentioned, ihl, ihr]
  | seq s c l r ihl ihr => simp [Sub.mapCond, Sub.mentioned, ihl, ihr]

/-- Is the value a leaf? -/
def Sub.isLeaf : Sub → Bool
  | .leaf _ => true
  | _ => false

theorem Sub.star_isLeaf {s s' : Sub} (h : s.star = some s') : s'.isLeaf = s.isLeaf := by
  cases s with
  | leaf l =>
    simp only [Sub.star, Option.map_eq_some_iff] at h
    obtain ⟨l', hl, rfl⟩ := h
    rfl
  | par _ _ _ => cases h; rfl
  | seq _ _ _ _ => cases h; rfl

theorem occurrences_star {e : Expr} {s : Sub} (h : e.eval = some s) :
    occurrences (.star e) =
      if s.isLeaf then (occurrences e).map (fun o => (o.1, o.2.1, true)) else occurrences e := by
  induction e generalizing s with
  | action n f => cases h; rfl
  | ref n => cases h; rfl
  | step n f => cases h; rfl
  | star e ih =>
    simp only [Expr.eval, Option.bind_eq_bind, Option.bind_eq_some_iff] at h
    obtain ⟨s0, h0, h⟩ := h
    rw [Sub.star_isLeaf h, show occurrences (.star (.star e)) = occurrences (.star e) from rfl,
      ih h0]
    split
    · simp
    · rfl
  | par a b _ _ =>
    simp only [Expr.eval, Option.bind_eq_bind, Option.bind_eq_some_iff] at h
    obtain ⟨sa, ha, sb, hb, h⟩ := h
    cases h
    rfl
  | seq a b _ _ =>
    simp only [Expr.eval, Option.bind_eq_bind, Option.bind_eq_some_iff] at h
    obtain ⟨sa, ha, sb, hb, h⟩ := h
    cases h
    rfl

theorem noRef_of_mentioned {e : Expr} {s : Sub} (h : e.eval = some s)
    (hr : ∀ l ∈ s.mentioned, l.kind ≠ .ref) : NoStarredRef.NoRef e := by
  induction e generalizing s with
  | action n f => trivial
  | ref n =>
    cases h
    exact absurd rfl (hr _ (List.mem_singleton.mpr rfl))
  | step n f => trivial
  | star e ih =>
    simp only [Expr.eval, Option.bind_eq_bind, Option.bind_eq_some_iff] at h
    obtain ⟨s0, h0, h⟩ := h
    apply ih h0
    cases s0 with
    | leaf l =>
      simp only [Sub.star, Option.map_eq_some_iff] at h
      obtain ⟨l', hl, rfl⟩ := h
      intro x hx
      simp only [Sub.mentioned, List.mem_singleton] at hx
      subst hx
      obtain ⟨k, n, st, c, f⟩ := l
      cases k
      · simp [Leaf.ty]
      · cases hl
      · simp [Leaf.ty]
    | par _ l r =>
      cases h
      simpa [Sub.mentioned, Sub.mentioned_init] using hr
    | seq _ _ l r =>
      cases h
      simpa [Sub.mentioned, Sub.mentioned_init] using hr
  | par a b iha ihb =>
    simp only [Expr.eval, Option.bind_eq_bind, Option.bind_eq_some_iff] at h
    obtain ⟨sa, ha, sb, hb, h⟩ := h
    cases h
    exact ⟨iha ha fun l hl => hr l (List.mem_append_left _ hl),
      ihb hb fun l hl => hr l (List.mem_append_right _ hl)⟩
  | seq a b iha ihb =>
    simp only [Expr.eval, Option.bind_eq_bind, Option.bind_eq_some_iff] at h
    obtain ⟨sa, ha, sb, hb, h⟩ := h
    cases h
    exact ⟨iha ha fun l hl => hr l (List.mem_append_left _ hl),
      ihb hb fun l hl => hr l (List.mem_append_right _ hl)⟩

/-- The mentioned leaves of a flow expression without references. -/
theorem mentioned_eq {e : Expr} {s : Sub} (h : e.eval = some s) (hf : FlowExpr e)
    (hr : NoStarredRef.NoRef e) : s.mentioned = (occurrences e).map (leafOf []) := by
  induction e generalizing s with
  | action n f => cases h; rfl
  | ref n => exact hr.elim
  | step n f => exact hf.elim
  | star e ih =>
    simp only [Expr.eval, Option.bind_eq_bind, Option.bind_eq_some_iff] at h
    obtain ⟨s0, h0, h⟩ := h
    have ih' := ih h0 hf hr
    rw [occurrences_star h0]
    cases s0 with
    | leaf l =>
      simp only [Sub.star, Option.map_eq_some_iff] at h
      obtain ⟨l', hl, rfl⟩ := h
      simp only [Sub.isLeaf, if_true, Sub.mentioned] at ih' ⊢
      cases ho : occurrences e with
      | nil => rw [ho] at ih'; simp at ih'
      | cons o os =>
        rw [ho, List.map_cons, List.cons.injEq] at ih'
        obtain ⟨h1, h2⟩ := ih'
        have h3 : os = [] := by simpa using h2.symm
        subst h3
        obtain ⟨k, n, st, c, f⟩ := l
        cases k
        · simp only [Leaf.ty, leafOf, Leaf.mk.injEq, true_and, ite_self] at h1
          obtain ⟨rfl, rfl, rfl, rfl⟩ := h1
          simp only [Leaf.star, Option.some.injEq] at hl
          subst hl
          simp [Leaf.ty, leafOf]
        · cases hl
        · simp [Leaf.ty, leafOf] at h1
    | par _ l r =>
      cases h
      simpa [Sub.mentioned, Sub.mentioned_init, Sub.isLeaf] using ih'
    | seq _ _ l r =>
      cases h
      simpa [Sub.mentioned, Sub.mentioned_init, Sub.isLeaf] using ih'
  | par a b iha ihb =>
    simp only [Expr.eval, Option.bind_eq_bind, Option.bind_eq_some_iff] at h
    obtain ⟨sa, ha, sb, hb, h⟩ := h
    cases h
    simp [Sub.mentioned, occurrences, iha ha hf.1 hr.1, ihb hb hf.2 hr.2]
  | seq a b iha ihb =>
    simp only [Expr.eval, Option.bind_eq_bind, Option.bind_eq_some_iff] at h
    obtain ⟨sa, ha, sb, hb, h⟩ := h
    cases h
    simp [Sub.mentioned, occurrences, iha ha hf.1 hr.1, ihb hb hf.2 hr.2]

theorem starAll_noRef {ls ns : List Leaf} (h : starAll ls = some ns) :
    ∀ l ∈ ls, l.kind ≠ .ref := by
  induction ls generalizing ns with
  | nil => simp
  | cons a ls ih =>
    simp only [starAll, Option.bind_eq_bind, Option.bind_eq_some_iff] at h
    obtain ⟨a', ha, ls', hls, -⟩ := h
    intro l hl
    rcases List.mem_cons.mp hl with rfl | hl
    · intro hk
      simp [Leaf.star, hk] at ha
    · exact ih hls l hl

theorem starAll_leafOf (c : List Nat) (os : List (Nat × Nat × Bool)) :
    starAll (os.map (leafOf c)) = some (os.map fun o => { leafOf c o with starred := true }) := by
  induction os with
  | nil => rfl
  | cons o os ih =>
    rw [List.map_cons, starAll, ih]
    rfl

/-- `*` before a group. -/
theorem group_nodes {e : Expr} {c : List Nat} {ls ns : List Leaf} (hf : FlowExpr e)
    {s : Sub} (he : e.eval = some s) (hls : ls = (s.mapCond c).mentioned)
    (h : starAll (unique ls) = some ns) :
    (ns.map fun l => (l.name, l.func)).Perm ((added (.star e)).map fun a => (a.1, some a.2)) ∧
    ∀ l ∈ ns, l.kind = .action ∧ l.starred = true := by
  have hnr : NoStarredRef.NoRef e := by
    apply noRef_of_mentioned he
    intro l hl hk
    have : l.mapCond c ∈ unique ls := by
      rw [mem_unique, hls, Sub.mentioned_mapCond]
      exact List.mem_map_of_mem hl
    refine starAll_noRef h _ this ?_
    unfold Leaf.mapCond
    split <;> exact hk
  have hm : ls = (occurrences e).map (leafOf c) := by
    rw [hls, Sub.mentioned_mapCond, mentioned_eq he hf hnr, List.map_map]
    apply List.map_congr_left
    intro o _
    exact mapCond_leafOf c o
  rw [hm, unique_map (leafOf_inj c), starAll_leafOf, Option.some.injEq] at h
  subst h
  constructor
  · rw [List.map_map, added, List.map_map]
    exact (unique_perm_dedup _).map _
  · intro l hl
    obtain ⟨o, -, rfl⟩ := List.mem_map.mp hl
    exact ⟨rfl, rfl⟩

theorem noStarredGroup_leaf {e : Expr} {s : Sub} (h : e.eval = some s)
    (hg : NoStarredGroup (.star e)) : s.isLeaf = true := by
  induction e generalizing s with
  | action n f => cases h; rfl
  | ref n => cases h; rfl
  | step n f => cases h; rfl
  | star e ih =>
    simp only [Expr.eval, Option.bind_eq_bind, Option.bind_eq_some_iff] at h
    obtain ⟨s0, h0, h⟩ := h
    rw [Sub.star_isLeaf h]
    exact ih h0 hg.1
  | par a b _ _ =>
    obtain ⟨e', he⟩ := hg.2
    cases he
  | seq a b _ _ =>
    obtain ⟨e', he⟩ := hg.2
    cases he

/-- A leaf value of a flow expression. -/
theorem leaf_of_flow {e : Expr} {l : Leaf} (h : e.eval = some (.leaf l)) (hf : FlowExpr e)
    (hk : l.kind ≠ .ref) : ∃ n f st, l = ⟨.action, n, st, [], some f⟩ ∧ occurrences e = [(n, f, st)] := by
  have hty : l.kind = .action := by
    induction e generalizing l with
    | action n f => cases h; rfl
    | ref n => cases h; exact absurd rfl hk
    | step n f => exact hf.elim
    | star e ih =>
      simp only [Expr.eval, Option.bind_eq_bind, Option.bind_eq_some_iff] at h
      obtain ⟨s0, h0, h⟩ := h
      cases s0 with
      | leaf l0 =>
        simp only [Sub.star, Option.map_eq_some_iff] at h
        obtain ⟨l', hl, h⟩ := h
        cases h
        have hk0 : l0.kind ≠ .ref := by
          intro h
          simp [Leaf.star, h] at hl
        have := ih h0 hf hk0
        simp only [Leaf.star, this, Option.some.injEq] at hl
        subst hl
        rfl
      | par _ _ _ => cases h
      | seq _ _ _ _ => cases h
    | par a b _ _ =>
      simp only [Expr.eval, Option.bind_eq_bind, Option.bind_eq_some_iff] at h
      obtain ⟨sa, ha, sb, hb, h⟩ := h
      cases h
    | seq a b _ _ =>
      simp only [Expr.eval, Option.bind_eq_bind, Option.bind_eq_some_iff] at h
      obtain ⟨sa, ha, sb, hb, h⟩ := h
      cases h
  have hnr : NoStarredRef.NoRef e := by
    apply noRef_of_mentioned h
    intro x hx
    simp only [Sub.mentioned, List.mem_singleton] at hx
    subst hx
    simp [Leaf.ty, hty]
  have hm := mentioned_eq h hf hnr
  simp only [Sub.mentioned] at hm
  cases ho : occurrences e with
  | nil => rw [ho] at hm; simp at hm
  | cons o os =>
    rw [ho, List.map_cons, List.cons.injEq] at hm
    obtain ⟨h1, h2⟩ := hm
    have h3 : os = [] := by simpa using h2.symm
    subst h3
    obtain ⟨on, of, ost⟩ := o
    refine ⟨on, of, ost, ?_, rfl⟩
    rw [show l = l.ty by simp [Leaf.ty, hty], h1]
    simp [leafOf]

/-- The nodes of a flow fragment are the added actions. -/
theorem nodes_spec {e : Expr} {s : Sub} {c : List Nat} {ns : List Leaf} (he : e.eval = some s)
    (hf : FlowExpr e) (h : (s.mapCond c).nodes = some ns) :
    (ns.map fun l => (l.name, l.func)).Perm ((added e).map fun a => (a.1, some a.2)) ∧
    ∀ l ∈ ns, l.kind = .action ∧ l.starred = true ∧ (NoStarredGroup e → l.cond = c) := by
  induction e generalizing s ns with
  | action n f =>
    cases he
    simp only [Sub.mapCond, Sub.nodes, Leaf.mapCond] at h
    cases h
    simp [Leaf.isValue, added]
  | ref n =>
    cases he
    simp only [Sub.mapCond, Sub.nodes, Leaf.mapCond] at h
    cases h
    simp [Leaf.isValue, added]
  | step n f => exact hf.elim
  | star e ih =>
    simp only [Expr.eval, Option.bind_eq_bind, Option.bind_eq_some_iff] at he
    obtain ⟨s0, h0, hs⟩ := he
    cases s0 with
    | leaf l =>
      simp only [Sub.star, Option.map_eq_some_iff] at hs
      obtain ⟨l', hl, rfl⟩ := hs
      have hk0 : l.kind ≠ .ref := by
        intro h
        simp [Leaf.star, h] at hl
      obtain ⟨n, f, st, rfl, ho⟩ := leaf_of_flow h0 hf hk0
      simp only [Leaf.star, Option.some.injEq] at hl
      subst hl
      simp only [Sub.mapCond, Sub.nodes, Leaf.mapCond, and_self, if_true, Leaf.isValue, List.nil_append,
        Option.some.injEq] at h
      subst h
      simp [added, ho, Leaf.ty]
    | par st l r =>
      cases hs
      have hcomp : Sub.isLeaf (.par st l r) = false := rfl
      have := group_nodes (e := e) (c := c) hf h0 rfl (by
        simpa [Sub.mapCond, Sub.nodes, Sub.mentioned, Sub.mentioned_mapCond, Sub.mentioned_init] using h)
      refine ⟨this.1, fun l hl => ⟨(this.2 l hl).1, (this.2 l hl).2, fun hg => ?_⟩⟩
      rw [noStarredGroup_leaf h0 hg] at hcomp
      cases hcomp
    | seq st ec l r =>
      cases hs
      have hcomp : Sub.isLeaf (.seq st ec l r) = false := rfl
      have := group_nodes (e := e) (c := c) hf h0 rfl (by
        simpa [Sub.mapCond, Sub.nodes, Sub.mentioned, Sub.mentioned_mapCond, Sub.mentioned_init] using h)
      refine ⟨this.1, fun l hl => ⟨(this.2 l hl).1, (this.2 l hl).2, fun hg => ?_⟩⟩
      rw [noStarredGroup_leaf h0 hg] at hcomp
      cases hcomp
  | par a b iha ihb =>
    simp only [Expr.eval, Option.bind_eq_bind, Option.bind_eq_some_iff] at he
    obtain ⟨sa, ha, sb, hb, he⟩ := he
    cases he
    simp only [Sub.mapCond, Sub.nodes, Bool.false_eq_true, if_false, Option.bind_eq_bind,
      Option.bind_eq_some_iff] at h
    obtain ⟨na, hna, nb, hnb, h⟩ := h
    cases h
    obtain ⟨p1, q1⟩ := iha ha hf.1 hna
    obtain ⟨p2, q2⟩ := ihb hb hf.2 hnb
    refine ⟨by simpa [added] using p1.append p2, fun l hl => ?_⟩
    rcases List.mem_append.mp hl with hl | hl
    · exact ⟨(q1 l hl).1, (q1 l hl).2.1, fun hg => (q1 l hl).2.2 hg.1⟩
    · exact ⟨(q2 l hl).1, (q2 l hl).2.1, fun hg => (q2 l hl).2.2 hg.2⟩
  | seq a b iha ihb =>
    simp only [Expr.eval, Option.bind_eq_bind, Option.bind_eq_some_iff] at he
    obtain ⟨sa, ha, sb, hb, he⟩ := he
    cases he
    simp only [Sub.mapCond, Sub.nodes, Bool.false_eq_true, if_false, Option.bind_eq_bind,
      Option.bind_eq_some_iff] at h
    obtain ⟨na, hna, nb, hnb, h⟩ := h
    cases h
    obtain ⟨p1, q1⟩ := iha ha hf.1 hna
    obtain ⟨p2, q2⟩ := ihb hb hf.2 hnb
    refine ⟨by simpa [added] using p1.append p2, fun l hl => ?_⟩
    rcases List.mem_append.mp hl with hl | hl
    · exact ⟨(q1 l hl).1, (q1 l hl).2.1, fun hg => (q1 l hl).2.2 hg.1⟩
    · exact ⟨(q2 l hl).1, (q2 l hl).2.1, fun hg => (q2 l hl).2.2 hg.2⟩

end Verif.Flow
