import Verif.Flow.CheckProps

/-!
# C35 and C72 for all flows: what conditions mean, also for starred groups

`C35_conditional_partial` and `C72_rejected_partial` leave out `*` before a group, for which the
properties are false. The theorems here say for every flow what happens instead: only actions with a `*`
of their own keep the conditions around them.
-/
namespace Verif.Flow.Spec
open Verif.Flow

/-- The actions an expression adds, each with whether a `*` stands directly before it. -/
def addedHow : Expr → List (Nat × Nat × Bool)
  | .action _ _ => []
  | .ref _ => []
  | .step _ _ => []
  | .star e => (occurrences (.star e)).dedup
  | .par a b => addedHow a ++ addedHow b
  | .seq a b => addedHow a ++ addedHow b

/-- What the expression `*((1 && *2) >> 3)` adds. -/
example : addedHow (.star (.seq (.par (.action 1 10) (.star (.action 2 20))) (.action 3 30))) =
    [(1, 10, false), (2, 20, true), (3, 30, false)] := by decide

end Verif.Flow.Spec

namespace Verif.Flow
open Spec

theorem group_how {e : Expr} {c : List Nat} {ls ns : List Leaf} (hf : FlowExpr e) {s : Sub}
    (he : e.eval = some s) (hs : s.isLeaf = false) (hls : ls = (s.mapCond c).mentioned)
    (h : starAll (unique ls) = some ns) :
    (ns.map fun l => (l.name, l.func, l.cond)).Perm
      ((addedHow (.star e)).map fun a => (a.1, some a.2.1, if a.2.2 then c else [])) := by
  have hnr : NoStarredRef.NoRef e := by
    apply noRef_of_mentioned he
    intro l hl hk
    have : l.mapCond c ∈ unique ls := by
      rw [mem_unique, hls, Sub.mentioned_mapCond]
      exact List.mem_map_of_mem hl
    refine starAll_noRef h _ this ?_
    unfold Leaf.mapCond
    split <;> exact hk
  have hm : ls = (occurrences e).map (leafOf c) := by
    rw [hls, Sub.mentioned_mapCond, mentioned_eq he hf hnr, List.map_map]
    apply List.map_congr_left
    intro o _
    exact mapCond_leafOf c o
  rw [hm, unique_map (leafOf_inj c), starAll_leafOf, Option.some.injEq] at h
  subst h
  rw [List.map_map, addedHow, occurrences_star he, hs]
  exact (unique_perm_dedup _).map _

/-- The nodes of a fragment with their conditions. -/
theorem nodes_how {e : Expr} {s : Sub} {c : List Nat} {ns : List Leaf} (he : e.eval = some s)
    (hf : FlowExpr e) (h : (s.mapCond c).nodes = some ns) :
    (ns.map fun l => (l.name, l.func, l.cond)).Perm
      ((addedHow e).map fun a => (a.1, some a.2.1, if a.2.2 then c else [])) := by
  induction e generalizing s ns with
  | action n f =>
    cases he
    simp only [Sub.mapCond, Sub.nodes, Leaf.mapCond] at h
    cases h
    simp [Leaf.isValue, addedHow]
  | ref n =>
    cases he
    simp only [Sub.mapCond, Sub.nodes, Leaf.mapCond] at h
    cases h
    simp [Leaf.isValue, addedHow]
  | step n f => exact hf.elim
  | star e ih =>
    simp only [Expr.eval, Option.bind_eq_bind, Option.bind_eq_some_iff] at he
    obtain ⟨s0, h0, hs⟩ := he
    cases s0 with
    | leaf l =>
      simp only [Sub.star, Option.map_eq_some_iff] at hs
      obtain ⟨l', hl, rfl⟩ := hs
      have hk0 : l.kind ≠ .ref := by
        intro h
        simp [Leaf.star, h] at hl
      obtain ⟨n, f, st, rfl, ho⟩ := leaf_of_flow h0 hf hk0
      simp only [Leaf.star, Option.some.injEq] at hl
      subst hl
      simp only [Sub.mapCond, Sub.nodes, Leaf.mapCond, and_self, if_true, Leaf.isValue, List.nil_append,
        Option.some.injEq] at h
      subst h
      simp [addedHow, occurrences_star h0, ho, Leaf.ty, Sub.isLeaf]
    | par st l r =>
      cases hs
      exact group_how (c := c) hf h0 rfl rfl (by
        simpa [Sub.mapCond, Sub.nodes, Sub.mentioned, Sub.mentioned_mapCond, Sub.mentioned_init] using h)
    | seq st ec l r =>
      cases hs
      exact group_how (c := c) hf h0 rfl rfl (by
        simpa [Sub.mapCond, Sub.nodes, Sub.mentioned, Sub.mentioned_mapCond, Sub.mentioned_init] using h)
  | par a b iha ihb =>
    simp only [Expr.eval, Option.bind_eq_bind, Option.bind_eq_some_iff] at he
    obtain ⟨sa, ha, sb, hb, he⟩ := he
    cases he
    simp only [Sub.mapCond, Sub.nodes, Bool.false_eq_true, if_false, Option.bind_eq_bind,
      Option.bind_eq_some_iff] at h
    obtain ⟨na, hna, nb, hnb, h⟩ := h
    cases h
    simpa [addedHow] using (iha ha hf.1 hna).append (ihb hb hf.2 hnb)
  | seq a b iha ihb =>
    simp only [Expr.eval, Option.bind_eq_bind, Option.bind_eq_some_iff] at he
    obtain ⟨sa, ha, sb, hb, he⟩ := he
    cases he
    simp only [Sub.mapCond, Sub.nodes, Bool.false_eq_true, if_false, Option.bind_eq_bind,
      Option.bind_eq_some_iff] at h
    obtain ⟨na, hna, nb, hnb, h⟩ := h
    cases h
    simpa [addedHow] using (iha ha hf.1 hna).append (ihb hb hf.2 hnb)

/-- All nodes of a program with their conditions. -/
theorem allNodes_how {fs : List Frag} {ss : List Sub} {ts : List Leaf} (hss : evalAll fs = some ss)
    (hts : allNodes ss = some ts) (hf : ∀ f ∈ fs, FlowExpr f.expr) :
    (ts.map fun l => (l.name, l.func, l.cond)).Perm (fs.flatMap fun f =>
      (addedHow f.expr).map fun a => (a.1, some a.2.1, if a.2.2 then f.whens.flatten else [])) := by
  induction fs generalizing ss ts with
  | nil => cases hss; cases hts; simp
  | cons f fs ih =>
    simp only [evalAll, Option.bind_eq_bind, Option.bind_eq_some_iff] at hss
    obtain ⟨s, hs, ss', hss, h⟩ := hss
    cases h
    simp only [allNodes, Option.bind_eq_bind, Option.bind_eq_some_iff] at hts
    obtain ⟨na, hna, nb, hnb, h⟩ := hts
    cases h
    obtain ⟨s0, h0, rfl⟩ := Frag.eval_eq hs
    rw [List.map_append, List.flatMap_cons]
    exact (nodes_how h0 (hf f List.mem_cons_self) hna).append
      (ih hss hnb fun f hf' => hf f (List.mem_cons_of_mem _ hf'))

/-- The node that was added here. -/
theorem node_how {fs : List Frag} {ss : List Sub} {ts : List Leaf} (hss : evalAll fs = some ss)
    (hts : allNodes ss = some ts) (hf : ∀ f ∈ fs, FlowExpr f.expr) {f : Frag} (hfm : f ∈ fs)
    {a : Nat × Nat × Bool} (ha : a ∈ addedHow f.expr) :
    ∃ l ∈ ts, l.name = a.1 ∧ l.func = some a.2.1 ∧ l.cond = if a.2.2 then f.whens.flatten else [] := by
  have h := (allNodes_how hss hts hf).symm.subset
    (List.mem_flatMap.mpr ⟨f, hfm, List.mem_map_of_mem ha⟩)
  obtain ⟨l, hl, e⟩ := List.mem_map.mp h
  simp only [Prod.mk.injEq] at e
  exact ⟨l, hl, e⟩

/-- C35, exactly and for every flow that builds: an action has a place in the built flow. If it was
added with a `*` of its own, it runs exactly when all predicates of all conditions around it are true
when the flow reaches that place; if it was added by a `*` before a group, it always runs. -/
theorem C35_exact (picks : Nat → Nat) (fs : List Frag) (out : List Leaf)
    (hf : ∀ f ∈ fs, FlowExpr f.expr) (h : flow picks fs = some out) (f : Frag) (hfm : f ∈ fs)
    (a : Nat × Nat × Bool) (ha : a ∈ addedHow f.expr) :
    ∃ k, k < out.length ∧ ∀ ρ : Nat → Nat → Bool,
      (∃ c ∈ run ρ out, c.2.name = a.1 ∧ c.2.func = some a.2.1) ↔
        (a.2.2 = true → ∀ w ∈ f.whens, ∀ p ∈ w, ρ k p = true) := by
  obtain ⟨g, hp, hgr⟩ := flow_sorted h
  obtain ⟨ss, ts, hss, hts, -, -, -, hd, -, hi⟩ := program_sorted hf hp
  obtain ⟨l, hl, hla, hlf, hlc⟩ := node_how hss hts hf hfm ha
  have hlo : l ∈ out := by
    by_contra hc
    exact empty_iff.mp hgr l ((hi.keys l).mpr ⟨hl, hc⟩)
  obtain ⟨k, hk, hkl⟩ := List.getElem_of_mem hlo
  refine ⟨k, hk, fun ρ => ?_⟩
  constructor
  · rintro ⟨⟨i, x⟩, hc, hx, -⟩ hown w hw p hp
    rw [run, runFrom_mem] at hc
    obtain ⟨j, rfl, hj, hpred⟩ := hc
    have hxo : x ∈ out := List.mem_of_getElem? hj
    have hxl : x = l := List.inj_on_of_nodup_map hd (hi.sub x hxo) hl (hx.trans hla.symm)
    subst hxl
    have hjk : j = k := by
      obtain ⟨hjlt, hje⟩ := List.getElem?_eq_some_iff.mp hj
      exact (List.Nodup.getElem_inj_iff hi.nodupOut).mp (hje.trans hkl.symm)
    subst hjk
    rw [hown, if_pos rfl] at hlc
    have := hpred p (by rw [hlc]; exact List.mem_flatten.mpr ⟨w, hw, hp⟩)
    simpa using this
  · intro hall
    refine ⟨(k, l), ?_, hla, hlf⟩
    rw [run, runFrom_mem]
    refine ⟨k, by simp, by rw [List.getElem?_eq_getElem hk, hkl], fun p hp => ?_⟩
    rw [hlc] at hp
    split at hp
    · next hown =>
      obtain ⟨w, hw, hpw⟩ := List.mem_flatten.mp hp
      exact hall hown w hw p hpw
    · cases hp

/-- C72, exactly and for every program: the error about conditions is given exactly when some ordering
lacks a predicate that is around an action that was added with a `*` of its own. -/
theorem C72_exact (picks : Nat → Nat) (fs : List Frag) (h : WellFormed fs)
    (h1 : program picks fs ≠ .missing) (h2 : program picks fs ≠ .duplicate) :
    program picks fs = .conditions ↔
      ∃ f ∈ fs, ∃ x y, Follows f.expr x y ∧ ∃ f' ∈ fs, ∃ a ∈ addedHow f'.expr,
        a.2.2 = true ∧ (a.1 = x ∨ a.1 = y) ∧ ∃ w ∈ f'.whens, ∃ p ∈ w, ∀ w' ∈ f.whens, p ∉ w' := by
  obtain ⟨ss, ts, hss, hts⟩ := wellFormed_total h
  have hf : ∀ f ∈ fs, FlowExpr f.expr := fun f hf => (h f hf).1
  obtain ⟨-, hk⟩ := allNodes_flow hss hts hf
  have hno : nodesOf ss ts = ts := nodesOf_flow fun l hl => (hk l hl).1
  have hb := build_spec picks hts (by
    rw [hno]
    exact fun l hl => createNode_action (hk l hl).1)
  rw [hno, mentionedNames_eq hss] at hb
  have hprog : program picks fs = build picks ss := by
    rw [program, hss]
  rw [hprog] at h1 h2 ⊢
  rcases hb with ⟨-, h⟩ | ⟨hn, ⟨-, h⟩ | ⟨hd, hb⟩⟩
  · exact absurd h h1
  · exact absurd h h2
  have hneg : build picks ss = .conditions ↔ ¬ CondsOk ts (ss.flatMap Sub.edges) := by
    rcases hb with ⟨hc, h⟩ | ⟨hc, o, g, h, -⟩
    · rw [h]
      exact ⟨fun _ => hc, fun _ => rfl⟩
    · rw [h]
      exact ⟨fun h => (by cases h), fun h => absurd hc h⟩
  rw [hneg]
  have origin : ∀ l ∈ ts, ∀ p ∈ l.cond, ∃ f' ∈ fs, ∃ a ∈ addedHow f'.expr, a.2.2 = true ∧
      a.1 = l.name ∧ ∃ w ∈ f'.whens, p ∈ w := by
    intro l hl p hp
    have := (allNodes_how hss hts hf).subset
      (List.mem_map_of_mem (f := fun l : Leaf => (l.name, l.func, l.cond)) hl)
    obtain ⟨f', hf', hm⟩ := List.mem_flatMap.mp this
    obtain ⟨a, ha, e⟩ := List.mem_map.mp hm
    simp only [Prod.mk.injEq] at e
    rw [← e.2.2] at hp
    split at hp
    · next hown =>
      obtain ⟨w, hw, hpw⟩ := List.mem_flatten.mp hp
      exact ⟨f', hf', a, ha, hown, e.1, w, hw, hpw⟩
    · cases hp
  constructor
  · intro hc
    by_contra hcon
    apply hc
    intro e he x hx y hy hxe hye p hp
    obtain ⟨es, ed, ec⟩ := e
    simp only at hxe hye ⊢
    subst hxe hye
    obtain ⟨f, hfm, hfo, rfl⟩ := (prog_edges hss _ _ _).mp he
    by_contra hpc
    apply hcon
    have hpc' : ∀ w' ∈ f.whens, p ∉ w' := fun w' hw' hpw => hpc (List.mem_flatten.mpr ⟨w', hw', hpw⟩)
    rcases List.mem_append.mp hp with hp | hp
    · obtain ⟨f', hf', a, ha, hown, hn, w, hw, hpw⟩ := origin x hx p hp
      exact ⟨f, hfm, _, _, hfo, f', hf', a, ha, hown, Or.inl hn, w, hw, p, hpw, hpc'⟩
    · obtain ⟨f', hf', a, ha, hown, hn, w, hw, hpw⟩ := origin y hy p hp
      exact ⟨f, hfm, _, _, hfo, f', hf', a, ha, hown, Or.inr hn, w, hw, p, hpw, hpc'⟩
  · rintro ⟨f, hfm, x, y, hxy, f', hf', a, ha, hown, hin, w, hw, p, hpw, hpc⟩ hc
    have hmem := hxy.mem
    have hx : x ∈ ts.map (·.name) := (hn x).mpr (List.mem_flatMap.mpr ⟨f, hfm, hmem.1⟩)
    have hy : y ∈ ts.map (·.name) := (hn y).mpr (List.mem_flatMap.mpr ⟨f, hfm, hmem.2⟩)
    obtain ⟨lx, hlx, rfl⟩ := List.mem_map.mp hx
    obtain ⟨ly, hly, rfl⟩ := List.mem_map.mp hy
    have he := (prog_edges hss lx.name ly.name f.whens.flatten).mpr ⟨f, hfm, hxy, rfl⟩
    obtain ⟨l, hl, hla, -, hlc⟩ := node_how hss hts hf hf' ha
    rw [hown, if_pos rfl] at hlc
    have hpl : p ∈ l.cond := by rw [hlc]; exact List.mem_flatten.mpr ⟨w, hw, hpw⟩
    have : p ∈ f.whens.flatten := by
      apply hc _ he lx hlx ly hly rfl rfl
      rw [List.mem_append]
      rcases hin with hin | hin
      · rw [← List.inj_on_of_nodup_map hd hl hlx (hla.trans hin)]
        exact Or.inl hpl
      · rw [← List.inj_on_of_nodup_map hd hl hly (hla.trans hin)]
        exact Or.inr hpl
    obtain ⟨w', hw', hpw'⟩ := List.mem_flatten.mp this
    exact hpc w' hw' hpw'

/-- Non-vacuity: `when(7)(extend<flow>(*(1 && *2)))` builds a flow, in which 1 always runs and 2 under
the condition. -/
example : (flow (fun _ => 0) [⟨[[7]], .star (.par (.action 1 10) (.star (.action 2 20)))⟩]).map
      (fun out => ((run (fun _ _ => false) out).map (·.2.name), (run (fun _ _ => true) out).map (·.2.name))) =
    some ([1], [1, 2]) := by decide +kernel

/-- Non-vacuity: with an unconditional ordering of 1 before 2 it is refused, because of 2; the ordering
of 1 before an unconditional 3 is accepted. -/
example :
    program (fun _ => 0) [⟨[[7]], .star (.par (.action 1 10) (.star (.action 2 20)))⟩,
      ⟨[], .seq (.ref 1) (.ref 2)⟩] = .conditions ∧
    (flow (fun _ => 0) [⟨[[7]], .star (.par (.action 1 10) (.star (.action 2 20)))⟩,
      ⟨[], .seq (.ref 1) (.star (.action 3 30))⟩]).isSome = true := by
  constructor <;> decide +kernel

end Verif.Flow
