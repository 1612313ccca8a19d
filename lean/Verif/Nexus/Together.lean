import Verif.Nexus.Props
/-! # C83 whatever order the grouping leaves -/
namespace Verif.Nexus
open Spec

variable {A : Type} {mk : Nat → A → Option A} {names : Nat → Option Nat}

theorem args_of_wrapped : ∀ (l : List (Node A)) (m : List (Ext A)), l.mapM (wrapNode mk) = some m →
    m.map (·.args) = l.map fun n => (n.args.mapM (wrap mk n.conds)).getD [] := by
  intro l
  induction l with
  | nil => intro m h; cases h; rfl
  | cons n l ih =>
    intro m h
    rw [List.mapM_cons] at h
    cases hn : wrapNode mk n with
    | none => rw [hn] at h; cases h
    | some e =>
      rw [hn] at h
      cases hl : l.mapM (wrapNode mk) with
      | none => rw [hl] at h; cases h
      | some m' =>
        rw [hl] at h
        cases h
        rw [List.map_cons, List.map_cons, ih m' hl, (wrapExt_some hn).2]
        rfl

theorem wrapped_values : ∀ (l : List (Node A)) (ws : List (List A)),
    l.mapM (fun n => n.args.mapM (wrap mk n.conds)) = some ws →
    ws = l.map fun n => (n.args.mapM (wrap mk n.conds)).getD [] := by
  intro l
  induction l with
  | nil => intro ws h; cases h; rfl
  | cons n l ih =>
    intro ws h
    rw [List.mapM_cons] at h
    cases hn : n.args.mapM (wrap mk n.conds) with
    | none => rw [hn] at h; cases h
    | some a =>
      rw [hn] at h
      cases hl : l.mapM (fun n => n.args.mapM (wrap mk n.conds)) with
      | none => rw [hl] at h; cases h
      | some ws' =>
        rw [hl] at h
        cases h
        rw [List.map_cons, hn, ← ih ws' hl]
        rfl

/-- The extensions with arguments are those of the configuration. -/
theorem service_groups {c : Cfg A} {es : List (Ext A)}
    (h : ((allNodes [] [] c).filter Node.active).mapM (wrapNode mk) = some es) (s : Nat) {ws : List (List A)}
    (hws : ((activeNodes c).filter fun n => locate names c.exported n.target = some s).mapM
        (fun n => n.args.mapM (wrap mk n.conds)) = some ws) :
    ((es.filter fun e => locate names c.exported e.target = some s).map (·.args)).filter (fun w => !w.isEmpty) =
      ws.filter fun w => !w.isEmpty := by
  have h1 := mapM_filter (fun n : Node A => decide (locate names c.exported n.target = some s))
    (fun e : Ext A => decide (locate names c.exported e.target = some s)) h (fun n e hw => by
      rw [(wrapExt_some hw).1])
  rw [args_of_wrapped _ _ h1, wrapped_values _ _ hws, activeNodes]
  let g : Node A → List (List A) := fun n =>
    if (decide (locate names c.exported n.target = some s) && n.active) = true then
      [(n.args.mapM (wrap mk n.conds)).getD []].filter fun w => !w.isEmpty else []
  have hflat : ∀ l : List (Node A),
      ((l.filter fun a => decide (locate names c.exported a.target = some s) && a.active).map
        fun n => (n.args.mapM (wrap mk n.conds)).getD []).filter (fun w => !w.isEmpty) = l.flatMap g := by
    intro l
    induction l with
    | nil => rfl
    | cons n l ih =>
      rw [List.flatMap_cons, ← ih, List.filter_cons]
      by_cases hn : (decide (locate names c.exported n.target = some s) && n.active) = true
      · simp only [if_pos hn, g, List.map_cons]
        rw [List.filter_cons, List.filter_cons]
        split <;> simp
      · rw [if_neg hn]
        simp only [g, if_neg hn, List.nil_append]
  rw [List.filter_filter, List.filter_filter, hflat, hflat]
  apply allNodes_nodes
  intro n hn
  simp only [g, hn, List.mapM_nil]
  split <;> rfl

theorem flatten_nonempty (ws : List (List A)) : (ws.filter fun w => !w.isEmpty).flatten = ws.flatten := by
  induction ws with
  | nil => rfl
  | cons w ws ih =>
    rw [List.filter_cons]
    cases w with
    | nil => simpa using ih
    | cons a w => simp [ih]

/-- **C83** (part) Whatever order the grouping leaves: the arguments of one extension are added one after the other from
left to right, and nothing of another extension between them; for every service the extensions are those that the
configuration lists, in some order. -/
theorem C83_together (arrange : List (Ext A) → List (Ext A)) (hp : ∀ l, (arrange l).Perm l) (c : Cfg A)
    (bs : List (Nat × List A)) (h : builders mk names arrange c = some bs) :
    ∀ s args, (s, args) ∈ bs → ∃ ws order : List (List A),
      ((activeNodes c).filter fun n => locate names c.exported n.target = some s).mapM
        (fun n => n.args.mapM (wrap mk n.conds)) = some ws ∧
      order.Perm (ws.filter fun w => !w.isEmpty) ∧ args = order.flatten := by
  intro s args hm
  obtain ⟨es, ks, he, -, rfl⟩ := builders_some h
  obtain ⟨t, -, e⟩ := List.mem_map.mp hm
  cases e
  obtain ⟨ws, hws, -⟩ := service_args (names := names) he s
  refine ⟨ws, (((arrange (es.filter fun e => locate names c.exported e.target = some s)).map (·.args)).reverse).filter
    fun w => !w.isEmpty, hws, ?_, ?_⟩
  · rw [← service_groups he s hws]
    exact ((List.reverse_perm _).trans ((hp _).map _)).filter _
  · rw [flatten_nonempty, addAll_eq]

/-- **C83** (part) The order is that of the statement exactly if the grouping does not change
the order in which arguments are added. -/
theorem C83_exact (arrange : List (Ext A) → List (Ext A)) (c : Cfg A) (es : List (Ext A)) (s : Nat)
    (he : c.extends mk = some es) (bs : List (Nat × List A)) (h : builders mk names arrange c = some bs)
    (args : List A) (hm : (s, args) ∈ bs) : ∃ ws,
      ((activeNodes c).filter fun n => locate names c.exported n.target = some s).mapM
        (fun n => n.args.mapM (wrap mk n.conds)) = some ws ∧
      (args = ws.reverse.flatten ↔
        addAll (arrange (es.filter fun e => locate names c.exported e.target = some s)) =
          addAll (es.filter fun e => locate names c.exported e.target = some s)) := by
  obtain ⟨es', ks, he', -, rfl⟩ := builders_some h
  rw [extends_nodes, he'] at he
  cases he
  obtain ⟨t, -, e⟩ := List.mem_map.mp hm
  cases e
  obtain ⟨ws, hws, h2⟩ := service_args (names := names) he' s
  exact ⟨ws, hws, by rw [h2]⟩

/-- A grouping that turns each group around, and two extensions with two arguments each. -/
example : builders exMk exNames List.reverse (.config [.exports [1], .extend (.type 1) [100, 102],
      .extend (.type 1) [101, 103]]) = some [(1, [100, 102, 101, 103])] ∧
    builders exMk exNames id (.config [.exports [1], .extend (.type 1) [100, 102],
      .extend (.type 1) [101, 103]]) = some [(1, [101, 103, 100, 102])] := by
  decide +kernel
example : ∀ l : List (Ext Nat), l.reverse.Perm l := fun l => List.reverse_perm l

end Verif.Nexus
