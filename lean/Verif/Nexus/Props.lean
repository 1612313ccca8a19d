import Verif.Nexus.BuildLemmas
import Verif.Handler.MixProps

/-! # Properties of configurations and services -/
namespace Verif.Nexus
open Spec Verif.Match

variable {A : Type} {mk : Nat → A → Option A} {names : Nat → Option Nat}

/-! ## C51 -/

/-- Each argument of each extension that counts reaches the builder of its service exactly once, wrapped in
the runtime conditions around it, and a builder gets nothing else. There is one builder for each exported
service and none for any other. `arrange` is any order of the extensions of one service. -/
theorem C51_once (arrange : List (Ext A) → List (Ext A)) (harr : ∀ l, (arrange l).Perm l) (c : Cfg A)
    (bs : List (Nat × List A)) (h : builders mk names arrange c = some bs) :
    (bs.map (·.1)).Nodup ∧ (∀ s, s ∈ bs.map (·.1) ↔ s ∈ c.exported) ∧
    ∀ s args, (s, args) ∈ bs → ∃ ws,
      ((activeNodes c).filter fun n => locate names c.exported n.target = some s).mapM
        (fun n => n.args.mapM (wrap mk n.conds)) = some ws ∧ args.Perm ws.flatten := by
  obtain ⟨hn, hk⟩ := builders_keys h
  refine ⟨hn, hk, ?_⟩
  intro s args hm
  obtain ⟨es, ks, he, -, rfl⟩ := builders_some h
  obtain ⟨t, -, e⟩ := List.mem_map.mp hm
  cases e
  obtain ⟨ws, h1, h2⟩ := service_args (names := names) he s
  refine ⟨ws, h1, ?_⟩
  refine (addAll_perm (harr _)).trans ?_
  rw [h2]
  exact (List.reverse_perm ws).flatten

/-- The service of an extension: the type that is written, or the first exported service with the name. -/
theorem C51_service (ex : List Nat) (t : Target) (s : Nat) : locate names ex t = some s ↔
    (∃ p q, ex = p ++ s :: q ∧ (t = .type s ∨ ∃ n, t = .name n ∧ names s = some n ∧ ∀ x ∈ p, names x ≠ some n)) := by
  cases t with
  | type s' =>
    simp only [locate]
    constructor
    · intro h
      split at h
      · next hm =>
        cases h
        obtain ⟨p, q, e⟩ := List.append_of_mem hm
        exact ⟨p, q, e, .inl rfl⟩
      · cases h
    · rintro ⟨p, q, e, h | ⟨n, h, -⟩⟩
      · cases h
        rw [if_pos (by rw [e]; exact List.mem_append_right _ List.mem_cons_self)]
      · cases h
  | name n =>
    simp only [locate]
    rw [List.find?_eq_some_iff_append]
    constructor
    · rintro ⟨h1, p, q, e, h2⟩
      exact ⟨p, q, e, .inr ⟨n, rfl, by simpa using h1, fun x hx => by simpa using h2 x hx⟩⟩
    · rintro ⟨p, q, e, h | ⟨m, h, h1, h2⟩⟩
      · cases h
      · cases h
        exact ⟨by simpa using h1, p, q, e, fun x hx => by simpa using h2 x hx⟩

/-- Plain functions: no runtime condition can be applied. -/
def exMk : Nat → Nat → Option Nat := fun _ _ => none
/-- Services 1 and 2 have the names 11 and 12. -/
def exNames : Nat → Option Nat := fun s => if s = 1 then some 11 else if s = 2 then some 12 else none

/-- Two services, components, extensions by type and by name, a part that is left out. -/
def exCfg : Cfg Nat := .config [.components [.config [.exports [1], .extend (.type 2) [100, 101]],
    .config [.extend (.name 11) [102], .constIf [true] [.extend (.type 1) [103, 104]]]],
  .exports [2, 3], .constIf [false] [.extend (.type 1) [105], .exports [9]]]

example : builders exMk exNames id exCfg = some [(1, [103, 104, 102]), (2, [100, 101]), (3, [])] := by
  decide +kernel

/-! ## C52 -/

mutual

theorem extends_prune : ∀ c : Cfg A, (prune c).extends mk = c.extends mk ∧ (prune c).exported = c.exported
  | .config cs => by
    rw [prune, Cfg.extends, Cfg.extends, Cfg.exported, Cfg.exported]
    exact extendsAll_prune cs
  | .components cs => by
    rw [prune, Cfg.extends, Cfg.extends, Cfg.exported, Cfg.exported]
    exact extendsAll_prune cs
  | .exports ss => by rw [prune]; exact ⟨rfl, rfl⟩
  | .extend t as => by rw [prune]; exact ⟨rfl, rfl⟩
  | .constIf ps cs => by
    rw [prune, Cfg.extends, Cfg.exported]
    split
    · rw [Cfg.extends, Cfg.exported]
      exact extendsAll_prune cs
    · exact ⟨rfl, rfl⟩
  | .runIf c cs => by
    rw [prune, Cfg.extends, Cfg.extends, Cfg.exported, Cfg.exported, (extendsAll_prune cs).1]
    exact ⟨rfl, (extendsAll_prune cs).2⟩

theorem extendsAll_prune : ∀ cs : List (Cfg A), extendsAll mk (pruneAll cs) = extendsAll mk cs ∧
    exportedAll (pruneAll cs) = exportedAll cs
  | [] => ⟨rfl, rfl⟩
  | c :: cs => by
    rw [pruneAll, extendsAll, extendsAll, exportedAll, exportedAll, (extends_prune c).1, (extends_prune c).2,
      (extendsAll_prune cs).1, (extendsAll_prune cs).2]
    exact ⟨rfl, rfl⟩

end

/-- A configuration means the same as the one in which the parts under false compile-time conditions are
deleted and the parts under true ones stand without the condition, at any depth. -/
theorem C52_prune (arrange : List (Ext A) → List (Ext A)) (c : Cfg A) :
    builders mk names arrange (prune c) = builders mk names arrange c ∧ (prune c).exported = c.exported := by
  rw [builders, builders, (extends_prune c).1, (extends_prune (mk := mk) c).2]
  exact ⟨rfl, rfl⟩

mutual

theorem nodes_prune (conds : List Nat) : ∀ c : Cfg A, ∀ consts, consts.all id = true →
    (nodes [] conds (prune c)).map (fun n => (n.conds, n.target, n.args)) =
      ((nodes consts conds c).filter Node.active).map (fun n => (n.conds, n.target, n.args))
  | .config cs => fun consts h => by rw [prune, nodes, nodes]; exact nodesAll_prune conds cs consts h
  | .components cs => fun consts h => by rw [prune, nodes, nodes]; exact nodesAll_prune conds cs consts h
  | .exports ss => fun consts h => by rw [prune, nodes, nodes]; rfl
  | .extend t as => fun consts h => by
    rw [prune, nodes, nodes, List.filter_cons, if_pos (by exact h)]
    rfl
  | .constIf ps cs => fun consts h => by
    rw [prune, nodes]
    cases hp : ps.all id with
    | true =>
      rw [if_pos rfl, nodes]
      exact nodesAll_prune conds cs (ps ++ consts) (by rw [List.all_append, hp, h]; rfl)
    | false =>
      rw [if_neg (by decide), nodes, nodesAll]
      have : (nodesAll (ps ++ consts) conds cs).filter Node.active = [] := by
        rw [List.filter_eq_nil_iff]
        intro n hn ha
        have := List.mem_filter.mpr ⟨nodesAll_sub _ _ cs n hn, ha⟩
        rw [goAll_inactive (by rw [List.all_append, hp]; rfl)] at this
        cases this
      rw [this]
  | .runIf c cs => fun consts h => by rw [prune, nodes, nodes]; exact nodesAll_prune (c :: conds) cs consts h

theorem nodesAll_prune (conds : List Nat) : ∀ cs : List (Cfg A), ∀ consts, consts.all id = true →
    (nodesAll [] conds (pruneAll cs)).map (fun n => (n.conds, n.target, n.args)) =
      ((nodesAll consts conds cs).filter Node.active).map (fun n => (n.conds, n.target, n.args))
  | [] => fun _ _ => rfl
  | c :: cs => fun consts h => by
    rw [pruneAll, nodesAll, nodesAll, List.filter_append, List.map_append, List.map_append,
      nodes_prune conds c consts h, nodesAll_prune conds cs consts h]

end

/-- The extensions of the configuration without the parts that are left out are the extensions that stand
under true conditions only. -/
theorem C52_nodes (c : Cfg A) : (nodes [] [] (prune c)).map (fun n => (n.conds, n.target, n.args)) =
    ((nodes [] [] c).filter fun n => n.consts.all id).map (fun n => (n.conds, n.target, n.args)) :=
  nodes_prune [] c [] rfl

example : (nodes [] [] exCfg).map (fun n => (n.consts, n.args)) =
      [([], [100, 101]), ([], [102]), ([true], [103, 104]), ([false], [105])] ∧
    (nodes [] [] (prune exCfg)).map (·.args) = [[100, 101], [102], [103, 104]] := by
  decide +kernel

/-! ## C53 -/

theorem runLoop_ids {V : Type} (fs : List (Fn V)) (v : V) : (runLoop fs v).map (·.1) = fs.map (·.id) := by
  induction fs generalizing v with
  | nil => rfl
  | cons f fs ih => rw [runLoop, List.map_cons, List.map_cons, ih]

/-- A callback service calls each of its functions exactly once, in the order in which they were added. -/
theorem C53_once {V : Type} (copyable : Bool) (fs : List (Fn V)) (v : V) (tr : List (Nat × V))
    (h : runCallbacks copyable fs v = some tr) : tr.map (·.1) = fs.map (·.id) := by
  rw [runCallbacks] at h
  split at h
  · cases h
    exact runLoop_ids fs v
  · split at h
    · cases h
      exact runLoop_ids fs v
    · cases h

/-- Every function gets the given arguments when none of them changes arguments that it takes by
reference. Missing from the full statement: functions that do. -/
theorem C53_arguments_partial {V : Type} (copyable : Bool) (fs : List (Fn V)) (v : V) (tr : List (Nat × V))
    (h : runCallbacks copyable fs v = some tr) (hf : ∀ f ∈ fs, ∀ w, f.effect w = w) :
    tr = fs.map fun f => (f.id, v) := by
  have key : ∀ fs : List (Fn V), (∀ f ∈ fs, ∀ w, f.effect w = w) → runLoop fs v = fs.map fun f => (f.id, v) := by
    intro fs
    induction fs with
    | nil => intro _; rfl
    | cons f fs ih =>
      intro hf
      rw [runLoop, hf f List.mem_cons_self, ih fun g hg => hf g (List.mem_cons_of_mem _ hg)]
      rfl
  rw [runCallbacks] at h
  split at h
  · cases h
    exact key fs hf
  · split at h
    · cases h
      exact key fs hf
    · cases h

/-- C53: every function gets what the functions called before it have made of the given arguments, and all of them
get the arguments as given exactly when no function with one after it changes them. -/
theorem C53_exact {V : Type} (copyable : Bool) (fs : List (Fn V)) (v : V) (tr : List (Nat × V))
    (h : runCallbacks copyable fs v = some tr) :
    (∀ (i : Nat) (f : Fn V), fs[i]? = some f → tr[i]? = some (f.id, (fs.take i).foldl (fun w g => g.effect w) v)) ∧
    (tr = (fs.map fun f => (f.id, v)) ↔ ∀ f ∈ fs.dropLast, f.effect v = v) := by
  have htr : tr = runLoop fs v := by
    rw [runCallbacks] at h
    split at h
    · cases h; rfl
    · split at h
      · cases h; rfl
      · cases h
  subst htr
  clear h
  constructor
  · induction fs generalizing v with
    | nil => intro i f hf; simp at hf
    | cons g fs ih =>
      intro i f hf
      cases i with
      | zero => simp at hf; subst hf; simp [runLoop]
      | succ i => simpa [runLoop] using ih (g.effect v) i f (by simpa using hf)
  · induction fs with
    | nil => simp [runLoop]
    | cons g fs ih =>
      cases fs with
      | nil => simp [runLoop]
      | cons g' fs =>
        rw [List.dropLast_cons_cons, List.forall_mem_cons, ← ih]
        constructor
        · intro hh
          simp only [runLoop, List.map_cons, List.cons.injEq, Prod.mk.injEq, true_and] at hh
          refine ⟨hh.1, ?_⟩
          rw [runLoop, hh.1] at *
          simp [hh.2]
        · rintro ⟨h1, h2⟩
          rw [runLoop, h1, h2]
          rfl

/-- The program compiles except for two or more functions with an argument that cannot be copied. -/
theorem C53_compiles {V : Type} (copyable : Bool) (fs : List (Fn V)) (v : V) :
    (runCallbacks copyable fs v).isSome ↔ copyable = true ∨ fs.length ≤ 1 := by
  rw [runCallbacks]
  split
  · next h => simp [h]
  · next h =>
    split
    · next h2 => simp [h2]
    · next h2 => simp [h, h2]

example : runCallbacks true [⟨1, id⟩, ⟨2, id⟩, ⟨1, id⟩] 5 = some [(1, 5), (2, 5), (1, 5)] := by decide

/-- A function that takes its argument by reference and changes it changes what the next function gets. -/
theorem C53_violated_reference :
    runCallbacks true [⟨1, fun x => x + 1⟩, ⟨2, id⟩] 5 = some [(1, 5), (2, 6)] := by decide

/-! ## C83 -/

/-- When the grouping keeps the order, the extensions of a service are added in the reverse of the order
in which the configuration lists them, the arguments of one extension from left to right. Missing from the
full statement: that the grouping of the library used (`stdx::gather_by`) keeps the order. -/
theorem C83_order_partial (c : Cfg A) (bs : List (Nat × List A)) (h : builders mk names id c = some bs) :
    ∀ s args, (s, args) ∈ bs → ∃ ws,
      ((activeNodes c).filter fun n => locate names c.exported n.target = some s).mapM
        (fun n => n.args.mapM (wrap mk n.conds)) = some ws ∧ args = ws.reverse.flatten := by
  intro s args hm
  obtain ⟨es, ks, he, -, rfl⟩ := builders_some h
  obtain ⟨t, -, e⟩ := List.mem_map.mp hm
  cases e
  exact service_args (names := names) he s

/-- So functions are not called in the order in which the configuration lists them. -/
example :
    builders exMk exNames id (.config [.exports [1], .extend (.type 1) [100], .extend (.type 1) [101]]) =
      some [(1, [101, 100])] := by
  decide +kernel

/-! ## C85 -/

/-- The configuration compiles exactly when every extension that counts names an exported service, none by
name stands under a runtime condition, and every argument accepts the runtime conditions around it. -/
theorem C85_compiles (arrange : List (Ext A) → List (Ext A)) (c : Cfg A) :
    (builders mk names arrange c).isSome ↔ ∀ n ∈ activeNodes c,
      (∃ s, locate names c.exported n.target = some s) ∧ (n.conds = [] ∨ ∃ s, n.target = .type s) ∧
      ∀ a ∈ n.args, (wrap mk n.conds a).isSome := by
  rw [builders, extends_nodes]
  have hsub : ∀ n ∈ activeNodes c, n ∈ (allNodes [] [] c).filter Node.active := by
    intro n hn
    rw [activeNodes, List.mem_filter] at hn
    exact List.mem_filter.mpr ⟨nodes_sub [] [] c n hn.1, hn.2⟩
  constructor
  · intro h n hn
    cases he : ((allNodes [] [] c).filter Node.active).mapM (wrapNode mk) with
    | none => rw [he] at h; cases h
    | some es =>
      obtain ⟨e, hem, hw⟩ := mem_of_mapM he (hsub n hn)
      have hs := wrapExt_isSome.mp (by rw [wrapNode] at hw; rw [hw]; rfl)
      refine ⟨?_, hs⟩
      rw [he] at h
      simp only [Option.bind_eq_bind, Option.bind_some] at h
      cases hk : keyed names c.exported es with
      | none => rw [hk] at h; cases h
      | some ks =>
        obtain ⟨h1, h2⟩ := keyed_some hk
        rw [← h1] at hem
        obtain ⟨k, hkm, rfl⟩ := List.mem_map.mp hem
        have := h2 k hkm
        rw [(wrapExt_some hw).1] at this
        exact ⟨k.1, this⟩
  · intro h
    have hall : ∀ n ∈ (allNodes [] [] c).filter Node.active,
        (∃ s, locate names c.exported n.target = some s) ∧ (wrapNode mk n).isSome := by
      intro n hn
      rw [List.mem_filter] at hn
      rcases (mem_allNodes [] rfl [] c n).mp hn with hn' | ⟨-, -, ha, s, hs, ht⟩
      · obtain ⟨h1, h2⟩ := h n (List.mem_filter.mpr hn')
        exact ⟨h1, wrapExt_isSome.mpr h2⟩
      · refine ⟨⟨s, ?_⟩, wrapExt_isSome.mpr ⟨.inr ⟨s, ht⟩, ?_⟩⟩
        · rw [ht, locate, if_pos hs]
        · rw [ha]
          intro a ha
          cases ha
    have h1 : (((allNodes [] [] c).filter Node.active).mapM (wrapNode mk)).isSome :=
      (mapM_isSome _ _).mpr fun n hn => (hall n hn).2
    obtain ⟨es, he⟩ := Option.isSome_iff_exists.mp h1
    have h2 : (keyed names c.exported es).isSome := by
      rw [keyed, mapM_isSome]
      intro e hem
      have : ∀ (l : List (Node A)) (m : List (Ext A)), l.mapM (wrapNode mk) = some m → ∀ e ∈ m, ∃ n ∈ l,
          wrapNode mk n = some e := by
        intro l
        induction l with
        | nil => intro m h e he; cases h; cases he
        | cons n l ih =>
          intro m h e he
          rw [List.mapM_cons] at h
          cases hn : wrapNode mk n with
          | none => rw [hn] at h; cases h
          | some e' =>
            rw [hn] at h
            cases hl : l.mapM (wrapNode mk) with
            | none => rw [hl] at h; cases h
            | some m' =>
              rw [hl] at h
              cases h
              rcases List.mem_cons.mp he with rfl | he
              · exact ⟨n, List.mem_cons_self, hn⟩
              · obtain ⟨x, hx, e1⟩ := ih m' hl e he
                exact ⟨x, List.mem_cons_of_mem _ hx, e1⟩
      obtain ⟨n, hn, hw⟩ := this _ _ he e hem
      obtain ⟨s, hs⟩ := (hall n hn).1
      rw [(wrapExt_some hw).1]
      change ((locate names c.exported n.target).map _).isSome
      rw [hs]
      rfl
    obtain ⟨ks, hk⟩ := Option.isSome_iff_exists.mp h2
    rw [he]
    simp only [Option.bind_eq_bind, Option.bind_some]
    rw [hk]
    rfl

/-- An extension of a service that is exported only under a false condition; one under a false condition
itself may name anything. -/
example : builders exMk exNames id (.config [.constIf [false] [.exports [1]], .extend (.type 1) [100]]) = none ∧
    builders exMk exNames id (.config [.exports [1], .constIf [false] [.extend (.type 7) [100]]]) =
      some [(1, [])] := by
  decide +kernel

/-! ## C84 -/

mutual

theorem exported_byType (type : Nat → Nat) : ∀ c : Cfg A, (byType type c).exported = c.exported
  | .config cs => by rw [byType, Cfg.exported, Cfg.exported]; exact exportedAll_byType type cs
  | .components cs => by rw [byType, Cfg.exported, Cfg.exported]; exact exportedAll_byType type cs
  | .exports ss => by rw [byType]
  | .extend (.type s) as => by rw [byType]
  | .extend (.name n) as => by rw [byType]; rfl
  | .constIf ps cs => by rw [byType, Cfg.exported, Cfg.exported, exportedAll_byType type cs]
  | .runIf c cs => by rw [byType, Cfg.exported, Cfg.exported]; exact exportedAll_byType type cs

theorem exportedAll_byType (type : Nat → Nat) : ∀ cs : List (Cfg A),
    exportedAll (byTypeAll type cs) = exportedAll cs
  | [] => rfl
  | c :: cs => by rw [byTypeAll, exportedAll, exportedAll, exported_byType type c, exportedAll_byType type cs]

end

/-- The target written as a type. -/
def Target.byType (type : Nat → Nat) : Target → Target
  | .name n => .type (type n)
  | .type s => .type s

mutual

theorem allNodes_byType (type : Nat → Nat) (consts : List Bool) (conds : List Nat) : ∀ c : Cfg A,
    allNodes consts conds (byType type c) =
      (allNodes consts conds c).map fun n => { n with target := n.target.byType type }
  | .config cs => by rw [byType, allNodes, allNodes]; exact goAll_byType type consts conds cs
  | .components cs => by rw [byType, allNodes, allNodes]; exact goAll_byType type consts conds cs
  | .exports ss => by
    rw [byType, allNodes, List.map_map]
    rfl
  | .extend (.type s) as => by rw [byType, allNodes]; rfl
  | .extend (.name n) as => by rw [byType, allNodes, allNodes]; rfl
  | .constIf ps cs => by rw [byType, allNodes, allNodes]; exact goAll_byType type (ps ++ consts) conds cs
  | .runIf c cs => by rw [byType, allNodes, allNodes]; exact goAll_byType type consts (c :: conds) cs

theorem goAll_byType (type : Nat → Nat) (consts : List Bool) (conds : List Nat) : ∀ cs : List (Cfg A),
    allNodes.goAll consts conds (byTypeAll type cs) =
      (allNodes.goAll consts conds cs).map fun n => { n with target := n.target.byType type }
  | [] => rfl
  | c :: cs => by
    rw [byTypeAll, allNodes.goAll, allNodes.goAll, List.map_append, allNodes_byType type consts conds c,
      goAll_byType type consts conds cs]

end

theorem unique_name {ex : List Nat} (hu : ∀ a ∈ ex, ∀ b ∈ ex, ∀ n, names a = some n → names b = some n → a = b)
    {s n : Nat} (hs : s ∈ ex) (hn : names s = some n) : locate names ex (.name n) = some s := by
  rw [locate]
  cases h : ex.find? fun s => names s = some n with
  | none => simpa [hn] using List.find?_eq_none.mp h s hs
  | some t =>
    have ht : names t = some n := by simpa using List.find?_some h
    rw [hu t (List.mem_of_find?_eq_some h) s hs n ht hn]

/-- C84: extending by name is extending by its type the exported service with that name that the configuration
lists first, when no extension by name stands under a runtime condition. -/
theorem C84_first (arrange : List (Ext A) → List (Ext A)) (c : Cfg A) (type : Nat → Nat)
    (ht : ∀ m ∈ activeNodes c, ∀ n, m.target = .name n →
      m.conds = [] ∧ c.exported.find? (fun s => names s = some n) = some (type n)) :
    ((builders mk names arrange c).map fun bs => bs.map (·.1)) =
      ((builders mk names arrange (byType type c)).map fun bs => bs.map (·.1)) ∧
    (arrange = id → builders mk names arrange c = builders mk names arrange (byType type c)) := by
  -- the groups agree
  have hnode : ∀ m ∈ (allNodes [] [] c).filter Node.active, m.conds = [] ∨ m.target.byType type = m.target := by
    intro m hm
    rw [List.mem_filter] at hm
    cases h : m.target with
    | type s => exact .inr rfl
    | name n =>
      rcases (mem_allNodes [] rfl [] c m).mp hm with hm' | ⟨-, -, -, s, -, h'⟩
      · exact .inl (ht m (List.mem_filter.mpr hm') n h).1
      · rw [h] at h'; cases h'
  have hloc : ∀ m ∈ (allNodes [] [] c).filter Node.active,
      locate names c.exported (m.target.byType type) = locate names c.exported m.target := by
    intro m hm
    rw [List.mem_filter] at hm
    cases h : m.target with
    | type s => rfl
    | name n =>
      rcases (mem_allNodes [] rfl [] c m).mp hm with hm' | ⟨-, -, -, s, -, h'⟩
      · have h1 := (ht m (List.mem_filter.mpr hm') n h).2
        rw [Target.byType, locate, locate, h1, if_pos (List.mem_of_find?_eq_some h1)]
      · rw [h] at h'; cases h'
  -- extensions of the other configuration
  let f : Ext A → Ext A := fun e => { e with target := e.target.byType type }
  have hwrap : ∀ m ∈ (allNodes [] [] c).filter Node.active,
      wrapNode mk { m with target := m.target.byType type } = (wrapNode mk m).map f := by
    intro m hm
    rcases hnode m hm with h | h
    · rw [wrapNode, wrapNode, h]
      rfl
    · rw [h]
      cases hw : wrapNode mk m with
      | none => rfl
      | some e =>
        have : e.target = m.target := (wrapExt_some hw).1
        rw [Option.map_some]
        congr 1
        simp only [f]
        rw [this, h, ← this]
  have hext : (byType type c).extends mk = (c.extends mk).map (List.map f) := by
    rw [extends_nodes, extends_nodes, allNodes_byType]
    have hfil : ((allNodes [] [] c).map fun n => { n with target := n.target.byType type }).filter Node.active =
        ((allNodes [] [] c).filter Node.active).map fun n => { n with target := n.target.byType type } := by
      rw [List.filter_map]
      rfl
    rw [hfil, mapM_map, mapM_congr hwrap]
    generalize (allNodes [] [] c).filter Node.active = l
    induction l with
    | nil => rfl
    | cons m l ih =>
      rw [List.mapM_cons, List.mapM_cons, ih]
      cases wrapNode mk m with
      | none => rfl
      | some e => cases l.mapM (wrapNode mk) <;> rfl
  have hkey : ∀ es, c.extends mk = some es → keyed names c.exported (es.map f) =
      (keyed names c.exported es).map (List.map fun k => (k.1, f k.2)) := by
    intro es he
    rw [extends_nodes] at he
    have hl : ∀ e ∈ es, locate names c.exported (f e).target = locate names c.exported e.target := by
      have : ∀ (l : List (Node A)) (es : List (Ext A)), (∀ m ∈ l,
          locate names c.exported (m.target.byType type) = locate names c.exported m.target) →
          l.mapM (wrapNode mk) = some es →
          ∀ e ∈ es, locate names c.exported (f e).target = locate names c.exported e.target := by
        intro l
        induction l with
        | nil => intro es _ h e he; cases h; cases he
        | cons n l ih =>
          intro es hn h e he
          rw [List.mapM_cons] at h
          cases hw : wrapNode mk n with
          | none => rw [hw] at h; cases h
          | some e' =>
            rw [hw] at h
            cases hl : l.mapM (wrapNode mk) with
            | none => rw [hl] at h; cases h
            | some m' =>
              rw [hl] at h
              cases h
              rcases List.mem_cons.mp he with rfl | he
              · have : e.target = n.target := (wrapExt_some hw).1
                simp only [f]
                rw [this]
                exact hn n List.mem_cons_self
              · exact ih m' (fun x hx => hn x (List.mem_cons_of_mem _ hx)) hl e he
      exact this _ es hloc he
    clear he
    rw [keyed, keyed, mapM_map]
    induction es with
    | nil => rfl
    | cons e es ih =>
      rw [List.mapM_cons, List.mapM_cons, hl e List.mem_cons_self,
        ih fun x hx => hl x (List.mem_cons_of_mem _ hx)]
      cases locate names c.exported e.target with
      | none => rfl
      | some s => cases es.mapM fun e => (locate names c.exported e.target).map fun s => (s, e) <;> rfl
  constructor
  · rw [builders, builders, hext, exported_byType]
    cases he : c.extends mk with
    | none => rfl
    | some es =>
      simp only [Option.bind_eq_bind, Option.bind_some, Option.map_some]
      rw [hkey es he]
      cases keyed names c.exported es with
      | none => rfl
      | some ks =>
        simp only [Option.bind_some, Option.map_some, Option.pure_def, gather, List.map_map]
        congr 1
  · intro harr
    subst harr
    rw [builders, builders, hext, exported_byType]
    cases he : c.extends mk with
    | none => rfl
    | some es =>
      simp only [Option.bind_eq_bind, Option.bind_some, Option.map_some]
      rw [hkey es he]
      cases keyed names c.exported es with
      | none => rfl
      | some ks =>
        simp only [Option.bind_some, Option.map_some, Option.pure_def, gather, List.map_map]
        congr 1
        apply List.map_congr_left
        intro s _
        simp only [Function.comp_apply, id_eq, addAll_eq, List.map_map, List.filter_map]
        congr 1

/-- Extending by name is extending the exported service with that name by its type, when exported services
with the same name are the same and no extension by name stands under a runtime condition. Missing from the
full statement: those two cases; `C84_first` and `C84_not` say what happens then. -/
theorem C84_by_name_partial (arrange : List (Ext A) → List (Ext A)) (c : Cfg A) (type : Nat → Nat)
    (hu : ∀ a ∈ c.exported, ∀ b ∈ c.exported, ∀ n, names a = some n → names b = some n → a = b)
    (ht : ∀ m ∈ activeNodes c, ∀ n, m.target = .name n →
      m.conds = [] ∧ type n ∈ c.exported ∧ names (type n) = some n) :
    ((builders mk names arrange c).map fun bs => bs.map (·.1)) =
      ((builders mk names arrange (byType type c)).map fun bs => bs.map (·.1)) ∧
    (arrange = id → builders mk names arrange c = builders mk names arrange (byType type c)) :=
  C84_first arrange c type fun m hm n hn =>
    ⟨(ht m hm n hn).1, unique_name hu (ht m hm n hn).2.1 (ht m hm n hn).2.2⟩

/-- C84: a configuration with an extension by name under a runtime condition, or with one for a name that no
exported service has, does not compile. -/
theorem C84_not (arrange : List (Ext A) → List (Ext A)) (c : Cfg A) (m : Node A) (hm : m ∈ activeNodes c) (n : Nat)
    (hn : m.target = .name n) (h : m.conds ≠ [] ∨ ∀ s ∈ c.exported, names s ≠ some n) :
    builders mk names arrange c = none := by
  cases hb : builders mk names arrange c with
  | none => rfl
  | some bs =>
    exfalso
    obtain ⟨es, ks, he, hk, -⟩ := builders_some hb
    rw [activeNodes, List.mem_filter] at hm
    have hm' := List.mem_filter.mpr ((mem_allNodes [] rfl [] c m).mpr (.inl hm))
    obtain ⟨e, hee, hw⟩ := mem_of_mapM he hm'
    rw [wrapNode] at hw
    rcases h with h | h
    · have := wrapExt_isSome.mp (by rw [hw]; rfl : (wrapExt mk m.conds ⟨m.target, m.args⟩).isSome)
      simp_all
    · obtain ⟨k, -, hl⟩ := mem_of_mapM hk hee
      rw [(wrapExt_some hw).1] at hl
      simp only [hn, locate, Option.map_eq_some_iff] at hl
      obtain ⟨s, hs, -⟩ := hl
      exact h s (List.mem_of_find?_eq_some hs) (by simpa using List.find?_some hs)

example : builders exMk exNames id exCfg = builders exMk exNames id (byType (· - 10) exCfg) := by
  decide +kernel

example : builders exMk (fun _ => some 0) id (.config [.exports [1, 2], .extend (.name 0) [100]]) =
    builders exMk (fun _ => some 0) id (byType (fun _ => 1) (.config [.exports [1, 2], .extend (.name 0) [100]])) ∧
    builders exMk exNames id (.config [.exports [1], .extend (.name 12) [100]]) = none := by
  decide +kernel

/-- Of two services with the same name only the first gets the extension by name. -/
theorem C84_violated_same_name :
    builders exMk (fun _ => some 0) id (.config [.exports [1, 2], .extend (.name 0) [100]]) =
      some [(1, [100]), (2, [])] := by
  decide +kernel

/-- An extension by name under a runtime condition does not compile, the same by type does. -/
theorem C84_violated_runtime (c : Nat) (a : Nat) :
    builders (fun _ x => some x) exNames id (.config [.exports [1], .runIf c [.extend (.name 11) [a]]]) = none ∧
    builders (fun _ x => some x) exNames id (.config [.exports [1], .runIf c [.extend (.type 1) [a]]]) =
      some [(1, [a])] :=
  ⟨rfl, rfl⟩

/-! ## C86 -/

theorem init_service {ex : List Nat} {bs : List (Nat × List A)} (l : List Nat) (v : Vars A) (t : Nat) :
    (l.foldl (initOne names ex bs) v).service t = if t ∈ l then builder? bs t else v.service t := by
  induction l generalizing v with
  | nil => simp
  | cons s l ih =>
    rw [List.foldl_cons, ih]
    have h1 : (initOne names ex bs v s).service t = if t = s then builder? bs s else v.service t := by
      rw [initOne]
      cases names s <;> rfl
    by_cases hl : t ∈ l
    · rw [if_pos hl, if_pos (List.mem_cons_of_mem _ hl)]
    · rw [if_neg hl, h1]
      by_cases hs : t = s
      · rw [if_pos hs, hs, if_pos List.mem_cons_self]
      · rw [if_neg hs, if_neg (by simp [hs, hl])]

theorem init_byName {ex : List Nat} {bs : List (Nat × List A)} (l : List Nat) (v : Vars A) (m : Nat) :
    (l.foldl (initOne names ex bs) v).byName m =
      if some m ∈ l.map names then serviceByName names ex bs m else v.byName m := by
  induction l generalizing v with
  | nil => simp
  | cons s l ih =>
    rw [List.foldl_cons, ih]
    have h1 : (initOne names ex bs v s).byName m = if names s = some m then serviceByName names ex bs m
        else v.byName m := by
      rw [initOne]
      cases hn : names s with
      | none => rfl
      | some n =>
        dsimp only
        by_cases h : m = n
        · rw [if_pos h, if_pos (by rw [h]), h]
        · rw [if_neg h, if_neg (by simp only [Option.some.injEq]; exact fun e => h e.symm)]
    by_cases hl : some m ∈ l.map names
    · rw [if_pos hl, if_pos (by rw [List.map_cons]; exact List.mem_cons_of_mem _ hl)]
    · rw [if_neg hl, h1]
      by_cases hs : names s = some m
      · rw [if_pos hs, if_pos (by rw [List.map_cons, hs]; exact List.mem_cons_self)]
      · rw [if_neg hs, if_neg]
        rw [List.map_cons, List.mem_cons]
        rintro (h | h)
        · exact hs h.symm
        · exact hl h

theorem builder?_mem {bs : List (Nat × List A)} (hn : (bs.map (·.1)).Nodup) {s : Nat} {as : List A}
    (h : (s, as) ∈ bs) : builder? bs s = some as := by
  induction bs with
  | nil => cases h
  | cons b bs ih =>
    rw [List.map_cons, List.nodup_cons] at hn
    rw [builder?, List.find?_cons]
    rcases List.mem_cons.mp h with rfl | h
    · simp
    · have hne : b.1 ≠ s := by
        intro e
        exact hn.1 (e ▸ List.mem_map_of_mem h)
      simp only [hne, decide_false]
      exact ih hn.2 h

/-- After `init`, in whatever state before, every exported service runs what its own builder holds, and a
service that is not exported is as before. Before any `init` every service panics. -/
theorem C86_service (arrange : List (Ext A) → List (Ext A)) (c : Cfg A) (bs : List (Nat × List A))
    (h : builders mk names arrange c = some bs) (v : Vars A) :
    (∀ s as, (s, as) ∈ bs → (init names c.exported bs v).service s = some as) ∧
    (∀ s, s ∉ c.exported → (init names c.exported bs v).service s = v.service s) ∧
    (∀ s ∈ c.exported, ∃ as, (s, as) ∈ bs) ∧
    ∀ s, (Vars.start A).service s = none ∧ (Vars.start A).byName s = none := by
  obtain ⟨hn, hk⟩ := builders_keys h
  refine ⟨?_, ?_, ?_, fun _ => ⟨rfl, rfl⟩⟩
  · intro s as hm
    rw [init, init_service, if_pos (List.mem_map_of_mem hm), builder?_mem hn hm]
  · intro s hs
    rw [init, init_service, if_neg (fun h => hs ((hk s).mp h))]
  · intro s hs
    obtain ⟨b, hb, rfl⟩ := List.mem_map.mp ((hk s).mpr hs)
    exact ⟨b.2, hb⟩

/-- C86: after `init` invoking by name runs the exported service with that name that the configuration lists
first. -/
theorem C86_first (arrange : List (Ext A) → List (Ext A)) (c : Cfg A) (bs : List (Nat × List A))
    (h : builders mk names arrange c = some bs) (v : Vars A) (s n : Nat)
    (hs : c.exported.find? (fun s => names s = some n) = some s) :
    (init names c.exported bs v).byName n = (init names c.exported bs v).service s := by
  obtain ⟨hn, hk⟩ := builders_keys h
  have hm := List.mem_of_find?_eq_some hs
  have hsn : names s = some n := by simpa using List.find?_some hs
  rw [init, init_service, init_byName, if_pos, if_pos ((hk s).mpr hm), serviceByName, locate, hs]
  · rfl
  · exact List.mem_map.mpr ⟨s, (hk s).mpr hm, hsn⟩

/-- After `init` invoking a service by its name is invoking it by its type, when exported services with the
same name are the same. Missing from the full statement: several services with the same name, for which see
`C86_first`. -/
theorem C86_by_name_partial (arrange : List (Ext A) → List (Ext A)) (c : Cfg A) (bs : List (Nat × List A))
    (h : builders mk names arrange c = some bs) (v : Vars A)
    (hu : ∀ a ∈ c.exported, ∀ b ∈ c.exported, ∀ n, names a = some n → names b = some n → a = b)
    (s n : Nat) (hs : s ∈ c.exported) (hsn : names s = some n) :
    (init names c.exported bs v).byName n = (init names c.exported bs v).service s :=
  C86_first arrange c bs h v s n (unique_name hu hs hsn)

/-- Names that no exported service has are as before. -/
theorem C86_other_names (arrange : List (Ext A) → List (Ext A)) (c : Cfg A) (bs : List (Nat × List A))
    (h : builders mk names arrange c = some bs) (v : Vars A) (n : Nat)
    (hn : ∀ s ∈ c.exported, names s ≠ some n) : (init names c.exported bs v).byName n = v.byName n := by
  obtain ⟨-, hk⟩ := builders_keys h
  rw [init, init_byName, if_neg]
  intro hm
  obtain ⟨s, hs, e⟩ := List.mem_map.mp hm
  exact hn s ((hk s).mp hs) e

example : (builders exMk exNames id exCfg).map (fun bs =>
    let v := init exNames exCfg.exported bs (.start Nat)
    ((List.range 5).map v.service, v.byName 11, v.byName 12, v.byName 13)) =
    some ([none, some [103, 104, 102], some [100, 101], some [], none], some [103, 104, 102], some [100, 101], none) := by
  decide +kernel

/-- Two services with the same name, like two flows without a name: invoking by name runs the first. -/
theorem C86_violated_same_name :
    ∃ (c : Cfg Nat) (bs : List (Nat × List Nat)), builders exMk (fun _ => some 0) id c = some bs ∧
      (init (fun _ => some 0) c.exported bs (.start Nat)).service 2 = some [101] ∧
      (init (fun _ => some 0) c.exported bs (.start Nat)).byName 0 = some [100] :=
  ⟨.config [.exports [1, 2], .extend (.type 1) [100], .extend (.type 2) [101]], [(1, [100]), (2, [101])],
    by decide +kernel, by decide +kernel, by decide +kernel⟩

/-! ## C54, C87 -/

theorem leaf_init_conditional (c : List Nat) (l : Flow.Leaf) : l.ty.conditional c = l.conditional c := by
  cases l with
  | mk kind name starred cond func => cases kind <;> rfl

theorem init_conditional (c : List Nat) (e : Flow.Sub) : e.init.conditional c = e.conditional c := by
  induction e with
  | leaf l => rw [Flow.Sub.init, Flow.Sub.conditional, Flow.Sub.conditional, leaf_init_conditional]
  | par s l r hl hr => rw [Flow.Sub.init, Flow.Sub.conditional, Flow.Sub.conditional, hl, hr]
  | seq s ec l r hl hr => rw [Flow.Sub.init, Flow.Sub.conditional, Flow.Sub.conditional, hl, hr]

/-- Fragments of flows under nested conditions reach the flow builder as described for flows (C35, C72):
the conditions of `Verif.Flow.Frag` are the runtime conditions of the configuration. -/
theorem C54_flow (conds : List Nat) (e : Flow.Sub) :
    wrap mkCond conds (.frag e) = (Flow.applyWhens (conds.map fun c => [c]) e).map .frag := by
  induction conds generalizing e with
  | nil => rfl
  | cons c cs ih =>
    rw [wrap, List.map_cons, Flow.applyWhens]
    change (((e.init.conditional [c]).map Arg.frag).bind (wrap mkCond cs)) = _
    rw [init_conditional]
    cases e.conditional [c] with
    | none => rfl
    | some e' =>
      simp only [Option.map_some, Option.bind_some, Option.bind_eq_bind]
      exact ih e'

theorem wrap_cb {P : M RLeaf → Prop} (hP : Handler.Sound P) (conds : List Nat) (st : Bool) (f : Option Nat)
    (m : M RLeaf) (hm : P m) :
    ∃ m', wrap mkCond conds (.cb st f m) =
        some (.cb st (if st = true ∨ conds = [] then f else none) m') ∧
      ∀ e : WMsg, eval revalLeaf m' e.1 = (eval revalLeaf m e.1 && conds.all e.1.pred) := by
  induction conds generalizing f m with
  | nil => exact ⟨m, by simp [wrap], fun e => by simp⟩
  | cons c cs ih =>
    have h0 : P (.and m (.leaf (.pred c))) := (hP.and _ _).mpr ⟨hm, hP.leafPred c⟩
    obtain ⟨h1, h2⟩ := hP.simp _ h0
    have h3 : P (Handler.makeConditional c ⟨0, m⟩).matcher := hP.sop _ h1
    obtain ⟨m', e1, e2⟩ := ih (if st then f else none) _ h3
    refine ⟨m', ?_, ?_⟩
    · rw [wrap]
      change wrap mkCond cs (.cb st (if st then f else none) _) = _
      rw [e1]
      cases st <;> simp
    · intro e
      rw [e2]
      have h4 := h2 e
      rw [Handler.eval_rev, Handler.eval_rev] at h4
      have h5 : eval revalLeaf (Handler.makeConditional c ⟨0, m⟩).matcher e.1 =
          (eval revalLeaf m e.1 && e.1.pred c) := by
        simp only [Handler.makeConditional, opAnd, C03_sum_of_products_relational, h4, eval, revalLeaf]
      rw [h5, List.all_cons, Bool.and_assoc]

/-- A message callback under any number of nested runtime conditions accepts a message exactly when it would
accept it without them and all of them hold then, when all `==` and `!=` tests of a field use one constant.
Missing from the full statement: matchers that test a field for inequality with two constants, or use `!=`
together with other tests. -/
theorem C54_message_one_constant_partial (K : Field → Int) (conds : List Nat) (st : Bool) (f : Option Nat)
    (m : M RLeaf) (hm : LS (OneConst K) m) :
    ∃ f' m', wrap mkCond conds (.cb st f m) = some (.cb st f' m') ∧
      ∀ e : WMsg, eval revalLeaf m' e.1 = (eval revalLeaf m e.1 && conds.all e.1.pred) := by
  obtain ⟨m', h1, h2⟩ := wrap_cb (Handler.sound_oneConst K) conds st f m hm
  exact ⟨_, m', h1, h2⟩

/-- The same when `!=` and negated `==` are not used. -/
theorem C54_message_positive_partial (conds : List Nat) (st : Bool) (f : Option Nat)
    (m : M RLeaf) (hm : PosTree m) :
    ∃ f' m', wrap mkCond conds (.cb st f m) = some (.cb st f' m') ∧
      ∀ e : WMsg, eval revalLeaf m' e.1 = (eval revalLeaf m e.1 && conds.all e.1.pred) := by
  obtain ⟨m', h1, h2⟩ := wrap_cb Handler.sound_posTree conds st f m hm
  exact ⟨_, m', h1, h2⟩

/-- The same for matchers in which each field has one `==`/`!=` constant or is used without `!=` and negated
`==`, which covers both cases above and their mixtures. -/
theorem C54_message_mixed_partial (K : Field → Option Int) (conds : List Nat) (st : Bool) (f : Option Nat)
    (m : M RLeaf) (hm : MixTree K m) :
    ∃ f' m', wrap mkCond conds (.cb st f m) = some (.cb st f' m') ∧
      ∀ e : WMsg, eval revalLeaf m' e.1 = (eval revalLeaf m e.1 && conds.all e.1.pred) := by
  obtain ⟨m', h1, h2⟩ := wrap_cb (Handler.sound_mix K) conds st f m hm
  exact ⟨_, m', h1, h2⟩

/-- A plain function cannot be put under a runtime condition. -/
theorem C54_function (conds : List Nat) (h : conds ≠ []) (f : Nat) : wrap mkCond conds (.func f) = none := by
  cases conds with
  | nil => exact absurd rfl h
  | cons c cs => rfl

/-- `a == 5 and (b > 3 or p0)` under the conditions 1 and 2: accepted only when both hold. -/
def exCb : Option Arg :=
  wrap mkCond [1, 2] (.cb true (some 7) (.and (.leaf (.rel .eq Handler.exA 5))
    (.or (.leaf (.rel .gt Handler.exB 3)) (.leaf (.pred 0)))))

example : (exCb.map fun a => match a with
    | .cb _ _ m => [0, 1, 2, 3].map fun k => eval revalLeaf m
        { Handler.exMsg2 5 4 false with pred := fun p => (p == 1 && k % 2 == 1) || (p == 2 && k / 2 == 1) }
    | _ => []) = some [false, false, false, true] := by
  decide +kernel

/-- `(a != 5 or p0) and (a != 6 or p2)`. -/
def exTwo : M RLeaf :=
  opAnd relOps (opOr relOps (.leaf (.rel .ne Handler.exA 5)) (.leaf (.pred 0)))
    (opOr relOps (.leaf (.rel .ne Handler.exA 6)) (.leaf (.pred 2)))

/-- C54 fails for messages: the callback with the matcher `(a != 5 or p0) and (a != 6 or p2)` does not accept a
message with `a = 6` while `p0` and `p2` are false; under a runtime condition that holds it does. -/
theorem C54_violated_message : ∃ (m' : M RLeaf) (e : WMsg),
    wrap mkCond [1] (.cb true (some 7) (Handler.construct 7 exTwo []).matcher) = some (.cb true (some 7) m') ∧
    e.1.pred 1 = true ∧ eval revalLeaf (Handler.construct 7 exTwo []).matcher e.1 = false ∧
    eval revalLeaf m' e.1 = true := by
  refine ⟨(Handler.makeConditional 1 ⟨0, (Handler.construct 7 exTwo []).matcher⟩).matcher,
    ⟨{ Handler.exMsg2 6 0 false with pred := fun p => p == 1 },
      Handler.exMsg2_WT (p := false) (by decide) (by decide)⟩, rfl, rfl, ?_, ?_⟩
  · decide +kernel
  · decide +kernel

/-! ## C87 -/

/-- A callback whose callable has no state, or that is under no runtime condition, calls the function it was
given for each message that its matcher accepts. Missing from the full statement: function pointers under a
runtime condition. -/
theorem C87_callable_partial {P : M RLeaf → Prop} (hP : Handler.Sound P) (conds : List Nat) (st : Bool) (f : Nat)
    (m : M RLeaf) (hm : P m) (h : st = true ∨ conds = []) (e : WMsg) :
    ∃ f' m', wrap mkCond conds (.cb st (some f) m) = some (.cb st f' m') ∧
      handleCb f' m' e.1 = some (if eval revalLeaf m e.1 = true ∧ (∀ c ∈ conds, e.1.pred c = true) then [f] else []) := by
  obtain ⟨m', h1, h2⟩ := wrap_cb hP conds st (some f) m hm
  refine ⟨_, m', h1, ?_⟩
  rw [if_pos h, handleCb, h2]
  by_cases hc : eval revalLeaf m e.1 = true ∧ ∀ c ∈ conds, e.1.pred c = true
  · rw [if_pos hc, if_pos (by rw [hc.1, List.all_eq_true.mpr hc.2]; rfl)]
    rfl
  · rw [if_neg hc, if_neg]
    intro h
    rw [Bool.and_eq_true, List.all_eq_true] at h
    exact hc h

/-- A function pointer given to a callback under a runtime condition is lost: the accepted message leads to a
call through a null pointer, for every matcher of the class, every condition and every such message. -/
theorem C87_violated_pointer {P : M RLeaf → Prop} (hP : Handler.Sound P) (conds : List Nat) (hne : conds ≠ [])
    (f : Nat) (m : M RLeaf) (hm : P m) (e : WMsg) (he : eval revalLeaf m e.1 = true)
    (hc : ∀ c ∈ conds, e.1.pred c = true) :
    ∃ f' m', wrap mkCond conds (.cb false (some f) m) = some (.cb false f' m') ∧ handleCb f' m' e.1 = none := by
  obtain ⟨m', h1, h2⟩ := wrap_cb hP conds false (some f) m hm
  refine ⟨_, m', h1, ?_⟩
  rw [if_neg (by simp [hne]), handleCb, if_pos]
  · rfl
  · rw [h2, he, List.all_eq_true.mpr hc]
    rfl

/-- Exactly what a callback under runtime conditions does: for a message that is accepted, the function is called
when it is a callable without state or there is no condition; otherwise there is a call through a null pointer. -/
theorem C87_exact {P : M RLeaf → Prop} (hP : Handler.Sound P) (conds : List Nat) (st : Bool) (f : Nat)
    (m : M RLeaf) (hm : P m) (e : WMsg) :
    ∃ f' m', wrap mkCond conds (.cb st (some f) m) = some (.cb st f' m') ∧
      handleCb f' m' e.1 =
        if eval revalLeaf m e.1 = true ∧ (∀ c ∈ conds, e.1.pred c = true) then
          (if st = true ∨ conds = [] then some [f] else none) else some [] := by
  by_cases h : st = true ∨ conds = []
  · obtain ⟨f', m', h1, h2⟩ := C87_callable_partial hP conds st f m hm h e
    refine ⟨f', m', h1, ?_⟩
    rw [h2, if_pos h]
    split <;> rfl
  · obtain ⟨m', h1, h2⟩ := wrap_cb hP conds st (some f) m hm
    refine ⟨_, m', h1, ?_⟩
    rw [if_neg h, if_neg h, handleCb, h2]
    by_cases hc : eval revalLeaf m e.1 = true ∧ ∀ c ∈ conds, e.1.pred c = true
    · rw [if_pos hc, if_pos (by rw [hc.1, List.all_eq_true.mpr hc.2]; rfl)]
      rfl
    · rw [if_neg hc, if_neg]
      intro h
      rw [Bool.and_eq_true, List.all_eq_true] at h
      exact hc h

/-- The classes of matchers exist, with the message of the example above. -/
example : Handler.Sound PosTree ∧ PosTree (.leaf (.rel .gt Handler.exB 3)) ∧
    eval revalLeaf (.leaf (.rel .gt Handler.exB 3)) (Handler.exMsg2 5 4 true) = true :=
  ⟨Handler.sound_posTree, ⟨by show IntTy.InRange _ _; decide, fun h => h⟩, by decide +kernel⟩

end Verif.Nexus
