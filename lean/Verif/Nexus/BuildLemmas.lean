import Verif.Nexus.Lemmas

namespace Verif.Nexus
open Spec

variable {A : Type} {mk : Nat → A → Option A} {names : Nat → Option Nat}

/-! ## Wrapping -/

theorem wrap_nil : wrap mk [] = some := rfl

theorem wrapExt_some {cs : List Nat} {e e' : Ext A} (h : wrapExt mk cs e = some e') :
    e'.target = e.target ∧ e.args.mapM (wrap mk cs) = some e'.args := by
  induction cs generalizing e with
  | nil =>
    rw [wrapExt, Option.some.injEq] at h
    subst h
    refine ⟨rfl, ?_⟩
    have := mapM_some_eq (f := fun a : A => a) (l := e.args)
    rw [List.map_id'] at this
    exact this
  | cons c cs ih =>
    rw [wrapExt] at h
    cases h1 : condExt mk c e with
    | none => rw [h1] at h; cases h
    | some e1 =>
      rw [h1, Option.bind_some] at h
      obtain ⟨ht, ha⟩ := ih h
      rw [condExt] at h1
      cases hT : e.target with
      | name n => rw [hT] at h1; cases h1
      | type s =>
        rw [hT] at h1
        simp only [Option.map_eq_some_iff] at h1
        obtain ⟨as, h2, rfl⟩ := h1
        refine ⟨ht, ?_⟩
        rw [← ha]
        have := mapM_bind (mk c) (wrap mk cs) e.args
        rw [h2, Option.bind_some] at this
        exact this.symm

theorem wrapExt_isSome {cs : List Nat} {e : Ext A} : (wrapExt mk cs e).isSome ↔
    (cs = [] ∨ ∃ s, e.target = .type s) ∧ ∀ a ∈ e.args, (wrap mk cs a).isSome := by
  induction cs generalizing e with
  | nil => simp [wrapExt, wrap]
  | cons c cs ih =>
    rw [wrapExt, condExt]
    cases hT : e.target with
    | name n => simp
    | type s =>
      have hb := mapM_bind (mk c) (wrap mk cs) e.args
      have hm := mapM_isSome (fun a => (mk c a).bind (wrap mk cs)) e.args
      cases h2 : e.args.mapM (mk c) with
      | none =>
        rw [h2] at hb
        rw [← hb] at hm
        simp only [Option.map_none, Option.bind_none]
        constructor
        · intro h
          cases h
        · rintro ⟨-, h⟩
          exact absurd (hm.mpr h) (by simp)
      | some as =>
        rw [h2, Option.bind_some] at hb
        simp only [Option.map_some, Option.bind_some]
        rw [ih]
        constructor
        · rintro ⟨-, h⟩
          refine ⟨.inr ⟨s, rfl⟩, ?_⟩
          rw [← mapM_isSome] at h
          rw [hb] at h
          exact hm.mp h
        · rintro ⟨-, h⟩
          refine ⟨.inr ⟨s, rfl⟩, ?_⟩
          rw [← mapM_isSome, hb]
          exact hm.mpr h

/-! ## Groups -/

theorem mem_firsts {l : List Nat} {a : Nat} : a ∈ firsts l ↔ a ∈ l := by
  induction l with
  | nil => simp [firsts]
  | cons b l ih =>
    rw [firsts, List.mem_cons, List.mem_cons, List.mem_filter, ih]
    by_cases h : a = b
    · simp [h]
    · simp [h]

theorem firsts_nodup (l : List Nat) : (firsts l).Nodup := by
  induction l with
  | nil => exact List.nodup_nil
  | cons b l ih =>
    rw [firsts, List.nodup_cons]
    exact ⟨by simp, ih.filter _⟩

theorem mapM_filter {α β : Type} {f : α → Option β} {l : List α} {m : List β} (p : α → Bool) (q : β → Bool)
    (h : l.mapM f = some m) (hpq : ∀ x y, f x = some y → q y = p x) :
    (l.filter p).mapM f = some (m.filter q) := by
  induction l generalizing m with
  | nil => cases h; rfl
  | cons a l ih =>
    rw [List.mapM_cons] at h
    cases hf : f a with
    | none => rw [hf] at h; cases h
    | some b =>
      rw [hf] at h
      cases hl : l.mapM f with
      | none => rw [hl] at h; cases h
      | some m' =>
        rw [hl] at h
        cases h
        rw [List.filter_cons, List.filter_cons, hpq a b hf]
        cases p a with
        | true => simp only [if_true]; rw [List.mapM_cons, hf, ih hl]; rfl
        | false =>
          simp only [Bool.false_eq_true, if_false]
          exact ih hl

theorem keyed_some {ex : List Nat} {es : List (Ext A)} {ks : List (Nat × Ext A)}
    (h : keyed names ex es = some ks) :
    ks.map (·.2) = es ∧ ∀ k ∈ ks, locate names ex k.2.target = some k.1 := by
  induction es generalizing ks with
  | nil => cases h; exact ⟨rfl, fun _ h => by cases h⟩
  | cons e es ih =>
    rw [keyed, List.mapM_cons] at h
    cases hl : locate names ex e.target with
    | none => rw [hl] at h; cases h
    | some s =>
      rw [hl] at h
      cases hk : keyed names ex es with
      | none => rw [keyed] at hk; rw [hk] at h; cases h
      | some ks' =>
        have hk' := hk
        rw [keyed] at hk'
        rw [hk'] at h
        cases h
        obtain ⟨h1, h2⟩ := ih hk
        refine ⟨by rw [List.map_cons, h1], ?_⟩
        intro k hk
        rcases List.mem_cons.mp hk with rfl | hk
        · exact hl
        · exact h2 k hk

theorem group_eq {ex : List Nat} {es : List (Ext A)} {ks : List (Nat × Ext A)}
    (h : keyed names ex es = some ks) (s : Nat) :
    (ks.filter fun k => k.1 = s).map (·.2) = es.filter fun e => locate names ex e.target = some s := by
  obtain ⟨h1, h2⟩ := keyed_some h
  rw [← h1, List.filter_map]
  congr 1
  apply List.filter_congr
  intro k hk
  simp only [Function.comp_apply, h2 k hk, Option.some.injEq]

theorem addAll_eq (es : List (Ext A)) : addAll es = (es.map (·.args)).reverse.flatten := by
  induction es with
  | nil => rfl
  | cons e es ih =>
    rw [addAll, List.foldr_cons]
    change addAll es ++ e.args = _
    rw [ih]
    simp

theorem addAll_perm {l m : List (Ext A)} (h : l.Perm m) : (addAll l).Perm (addAll m) := by
  rw [addAll_eq, addAll_eq]
  refine List.Perm.flatten ?_
  exact ((List.reverse_perm _).trans (h.map _)).trans (List.reverse_perm _).symm

/-- What `builders` makes, in terms of the nodes. -/
theorem builders_some {arrange : List (Ext A) → List (Ext A)} {c : Cfg A} {bs : List (Nat × List A)}
    (h : builders mk names arrange c = some bs) :
    ∃ es ks, ((allNodes [] [] c).filter Node.active).mapM (wrapNode mk) = some es ∧
      keyed names c.exported es = some ks ∧
      bs = (firsts (ks.map (·.1))).map fun s =>
        (s, addAll (arrange (es.filter fun e => locate names c.exported e.target = some s))) := by
  rw [builders] at h
  rw [← extends_nodes]
  cases he : c.extends mk with
  | none => rw [he] at h; cases h
  | some es =>
    rw [he] at h
    simp only [Option.bind_eq_bind, Option.bind_some] at h
    cases hk : keyed names c.exported es with
    | none => rw [hk] at h; cases h
    | some ks =>
      rw [hk] at h
      cases h
      refine ⟨es, ks, rfl, hk, ?_⟩
      rw [gather, List.map_map]
      apply List.map_congr_left
      intro s _
      simp only [Function.comp_apply, group_eq hk]

/-- The extensions of one service: the arguments of the nodes, wrapped. -/
theorem service_args {c : Cfg A} {es : List (Ext A)}
    (h : ((allNodes [] [] c).filter Node.active).mapM (wrapNode mk) = some es) (s : Nat) :
    ∃ ws, ((activeNodes c).filter fun n => locate names c.exported n.target = some s).mapM
        (fun n => n.args.mapM (wrap mk n.conds)) = some ws ∧
      addAll (es.filter fun e => locate names c.exported e.target = some s) = ws.reverse.flatten := by
  have h1 := mapM_filter (fun n : Node A => decide (locate names c.exported n.target = some s))
    (fun e : Ext A => decide (locate names c.exported e.target = some s)) h (fun n e hw => by
      rw [(wrapExt_some hw).1])
  rw [List.filter_filter] at h1
  generalize hm : es.filter (fun e => decide (locate names c.exported e.target = some s)) = m at h1
  have hargs : ∀ (l : List (Node A)) (m : List (Ext A)), l.mapM (wrapNode mk) = some m →
      l.mapM (fun n => n.args.mapM (wrap mk n.conds)) = some (m.map (·.args)) := by
    intro l
    induction l with
    | nil => intro m h; cases h; rfl
    | cons n l ih =>
      intro m h
      rw [List.mapM_cons] at h ⊢
      cases hn : wrapNode mk n with
      | none => rw [hn] at h; cases h
      | some e =>
        rw [hn] at h
        cases hl : l.mapM (wrapNode mk) with
        | none => rw [hl] at h; cases h
        | some m' =>
          rw [hl] at h
          cases h
          rw [ih m' hl, (wrapExt_some hn).2]
          rfl
  have h2 := hargs _ _ h1
  -- the list of wrapped arguments, as a function
  let g : Node A → List A := fun n =>
    if (decide (locate names c.exported n.target = some s) && n.active) = true then
      (n.args.mapM (wrap mk n.conds)).getD [] else []
  have hval : ∀ (l : List (Node A)) (ws : List (List A)),
      l.mapM (fun n => n.args.mapM (wrap mk n.conds)) = some ws →
      ws = l.map fun n => (n.args.mapM (wrap mk n.conds)).getD [] := by
    intro l
    induction l with
    | nil => intro ws h; cases h; rfl
    | cons n l ih =>
      intro ws h
      rw [List.mapM_cons] at h
      cases hn : n.args.mapM (wrap mk n.conds) with
      | none => rw [hn] at h; cases h
      | some a =>
        rw [hn] at h
        cases hl : l.mapM (fun n => n.args.mapM (wrap mk n.conds)) with
        | none => rw [hl] at h; cases h
        | some ws' =>
          rw [hl] at h
          cases h
          rw [List.map_cons, hn, ← ih ws' hl]
          rfl
  have hsome : (((activeNodes c).filter fun n : Node A => decide (locate names c.exported n.target = some s)).mapM
      (fun n : Node A => n.args.mapM (wrap mk n.conds))).isSome := by
    rw [mapM_isSome]
    intro n hn
    rw [activeNodes, List.filter_filter, List.mem_filter] at hn
    have hs : (((allNodes [] [] c).filter fun a : Node A =>
        decide (locate names c.exported a.target = some s) && a.active).mapM
        (fun n : Node A => n.args.mapM (wrap mk n.conds))).isSome := by
      rw [h2]
      rfl
    rw [mapM_isSome] at hs
    exact hs n (List.mem_filter.mpr ⟨nodes_sub [] [] c n hn.1, hn.2⟩)
  obtain ⟨ws, hws⟩ := Option.isSome_iff_exists.mp hsome
  refine ⟨ws, hws, ?_⟩
  rw [addAll_eq, hval _ _ h2, hval _ _ hws, activeNodes, List.filter_filter]
  have hflat : ∀ l : List (Node A),
      ((l.filter fun a => decide (locate names c.exported a.target = some s) && a.active).map
        fun n => (n.args.mapM (wrap mk n.conds)).getD []).reverse.flatten =
      (l.flatMap fun n => (g n).reverse).reverse := by
    intro l
    induction l with
    | nil => rfl
    | cons n l ih =>
      rw [List.flatMap_cons, List.reverse_append, List.reverse_reverse, ← ih, List.filter_cons]
      by_cases hn : (decide (locate names c.exported n.target = some s) && n.active) = true
      · simp only [if_pos hn, g, List.map_cons, List.reverse_cons, List.flatten_append]
        simp
      · rw [if_neg hn]
        simp only [g, if_neg hn, List.append_nil]
  rw [hflat, hflat]
  congr 1
  apply allNodes_nodes
  intro n hn
  simp only [g, hn, List.mapM_nil]
  split <;> rfl

/-! ## Exports -/

mutual

theorem exported_mem (consts : List Bool) (h : consts.all id = true) (conds : List Nat) : ∀ (c : Cfg A),
    ∀ s ∈ c.exported, ∃ n ∈ allNodes consts conds c, n.active = true ∧ n.target = .type s
  | .config cs => exportedAll_mem consts h conds cs
  | .components cs => exportedAll_mem consts h conds cs
  | .exports ss => fun s hs => ⟨⟨consts, conds, .type s, []⟩, List.mem_map_of_mem hs, h, rfl⟩
  | .extend t as => fun s hs => by cases hs
  | .constIf ps cs => fun s hs => by
    rw [Cfg.exported] at hs
    cases hp : ps.all id with
    | true =>
      rw [hp, if_pos rfl] at hs
      exact exportedAll_mem (ps ++ consts) (by rw [List.all_append, hp, h]; rfl) conds cs s hs
    | false =>
      rw [hp, if_neg (by decide)] at hs
      cases hs
  | .runIf c cs => exportedAll_mem consts h (c :: conds) cs

theorem exportedAll_mem (consts : List Bool) (h : consts.all id = true) (conds : List Nat) :
    ∀ (cs : List (Cfg A)), ∀ s ∈ exportedAll cs, ∃ n ∈ allNodes.goAll consts conds cs,
      n.active = true ∧ n.target = .type s
  | [] => fun s hs => by cases hs
  | c :: cs => fun s hs => by
    rw [exportedAll, List.mem_append] at hs
    rw [allNodes.goAll]
    rcases hs with hs | hs
    · obtain ⟨n, hn, h1⟩ := exported_mem consts h conds c s hs
      exact ⟨n, List.mem_append_left _ hn, h1⟩
    · obtain ⟨n, hn, h1⟩ := exportedAll_mem consts h conds cs s hs
      exact ⟨n, List.mem_append_right _ hn, h1⟩

end

theorem locate_mem {ex : List Nat} {t : Target} {s : Nat} (h : locate names ex t = some s) : s ∈ ex := by
  cases t with
  | type s' =>
    simp only [locate] at h
    split at h
    · next hm => cases h; exact hm
    · cases h
  | name n => exact List.mem_of_find?_eq_some h

theorem mem_of_mapM {α β : Type} {f : α → Option β} {l : List α} {m : List β} (h : l.mapM f = some m) {x : α}
    (hx : x ∈ l) : ∃ y ∈ m, f x = some y := by
  induction l generalizing m with
  | nil => cases hx
  | cons a l ih =>
    rw [List.mapM_cons] at h
    cases hf : f a with
    | none => rw [hf] at h; cases h
    | some b =>
      rw [hf] at h
      cases hl : l.mapM f with
      | none => rw [hl] at h; cases h
      | some m' =>
        rw [hl] at h
        cases h
        rcases List.mem_cons.mp hx with rfl | hx
        · exact ⟨b, List.mem_cons_self, hf⟩
        · obtain ⟨y, hy, e⟩ := ih hl hx
          exact ⟨y, List.mem_cons_of_mem _ hy, e⟩

/-- The keys of the builders are the exported services. -/
theorem builders_keys {arrange : List (Ext A) → List (Ext A)} {c : Cfg A} {bs : List (Nat × List A)}
    (h : builders mk names arrange c = some bs) :
    (bs.map (·.1)).Nodup ∧ ∀ s, s ∈ bs.map (·.1) ↔ s ∈ c.exported := by
  obtain ⟨es, ks, he, hk, rfl⟩ := builders_some h
  obtain ⟨h1, h2⟩ := keyed_some hk
  rw [List.map_map]
  change ((firsts (ks.map (·.1))).map id).Nodup ∧ ∀ s, s ∈ (firsts (ks.map (·.1))).map id ↔ _
  rw [List.map_id]
  refine ⟨firsts_nodup _, fun s => ?_⟩
  rw [mem_firsts, List.mem_map]
  constructor
  · rintro ⟨k, hkm, rfl⟩
    exact locate_mem (h2 k hkm)
  · intro hs
    obtain ⟨n, hn, ha, ht⟩ := exported_mem [] rfl [] c s hs
    obtain ⟨e, hem, hw⟩ := mem_of_mapM he (List.mem_filter.mpr ⟨hn, ha⟩)
    rw [← h1, List.mem_map] at hem
    obtain ⟨k, hkm, hke⟩ := hem
    refine ⟨k, hkm, ?_⟩
    have h3 := h2 k hkm
    rw [hke, (wrapExt_some hw).1] at h3
    change locate names c.exported n.target = _ at h3
    rw [ht, locate, if_pos hs] at h3
    cases h3
    rfl

end Verif.Nexus
