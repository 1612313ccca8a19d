import Verif.Flow.NodeLemmas
import Verif.Flow.TopoLemmas

/-! # Lemmas about building -/
namespace Verif.Flow
open Spec Relation

theorem sameNames_iff {a b : List Nat} : sameNames a b = true ↔ ∀ n, n ∈ a ↔ n ∈ b := by
  simp only [sameNames, Bool.and_eq_true, List.all_eq_true, decide_eq_true_eq]
  exact ⟨fun h n => ⟨h.1 n, h.2 n⟩, fun h => ⟨fun n => (h n).mp, fun n => (h n).mpr⟩⟩

theorem hasDuplicates_iff {a : List Nat} : hasDuplicates a = false ↔ a.Nodup := by
  induction a with
  | nil => simp [hasDuplicates]
  | cons x a ih => simp [hasDuplicates, ih]

theorem namedNode_iff {nodes : List Leaf} (hd : (nodes.map (·.name)).Nodup) {n : Nat} {x : Leaf} :
    namedNode nodes n = some x ↔ x ∈ nodes ∧ x.name = n := by
  constructor
  · intro h
    exact ⟨List.mem_of_find?_eq_some h, by simpa using List.find?_some h⟩
  · rintro ⟨hx, rfl⟩
    cases h : namedNode nodes x.name with
    | none =>
      have := List.find?_eq_none.mp h x hx
      simp at this
    | some y =>
      have hy := List.mem_of_find?_eq_some h
      have hyn : y.name = x.name := by simpa using List.find?_some h
      rw [List.inj_on_of_nodup_map hd hy hx hyn]

/-- The pairs of the graph: edges between the nodes with the names. -/
def Direct (nodes : List Leaf) (edges : List Edge) (x y : Leaf) : Prop :=
  x ∈ nodes ∧ y ∈ nodes ∧ ∃ c, ⟨x.name, y.name, c⟩ ∈ edges

theorem put_fold {nodes : List Leaf} (hfix : ∀ l ∈ nodes, createNode l = l) (g : Graph Leaf) :
    (∀ k, k ∈ (nodes.foldl (fun g n => g.put (createNode n)) g).keys ↔ k ∈ g.keys ∨ k ∈ nodes) ∧
    (nodes.foldl (fun g n => g.put (createNode n)) g).pairs = g.pairs := by
  induction nodes generalizing g with
  | nil => simp
  | cons n ns ih =>
    obtain ⟨h1, h2⟩ := ih (fun l hl => hfix l (List.mem_cons_of_mem _ hl)) (g.put (createNode n))
    rw [List.foldl_cons]
    refine ⟨fun k => ?_, by rw [h2]; rfl⟩
    rw [h1, Graph.put, mem_setInsert, hfix n List.mem_cons_self, List.mem_cons]
    tauto

theorem putEdge_fold {nodes : List Leaf} (hd : (nodes.map (·.name)).Nodup)
    (hfix : ∀ l ∈ nodes, createNode l = l) (edges : List Edge) (g : Graph Leaf)
    (hg : ∀ k, k ∈ g.keys ↔ k ∈ nodes) :
    let g' := edges.foldl (fun g e =>
      match namedNode nodes e.src, namedNode nodes e.dst with
      | some l, some r => g.putEdge (createNode l) (createNode r)
      | _, _ => g) g
    (∀ k, k ∈ g'.keys ↔ k ∈ nodes) ∧
    (∀ a b, (a, b) ∈ g'.pairs ↔ (a, b) ∈ g.pairs ∨ Direct nodes edges a b) := by
  induction edges generalizing g with
  | nil => simp [Direct, hg]
  | cons e es ih =>
    simp only [List.foldl_cons]
    have hcons : ∀ a b, Direct nodes (e :: es) a b ↔
        (a ∈ nodes ∧ b ∈ nodes ∧ a.name = e.src ∧ b.name = e.dst) ∨ Direct nodes es a b := by
      intro a b
      unfold Direct
      simp only [List.mem_cons]
      constructor
      · rintro ⟨ha, hb, c, h | h⟩
        · exact Or.inl ⟨ha, hb, by rw [← h], by rw [← h]⟩
        · exact Or.inr ⟨ha, hb, c, h⟩
      · rintro (⟨ha, hb, h1, h2⟩ | ⟨ha, hb, c, h⟩)
        · exact ⟨ha, hb, e.cond, Or.inl (by rw [h1, h2])⟩
        · exact ⟨ha, hb, c, Or.inr h⟩
    split
    · rename_i l r hl hr
      rw [namedNode_iff hd] at hl hr
      have hk : ∀ k, k ∈ (g.putEdge (createNode l) (createNode r)).keys ↔ k ∈ nodes := by
        intro k
        rw [hfix l hl.1, Graph.putEdge, mem_setInsert, hg]
        constructor
        · rintro (rfl | h)
          · exact hl.1
          · exact h
        · exact Or.inr
      obtain ⟨h1, h2⟩ := ih _ hk
      refine ⟨h1, fun a b => ?_⟩
      rw [h2, hcons]
      have hp : (a, b) ∈ (g.putEdge (createNode l) (createNode r)).pairs ↔
          (a, b) ∈ g.pairs ∨ (a ∈ nodes ∧ b ∈ nodes ∧ a.name = e.src ∧ b.name = e.dst) := by
        rw [hfix l hl.1, hfix r hr.1]
        have : (a = l ∧ b = r) ↔ (a ∈ nodes ∧ b ∈ nodes ∧ a.name = e.src ∧ b.name = e.dst) := by
          constructor
          · rintro ⟨rfl, rfl⟩
            exact ⟨hl.1, hr.1, hl.2, hr.2⟩
          · rintro ⟨ha, hb, h1, h2⟩
            exact ⟨List.inj_on_of_nodup_map hd ha hl.1 (h1.trans hl.2.symm),
              List.inj_on_of_nodup_map hd hb hr.1 (h2.trans hr.2.symm)⟩
        rw [← this]
        simp only [Graph.putEdge]
        split
        · rename_i hin
          constructor
          · exact Or.inl
          · rintro (h | ⟨rfl, rfl⟩)
            · exact h
            · exact hin
        · simp
      rw [hp]
      tauto
    · rename_i hno
      obtain ⟨h1, h2⟩ := ih _ hg
      refine ⟨h1, fun a b => ?_⟩
      rw [h2, hcons]
      have : ¬ (a ∈ nodes ∧ b ∈ nodes ∧ a.name = e.src ∧ b.name = e.dst) := by
        rintro ⟨ha, hb, h1, h2⟩
        exact hno a b ((namedNode_iff hd).mpr ⟨ha, h1⟩) ((namedNode_iff hd).mpr ⟨hb, h2⟩)
      tauto

theorem makeGraph_spec {nodes : List Leaf} (hd : (nodes.map (·.name)).Nodup)
    (hfix : ∀ l ∈ nodes, createNode l = l) (edges : List Edge) :
    (∀ k, k ∈ (makeGraph nodes edges).keys ↔ k ∈ nodes) ∧
    (∀ a b, (a, b) ∈ (makeGraph nodes edges).pairs ↔ Direct nodes edges a b) := by
  obtain ⟨h1, h2⟩ := put_fold hfix (⟨[], []⟩ : Graph Leaf)
  have h3 := putEdge_fold hd hfix edges
    (nodes.foldl (fun g n => g.put (createNode n)) ⟨[], []⟩) (by simpa using h1)
  refine ⟨h3.1, fun a b => ?_⟩
  have := h3.2 a b
  rw [h2] at this
  simp only [List.not_mem_nil, false_or] at this
  exact this

theorem makeGraph_nodup (nodes : List Leaf) (edges : List Edge) :
    (makeGraph nodes edges).keys.Nodup := by
  have h1 : ∀ (ns : List Leaf) (g : Graph Leaf), g.keys.Nodup →
      (ns.foldl (fun g n => g.put (createNode n)) g).keys.Nodup := by
    intro ns
    induction ns with
    | nil => exact fun g h => h
    | cons n ns ih => exact fun g h => ih _ (nodup_setInsert h)
  have h2 : ∀ (es : List Edge) (g : Graph Leaf), g.keys.Nodup →
      (es.foldl (fun g e =>
        match namedNode nodes e.src, namedNode nodes e.dst with
        | some l, some r => g.putEdge (createNode l) (createNode r)
        | _, _ => g) g).keys.Nodup := by
    intro es
    induction es with
    | nil => exact fun g h => h
    | cons e es ih =>
      intro g h
      rw [List.foldl_cons]
      apply ih
      split
      · exact nodup_setInsert h
      · exact h
  exact h2 _ _ (h1 _ _ List.nodup_nil)

/-- The invariant only looks at members. -/
theorem Inv.congr {K : Type} {V V' : List K} {E E' : K → K → Prop} {out s : List K} {g : Graph K}
    (hi : Inv V E out s g) (hV : ∀ k, k ∈ V ↔ k ∈ V') (hE : ∀ a b, E a b ↔ E' a b) :
    Inv V' E' out s g := by
  have : E = E' := by
    funext a b
    exact propext (hE a b)
  subst this
  exact ⟨fun k => by rw [hi.keys, hV], hi.pairs, fun x => by rw [hi.sources, hV], hi.nodupOut, hi.nodupS,
    fun x hx => (hV x).mp (hi.sub x hx), hi.ordered⟩

theorem pickNode_name (vs : List Leaf) (t : Leaf) : (pickNode vs t).name = t.name := by
  unfold pickNode
  split
  · rename_i v hv
    have := List.find?_some hv
    simp only [decide_eq_true_eq, Option.map_eq_some_iff] at this
    obtain ⟨v', h1, h2⟩ := this
    rw [← h2, Leaf.ty_name, Leaf.star_name h1]
  · rfl

theorem pickNode_action {vs : List Leaf} {t : Leaf} (ht : t.kind = .action) : pickNode vs t = t := by
  unfold pickNode
  split
  · rename_i v hv
    have := List.find?_some hv
    simp only [decide_eq_true_eq, Option.map_eq_some_iff] at this
    obtain ⟨v', h1, h2⟩ := this
    obtain ⟨k, n, s, c, f⟩ := v
    cases k
    · simp only [Leaf.star, Option.some.injEq] at h1
      subst h1
      rw [← h2]
      rfl
    · cases h1
    · simp only [Leaf.star, Option.some.injEq] at h1
      subst h1
      rw [← h2] at ht
      cases ht
  · rfl

/-- The nodes a builder works on. -/
def nodesOf (ss : List Sub) (ts : List Leaf) : List Leaf := ts.map (pickNode (ss.flatMap Sub.values))

/-- All mentioned names. -/
def mentionedNames (ss : List Sub) : List Nat := (ss.flatMap Sub.mentioned).map (·.name)

/-- The edges only mention mentioned names. -/
theorem edges_mentioned (s : Sub) : ∀ e ∈ s.edges,
    e.src ∈ s.mentioned.map (·.name) ∧ e.dst ∈ s.mentioned.map (·.name) := by
  have hi : ∀ s : Sub, ∀ n ∈ s.initials.map (·.name), n ∈ s.mentioned.map (·.name) := by
    intro s
    induction s with
    | leaf l => exact fun n h => h
    | par st l r ihl ihr =>
      intro n h
      rw [Sub.initials, List.map_append, List.mem_append] at h
      rw [Sub.mentioned, List.map_append, List.mem_append]
      exact h.imp (ihl n) (ihr n)
    | seq st c l r ihl ihr =>
      intro n h
      rw [Sub.mentioned, List.map_append, List.mem_append]
      exact Or.inl (ihl n h)
  have hf : ∀ s : Sub, ∀ n ∈ s.finals.map (·.name), n ∈ s.mentioned.map (·.name) := by
    intro s
    induction s with
    | leaf l => exact fun n h => h
    | par st l r ihl ihr =>
      intro n h
      rw [Sub.finals, List.map_append, List.mem_append] at h
      rw [Sub.mentioned, List.map_append, List.mem_append]
      exact h.imp (ihl n) (ihr n)
    | seq st c l r ihl ihr =>
      intro n h
      rw [Sub.mentioned, List.map_append, List.mem_append]
      exact Or.inr (ihr n h)
  induction s with
  | leaf l => intro e he; cases he
  | par st l r ihl ihr =>
    intro e he
    simp only [Sub.mentioned, List.map_append, List.mem_append]
    rcases List.mem_append.mp he with he | he
    · have := ihl e he; tauto
    · have := ihr e he; tauto
  | seq st c l r ihl ihr =>
    intro e he
    simp only [Sub.mentioned, List.map_append, List.mem_append]
    rw [Sub.edges, List.mem_append, List.mem_append, mem_cross] at he
    rcases he with (he | he) | ⟨-, h1, h2⟩
    · have := ihl e he; tauto
    · have := ihr e he; tauto
    · exact ⟨Or.inl (hf l _ h1), Or.inr (hi r _ h2)⟩

/-- The condition check in terms of nodes. -/
def CondsOk (nodes : List Leaf) (edges : List Edge) : Prop :=
  ∀ e ∈ edges, ∀ x ∈ nodes, ∀ y ∈ nodes, x.name = e.src → y.name = e.dst →
    ∀ p ∈ x.cond ++ y.cond, p ∈ e.cond

theorem conditionsOk_iff {nodes : List Leaf} (hd : (nodes.map (·.name)).Nodup) {edges : List Edge}
    (hin : ∀ e ∈ edges, e.src ∈ nodes.map (·.name) ∧ e.dst ∈ nodes.map (·.name)) :
    edges.all (conditionsOk nodes) = true ↔ CondsOk nodes edges := by
  rw [List.all_eq_true]
  constructor
  · intro h e he x hx y hy h1 h2 p hp
    have := h e he
    rw [conditionsOk, (namedNode_iff hd).mpr ⟨hx, h1⟩, (namedNode_iff hd).mpr ⟨hy, h2⟩] at this
    simpa using List.all_eq_true.mp this p hp
  · intro h e he
    obtain ⟨h1, h2⟩ := hin e he
    obtain ⟨x, hx, hx'⟩ := List.mem_map.mp h1
    obtain ⟨y, hy, hy'⟩ := List.mem_map.mp h2
    rw [conditionsOk, (namedNode_iff hd).mpr ⟨hx, hx'⟩, (namedNode_iff hd).mpr ⟨hy, hy'⟩]
    simp only [List.all_eq_true, decide_eq_true_eq]
    exact h e he x hx y hy hx' hy'

theorem build_eq (picks : Nat → Nat) {ss : List Sub} {ts : List Leaf} (hts : allNodes ss = some ts) :
    build picks ss =
      if !sameNames ((nodesOf ss ts).map (·.name)) (mentionedNames ss) then .missing
      else if hasDuplicates ((nodesOf ss ts).map (·.name)) then .duplicate
      else if !(unique (ss.flatMap Sub.edges)).all (conditionsOk (unique (nodesOf ss ts))) then .conditions
      else
        match topoSort picks (makeGraph (unique (nodesOf ss ts)) (unique (ss.flatMap Sub.edges))) with
        | none => .overflow
        | some (out, g) => .sorted out g := by
  unfold build
  rw [hts]
  rfl

/-- Every outcome of building, on nodes that have functions. -/
theorem build_spec (picks : Nat → Nat) {ss : List Sub} {ts : List Leaf} (hts : allNodes ss = some ts)
    (hfix : ∀ l ∈ nodesOf ss ts, createNode l = l) :
    (¬ (∀ n, n ∈ (nodesOf ss ts).map (·.name) ↔ n ∈ mentionedNames ss) ∧ build picks ss = .missing) ∨
    ((∀ n, n ∈ (nodesOf ss ts).map (·.name) ↔ n ∈ mentionedNames ss) ∧
      ((¬ ((nodesOf ss ts).map (·.name)).Nodup ∧ build picks ss = .duplicate) ∨
       (((nodesOf ss ts).map (·.name)).Nodup ∧
        ((¬ CondsOk (nodesOf ss ts) (ss.flatMap Sub.edges) ∧ build picks ss = .conditions) ∨
         (CondsOk (nodesOf ss ts) (ss.flatMap Sub.edges) ∧
          ∃ out g, build picks ss = .sorted out g ∧
            Inv (nodesOf ss ts) (Direct (nodesOf ss ts) (ss.flatMap Sub.edges)) out [] g))))) := by
  rw [build_eq picks hts]
  by_cases h1 : ∀ n, n ∈ (nodesOf ss ts).map (·.name) ↔ n ∈ mentionedNames ss
  swap
  · left
    refine ⟨h1, ?_⟩
    rw [if_pos]
    cases h : sameNames ((nodesOf ss ts).map (·.name)) (mentionedNames ss)
    · rfl
    · exact absurd (sameNames_iff.mp h) h1
  · right
    refine ⟨h1, ?_⟩
    rw [if_neg (by rw [sameNames_iff.mpr h1]; decide)]
    by_cases h2 : ((nodesOf ss ts).map (·.name)).Nodup
    swap
    · left
      refine ⟨h2, ?_⟩
      rw [if_pos]
      cases h : hasDuplicates ((nodesOf ss ts).map (·.name))
      · exact absurd (hasDuplicates_iff.mp h) h2
      · rfl
    · right
      refine ⟨h2, ?_⟩
      rw [if_neg (by rw [hasDuplicates_iff.mpr h2]; decide)]
      have hun : unique (nodesOf ss ts) = nodesOf ss ts := unique_of_nodup (List.Nodup.of_map _ h2)
      rw [hun]
      have hin : ∀ e ∈ unique (ss.flatMap Sub.edges), e.src ∈ (nodesOf ss ts).map (·.name) ∧
          e.dst ∈ (nodesOf ss ts).map (·.name) := by
        intro e he
        rw [mem_unique, List.mem_flatMap] at he
        obtain ⟨s, hs, he⟩ := he
        obtain ⟨ha, hb⟩ := edges_mentioned s e he
        rw [h1, h1, mentionedNames, List.map_flatMap, List.mem_flatMap, List.mem_flatMap]
        exact ⟨⟨s, hs, ha⟩, ⟨s, hs, hb⟩⟩
      have hc := conditionsOk_iff h2 hin
      have hc' : CondsOk (nodesOf ss ts) (unique (ss.flatMap Sub.edges)) ↔
          CondsOk (nodesOf ss ts) (ss.flatMap Sub.edges) := by
        simp only [CondsOk, mem_unique]
      rw [hc'] at hc
      by_cases h3 : CondsOk (nodesOf ss ts) (ss.flatMap Sub.edges)
      swap
      · left
        refine ⟨h3, ?_⟩
        rw [if_pos]
        cases h : (unique (ss.flatMap Sub.edges)).all (conditionsOk (nodesOf ss ts))
        · rfl
        · exact absurd (hc.mp h) h3
      · right
        refine ⟨h3, ?_⟩
        rw [if_neg (by rw [hc.mpr h3]; decide)]
        obtain ⟨m1, m2⟩ := makeGraph_spec h2 hfix (unique (ss.flatMap Sub.edges))
        obtain ⟨out, g, ho, hi⟩ := topoSort_spec picks
          (makeGraph (nodesOf ss ts) (unique (ss.flatMap Sub.edges))) (by
            intro a b hab
            rw [m1, m1]
            have := (m2 a b).mp hab
            exact ⟨this.1, this.2.1⟩)
        rw [ho]
        refine ⟨out, g, rfl, hi.congr m1 fun a b => ?_⟩
        rw [m2]
        simp only [Direct, mem_unique]

/-- What a sorted result says. -/
theorem build_sorted {picks : Nat → Nat} {ss : List Sub} {ts : List Leaf} (hts : allNodes ss = some ts)
    (hfix : ∀ l ∈ nodesOf ss ts, createNode l = l) {out : List Leaf} {g : Graph Leaf}
    (hb : build picks ss = .sorted out g) :
    (∀ n, n ∈ (nodesOf ss ts).map (·.name) ↔ n ∈ mentionedNames ss) ∧
    ((nodesOf ss ts).map (·.name)).Nodup ∧ CondsOk (nodesOf ss ts) (ss.flatMap Sub.edges) ∧
    Inv (nodesOf ss ts) (Direct (nodesOf ss ts) (ss.flatMap Sub.edges)) out [] g := by
  rcases build_spec picks hts hfix with ⟨-, h⟩ | ⟨h1, ⟨-, h⟩ | ⟨h2, ⟨-, h⟩ | ⟨h3, o, g', h, hi⟩⟩⟩
  · rw [hb] at h; cases h
  · rw [hb] at h; cases h
  · rw [hb] at h; cases h
  · rw [hb] at h
    cases h
    exact ⟨h1, h2, h3, hi⟩

/-! ## Programs -/

theorem evalAll_mem {fs : List Frag} {ss : List Sub} (h : evalAll fs = some ss) :
    (∀ f ∈ fs, ∃ s ∈ ss, f.eval = some s) ∧ (∀ s ∈ ss, ∃ f ∈ fs, f.eval = some s) := by
  induction fs generalizing ss with
  | nil => cases h; simp
  | cons f fs ih =>
    simp only [evalAll, Option.bind_eq_bind, Option.bind_eq_some_iff] at h
    obtain ⟨s, hs, ss', hss, h⟩ := h
    cases h
    obtain ⟨h1, h2⟩ := ih hss
    constructor
    · intro f' hf'
      rcases List.mem_cons.mp hf' with rfl | hf'
      · exact ⟨s, List.mem_cons_self, hs⟩
      · obtain ⟨s', hs', h⟩ := h1 f' hf'
        exact ⟨s', List.mem_cons_of_mem _ hs', h⟩
    · intro s' hs'
      rcases List.mem_cons.mp hs' with rfl | hs'
      · exact ⟨f, List.mem_cons_self, hs⟩
      · obtain ⟨f', hf', h⟩ := h2 s' hs'
        exact ⟨f', List.mem_cons_of_mem _ hf', h⟩

theorem frag_names {f : Frag} {s : Sub} (h : f.eval = some s) :
    s.mentioned.map (·.name) = names f.expr := by
  obtain ⟨s0, h0, rfl⟩ := Frag.eval_eq h
  rw [Sub.mentioned_names_mapCond, (Expr.eval_spec h0).1]

theorem mentionedNames_eq {fs : List Frag} {ss : List Sub} (h : evalAll fs = some ss) :
    mentionedNames ss = progNames fs := by
  induction fs generalizing ss with
  | nil => cases h; rfl
  | cons f fs ih =>
    simp only [evalAll, Option.bind_eq_bind, Option.bind_eq_some_iff] at h
    obtain ⟨s, hs, ss', hss, h⟩ := h
    cases h
    have := ih hss
    simp only [mentionedNames, progNames, List.flatMap_cons, List.map_append] at this ⊢
    rw [this, frag_names hs]

theorem frag_edges {f : Frag} {s : Sub} (h : f.eval = some s) (x y : Nat) (c : List Nat) :
    ⟨x, y, c⟩ ∈ s.edges ↔ Follows f.expr x y ∧ c = f.whens.flatten := by
  obtain ⟨s0, h0, rfl⟩ := Frag.eval_eq h
  rw [Sub.edges_mapCond]
  simp only [(Expr.eval_spec h0).2.2.2]
  constructor
  · rintro ⟨c0, ⟨h, rfl⟩, rfl⟩
    exact ⟨h, rfl⟩
  · rintro ⟨h, rfl⟩
    exact ⟨[], ⟨h, rfl⟩, rfl⟩

theorem prog_edges {fs : List Frag} {ss : List Sub} (h : evalAll fs = some ss) (x y : Nat)
    (c : List Nat) :
    ⟨x, y, c⟩ ∈ ss.flatMap Sub.edges ↔ ∃ f ∈ fs, Follows f.expr x y ∧ c = f.whens.flatten := by
  obtain ⟨h1, h2⟩ := evalAll_mem h
  rw [List.mem_flatMap]
  constructor
  · rintro ⟨s, hs, he⟩
    obtain ⟨f, hf, hfs⟩ := h2 s hs
    exact ⟨f, hf, (frag_edges hfs x y c).mp he⟩
  · rintro ⟨f, hf, he⟩
    obtain ⟨s, hs, hfs⟩ := h1 f hf
    exact ⟨s, hs, (frag_edges hfs x y c).mpr he⟩

/-- Declared orders between names are paths between nodes. -/
theorem declared_iff {fs : List Frag} {ss : List Sub} (h : evalAll fs = some ss) {nodes : List Leaf}
    (hd : (nodes.map (·.name)).Nodup) (hn : ∀ n, n ∈ nodes.map (·.name) ↔ n ∈ progNames fs)
    {x y : Leaf} (hx : x ∈ nodes) (hy : y ∈ nodes) :
    TransGen (ProgDeclared fs) x.name y.name ↔ TransGen (Direct nodes (ss.flatMap Sub.edges)) x y := by
  rw [← progFollows_iff]
  constructor
  · intro ht
    have key : ∀ b, TransGen (ProgFollows fs) x.name b → ∃ z ∈ nodes, z.name = b ∧
        TransGen (Direct nodes (ss.flatMap Sub.edges)) x z := by
      intro b hb
      induction hb with
      | @single b hab =>
        obtain ⟨f, hf, hfo⟩ := hab
        have hbn : b ∈ progNames fs := List.mem_flatMap.mpr ⟨f, hf, hfo.mem.2⟩
        rw [← hn] at hbn
        obtain ⟨z, hz, rfl⟩ := List.mem_map.mp hbn
        exact ⟨z, hz, rfl, TransGen.single ⟨hx, hz, _, (prog_edges h _ _ _).mpr ⟨f, hf, hfo, rfl⟩⟩⟩
      | @tail b c _ hbc ih =>
        obtain ⟨z, hz, rfl, ht⟩ := ih
        obtain ⟨f, hf, hfo⟩ := hbc
        have hcn : c ∈ progNames fs := List.mem_flatMap.mpr ⟨f, hf, hfo.mem.2⟩
        rw [← hn] at hcn
        obtain ⟨w, hw, rfl⟩ := List.mem_map.mp hcn
        exact ⟨w, hw, rfl, ht.tail ⟨hz, hw, _, (prog_edges h _ _ _).mpr ⟨f, hf, hfo, rfl⟩⟩⟩
    obtain ⟨z, hz, hzn, ht'⟩ := key _ ht
    rwa [List.inj_on_of_nodup_map hd hz hy hzn] at ht'
  · intro ht
    refine TransGen.lift (p := ProgFollows fs) (fun l : Leaf => l.name) ?_ _ _ ht
    rintro a b ⟨ha, hb, c, hc⟩
    obtain ⟨f, hf, hfo, -⟩ := (prog_edges h _ _ _).mp hc
    exact ⟨f, hf, hfo⟩

/-- The nodes of a flow program. -/
theorem allNodes_flow {fs : List Frag} {ss : List Sub} {ts : List Leaf} (h : evalAll fs = some ss)
    (hts : allNodes ss = some ts) (hf : ∀ f ∈ fs, FlowExpr f.expr) :
    (ts.map fun l => (l.name, l.func)).Perm ((progAdded fs).map fun a => (a.1, some a.2)) ∧
    ∀ l ∈ ts, l.kind = .action ∧ l.starred = true := by
  induction fs generalizing ss ts with
  | nil => cases h; cases hts; simp [progAdded]
  | cons f fs ih =>
    simp only [evalAll, Option.bind_eq_bind, Option.bind_eq_some_iff] at h
    obtain ⟨s, hs, ss', hss, h⟩ := h
    cases h
    simp only [allNodes, Option.bind_eq_bind, Option.bind_eq_some_iff] at hts
    obtain ⟨a, ha, b, hb, h⟩ := hts
    cases h
    obtain ⟨s0, h0, rfl⟩ := Frag.eval_eq hs
    obtain ⟨p1, q1⟩ := nodes_spec h0 (hf f List.mem_cons_self) ha
    obtain ⟨p2, q2⟩ := ih hss hb fun f' hf' => hf f' (List.mem_cons_of_mem _ hf')
    refine ⟨by simpa [progAdded] using p1.append p2, fun l hl => ?_⟩
    rcases List.mem_append.mp hl with hl | hl
    · exact ⟨(q1 l hl).1, (q1 l hl).2.1⟩
    · exact q2 l hl

theorem nodesOf_flow {ss : List Sub} {ts : List Leaf} (h : ∀ l ∈ ts, l.kind = .action) :
    nodesOf ss ts = ts := by
  unfold nodesOf
  conv_rhs => rw [← List.map_id ts]
  apply List.map_congr_left
  intro l hl
  exact pickNode_action (h l hl)

theorem createNode_action {l : Leaf} (h : l.kind = .action) : createNode l = l := by
  unfold createNode
  split
  · rename_i hk _
    rw [h] at hk
    cases hk
  · rfl

end Verif.Flow
