import Verif.Flow.Room
import Verif.Flow.StepProps
/-!
# C169: the containers of the builder are large enough
-/
namespace Verif.Flow
open Spec

theorem foldlM_some {σ α : Type} {f : σ → α → Option σ} {f' : σ → α → σ} (l : List α) (s : σ)
    (h : ∀ p a q, l = p ++ a :: q → f (p.foldl f' s) a = some (f' (p.foldl f' s) a)) :
    l.foldlM f s = some (l.foldl f' s) := by
  induction l generalizing s with
  | nil => rfl
  | cons a l ih =>
    have h0 := h [] a l rfl
    simp only [List.foldl_nil] at h0
    rw [List.foldlM_cons, h0]
    exact ih _ fun p b q e => h (a :: p) b q (by rw [e]; rfl)

theorem le_edgeSize {nodes : List Leaf} {edges : List Edge} {l : Leaf} (h : l ∈ nodes) :
    edgeCount edges l ≤ edgeSize nodes edges := by
  have key : ∀ (ns : List Leaf) (a : Nat),
      a ≤ ns.foldl (fun acc l => max acc (edgeCount edges l)) a ∧
      ∀ l ∈ ns, edgeCount edges l ≤ ns.foldl (fun acc l => max acc (edgeCount edges l)) a := by
    intro ns
    induction ns with
    | nil => intro a; simp
    | cons n ns ih =>
      intro a
      obtain ⟨h1, h2⟩ := ih (max a (edgeCount edges n))
      rw [List.foldl_cons]
      refine ⟨by omega, fun l hl => ?_⟩
      rcases List.mem_cons.1 hl with rfl | hl
      · omega
      · exact h2 l hl
  exact (key nodes 1).2 l h

theorem makeGraph_pairs_nodup (nodes : List Leaf) (edges : List Edge) :
    (makeGraph nodes edges).pairs.Nodup := by
  have h1 : ∀ (ns : List Leaf) (g : Graph Leaf), g.pairs.Nodup →
      (ns.foldl (fun g n => g.put (createNode n)) g).pairs.Nodup := by
    intro ns
    induction ns with
    | nil => exact fun g h => h
    | cons n ns ih => exact fun g h => ih _ h
  have h2 : ∀ (es : List Edge) (g : Graph Leaf), g.pairs.Nodup →
      (es.foldl (fun g e =>
        match namedNode nodes e.src, namedNode nodes e.dst with
        | some l, some r => g.putEdge (createNode l) (createNode r)
        | _, _ => g) g).pairs.Nodup := by
    intro es
    induction es with
    | nil => exact fun g h => h
    | cons e es ih =>
      intro g h
      rw [List.foldl_cons]
      apply ih
      split
      · rw [Graph.putEdge]
        dsimp only
        split
        · exact h
        · rename_i hm
          exact List.Nodup.append h (List.nodup_singleton _) (by simpa using hm)
      · exact h
  exact h2 _ _ (h1 _ _ List.nodup_nil)

theorem get_nodup {g : Graph Leaf} (h : g.pairs.Nodup) (k : Leaf) : (g.get k).Nodup := by
  rw [Graph.get]
  refine List.Nodup.map_on ?_ (h.filter _)
  intro x hx y hy e
  have h1 := (List.mem_filter.1 hx).2
  have h2 := (List.mem_filter.1 hy).2
  simp only [decide_eq_true_eq] at h1 h2
  exact Prod.ext (h1.trans h2.symm) e

/-- Each key has at most as many values as its node has edges. -/
theorem makeGraph_room {nodes : List Leaf} (hd : (nodes.map (·.name)).Nodup)
    (hfix : ∀ l ∈ nodes, createNode l = l) (edges : List Edge) (k : Leaf) :
    (makeGraph nodes edges).keys.length ≤ nodes.length ∧
    ((makeGraph nodes edges).get k).length ≤ edgeCount edges k := by
  obtain ⟨h1, h2⟩ := makeGraph_spec hd hfix edges
  constructor
  · exact ((makeGraph_nodup nodes edges).subperm fun x hx => (h1 x).1 hx).length_le
  · have hsub : (makeGraph nodes edges).get k ⊆
        (edges.filter fun e => decide (e.src = k.name) || decide (e.dst = k.name)).filterMap
          fun e => namedNode nodes e.dst := by
      intro y hy
      obtain ⟨_, hy', c, hc⟩ := (h2 k y).1 (mem_get.1 hy)
      rw [List.mem_filterMap]
      exact ⟨_, List.mem_filter.2 ⟨hc, by simp⟩, (namedNode_iff hd).2 ⟨hy', rfl⟩⟩
    exact ((get_nodup (makeGraph_pairs_nodup _ _) k).subperm hsub).length_le.trans
      (List.length_filterMap_le _ _)

theorem makeGraphIn_eq {nodes : List Leaf} (hd : (nodes.map (·.name)).Nodup)
    (hfix : ∀ l ∈ nodes, createNode l = l) (edges : List Edge) :
    makeGraphIn nodes.length (edgeSize nodes edges) nodes edges = some (makeGraph nodes edges) := by
  have h1 : nodes.foldlM (fun g n => fit nodes.length (edgeSize nodes edges)
      (g.put (createNode n)) (createNode n)) ⟨[], []⟩ = some (makeGraph nodes []) := by
    apply foldlM_some
    intro p a q e
    rw [fit, if_pos]
    have hpre : (p ++ [a]).Sublist nodes := by rw [e]; simp
    have hs := makeGraph_spec (nodes := p ++ [a]) (List.Nodup.sublist (hpre.map _) hd)
      (fun l hl => hfix l (hpre.subset hl)) []
    have hr := makeGraph_room (nodes := p ++ [a]) (List.Nodup.sublist (hpre.map _) hd)
      (fun l hl => hfix l (hpre.subset hl)) [] (createNode a)
    have he : makeGraph (p ++ [a]) [] =
        Graph.put (p.foldl (fun g n => g.put (createNode n)) ⟨[], []⟩) (createNode a) := by
      simp [makeGraph, List.foldl_append]
    rw [he] at hr
    refine ⟨hr.1.trans hpre.length_le, hr.2.trans ?_⟩
    simp [edgeCount]
  rw [makeGraphIn, h1, Option.bind_some]
  apply foldlM_some
  intro p a q e
  show (match namedNode nodes a.src, namedNode nodes a.dst with
    | some l, some r => fit nodes.length (edgeSize nodes edges)
        ((makeGraph nodes p).putEdge (createNode l) (createNode r)) (createNode l)
    | _, _ => some (makeGraph nodes p)) =
      some (match namedNode nodes a.src, namedNode nodes a.dst with
        | some l, some r => (makeGraph nodes p).putEdge (createNode l) (createNode r)
        | _, _ => makeGraph nodes p)
  have hpre : (p ++ [a]).Sublist edges := by rw [e]; simp
  cases hl : namedNode nodes a.src with
  | none => rfl
  | some l =>
  cases hr : namedNode nodes a.dst with
  | none => rfl
  | some r =>
    have he : makeGraph nodes (p ++ [a]) =
        (makeGraph nodes p).putEdge (createNode l) (createNode r) := by
      simp [makeGraph, List.foldl_append, hl, hr]
    have hroom := makeGraph_room hd hfix (p ++ [a]) (createNode l)
    have hln := ((namedNode_iff hd).1 hl).1
    dsimp only
    rw [fit, if_pos]
    rw [← he]
    refine ⟨hroom.1, hroom.2.trans (le_trans ?_ (le_edgeSize (l := l) hln))⟩
    rw [hfix l hln]
    exact (hpre.filter _).length_le

section
variable {K : Type} [DecidableEq K]

theorem relax_grows (n : K) (ms : List K) (sg : List K × Graph K) :
    sg.1.length ≤ (relax n ms sg).1.length := by
  induction ms generalizing sg with
  | nil => exact Nat.le_refl _
  | cons m ms ih =>
    rw [relax]
    refine le_trans ?_ (ih _)
    dsimp only
    split
    · rw [setInsert]; split <;> simp
    · exact Nat.le_refl _

theorem relaxIn_eq {N : Nat} (n : K) (ms : List K) (sg : List K × Graph K)
    (h : (relax n ms sg).1.length ≤ N) : relaxIn N n ms sg = some (relax n ms sg) := by
  induction ms generalizing sg with
  | nil => rfl
  | cons m ms ih =>
    rw [relax] at h ⊢
    rw [relaxIn]
    rw [if_pos ((relax_grows n ms _).trans h)]
    exact ih _ h

theorem visitIn_eq {N : Nat} (n : K) (s : List K) (g : Graph K) (h : (visit n s g).1.length ≤ N) :
    visitIn N n s g = some (visit n s g) := by
  rw [visit] at h ⊢
  rw [visitIn]
  split
  · rename_i hc
    rw [if_pos hc] at h
    dsimp only at h ⊢
    split
    · rfl
    · rename_i hm
      rw [if_neg hm] at h
      exact relaxIn_eq n _ _ h
  · rfl

theorem topoLoopIn_eq {V : List K} {E : K → K → Prop} (hE : ∀ a b, E a b → a ∈ V ∧ b ∈ V)
    (picks : Nat → Nat) (fuel round : Nat) (s : List K) (g : Graph K) (out : List K)
    (hi : Inv V E out s g) :
    topoLoopIn V.length picks fuel round s g out = topoLoop picks fuel round s g out := by
  induction fuel generalizing round s g out with
  | zero => cases s <;> rfl
  | succ fuel ih =>
    cases s with
    | nil => rfl
    | cons x xs =>
      rw [topoLoop, topoLoopIn]
      have hlt : picks round % (x :: xs).length < (x :: xs).length := Nat.mod_lt _ (by simp)
      rw [List.getElem?_eq_getElem hlt, Option.getD_some]
      have hn : (x :: xs)[picks round % (x :: xs).length] ∈ x :: xs := List.getElem_mem hlt
      have hv := visit_inv hE hi hn
      rw [visitIn_eq, Option.bind_some]
      · exact ih _ _ _ _ hv
      · exact (hv.nodupS.subperm fun y hy => ((hv.sources y).1 hy).1).length_le

theorem topoSortIn_eq (picks : Nat → Nat) (g : Graph K)
    (hE : ∀ a b, (a, b) ∈ g.pairs → a ∈ g.keys ∧ b ∈ g.keys) :
    topoSortIn g.keys.length picks g = topoSort picks g := by
  rw [topoSortIn, if_pos, topoSort]
  · apply topoLoopIn_eq (V := g.keys) (E := fun a b => (a, b) ∈ g.pairs) hE
    refine ⟨by simp, by simp, ?_, List.nodup_nil, nodup_getSources g, by simp, ?_⟩
    · intro x
      rw [mem_getSources]
      simp
    · intro p b r h
      simp at h
  · refine ((foldl_setInsert_nodup g.keys [] List.nodup_nil).subperm fun x hx => ?_).length_le
    simpa [foldl_setInsert_mem] using hx

end

theorem buildIn_eq (picks : Nat → Nat) {ss : List Sub} {ts : List Leaf} (hts : allNodes ss = some ts)
    (hfix : ∀ l ∈ nodesOf ss ts, createNode l = l) : buildIn picks ss = some (build picks ss) := by
  rw [build_eq picks hts, buildIn, hts]
  dsimp only
  change (if !sameNames ((nodesOf ss ts).map (·.name)) (mentionedNames ss) then some Built.missing
    else if hasDuplicates ((nodesOf ss ts).map (·.name)) then some .duplicate
    else if !(unique (ss.flatMap Sub.edges)).all (conditionsOk (unique (nodesOf ss ts))) then
      some .conditions
    else (makeGraphIn (unique (nodesOf ss ts)).length
      (edgeSize (unique (nodesOf ss ts)) (unique (ss.flatMap Sub.edges))) (unique (nodesOf ss ts))
      (unique (ss.flatMap Sub.edges))).bind fun g =>
        (topoSortIn (unique (nodesOf ss ts)).length picks g).map fun og => .sorted og.1 og.2) = _
  split
  · rfl
  · split
    · rfl
    · rename_i hdup
      split
      · rfl
      · have hd : ((nodesOf ss ts).map (·.name)).Nodup :=
          hasDuplicates_iff.1 (by simpa using hdup)
        rw [unique_of_nodup (List.Nodup.of_map _ hd), makeGraphIn_eq hd hfix, Option.bind_some]
        obtain ⟨m1, m2⟩ := makeGraph_spec hd hfix (unique (ss.flatMap Sub.edges))
        have hlen : (nodesOf ss ts).length =
            (makeGraph (nodesOf ss ts) (unique (ss.flatMap Sub.edges))).keys.length :=
          ((List.perm_ext_iff_of_nodup (List.Nodup.of_map _ hd) (makeGraph_nodup _ _)).2
            fun x => (m1 x).symm).length_eq
        have hpk : ∀ a b, (a, b) ∈ (makeGraph (nodesOf ss ts) (unique (ss.flatMap Sub.edges))).pairs →
            a ∈ (makeGraph (nodesOf ss ts) (unique (ss.flatMap Sub.edges))).keys ∧
            b ∈ (makeGraph (nodesOf ss ts) (unique (ss.flatMap Sub.edges))).keys := by
          intro a b hab
          rw [m1, m1]
          exact ⟨((m2 a b).1 hab).1, ((m2 a b).1 hab).2.1⟩
        rw [hlen, topoSortIn_eq picks _ hpk]
        obtain ⟨out, g, ho, _⟩ := topoSort_spec picks _ hpk
        rw [ho]
        rfl

/-- C169: for every flow the containers are large enough: nothing is inserted into a full one, whatever
order is chosen, and building gives what it gives without limits. -/
theorem C169_room (picks : Nat → Nat) (fs : List Frag) (hf : ∀ f ∈ fs, FlowExpr f.expr) :
    programIn picks fs = some (program picks fs) := by
  rw [programIn, program]
  cases hss : evalAll fs with
  | none => rfl
  | some ss =>
    dsimp only
    cases hts : allNodes ss with
    | none => rw [buildIn, build, hts]
    | some ts =>
      have hk := fun l hl => ((allNodes_flow hss hts hf).2 l hl).1
      refine buildIn_eq picks hts fun l hl => ?_
      rw [nodesOf_flow hk] at hl
      exact createNode_action (hk l hl)

/-- C169: so they are for sequencers in which every step is mentioned with its own `*` or by `_ref`.
Missing: steps without `*` and starred groups, for which it is false. -/
theorem C169_steps_partial (picks : Nat → Nat) (fs : List Frag)
    (hs : ∀ f ∈ fs, OwnSteps f.expr ∧ f.whens = []) :
    programIn picks fs = some (program picks fs) := by
  obtain ⟨ss, hss, hv, hts⟩ := ownSteps_all hs
  rw [programIn, program, hss]
  refine buildIn_eq picks hts fun l hl => ?_
  rw [nodesOf, hv, List.map_map] at hl
  obtain ⟨a, ha, rfl⟩ := List.mem_map.mp hl
  obtain ⟨b, hb, -⟩ := pickNode_some ha
  rw [Function.comp_apply, hb]
  rfl

/-- A flow in which one action has three others after it, in three fragments. -/
example : programIn (fun _ => 0) [⟨[], .seq (.star (.action 1 10)) (.star (.action 2 20))⟩,
      ⟨[], .seq (.ref 1) (.par (.star (.action 3 30)) (.star (.action 4 40)))⟩] =
    some (program (fun _ => 0) [⟨[], .seq (.star (.action 1 10)) (.star (.action 2 20))⟩,
      ⟨[], .seq (.ref 1) (.par (.star (.action 3 30)) (.star (.action 4 40)))⟩]) :=
  C169_room _ _ (by simp [Spec.FlowExpr])

/-- C169 is violated by steps without `*`: they have no functions and become one node, with more
successors than any of them has edges. -/
theorem C169_violated_steps : programIn (fun _ => 0)
    [⟨[], .seq (.step 1 10) (.star (.step 2 20))⟩, ⟨[], .seq (.step 3 30) (.star (.step 4 40))⟩] =
      none := by decide +kernel

end Verif.Flow
