import Verif.Flow.ExactProps

/-!
# C73 for all sequencers: steps with their own `*`, mentioned again by `_ref`, and what else builds
-/
namespace Verif.Flow.Spec
open Verif.Flow

/-- No action of a flow occurs: the expression is one for a sequencer. -/
def SeqExpr : Expr → Prop
  | .action _ _ => False
  | .ref _ => True
  | .step _ _ => True
  | .star e => SeqExpr e
  | .par a b => SeqExpr a ∧ SeqExpr b
  | .seq a b => SeqExpr a ∧ SeqExpr b

/-- Every step is mentioned with its own `*`, or by its name with `_ref`. -/
def OwnSteps : Expr → Prop
  | .ref _ => True
  | .star (.step _ _) => True
  | .star (.star e) => OwnSteps (.star e)
  | .par a b => OwnSteps a ∧ OwnSteps b
  | .seq a b => OwnSteps a ∧ OwnSteps b
  | _ => False

end Verif.Flow.Spec

namespace Verif.Flow
open Spec Relation

theorem ownSteps_eval {e : Expr} (h : OwnSteps e) :
    ∃ s, e.eval = some s ∧ s.values = (added e).map stepLeaf ∧
      s.nodes = some ((added e).map fun a => (stepLeaf a).ty) ∧
      (∀ e', e = .star e' → ∃ l, s = .leaf l ∧ l.kind = .step ∧ l.starred = true ∧
        (occurrences e').dedup.length = 1) := by
  induction e with
  | action n f => exact h.elim
  | ref n => exact ⟨.leaf ⟨.ref, n, false, [], none⟩, rfl, rfl, rfl, fun e' he => by cases he⟩
  | step n f => exact h.elim
  | star e ih =>
    cases e with
    | step n f =>
      exact ⟨.leaf ⟨.step, n, true, [], some f⟩, rfl, rfl, rfl, fun e' he => by cases he; exact ⟨_, rfl, rfl, rfl, rfl⟩⟩
    | action n f => exact h.elim
    | ref n => exact h.elim
    | star e =>
      obtain ⟨s, h1, h2, h3, h4⟩ := ih h
      obtain ⟨l, rfl, hk, hst, hlen⟩ := h4 e rfl
      have hadd : added (.star (.star e)) = added (.star e) := by
        cases e with
        | step n f => rfl
        | star e => rfl
        | _ => exact h.elim
      have hl : l.star = some l := by
        obtain ⟨k, n, st, c, fn⟩ := l
        cases hk
        cases hst
        rfl
      refine ⟨.leaf l, ?_, ?_, ?_, ?_⟩
      · rw [Expr.eval, h1]
        simp [Sub.star, hl]
      · rw [h2, hadd]
      · rw [h3, hadd]
      · intro e' he
        cases he
        refine ⟨l, rfl, hk, hst, ?_⟩
        cases e with
        | step n f => rfl
        | star e => exact hlen
        | _ => exact h.elim
    | par a b => exact h.elim
    | seq a b => exact h.elim
  | par a b iha ihb =>
    obtain ⟨sa, ha, va, na, -⟩ := iha h.1
    obtain ⟨sb, hb, vb, nb, -⟩ := ihb h.2
    exact ⟨.par false sa sb, by simp [Expr.eval, ha, hb], by simp [Sub.values, va, vb, added],
      by simp [Sub.nodes, na, nb, added], fun e' he => by cases he⟩
  | seq a b iha ihb =>
    obtain ⟨sa, ha, va, na, -⟩ := iha h.1
    obtain ⟨sb, hb, vb, nb, -⟩ := ihb h.2
    exact ⟨.seq false [] sa sb, by simp [Expr.eval, ha, hb], by simp [Sub.values, va, vb, added],
      by simp [Sub.nodes, na, nb, added], fun e' he => by cases he⟩

theorem ownSteps_all {fs : List Frag} (h : ∀ f ∈ fs, OwnSteps f.expr ∧ f.whens = []) :
    ∃ ss, evalAll fs = some ss ∧ ss.flatMap Sub.values = (progAdded fs).map stepLeaf ∧
      allNodes ss = some ((progAdded fs).map fun a => (stepLeaf a).ty) := by
  induction fs with
  | nil => exact ⟨[], rfl, rfl, rfl⟩
  | cons f fs ih =>
    obtain ⟨ss, h1, h2, h3⟩ := ih fun f' hf' => h f' (List.mem_cons_of_mem _ hf')
    obtain ⟨hf, hw⟩ := h f List.mem_cons_self
    obtain ⟨s, e1, e2, e3, -⟩ := ownSteps_eval hf
    have he : f.eval = some s := by
      rw [Frag.eval, e1, hw]
      rfl
    refine ⟨s :: ss, by simp [evalAll, he, h1], ?_, by simp [allNodes, e3, h3, progAdded]⟩
    rw [List.flatMap_cons, e2, h2, progAdded, progAdded, List.flatMap_cons, List.map_append]

/-- Every node gets functions back. -/
theorem pickNode_some {l : List (Nat × Nat)} {a : Nat × Nat} (ha : a ∈ l) :
    ∃ b, pickNode (l.map stepLeaf) (stepLeaf a).ty = stepLeaf b ∧ b.1 = a.1 := by
  unfold pickNode
  cases h : (l.map stepLeaf).find? (fun v => decide (v.star.map Leaf.ty = some (stepLeaf a).ty)) with
  | none =>
    rw [List.find?_eq_none] at h
    have := h (stepLeaf a) (List.mem_map_of_mem ha)
    exact absurd (decide_eq_true (by rfl)) this
  | some v =>
    obtain ⟨b, -, rfl⟩ := List.mem_map.mp (List.mem_of_find?_eq_some h)
    have := List.find?_some h
    simp only [decide_eq_true_eq, stepLeaf, Leaf.star, Leaf.ty, Option.map_some, Option.some.injEq,
      Leaf.mk.injEq] at this
    exact ⟨b, rfl, this.2.1⟩

/-- C73 (partial), for sequencers in which every step is mentioned with its own `*` or by `_ref`: a
name that is mentioned but not added is reported, a name that is added twice is reported, and else the
sequencer is sorted; it is complete exactly when the orderings are not cyclic, and then it holds every
step with its own functions, each once, in an order that respects all declared orderings. Missing:
steps mentioned again without `*`, and starred groups, for which it is false. -/
theorem C73_refs_partial (picks : Nat → Nat) (fs : List Frag)
    (hs : ∀ f ∈ fs, OwnSteps f.expr ∧ f.whens = []) :
    ((∃ n ∈ progNames fs, ∀ a ∈ progAdded fs, a.1 ≠ n) → program picks fs = .missing) ∧
    ((∀ n ∈ progNames fs, ∃ a ∈ progAdded fs, a.1 = n) → ¬ ((progAdded fs).map (·.1)).Nodup →
      program picks fs = .duplicate) ∧
    ((∀ n ∈ progNames fs, ∃ a ∈ progAdded fs, a.1 = n) → ((progAdded fs).map (·.1)).Nodup →
      ∃ out g, program picks fs = .sorted out g ∧ (g.empty = false ↔ Cyclic fs) ∧
        (g.empty = true →
          (out.map fun l => (l.name, l.func)).Perm ((progAdded fs).map fun a => (a.1, some a.2)) ∧
          ∀ a b, TransGen (ProgDeclared fs) a b → Precedes a b (out.map (·.name)))) := by
  obtain ⟨ss, hss, hv, hts⟩ := ownSteps_all hs
  have hfix : ∀ l ∈ nodesOf ss ((progAdded fs).map fun a => (stepLeaf a).ty), createNode l = l ∧
      l.cond = [] := by
    intro l hl
    rw [nodesOf, hv, List.map_map] at hl
    obtain ⟨a, ha, rfl⟩ := List.mem_map.mp hl
    obtain ⟨b, hb, -⟩ := pickNode_some ha
    rw [Function.comp_apply, hb]
    exact ⟨rfl, rfl⟩
  have hnames : (nodesOf ss ((progAdded fs).map fun a => (stepLeaf a).ty)).map (·.name) =
      (progAdded fs).map (·.1) := by
    rw [nodesOf, List.map_map, List.map_map]
    apply List.map_congr_left
    intro a _
    exact pickNode_name _ _
  have hb := build_spec picks hts fun l hl => (hfix l hl).1
  have hcond : CondsOk (nodesOf ss ((progAdded fs).map fun a => (stepLeaf a).ty))
      (ss.flatMap Sub.edges) := by
    intro e _ x hx y hy _ _ p hp
    rw [(hfix x hx).2, (hfix y hy).2] at hp
    cases hp
  rw [hnames, mentionedNames_eq hss] at hb
  have hprog : program picks fs = build picks ss := by
    rw [program, hss]
  rw [hprog]
  have hadd : ∀ n, n ∈ (progAdded fs).map (·.1) → n ∈ progNames fs := by
    intro n hn
    obtain ⟨a, ha, rfl⟩ := List.mem_map.mp hn
    obtain ⟨f, hf, ha⟩ := List.mem_flatMap.mp ha
    exact List.mem_flatMap.mpr ⟨f, hf, added_subset a ha⟩
  have hall : (∀ n, n ∈ (progAdded fs).map (·.1) ↔ n ∈ progNames fs) ↔
      ∀ n ∈ progNames fs, ∃ a ∈ progAdded fs, a.1 = n := by
    constructor
    · intro h n hn
      exact List.mem_map.mp ((h n).mpr hn)
    · intro h n
      exact ⟨hadd n, fun hn => List.mem_map.mpr (h n hn)⟩
  rw [hall] at hb
  rcases hb with ⟨h, hm⟩ | ⟨h, ⟨hd, hm⟩ | ⟨hd, ⟨hc, -⟩ | ⟨-, out, g, hm, hi⟩⟩⟩
  · exact ⟨fun _ => hm, fun h' => absurd h' h, fun h' => absurd h' h⟩
  · refine ⟨?_, fun _ _ => hm, fun _ h' => absurd h' hd⟩
    rintro ⟨n, hn, hne⟩
    obtain ⟨a, ha, he⟩ := h n hn
    exact absurd he (hne a ha)
  · exact absurd hcond hc
  · refine ⟨?_, fun _ h' => absurd hd h', fun _ _ => ⟨out, g, hm, ?_, fun hg => ?_⟩⟩
    · rintro ⟨n, hn, hne⟩
      obtain ⟨a, ha, he⟩ := h n hn
      exact absurd he (hne a ha)
    · rw [keys_cycle hi, cyclic_iff hss (by rw [hnames]; exact hd) (by rw [hnames]; exact hall.mpr h)]
    · have hno : nodesOf ss ((progAdded fs).map fun a => (stepLeaf a).ty) =
          (progAdded fs).map stepLeaf := by
        rw [nodesOf, hv, List.map_map]
        apply List.map_congr_left
        intro a ha
        exact pickNode_step hd ha
      rw [hno] at hi hnames
      have hdn : (((progAdded fs).map stepLeaf).map (·.name)).Nodup := by rw [hnames]; exact hd
      have hmem : ∀ n, n ∈ ((progAdded fs).map stepLeaf).map (·.name) ↔ n ∈ progNames fs := by
        rw [hnames]
        exact hall.mpr h
      have hall : ∀ x ∈ (progAdded fs).map stepLeaf, x ∈ out := by
        intro x hx
        by_contra hxo
        exact empty_iff.mp hg x ((hi.keys x).mpr ⟨hx, hxo⟩)
      have hot : out.Perm ((progAdded fs).map stepLeaf) := by
        rw [List.perm_ext_iff_of_nodup hi.nodupOut (List.Nodup.of_map _ hdn)]
        exact fun a => ⟨hi.sub a, hall a⟩
      constructor
      · have := hot.map fun l => (l.name, l.func)
        rwa [List.map_map] at this
      · intro a b hab p r hpr
        have ha : a ∈ ((progAdded fs).map stepLeaf).map (·.name) := by
          rw [hmem]
          rcases TransGen.head'_iff.mp hab with ⟨z, hz, -⟩
          exact (declared_mem hz).1
        have hb' : b ∈ ((progAdded fs).map stepLeaf).map (·.name) := by
          rw [hmem]
          rcases TransGen.tail'_iff.mp hab with ⟨z, -, hz⟩
          exact (declared_mem hz).2
        obtain ⟨x, hx, rfl⟩ := List.mem_map.mp ha
        obtain ⟨y, hy, rfl⟩ := List.mem_map.mp hb'
        have ht := (declared_iff hss hdn hmem hx hy).mp hab
        obtain ⟨p', q', hout, hp', hq'⟩ := List.map_eq_append_iff.mp hpr
        obtain ⟨y', r', rfl, hy', -⟩ := List.map_eq_cons_iff.mp hq'
        have hy'' : y' = y :=
          List.inj_on_of_nodup_map hdn (hi.sub y' (by rw [hout]; simp)) hy hy'
        subst hy''
        rw [← hp']
        exact List.mem_map_of_mem (hi.trans_before ht p' r' hout)

/-- Non-vacuity: `*1 >> *2` and `"2"_ref >> *3` build a sequencer of three steps with their functions. -/
example : program (fun _ => 0) [⟨[], .seq (.star (.step 1 10)) (.star (.step 2 20))⟩,
      ⟨[], .seq (.ref 2) (.star (.step 3 30))⟩] =
    .sorted [⟨.step, 1, true, [], some 10⟩, ⟨.step, 2, true, [], some 20⟩, ⟨.step, 3, true, [], some 30⟩]
      ⟨[], []⟩ := by decide +kernel
/-! ## When a sequencer has lost functions -/

/-- A node of a step: its name, whether it is starred, and the functions it comes with. -/
abbrev StepNode := Nat × Bool × Option Nat

/-- The type of the node. -/
def StepNode.leaf (a : StepNode) : Leaf := ⟨.step, a.1, a.2.1, [], none⟩

/-- A list of nodes describes the nodes of an expression, and where their functions come from. -/
structure Describes (L : List StepNode) (ns vs : List Leaf) : Prop where
  nodes : ns = L.map StepNode.leaf
  values : ∀ v ∈ vs, ∀ f, v.func = some f → v.kind = .step ∧
    (v.name, v.starred, if v.starred then some f else none) ∈ L

theorem Describes.append {L M : List StepNode} {ns ms vs ws : List Leaf} (h : Describes L ns vs)
    (h' : Describes M ms ws) : Describes (L ++ M) (ns ++ ms) (vs ++ ws) := by
  constructor
  · rw [h.nodes, h'.nodes, List.map_append]
  · intro v hv f hf
    rcases List.mem_append.mp hv with hv | hv
    · exact ⟨(h.values v hv f hf).1, List.mem_append_left _ (h.values v hv f hf).2⟩
    · exact ⟨(h'.values v hv f hf).1, List.mem_append_right _ (h'.values v hv f hf).2⟩

theorem seq_mentioned {e : Expr} {s : Sub} (he : e.eval = some s) (hs : SeqExpr e) :
    s.mentioned ≠ [] ∧ ∀ l ∈ s.mentioned, l.kind ≠ .action ∧ l.cond = [] ∧ l.func = none := by
  induction e generalizing s with
  | action n f => exact hs.elim
  | ref n =>
    cases he
    simp [Sub.mentioned, Leaf.ty]
  | step n f =>
    cases he
    simp [Sub.mentioned, Leaf.ty]
  | star e ih =>
    simp only [Expr.eval, Option.bind_eq_bind, Option.bind_eq_some_iff] at he
    obtain ⟨s0, h0, he⟩ := he
    have := ih h0 hs
    cases s0 with
    | leaf l =>
      simp only [Sub.star, Option.map_eq_some_iff] at he
      obtain ⟨l', hl, rfl⟩ := he
      obtain ⟨-, h2⟩ := this
      obtain ⟨h3, h4, h5⟩ := h2 l.ty (by simp [Sub.mentioned])
      refine ⟨by simp [Sub.mentioned], fun x hx => ?_⟩
      simp only [Sub.mentioned, List.mem_singleton] at hx
      subst hx
      obtain ⟨k, n, st, c, fn⟩ := l
      cases k <;> simp_all [Leaf.star, Leaf.ty] <;> subst hl <;> simp_all
    | par st l r =>
      cases he
      simpa [Sub.mentioned, Sub.mentioned_init] using this
    | seq st c l r =>
      cases he
      simpa [Sub.mentioned, Sub.mentioned_init] using this
  | par a b iha ihb =>
    simp only [Expr.eval, Option.bind_eq_bind, Option.bind_eq_some_iff] at he
    obtain ⟨sa, ha, sb, hb, he⟩ := he
    cases he
    obtain ⟨h1, h2⟩ := iha ha hs.1
    obtain ⟨-, h3⟩ := ihb hb hs.2
    refine ⟨by simp [Sub.mentioned, h1], fun l hl => ?_⟩
    rcases List.mem_append.mp hl with hl | hl
    · exact h2 l hl
    · exact h3 l hl
  | seq a b iha ihb =>
    simp only [Expr.eval, Option.bind_eq_bind, Option.bind_eq_some_iff] at he
    obtain ⟨sa, ha, sb, hb, he⟩ := he
    cases he
    obtain ⟨h1, h2⟩ := iha ha hs.1
    obtain ⟨-, h3⟩ := ihb hb hs.2
    refine ⟨by simp [Sub.mentioned, h1], fun l hl => ?_⟩
    rcases List.mem_append.mp hl with hl | hl
    · exact h2 l hl
    · exact h3 l hl

/-- In a value-initialised expression of steps there are no functions. -/
theorem init_values (s : Sub) (hs : ∀ l ∈ s.mentioned, l.func = none) :
    ∀ v ∈ s.init.values, v.func = none := by
  induction s with
  | leaf l =>
    intro v hv
    have := hs l.ty (by simp [Sub.mentioned])
    simp only [Sub.init, Sub.values] at hv
    split at hv
    · cases hv
    · rw [List.mem_singleton] at hv
      rw [hv]
      exact this
  | par st l r ihl ihr =>
    intro v hv
    rcases List.mem_append.mp hv with hv | hv
    · exact ihl (fun x hx => hs x (List.mem_append_left _ hx)) v hv
    · exact ihr (fun x hx => hs x (List.mem_append_right _ hx)) v hv
  | seq st c l r ihl ihr =>
    intro v hv
    rcases List.mem_append.mp hv with hv | hv
    · exact ihl (fun x hx => hs x (List.mem_append_left _ hx)) v hv
    · exact ihr (fun x hx => hs x (List.mem_append_right _ hx)) v hv

theorem starAll_steps {ls ns : List Leaf} (h : ∀ l ∈ ls, l.kind ≠ .action ∧ l.cond = [] ∧ l.func = none)
    (hn : starAll ls = some ns) : ns = ns.map (fun l => StepNode.leaf (l.name, true, none)) ∧
      (ls ≠ [] → ns ≠ []) := by
  induction ls generalizing ns with
  | nil => cases hn; exact ⟨rfl, fun h => absurd rfl h⟩
  | cons l ls ih =>
    simp only [starAll, Option.bind_eq_bind, Option.bind_eq_some_iff] at hn
    obtain ⟨l', hl, ls', hls, hn⟩ := hn
    cases hn
    obtain ⟨h1, -⟩ := ih (fun x hx => h x (List.mem_cons_of_mem _ hx)) hls
    obtain ⟨h2, h3, h4⟩ := h l List.mem_cons_self
    refine ⟨?_, fun _ => by simp⟩
    rw [List.map_cons, ← h1]
    congr 1
    clear h1 ih h
    obtain ⟨k, n, st, c, fn⟩ := l
    cases k <;> simp_all [Leaf.star, Leaf.ty] <;> subst hl <;> simp_all [StepNode.leaf]

/-- A starred group loses all functions. -/
theorem group_described {e : Expr} {s : Sub} {ns ls : List Leaf} (he : e.eval = some s) (hs : SeqExpr e)
    (hg : s.isLeaf = false) (hls : ls = s.mentioned) (hn : starAll (unique ls) = some ns) :
    ∃ L : List StepNode, ns = L.map StepNode.leaf ∧
      (OwnSteps (.star e) ↔ ∀ a ∈ L, a.2.2 ≠ none) ∧ ∀ a ∈ L, a.2.2 ≠ none → a.2.1 = true := by
  obtain ⟨h1, h2⟩ := seq_mentioned he hs
  subst hls
  obtain ⟨h3, h4⟩ := starAll_steps (fun l hl => h2 l (mem_unique.mp hl)) hn
  refine ⟨ns.map fun l => (l.name, true, none), ?_, ?_, ?_⟩
  · rw [List.map_map]
    exact h3
  · constructor
    · intro h
      obtain ⟨s', h5, -, -, h6⟩ := ownSteps_eval h
      obtain ⟨l, rfl, -⟩ := h6 e rfl
      rw [Expr.eval, he] at h5
      cases s with
      | leaf l => cases hg
      | par st l r => cases h5
      | seq st c l r => cases h5
    · intro h
      have hne : ns ≠ [] := h4 (by
        intro hu
        cases hm : s.mentioned with
        | nil => exact h1 hm
        | cons x xs =>
          have : x ∈ unique s.mentioned := mem_unique.mpr (by rw [hm]; exact List.mem_cons_self)
          rw [hu] at this
          cases this)
      cases ns with
      | nil => exact absurd rfl hne
      | cons x xs => exact absurd rfl (h _ (List.mem_map_of_mem List.mem_cons_self))
  · intro a ha
    obtain ⟨l, -, rfl⟩ := List.mem_map.mp ha
    exact fun _ => rfl

theorem leaf_seq {e : Expr} {l : Leaf} (he : e.eval = some (.leaf l)) (hs : SeqExpr e)
    (hk : l.kind ≠ .ref) : OwnSteps (.star e) ∧ ∃ n f st, l = ⟨.step, n, st, [], some f⟩ := by
  induction e generalizing l with
  | action n f => exact hs.elim
  | ref n =>
    cases he
    exact absurd rfl hk
  | step n f =>
    cases he
    exact ⟨trivial, n, f, false, rfl⟩
  | star e ih =>
    simp only [Expr.eval, Option.bind_eq_bind, Option.bind_eq_some_iff] at he
    obtain ⟨s0, h0, he⟩ := he
    cases s0 with
    | leaf l0 =>
      simp only [Sub.star, Option.map_eq_some_iff] at he
      obtain ⟨l', hl, h⟩ := he
      cases h
      have hk0 : l0.kind ≠ .ref := by
        intro h
        simp [Leaf.star, h] at hl
      obtain ⟨h1, n, f, st, rfl⟩ := ih h0 hs hk0
      cases hl
      exact ⟨h1, n, f, true, rfl⟩
    | par st l r => cases he
    | seq st c l r => cases he
  | par a b iha ihb =>
    simp only [Expr.eval, Option.bind_eq_bind, Option.bind_eq_some_iff] at he
    obtain ⟨sa, ha, sb, hb, he⟩ := he
    cases he
  | seq a b iha ihb =>
    simp only [Expr.eval, Option.bind_eq_bind, Option.bind_eq_some_iff] at he
    obtain ⟨sa, ha, sb, hb, he⟩ := he
    cases he

theorem steps_described {e : Expr} {s : Sub} {ns : List Leaf} (he : e.eval = some s) (hs : SeqExpr e)
    (hn : s.nodes = some ns) : ∃ L : List StepNode, Describes L ns s.values ∧
      (OwnSteps e ↔ ∀ a ∈ L, a.2.2 ≠ none) ∧ ∀ a ∈ L, a.2.2 ≠ none → a.2.1 = true := by
  induction e generalizing s ns with
  | action n f => exact hs.elim
  | ref n =>
    cases he
    cases hn
    exact ⟨[], ⟨rfl, by intro v hv; cases hv⟩, by simp [OwnSteps], by simp⟩
  | step n f =>
    cases he
    cases hn
    refine ⟨[(n, false, none)], ⟨rfl, ?_⟩, by simp [OwnSteps], by simp⟩
    intro v hv g hg
    simp only [Sub.values, List.mem_singleton] at hv
    subst hv
    simp
  | star e ih =>
    simp only [Expr.eval, Option.bind_eq_bind, Option.bind_eq_some_iff] at he
    obtain ⟨s0, h0, he⟩ := he
    cases s0 with
    | leaf l =>
      simp only [Sub.star, Option.map_eq_some_iff] at he
      obtain ⟨l', hl, rfl⟩ := he
      have hk0 : l.kind ≠ .ref := by
        intro h
        simp [Leaf.star, h] at hl
      obtain ⟨h1, n, f, st, rfl⟩ := leaf_seq h0 hs hk0
      cases hl
      cases hn
      refine ⟨[(n, true, some f)], ⟨rfl, ?_⟩, by simp [h1], by simp⟩
      intro v hv g hg
      simp only [Sub.values, List.mem_singleton] at hv
      subst hv
      cases hg
      simp
    | par st l r =>
      have hm := (seq_mentioned h0 hs).2
      cases he
      obtain ⟨L, h1, h2, h3⟩ := group_described h0 hs rfl rfl (by
        simpa [Sub.nodes, Sub.mentioned, Sub.mentioned_init] using hn)
      refine ⟨L, ⟨h1, ?_⟩, h2, h3⟩
      intro v hv f hf
      rw [init_values (.par st l r) (fun l hl => (hm l hl).2.2) v hv] at hf
      cases hf
    | seq st c l r =>
      have hm := (seq_mentioned h0 hs).2
      cases he
      obtain ⟨L, h1, h2, h3⟩ := group_described h0 hs rfl rfl (by
        simpa [Sub.nodes, Sub.mentioned, Sub.mentioned_init] using hn)
      refine ⟨L, ⟨h1, ?_⟩, h2, h3⟩
      intro v hv f hf
      rw [init_values (.seq st c l r) (fun l hl => (hm l hl).2.2) v hv] at hf
      cases hf
  | par a b iha ihb =>
    simp only [Expr.eval, Option.bind_eq_bind, Option.bind_eq_some_iff] at he
    obtain ⟨sa, ha, sb, hb, he⟩ := he
    cases he
    simp only [Sub.nodes, Bool.false_eq_true, if_false, Option.bind_eq_bind, Option.bind_eq_some_iff] at hn
    obtain ⟨na, hna, nb, hnb, hn⟩ := hn
    cases hn
    obtain ⟨L, h1, h2, h3⟩ := iha ha hs.1 hna
    obtain ⟨M, h4, h5, h6⟩ := ihb hb hs.2 hnb
    refine ⟨L ++ M, h1.append h4, ?_, ?_⟩
    · rw [OwnSteps, h2, h5, List.forall_mem_append]
    · rw [List.forall_mem_append]
      exact ⟨h3, h6⟩
  | seq a b iha ihb =>
    simp only [Expr.eval, Option.bind_eq_bind, Option.bind_eq_some_iff] at he
    obtain ⟨sa, ha, sb, hb, he⟩ := he
    cases he
    simp only [Sub.nodes, Bool.false_eq_true, if_false, Option.bind_eq_bind, Option.bind_eq_some_iff] at hn
    obtain ⟨na, hna, nb, hnb, hn⟩ := hn
    cases hn
    obtain ⟨L, h1, h2, h3⟩ := iha ha hs.1 hna
    obtain ⟨M, h4, h5, h6⟩ := ihb hb hs.2 hnb
    refine ⟨L ++ M, h1.append h4, ?_, ?_⟩
    · rw [OwnSteps, h2, h5, List.forall_mem_append]
    · rw [List.forall_mem_append]
      exact ⟨h3, h6⟩

/-- Nothing of a sequencer compiles under a runtime condition. -/
theorem seq_conditional {e : Expr} {s : Sub} (he : e.eval = some s) (hs : SeqExpr e) (c : List Nat) :
    s.conditional c = none := by
  have h2 := (seq_mentioned he hs).2
  clear he
  induction s with
  | leaf l =>
    have := (h2 l.ty (by simp [Sub.mentioned])).1
    obtain ⟨k, n, st, c, fn⟩ := l
    cases k <;> simp_all [Sub.conditional, Leaf.conditional, Leaf.ty]
  | par st l r ihl ihr =>
    rw [Sub.conditional, ihl fun x hx => h2 x (List.mem_append_left _ hx)]
    rfl
  | seq st c l r ihl ihr =>
    rw [Sub.conditional, ihl fun x hx => h2 x (List.mem_append_left _ hx)]
    rfl

theorem allSteps_described {fs : List Frag} {ss : List Sub} {ts : List Leaf}
    (hf : ∀ f ∈ fs, SeqExpr f.expr) (hss : evalAll fs = some ss) (hts : allNodes ss = some ts) :
    ∃ L : List StepNode, Describes L ts (ss.flatMap Sub.values) ∧
      ((∀ f ∈ fs, OwnSteps f.expr) ↔ ∀ a ∈ L, a.2.2 ≠ none) ∧ (∀ a ∈ L, a.2.2 ≠ none → a.2.1 = true) ∧
      ∀ f ∈ fs, f.whens = [] := by
  induction fs generalizing ss ts with
  | nil =>
    cases hss
    cases hts
    exact ⟨[], ⟨rfl, by intro v hv; cases hv⟩, by simp, by simp, by simp⟩
  | cons f fs ih =>
    simp only [evalAll, Option.bind_eq_bind, Option.bind_eq_some_iff] at hss
    obtain ⟨s, hs, ss', hss, h⟩ := hss
    cases h
    simp only [allNodes, Option.bind_eq_bind, Option.bind_eq_some_iff] at hts
    obtain ⟨na, hna, nb, hnb, h⟩ := hts
    cases h
    have hw : f.whens = [] ∧ f.expr.eval = some s := by
      simp only [Frag.eval, Option.bind_eq_bind, Option.bind_eq_some_iff] at hs
      obtain ⟨s0, h0, hs⟩ := hs
      cases hw : f.whens with
      | nil =>
        rw [hw] at hs
        exact ⟨rfl, h0.trans hs⟩
      | cons c cs =>
        rw [hw, applyWhens, seq_conditional h0 (hf f List.mem_cons_self)] at hs
        cases hs
    obtain ⟨L, h1, h2, h3⟩ := steps_described hw.2 (hf f List.mem_cons_self) hna
    obtain ⟨M, h4, h5, h6, h7⟩ := ih (fun f hf' => hf f (List.mem_cons_of_mem _ hf')) hss hnb
    refine ⟨L ++ M, ?_, ?_, ?_, ?_⟩
    · rw [List.flatMap_cons]
      exact h1.append h4
    · rw [List.forall_mem_cons, h2, h5, List.forall_mem_append]
    · rw [List.forall_mem_append]
      exact ⟨h3, h6⟩
    · rw [List.forall_mem_cons]
      exact ⟨hw.1, h7⟩

theorem makeGraph_keys (nodes : List Leaf) (edges : List Edge) :
    ∀ l ∈ nodes, createNode l ∈ (makeGraph nodes edges).keys := by
  have h1 : ∀ (es : List Edge) (g : Graph Leaf) (k : Leaf), k ∈ g.keys →
      k ∈ (es.foldl (fun g e => match namedNode nodes e.src, namedNode nodes e.dst with
        | some l, some r => g.putEdge (createNode l) (createNode r)
        | _, _ => g) g).keys := by
    intro es
    induction es with
    | nil => exact fun g k h => h
    | cons e es ih =>
      intro g k h
      rw [List.foldl_cons]
      apply ih
      split
      · exact mem_setInsert.mpr (Or.inr h)
      · exact h
  have h2 : ∀ (ns : List Leaf) (g : Graph Leaf), (∀ k ∈ g.keys, k ∈ (ns.foldl (fun g n => g.put (createNode n)) g).keys) ∧
      ∀ l ∈ ns, createNode l ∈ (ns.foldl (fun g n => g.put (createNode n)) g).keys := by
    intro ns
    induction ns with
    | nil => exact fun g => ⟨fun k h => h, fun l h => by cases h⟩
    | cons n ns ih =>
      intro g
      obtain ⟨h3, h4⟩ := ih (g.put (createNode n))
      rw [List.foldl_cons]
      refine ⟨fun k hk => h3 k (mem_setInsert.mpr (Or.inr hk)), fun l hl => ?_⟩
      rcases List.mem_cons.mp hl with rfl | hl
      · exact h3 _ (mem_setInsert.mpr (Or.inl rfl))
      · exact h4 l hl
  exact fun l hl => h1 _ _ _ ((h2 nodes _).2 l hl)

theorem namedNode_mem {nodes : List Leaf} {n : Nat} {l : Leaf} (h : namedNode nodes n = some l) :
    l ∈ nodes := List.mem_of_find?_eq_some h

theorem makeGraph_closed (nodes : List Leaf) (edges : List Edge) :
    ∀ a b, (a, b) ∈ (makeGraph nodes edges).pairs →
      a ∈ (makeGraph nodes edges).keys ∧ b ∈ (makeGraph nodes edges).keys := by
  have h1 : ∀ (es : List Edge) (g : Graph Leaf), (∀ a b, (a, b) ∈ g.pairs →
      (∃ x ∈ nodes, createNode x = a) ∧ ∃ y ∈ nodes, createNode y = b) →
      ∀ a b, (a, b) ∈ (es.foldl (fun g e => match namedNode nodes e.src, namedNode nodes e.dst with
        | some l, some r => g.putEdge (createNode l) (createNode r)
        | _, _ => g) g).pairs →
      (∃ x ∈ nodes, createNode x = a) ∧ ∃ y ∈ nodes, createNode y = b := by
    intro es
    induction es with
    | nil => exact fun g h => h
    | cons e es ih =>
      intro g h
      rw [List.foldl_cons]
      apply ih
      split
      · next l r hl hr =>
        intro a b hab
        simp only [Graph.putEdge] at hab
        split at hab
        · exact h a b hab
        · rcases List.mem_append.mp hab with hab | hab
          · exact h a b hab
          · rw [List.mem_singleton, Prod.mk.injEq] at hab
            exact ⟨⟨l, namedNode_mem hl, hab.1.symm⟩, ⟨r, namedNode_mem hr, hab.2.symm⟩⟩
      · exact h
  have h2 : ∀ (ns : List Leaf) (g : Graph Leaf), g.pairs = [] →
      (ns.foldl (fun g n => g.put (createNode n)) g).pairs = [] := by
    intro ns
    induction ns with
    | nil => exact fun g h => h
    | cons n ns ih => exact fun g h => ih _ h
  intro a b hab
  obtain ⟨⟨x, hx, rfl⟩, y, hy, rfl⟩ := h1 edges _ (by rw [h2 nodes _ rfl]; simp) a b hab
  exact ⟨makeGraph_keys nodes edges x hx, makeGraph_keys nodes edges y hy⟩

/-- C73, exactly: for every sequencer that builds without a cycle, all its steps have their functions
exactly when every step is mentioned with its own `*` or by `_ref`. In every other sequencer that builds
some step has lost its functions. -/
theorem C73_exact (picks : Nat → Nat) (fs : List Frag) (hf : ∀ f ∈ fs, SeqExpr f.expr)
    (out : List Leaf) (g : Graph Leaf) (h : program picks fs = .sorted out g) (hg : g.empty = true) :
    (∀ l ∈ out, l.func ≠ none) ↔ ∀ f ∈ fs, OwnSteps f.expr := by
  rw [program] at h
  cases hss : evalAll fs with
  | none => rw [hss] at h; cases h
  | some ss =>
  rw [hss] at h
  dsimp only at h
  cases hts : allNodes ss with
  | none => rw [build, hts] at h; cases h
  | some ts =>
  obtain ⟨L, hL, hown, hst, hw⟩ := allSteps_described hf hss hts
  constructor
  · intro hall
    rw [hown]
    rw [build_eq picks hts] at h
    split at h
    · cases h
    split at h
    · cases h
    next hdup =>
    split at h
    · cases h
    have hd : ((nodesOf ss ts).map (·.name)).Nodup := by
      rw [← hasDuplicates_iff]
      simpa using hdup
    have hdL : (L.map (·.1)).Nodup := by
      have : (nodesOf ss ts).map (·.name) = L.map (·.1) := by
        rw [nodesOf, hL.nodes, List.map_map, List.map_map]
        apply List.map_congr_left
        intro a _
        exact pickNode_name _ _
      rwa [this] at hd
    intro a ha hnone
    have hmem : a.leaf ∈ ts := by
      rw [hL.nodes]
      exact List.mem_map_of_mem ha
    have hpick : (pickNode (ss.flatMap Sub.values) a.leaf).func = none ∧
        (pickNode (ss.flatMap Sub.values) a.leaf).kind = .step := by
      unfold pickNode
      split
      · next v hv =>
        have hvm := List.mem_of_find?_eq_some hv
        have hvt := List.find?_some hv
        rw [decide_eq_true_eq] at hvt
        obtain ⟨k, n, st, c, fn⟩ := v
        have hk : k = .step ∧ a.1 = n ∧ a.2.1 = true := by
          cases k <;> simp [Leaf.star, Leaf.ty, StepNode.leaf] at hvt <;> simp [hvt]
        refine ⟨?_, hk.1⟩
        cases fn with
        | none => rfl
        | some f =>
          have := (hL.values _ hvm f rfl).2
          have he := List.inj_on_of_nodup_map hdL ha this hk.2.1
          obtain ⟨x, y, z⟩ := a
          simp only [Prod.mk.injEq] at he hk hnone
          rw [hk.2.2] at he
          rw [← he.2.1, hnone] at he
          cases he.2.2
      · exact ⟨rfl, rfl⟩
    have hkey := makeGraph_keys (unique (nodesOf ss ts)) (unique (ss.flatMap Sub.edges))
      (pickNode (ss.flatMap Sub.values) a.leaf) (mem_unique.mpr (List.mem_map_of_mem hmem))
    split at h
    · cases h
    · next o g' ht =>
      cases h
      obtain ⟨o', g'', ht', hi⟩ := topoSort_spec picks _
        (makeGraph_closed (unique (nodesOf ss ts)) (unique (ss.flatMap Sub.edges)))
      rw [ht] at ht'
      cases ht'
      have hout : createNode (pickNode (ss.flatMap Sub.values) a.leaf) ∈ out := by
        by_contra hno
        exact empty_iff.mp hg _ ((hi.keys _).mpr ⟨hkey, hno⟩)
      apply hall _ hout
      rw [createNode, hpick.1, hpick.2]
  · intro h' l hl
    have h0 : program picks fs = .sorted out g := by
      rw [program, hss]
      exact h
    obtain ⟨h1, h2, h3⟩ := C73_refs_partial picks fs fun f hf => ⟨h' f hf, hw f hf⟩
    have hn : ∀ n ∈ progNames fs, ∃ a ∈ progAdded fs, a.1 = n := by
      intro n hn
      by_contra hno
      have := h1 ⟨n, hn, fun a ha he => hno ⟨a, ha, he⟩⟩
      rw [h0] at this
      cases this
    have hd : ((progAdded fs).map (·.1)).Nodup := by
      by_contra hno
      have := h2 hn hno
      rw [h0] at this
      cases this
    obtain ⟨out', g', he, -, hp⟩ := h3 hn hd
    rw [h0] at he
    cases he
    have := (hp hg).1.subset (List.mem_map_of_mem (f := fun l : Leaf => (l.name, l.func)) hl)
    obtain ⟨a, -, ha⟩ := List.mem_map.mp this
    simp only [Prod.mk.injEq] at ha
    rw [← ha.2]
    simp

/-- Non-vacuity: `*(1 && 2) >> *3` builds a sequencer that has lost functions; 3 has its own. -/
example :
    (match program (fun _ => 0) [⟨[], .seq (.star (.par (.step 1 10) (.step 2 20))) (.star (.step 3 30))⟩] with
      | .sorted out g => (out.map (·.func), g.empty)
      | _ => ([], false)) = ([none, some 30], true) := by decide +kernel

end Verif.Flow
