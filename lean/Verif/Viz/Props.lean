import Verif.Viz.GraphLemmas
import Verif.Viz.TextLemmas

/-!
# Properties of pictures of flows

C97 (graphviz), C98 (mermaid), C99 (paths and orderings), C100 (the part between two actions).
-/
namespace Verif.Viz
open Verif.Flow Verif.Flow.Spec Verif.Viz.Spec Relation

theorem start_ident (N : Names) : Ident (N.text N.start) := by
  rw [N.start_text]
  decide

theorem stop_ident (N : Names) : Ident (N.text N.stop) := by
  rw [N.stop_text]
  decide

theorem arrow_mem {first last : Nat} {fs : List Frag} {x y : Nat} (h : Arrow first last fs x y) :
    (x = first ∨ x ∈ progNames fs) ∧ (y = last ∨ y ∈ progNames fs) := by
  rcases h with h | ⟨rfl, h, -⟩ | ⟨rfl, h, -⟩
  · exact ⟨Or.inr (next_mem h).1, Or.inr (next_mem h).2⟩
  · exact ⟨Or.inl rfl, Or.inr (added_mem h)⟩
  · exact ⟨Or.inr (added_mem h), Or.inl rfl⟩

/-! ## A world of names for the examples -/

/-- Names `start`, `end`, and some others; the rest is `x`, `xx`, …; condition `[p]` is called `w`, `ww`,
…. -/
def exText : Nat → Str
  | 0 => "start".toList
  | 1 => "end".toList
  | 2 => "a b".toList
  | 3 => "a_b".toList
  | 4 => "a -> b".toList
  | n + 5 => List.replicate (n + 1) 'x'

/-- The names for the examples. Function `9` is that of milestones. -/
def exNames : Names where
  text := exText
  inj := by
    have key : ∀ n s, List.replicate (n + 1) 'x' = s → ∀ c ∈ s, c = 'x' := by
      rintro n s rfl c hc
      exact (List.mem_replicate.mp hc).2
    intro a b h
    match a, b with
    | 0, 0 | 1, 1 | 2, 2 | 3, 3 | 4, 4 => rfl
    | 0, 1 | 0, 2 | 0, 3 | 0, 4 | 1, 0 | 1, 2 | 1, 3 | 1, 4 | 2, 0 | 2, 1 | 2, 3 | 2, 4 | 3, 0 | 3, 1
    | 3, 2 | 3, 4 | 4, 0 | 4, 1 | 4, 2 | 4, 3 => revert h; decide
    | n + 5, 0 => exact absurd (key n _ h 's' (by decide)) (by decide)
    | n + 5, 1 => exact absurd (key n _ h 'e' (by decide)) (by decide)
    | n + 5, 2 => exact absurd (key n _ h 'a' (by decide)) (by decide)
    | n + 5, 3 => exact absurd (key n _ h 'a' (by decide)) (by decide)
    | n + 5, 4 => exact absurd (key n _ h 'a' (by decide)) (by decide)
    | 0, n + 5 => exact absurd (key n _ h.symm 's' (by decide)) (by decide)
    | 1, n + 5 => exact absurd (key n _ h.symm 'e' (by decide)) (by decide)
    | 2, n + 5 => exact absurd (key n _ h.symm 'a' (by decide)) (by decide)
    | 3, n + 5 => exact absurd (key n _ h.symm 'a' (by decide)) (by decide)
    | 4, n + 5 => exact absurd (key n _ h.symm 'a' (by decide)) (by decide)
    | n + 5, m + 5 =>
      have := congrArg List.length h
      simp only [exText, List.length_replicate] at this
      omega
  start := 0
  start_text := rfl
  stop := 1
  stop_text := rfl
  cond c := if c = [] then "always".toList else List.replicate c.length 'w'
  always := rfl
  empty := 9
  milestone f := decide (f = 9)
  empty_milestone := rfl

/-- Sets that keep the order of insertion. -/
def exOrder : Order := ⟨unique, fun _ => List.Perm.refl _, unique, fun _ => List.Perm.refl _⟩

/-- `*action<n>(f)`. -/
abbrev act (n : Nat) (f : Nat := 0) : Expr := .star (.action n f)

/-- `*x && (*xx >> *xxx)`: the flow of the tests of the repository. -/
def exFlow : List Frag := [⟨[], .par (act 5) (.seq (act 6) (act 7))⟩]

/-! ## C97: the graphviz picture -/

/-- C97: when the names are identifiers, the text is a graph whose nodes are `start`, `end` and the added
actions, and whose arrows are the direct orderings, and the arrows from `start` and to `end`. An action
that is added once has one node. -/
theorem C97_graphviz_partial (O : Order) (N : Names) (name : Str) (fs : List Frag) (hw : WellFormed fs)
    (hname : Ident name) (hn : ∀ x ∈ progNames fs, Ident (N.text x)) :
    ∃ t d, viz O N (graphviz N) name fs = some t ∧ readDot t = some d ∧ d.name = name ∧
      (∀ s, s ∈ d.nodes ↔ ∃ x, s = N.text x ∧ (x = N.start ∨ x = N.stop ∨ Added fs x)) ∧
      (∀ s u, (s, u) ∈ d.arrows ↔ ∃ x y, s = N.text x ∧ u = N.text y ∧ Arrow N.start N.stop fs x y) ∧
      (((progAdded fs).map (·.1)).Nodup →
        d.nodes.Perm ((N.start :: N.stop :: (progAdded fs).map (·.1)).map N.text)) := by
  obtain ⟨ss, ts, hss, hts, hg, hp, hk⟩ := getNodes_flow hw
  have hv : viz O N (graphviz N) name fs =
      some (visualize (graphviz N) name (vizNodes O N ts) (vizEdges O N ts (ss.flatMap vedges))) := by
    rw [viz, hss, Option.bind_some, vizBuild, hg, Option.map_some]
  have h1 : ∀ l ∈ vizNodes O N ts, Ident (N.text l.name) := by
    intro l hl
    rcases (vizNodes_names O N hp l.name).mp ⟨l, hl, rfl⟩ with h | h | h
    · rw [h]; exact start_ident N
    · rw [h]; exact stop_ident N
    · exact hn _ (added_mem h)
  have h2 : ∀ e ∈ vizEdges O N ts (ss.flatMap vedges), Ident (N.text e.src.name) ∧ Ident (N.text e.dst.name) := by
    intro e he
    obtain ⟨ha, hb⟩ := arrow_mem ((vizEdges_arrow O N hss hp e.src.name e.dst.name).mp ⟨e, he, rfl, rfl⟩)
    constructor
    · rcases ha with h | h
      · rw [h]; exact start_ident N
      · exact hn _ h
    · rcases hb with h | h
      · rw [h]; exact stop_ident N
      · exact hn _ h
  refine ⟨_, _, hv, readDot_visualize N hname h1 h2, rfl, fun s => ?_, fun s u => ?_, fun hnd => ?_⟩
  · simp only [List.mem_map, ← vizNodes_names O N hp]
    constructor
    · rintro ⟨l, hl, rfl⟩
      exact ⟨l.name, rfl, l, hl, rfl⟩
    · rintro ⟨x, rfl, l, hl, rfl⟩
      exact ⟨l, hl, rfl⟩
  · simp only [List.mem_map, ← vizEdges_arrow O N hss hp]
    constructor
    · rintro ⟨e, he, h⟩
      injection h with h1 h2
      exact ⟨_, _, h1.symm, h2.symm, e, he, rfl, rfl⟩
    · rintro ⟨x, y, rfl, rfl, e, he, rfl, rfl⟩
      exact ⟨e, he, rfl⟩
  · have hpn := names_perm hp
    have hnt : ts.Nodup := List.Nodup.of_map _ (hpn.nodup_iff.mpr hnd)
    have : (O.nodes ts).Perm ts := by
      have := O.nodes_perm ts
      rwa [unique_of_nodup hnt] at this
    have hnames := (this.map (·.name)).trans hpn
    have := ((hnames.cons N.stop).cons N.start).map N.text
    simpa [vizNodes, startNode, stopNode, Function.comp_def] using this

/-- Non-vacuity of C97: the flow of the repository's test gives the text that the test expects. -/
example : WellFormed exFlow ∧ (∀ x ∈ progNames exFlow, Ident (exNames.text x)) ∧ Ident "debug".toList ∧
    viz exOrder exNames (graphviz exNames) "debug".toList exFlow = some ("digraph debug {\n" ++
      "  start\n  end\n  x\n  xx\n  xxx\n  xx -> xxx\n  start -> x\n  start -> xx\n  x -> end\n" ++
      "  xxx -> end\n}").toList := by
  refine ⟨?_, by decide, by decide, by decide⟩
  intro f hf
  simp only [exFlow, List.mem_singleton] at hf
  subst hf
  simp [FlowExpr, NoStarredRef, NoStarredRef.NoRef]

/-- C97: an action with a space in its name makes a text that is no graph. -/
theorem C97_violated_space :
    ∃ t, viz exOrder exNames (graphviz exNames) "f".toList [⟨[], act 2⟩] = some t ∧
      exNames.text 2 = "a b".toList ∧ readDot t = none :=
  ⟨_, rfl, rfl, by decide⟩

/-- C97: an ordering that is written twice is drawn twice if one of the mentions has a `*`. -/
theorem C97_violated_twice :
    ∃ t d, viz exOrder exNames (graphviz exNames) "f".toList
        [⟨[], .seq (act 5) (act 6)⟩, ⟨[], .seq (.action 5 0) (.action 6 0)⟩] = some t ∧
      readDot t = some d ∧ d.arrows.count ("x".toList, "xx".toList) = 2 :=
  ⟨_, _, rfl, rfl, by decide⟩

/-! ## C98: the mermaid picture -/

theorem start_plain (N : Names) : Plain (N.text N.start) := fun c hc => Or.inl ((start_ident N).2 c hc)

theorem stop_plain (N : Names) : Plain (N.text N.stop) := fun c hc => Or.inl ((stop_ident N).2 c hc)

theorem arrowIf_arrow {first last : Nat} {fs : List Frag} {x y : Nat} {c : List Nat}
    (h : ArrowIf first last fs x y c) : Arrow first last fs x y ∧ ∃ f ∈ fs, c = f.whens.flatten := by
  have ha : ∀ {z}, AddedIf fs z c → Added fs z := by
    rintro z ⟨f, hf, hz, -⟩
    obtain ⟨a, ha, rfl⟩ := List.mem_map.mp hz
    exact List.mem_map.mpr ⟨a, List.mem_flatMap.mpr ⟨f, hf, ha⟩, rfl⟩
  rcases h with ⟨f, hf, h, hc⟩ | ⟨rfl, h, hz⟩ | ⟨rfl, h, hz⟩
  · exact ⟨Or.inl ⟨f, hf, h⟩, f, hf, hc⟩
  · refine ⟨Or.inr (Or.inl ⟨rfl, ha h, hz⟩), ?_⟩
    obtain ⟨f, hf, -, hc⟩ := h
    exact ⟨f, hf, hc⟩
  · refine ⟨Or.inr (Or.inr ⟨rfl, ha h, hz⟩), ?_⟩
    obtain ⟨f, hf, -, hc⟩ := h
    exact ⟨f, hf, hc⟩

theorem text_circle (N : Names) (x : Nat) :
    (N.text x = "start".toList ∨ N.text x = "end".toList) ↔ x = N.start ∨ x = N.stop := by
  rw [← N.start_text, ← N.stop_text]
  constructor
  · rintro (h | h)
    · exact Or.inl (N.inj _ _ h)
    · exact Or.inr (N.inj _ _ h)
  · rintro (h | h)
    · exact Or.inl (by rw [h])
    · exact Or.inr (by rw [h])

/-- C98: when the names and conditions are made of letters, digits, underscores and spaces, no condition
is called `always` and no `*` stands before a group, the text is a flow chart. Its nodes are `start` and
`end` (circles), the added milestones (squares) and the other added actions (round), with their names as
labels. Its arrows are the direct orderings, and the arrows from `start` and to `end`, with the names of
their conditions as labels. Two actions have the same identifier only if their names are the same after
replacing spaces by underscores. -/
theorem C98_mermaid_partial (O : Order) (N : Names) (name : Str) (fs : List Frag) (hw : WellFormed fs)
    (hname : '\n' ∉ name) (hn : ∀ x ∈ progNames fs, Plain (N.text x))
    (hg : ∀ f ∈ fs, NoStarredGroup f.expr)
    (hc : ∀ f ∈ fs, Plain (N.cond f.whens.flatten) ∧
      (f.whens.flatten ≠ [] → N.cond f.whens.flatten ≠ "always".toList)) :
    ∃ t d, ∃ id : Nat → Str, viz O N (mermaid N) name fs = some t ∧ readMermaid t = some d ∧ d.title = name ∧
      (∀ i sh s, (i, sh, s) ∈ d.nodes ↔ ∃ x, i = id x ∧ s = N.text x ∧
        ((x = N.start ∨ x = N.stop) ∧ sh = .circle ∨
          x ≠ N.start ∧ x ≠ N.stop ∧ ∃ g, AddedAs fs x g ∧ sh = if N.milestone g then .square else .round)) ∧
      (∀ i c j, (i, c, j) ∈ d.arrows ↔ ∃ x y k, i = id x ∧ j = id y ∧
        c = (if k = [] then none else some (N.cond k)) ∧ ArrowIf N.start N.stop fs x y k) ∧
      ∀ x y, id x = id y ↔ (N.text x).map (fun c => if c = ' ' then '_' else c) =
        (N.text y).map fun c => if c = ' ' then '_' else c := by
  obtain ⟨ss, ts, hss, hts, hgn, hp, hk⟩ := getNodes_flow hw
  have hf : ∀ f ∈ fs, FlowExpr f.expr := fun f hf => (hw f hf).1
  have hv : viz O N (mermaid N) name fs =
      some (visualize (mermaid N) name (vizNodes O N ts) (vizEdges O N ts (ss.flatMap vedges))) := by
    rw [viz, hss, Option.bind_some, vizBuild, hgn, Option.map_some]
  have harr := fun x y c => vizEdges_arrowIf O N hss hts hf hg x y c
  have h1 : ∀ l ∈ vizNodes O N ts, Plain (N.text l.name) := by
    intro l hl
    rcases (vizNodes_names O N hp l.name).mp ⟨l, hl, rfl⟩ with h | h | h
    · rw [h]; exact start_plain N
    · rw [h]; exact stop_plain N
    · exact hn _ (added_mem h)
  have h2 : ∀ e ∈ vizEdges O N ts (ss.flatMap vedges),
      Plain (N.text e.src.name) ∧ Plain (N.text e.dst.name) ∧ Plain (N.cond e.cond) := by
    intro e he
    obtain ⟨ha, f, hff, hfc⟩ := arrowIf_arrow ((harr e.src.name e.dst.name e.cond).mp ⟨e, he, rfl, rfl, rfl⟩)
    obtain ⟨ha, hb⟩ := arrow_mem ha
    refine ⟨?_, ?_, by rw [hfc]; exact (hc f hff).1⟩
    · rcases ha with h | h
      · rw [h]; exact start_plain N
      · exact hn _ h
    · rcases hb with h | h
      · rw [h]; exact stop_plain N
      · exact hn _ h
  have hlab : ∀ {x y k}, ArrowIf N.start N.stop fs x y k →
      labelOf N k = if k = [] then none else some (N.cond k) := by
    intro x y k h
    obtain ⟨-, f, hff, hfc⟩ := arrowIf_arrow h
    rw [labelOf]
    by_cases hk : k = []
    · rw [if_pos hk, hk, N.always, if_pos rfl]
    · rw [if_neg hk, if_neg]
      rw [hfc]
      exact (hc f hff).2 (by rwa [← hfc])
  refine ⟨_, _, fun x => toId (N.text x), hv, readMermaid_visualize N hname h1 h2, rfl, fun i sh s => ?_,
    fun i c j => ?_, fun x y => ?_⟩
  · have hmem : ∀ x g, (∃ l ∈ ts, l.name = x ∧ l.func = some g) ↔ AddedAs fs x g := by
      intro x g
      have := hp.mem_iff (a := (x, some g))
      simp only [List.mem_map, Prod.mk.injEq, Option.some.injEq] at this
      rw [this]
      constructor
      · rintro ⟨a, ha, rfl, rfl⟩
        exact ha
      · intro h
        exact ⟨(x, g), h, rfl, rfl⟩
    have hfun : ∀ l ∈ ts, ∃ g, l.func = some g := by
      intro l hl
      have := hp.mem_iff.mp (List.mem_map.mpr ⟨l, hl, rfl⟩)
      obtain ⟨a, -, ha⟩ := List.mem_map.mp this
      injection ha with _ ha
      exact ⟨_, ha.symm⟩
    have hshape : ∀ l g, l.func = some g → l.name ≠ N.start → l.name ≠ N.stop →
        shapeOf N l = if N.milestone g then .square else .round := by
      intro l g hl h1 h2
      rw [shapeOf, if_neg (fun h => ((text_circle N l.name).mp h).elim h1 h2)]
      simp [isMilestone, hl]
    have hcirc : ∀ l, (l.name = N.start ∨ l.name = N.stop) → shapeOf N l = .circle := by
      intro l h
      rw [shapeOf, if_pos ((text_circle N l.name).mpr h)]
    simp only [List.mem_map, Prod.mk.injEq]
    constructor
    · rintro ⟨l, hl, rfl, rfl, rfl⟩
      refine ⟨l.name, rfl, rfl, ?_⟩
      by_cases hs : l.name = N.start ∨ l.name = N.stop
      · exact Or.inl ⟨hs, hcirc l hs⟩
      · rw [not_or] at hs
        simp only [vizNodes, List.mem_cons, mem_orderNodes] at hl
        rcases hl with rfl | rfl | hl
        · exact absurd rfl hs.1
        · exact absurd rfl hs.2
        · obtain ⟨g, hfg⟩ := hfun l hl
          exact Or.inr ⟨hs.1, hs.2, g, (hmem _ _).mp ⟨l, hl, rfl, hfg⟩, hshape l g hfg hs.1 hs.2⟩
    · rintro ⟨x, rfl, rfl, ⟨rfl | rfl, rfl⟩ | ⟨hx1, hx2, g, hgx, rfl⟩⟩
      · exact ⟨startNode N, by simp [vizNodes], rfl, hcirc _ (Or.inl rfl), rfl⟩
      · exact ⟨stopNode N, by simp [vizNodes], rfl, hcirc _ (Or.inr rfl), rfl⟩
      · obtain ⟨l, hl, rfl, hfg⟩ := (hmem x g).mpr hgx
        exact ⟨l, by simp [vizNodes, mem_orderNodes, hl], rfl, hshape l g hfg hx1 hx2, rfl⟩
  · simp only [List.mem_map]
    constructor
    · rintro ⟨e, he, h⟩
      injection h with h1 h
      injection h with h2 h3
      have ha := (harr _ _ _).mp ⟨e, he, rfl, rfl, rfl⟩
      exact ⟨_, _, _, h1.symm, h3.symm, by rw [← h2, hlab ha], ha⟩
    · rintro ⟨x, y, k, rfl, rfl, rfl, h⟩
      obtain ⟨e, he, rfl, rfl, rfl⟩ := (harr x y k).mpr h
      exact ⟨e, he, by rw [hlab h]⟩
  · simp [toId]

/-- `*x`, a milestone `xxxx`, and `x >> *xx` under a condition: the flow of the repository's test. -/
def exCond : List Frag :=
  [⟨[], act 5⟩, ⟨[], .seq (act 8 9) (.action 5 0)⟩, ⟨[[3]], .seq (.action 5 0) (act 6)⟩]

/-- Non-vacuity of C98. -/
example : WellFormed exCond ∧ (∀ f ∈ exCond, NoStarredGroup f.expr) ∧
    (∀ x ∈ progNames exCond, Plain (exNames.text x)) ∧
    (∀ f ∈ exCond, Plain (exNames.cond f.whens.flatten) ∧
      (f.whens.flatten ≠ [] → exNames.cond f.whens.flatten ≠ "always".toList)) ∧
    viz exOrder exNames (mermaid exNames) "debug".toList exCond = some ("---\ntitle: debug\n---\n" ++
      "flowchart TD\n  _start((start))\n  _end((end))\n  _x(x)\n  _xxxx[xxxx]\n  _xx(xx)\n" ++
      "  _xxxx --> _x\n  _x --w--> _xx\n  _start --> _xxxx\n  _xx --w--> _end\n").toList := by
  refine ⟨?_, ?_, ?_, ?_, by decide +kernel⟩
  · intro f hf
    simp only [exCond, List.mem_cons, List.not_mem_nil, or_false] at hf
    rcases hf with rfl | rfl | rfl <;> simp [FlowExpr, NoStarredRef, NoStarredRef.NoRef]
  · intro f hf
    simp only [exCond, List.mem_cons, List.not_mem_nil, or_false] at hf
    rcases hf with rfl | rfl | rfl <;> simp [NoStarredGroup]
  · unfold Plain
    decide
  · unfold Plain
    decide

/-- C98: the actions `a b` and `a_b` share an identifier, so the picture has one node for both. -/
theorem C98_violated_id :
    ∃ t d, viz exOrder exNames (mermaid exNames) "f".toList [⟨[], .par (act 2) (act 3)⟩] = some t ∧
      exNames.text 2 = "a b".toList ∧ exNames.text 3 = "a_b".toList ∧ readMermaid t = some d ∧
      ("_a_b".toList, Shape.round, "a b".toList) ∈ d.nodes ∧
      ("_a_b".toList, Shape.round, "a_b".toList) ∈ d.nodes :=
  ⟨_, _, rfl, rfl, rfl, rfl, by decide, by decide⟩

/-- C98: an arrow under a condition called `always` has no label: it looks like an arrow without a
condition. -/
theorem C98_violated_always :
    ∃ N : Names, N.cond [3] = "always".toList ∧
      ∃ t d, viz exOrder N (mermaid N) "f".toList [⟨[[3]], act 5⟩] = some t ∧ readMermaid t = some d ∧
        ("_start".toList, none, "_x".toList) ∈ d.arrows :=
  ⟨{ exNames with cond := fun _ => "always".toList, always := rfl }, rfl, _, _, rfl, rfl, by decide⟩

/-! ## C99: paths and orderings -/

/-- Paths between texts are paths between what they stand for. -/
theorem path_text {A : Nat → Nat → Prop} {g : Nat → Str} {r : Str → Str → Prop} {P : Nat → Prop}
    (hr : ∀ s u, r s u ↔ ∃ x y, s = g x ∧ u = g y ∧ A x y) (hP : ∀ x y, A x y → P x ∧ P y)
    (hg : ∀ x y, P x → P y → g x = g y → x = y) {x y : Nat} (hx : P x) (hy : P y) :
    TransGen r (g x) (g y) ↔ TransGen A x y := by
  constructor
  · intro h
    have key : ∀ u, TransGen r (g x) u → ∃ z, u = g z ∧ P z ∧ TransGen A x z := by
      intro u hu
      induction hu with
      | single h =>
        obtain ⟨a, b, h1, rfl, h3⟩ := (hr _ _).mp h
        have := hg _ _ hx (hP _ _ h3).1 h1
        subst this
        exact ⟨b, rfl, (hP _ _ h3).2, TransGen.single h3⟩
      | tail _ h ih =>
        obtain ⟨z, rfl, hz, ih⟩ := ih
        obtain ⟨a, b, h1, rfl, h3⟩ := (hr _ _).mp h
        have := hg _ _ hz (hP _ _ h3).1 h1
        subst this
        exact ⟨b, rfl, (hP _ _ h3).2, ih.tail h3⟩
    obtain ⟨z, hz, hpz, h⟩ := key _ h
    have := hg _ _ hy hpz hz
    subst this
    exact h
  · exact fun h => TransGen.lift g (fun a b hab => (hr _ _).mpr ⟨a, b, rfl, rfl, hab⟩) _ _ h

/-- C99: in the graphviz picture of a flow without cycles, in which every mentioned action is added, and
no action is called `start` or `end`: between two actions there is a path exactly when the first has to
run before the second; and every action is on a path from `start` to `end`. -/
theorem C99_graphviz_partial (O : Order) (N : Names) (name : Str) (fs : List Frag) (hw : WellFormed fs)
    (hname : Ident name) (hn : ∀ x ∈ progNames fs, Ident (N.text x))
    (ha : ∀ x ∈ progNames fs, Added fs x) (h1 : N.start ∉ progNames fs) (h2 : N.stop ∉ progNames fs) :
    ∃ t d, viz O N (graphviz N) name fs = some t ∧ readDot t = some d ∧
      (∀ x ∈ progNames fs, ∀ y ∈ progNames fs,
        TransGen (fun s u => (s, u) ∈ d.arrows) (N.text x) (N.text y) ↔ TransGen (ProgDeclared fs) x y) ∧
      (¬ Cyclic fs → ∀ x ∈ progNames fs,
        TransGen (fun s u => (s, u) ∈ d.arrows) "start".toList (N.text x) ∧
        TransGen (fun s u => (s, u) ∈ d.arrows) (N.text x) "end".toList) := by
  obtain ⟨t, d, ht, hd, -, -, harr, -⟩ := C97_graphviz_partial O N name fs hw hname hn
  have hpath := fun x y => path_text (P := fun _ => True) (x := x) (y := y) harr (fun _ _ _ => ⟨trivial, trivial⟩)
    (fun x y _ _ h => N.inj x y h) trivial trivial
  have hne : N.start ≠ N.stop := fun h => by
    have := N.stop_text
    rw [← h, N.start_text] at this
    revert this
    decide
  refine ⟨t, d, ht, hd, fun x hx y hy => ?_, fun hcyc x hx => ?_⟩
  · rw [hpath, path_iff h1 h2 hne hx hy]
  · rw [← N.start_text, ← N.stop_text, hpath, hpath]
    exact ⟨start_path hcyc ha _ _ x (ha x hx), stop_path hcyc ha _ _ x (ha x hx)⟩

/-- C99: the same in the mermaid picture, between the identifiers of the actions, when no two names are
the same after replacing spaces by underscores. -/
theorem C99_mermaid_partial (O : Order) (N : Names) (name : Str) (fs : List Frag) (hw : WellFormed fs)
    (hname : '\n' ∉ name) (hn : ∀ x ∈ progNames fs, Plain (N.text x))
    (hg : ∀ f ∈ fs, NoStarredGroup f.expr)
    (hc : ∀ f ∈ fs, Plain (N.cond f.whens.flatten) ∧
      (f.whens.flatten ≠ [] → N.cond f.whens.flatten ≠ "always".toList))
    (ha : ∀ x ∈ progNames fs, Added fs x) (h1 : N.start ∉ progNames fs) (h2 : N.stop ∉ progNames fs)
    (hid : ∀ x y, x ∈ N.start :: N.stop :: progNames fs → y ∈ N.start :: N.stop :: progNames fs →
      (N.text x).map (fun c => if c = ' ' then '_' else c) =
        (N.text y).map (fun c => if c = ' ' then '_' else c) → x = y) :
    ∃ t d, ∃ id : Nat → Str, viz O N (mermaid N) name fs = some t ∧ readMermaid t = some d ∧
      (∀ x, (x = N.start ∨ x = N.stop ∨ x ∈ progNames fs) → ∃ sh, (id x, sh, N.text x) ∈ d.nodes) ∧
      (∀ x ∈ progNames fs, ∀ y ∈ progNames fs,
        TransGen (fun s u => ∃ c, (s, c, u) ∈ d.arrows) (id x) (id y) ↔ TransGen (ProgDeclared fs) x y) ∧
      (¬ Cyclic fs → ∀ x ∈ progNames fs,
        TransGen (fun s u => ∃ c, (s, c, u) ∈ d.arrows) (id N.start) (id x) ∧
        TransGen (fun s u => ∃ c, (s, c, u) ∈ d.arrows) (id x) (id N.stop)) := by
  obtain ⟨t, d, id, ht, hd, -, hnodes, harr, hinj⟩ := C98_mermaid_partial O N name fs hw hname hn hg hc
  have hne : N.start ≠ N.stop := fun h => by
    have := N.stop_text
    rw [← h, N.start_text] at this
    revert this
    decide
  have harr' : ∀ s u, (∃ c, (s, c, u) ∈ d.arrows) ↔
      ∃ x y, s = id x ∧ u = id y ∧ Arrow N.start N.stop fs x y := by
    intro s u
    constructor
    · rintro ⟨c, hcc⟩
      obtain ⟨x, y, k, h1, h2, -, h3⟩ := (harr _ _ _).mp hcc
      exact ⟨x, y, h1, h2, (arrowIf_arrow h3).1⟩
    · rintro ⟨x, y, h1, h2, h3⟩
      have hadd : ∀ {z}, Added fs z → ∃ k, AddedIf fs z k := by
        intro z hz
        obtain ⟨a, haa, rfl⟩ := List.mem_map.mp hz
        obtain ⟨f, hf, haf⟩ := List.mem_flatMap.mp haa
        exact ⟨_, f, hf, List.mem_map.mpr ⟨a, haf, rfl⟩, rfl⟩
      have : ∃ k, ArrowIf N.start N.stop fs x y k := by
        rcases h3 with h | ⟨hx, h, hz⟩ | ⟨hy, h, hz⟩
        · obtain ⟨k, hk⟩ := next_iff_nextIf.mp h
          exact ⟨k, Or.inl hk⟩
        · obtain ⟨k, hk⟩ := hadd h
          exact ⟨k, Or.inr (Or.inl ⟨hx, hk, hz⟩)⟩
        · obtain ⟨k, hk⟩ := hadd h
          exact ⟨k, Or.inr (Or.inr ⟨hy, hk, hz⟩)⟩
      obtain ⟨k, hk⟩ := this
      exact ⟨_, (harr _ _ _).mpr ⟨x, y, k, h1, h2, rfl, hk⟩⟩
  have hP : ∀ x y, Arrow N.start N.stop fs x y →
      x ∈ N.start :: N.stop :: progNames fs ∧ y ∈ N.start :: N.stop :: progNames fs := by
    intro x y h
    obtain ⟨h1, h2⟩ := arrow_mem h
    constructor
    · rcases h1 with rfl | h1
      · simp
      · simp [h1]
    · rcases h2 with rfl | h2
      · simp
      · simp [h2]
  have hpath := fun x y hx hy => path_text (P := fun x => x ∈ N.start :: N.stop :: progNames fs)
    (x := x) (y := y) harr' hP (fun x y hx hy h => hid x y hx hy ((hinj x y).mp h)) hx hy
  refine ⟨t, d, id, ht, hd, fun x hx => ?_, fun x hx y hy => ?_, fun hcyc x hx => ?_⟩
  · by_cases hs : x = N.start ∨ x = N.stop
    · exact ⟨.circle, (hnodes _ _ _).mpr ⟨x, rfl, rfl, Or.inl ⟨hs, rfl⟩⟩⟩
    · rw [not_or] at hs
      have hx' := (hx.resolve_left hs.1).resolve_left hs.2
      obtain ⟨a, haa, rfl⟩ := List.mem_map.mp (ha x hx')
      exact ⟨_, (hnodes _ _ _).mpr ⟨a.1, rfl, rfl, Or.inr ⟨hs.1, hs.2, a.2, haa, rfl⟩⟩⟩
  · rw [hpath x y (by simp [hx]) (by simp [hy]), path_iff h1 h2 hne hx hy]
  · rw [hpath _ _ (by simp) (by simp [hx]), hpath _ _ (by simp [hx]) (by simp)]
    exact ⟨start_path hcyc ha _ _ x (ha x hx), stop_path hcyc ha _ _ x (ha x hx)⟩

/-- Non-vacuity of C99. -/
example : (∀ x ∈ progNames exFlow, Added exFlow x) ∧ exNames.start ∉ progNames exFlow ∧
    exNames.stop ∉ progNames exFlow ∧ ¬ Cyclic exFlow ∧ ProgDeclared exFlow 6 7 := by
  refine ⟨by unfold Added; decide, by decide, by decide, ?_, ⟨_, List.mem_singleton.mpr rfl, ?_⟩⟩
  · have h : ∀ x y, ProgDeclared exFlow x y → x = 6 ∧ y = 7 := by
      rintro x y ⟨f, hf, h⟩
      simp only [exFlow, List.mem_singleton] at hf
      subst hf
      simpa [Declared, names] using h
    rintro ⟨x, hx⟩
    obtain ⟨y, hy, -⟩ := TransGen.head'_iff.mp hx
    obtain ⟨z, -, hz⟩ := TransGen.tail'_iff.mp hx
    have := (h _ _ hy).1
    have := (h _ _ hz).2
    omega
  · simp [Declared, names]

/-- C99: an action called `start` gets arrows to all actions that no other precedes, though nothing is
declared about it. -/
theorem C99_violated_start :
    ∃ t d, viz exOrder exNames (graphviz exNames) "f".toList [⟨[], .par (act 0) (act 5)⟩] = some t ∧
      readDot t = some d ∧ ("start".toList, "x".toList) ∈ d.arrows ∧
      ¬ TransGen (ProgDeclared [⟨[], .par (act 0) (act 5)⟩]) 0 5 := by
  refine ⟨_, _, rfl, rfl, by decide, ?_⟩
  intro h
  obtain ⟨y, ⟨f, hf, hy⟩, -⟩ := TransGen.head'_iff.mp h
  simp only [List.mem_singleton] at hf
  subst hf
  simp [Declared] at hy

theorem no_from {l : List (Str × Str)} {a : Str} (h : ∀ p ∈ l, p.1 ≠ a) : ∀ s, ¬ (a, s) ∈ l :=
  fun _ hs => h _ hs rfl

/-- C99: the actions of a flow with a cycle are not reached from `start`. -/
theorem C99_violated_cycle :
    ∃ t d, viz exOrder exNames (graphviz exNames) "f".toList
        [⟨[], .seq (act 5) (.seq (act 6) (.action 5 0))⟩] = some t ∧
      readDot t = some d ∧ ∀ s, ¬ ("start".toList, s) ∈ d.arrows := by
  refine ⟨_, _, rfl, rfl, no_from ?_⟩
  decide

/-! ## C100: the part between two actions -/

theorem filter_one {ts : List Leaf} (h : (ts.map (·.name)).Nodup) {x : Nat} (hx : ∃ l ∈ ts, l.name = x) :
    (ts.filter fun l => decide (l.name = x)).length = 1 := by
  have h1 : (ts.map (·.name)).count x = 1 := by
    refine List.count_eq_one_of_mem h ?_
    obtain ⟨l, hl, rfl⟩ := hx
    exact List.mem_map.mpr ⟨l, hl, rfl⟩
  rw [← h1, ← List.countP_eq_length_filter, List.count, List.countP_map]
  congr 1

theorem rtg_next (fs : List Frag) (x y : Nat) :
    ReflTransGen (Next fs) x y ↔ ReflTransGen (ProgDeclared fs) x y := by
  rw [reflTransGen_iff_eq_or_transGen, reflTransGen_iff_eq_or_transGen, next_declared]

/-- The nodes and edges between two actions. -/
theorem debugParts_spec {fs : List Frag} {ss : List Sub} {ts : List Leaf} {first last : Nat}
    (hss : evalAll fs = some ss) (hg : getNodes ss = some ts)
    (hp : (ts.map fun l => (l.name, l.func)).Perm ((progAdded fs).map fun a => (a.1, some a.2)))
    (hnd : ((progAdded fs).map (·.1)).Nodup) (hcyc : ¬ Cyclic fs) (h1 : Added fs first) (h2 : Added fs last) :
    ∃ ns es, debugParts first last ss = some (ns, es) ∧
      (∀ l, l ∈ ns ↔ l ∈ ts ∧ ReflTransGen (ProgDeclared fs) first l.name ∧
        ReflTransGen (ProgDeclared fs) l.name last) ∧
      (∀ e, e ∈ es ↔ e ∈ ss.flatMap vedges ∧ (∃ l ∈ ns, l.name = e.src.name) ∧ ∃ l ∈ ns, l.name = e.dst.name) ∧
      ns.Sublist ts := by
  have hnt : (ts.map (·.name)).Nodup := (names_perm hp).nodup_iff.mpr hnd
  have hu : unique ts = ts := unique_of_nodup (List.Nodup.of_map _ hnt)
  have hpar : ∀ x y, (y ∈ parentsOf (unique (ss.flatMap vedges)) x) ↔ Next fs y x := by
    intro x y
    rw [mem_parentsOf, ← prog_next hss]
    simp only [mem_unique]
  have hchi : ∀ x y, (y ∈ childrenOf (unique (ss.flatMap vedges)) x) ↔ Next fs x y := by
    intro x y
    rw [mem_childrenOf, ← prog_next hss]
    simp only [mem_unique]
  have e1 : (fun x y => y ∈ parentsOf (unique (ss.flatMap vedges)) x) = fun x y => Next fs y x := by
    funext x y
    exact propext (hpar x y)
  have e2 : (fun x y => y ∈ childrenOf (unique (ss.flatMap vedges)) x) = Next fs := by
    funext x y
    exact propext (hchi x y)
  have hdown : ∀ l ∈ ts, ∃ b, reaches (parentsOf (unique (ss.flatMap vedges))) first
      ((unique (ss.flatMap vedges)).length + 1) l.name = some b := by
    intro l _
    have := reaches_total (next := parentsOf (unique (ss.flatMap vedges))) (target := first) (n := l.name)
      (dom := (unique (ss.flatMap vedges)).map (·.dst.name)) (by
        intro x y hy
        obtain ⟨e, he, -, h⟩ := mem_parentsOf.mp hy
        exact List.mem_map.mpr ⟨e, he, h⟩) (by
        intro x hx
        rw [e1, transGen_swap] at hx
        exact hcyc ⟨x, (next_declared fs x x).mp hx⟩)
    simpa using this
  have hup : ∀ l ∈ ts, ∃ b, reaches (childrenOf (unique (ss.flatMap vedges))) last
      ((unique (ss.flatMap vedges)).length + 1) l.name = some b := by
    intro l _
    have := reaches_total (next := childrenOf (unique (ss.flatMap vedges))) (target := last) (n := l.name)
      (dom := (unique (ss.flatMap vedges)).map (·.src.name)) (by
        intro x y hy
        obtain ⟨e, he, h, -⟩ := mem_childrenOf.mp hy
        exact List.mem_map.mpr ⟨e, he, h⟩) (by
        intro x hx
        rw [e2] at hx
        exact hcyc ⟨x, (next_declared fs x x).mp hx⟩)
    simpa using this
  obtain ⟨down, hd1, hd2⟩ := copyIf_some hdown
  obtain ⟨up, hu1, hu2⟩ := copyIf_some hup
  have hd3 : ∀ l, l ∈ down ↔ l ∈ ts ∧ ReflTransGen (ProgDeclared fs) first l.name := by
    intro l
    rw [hd2]
    refine and_congr_right fun hl => ?_
    obtain ⟨b, hb⟩ := hdown l hl
    rw [hb, Option.some.injEq, reaches_some hb, e1, reflTransGen_swap, rtg_next]
  have hu3 : ∀ l, l ∈ up ↔ l ∈ ts ∧ ReflTransGen (ProgDeclared fs) l.name last := by
    intro l
    rw [hu2]
    refine and_congr_right fun hl => ?_
    obtain ⟨b, hb⟩ := hup l hl
    rw [hb, Option.some.injEq, reaches_some hb, e2, rtg_next]
  refine ⟨down.filter fun l => decide (l ∈ up),
    (unique (ss.flatMap vedges)).filter (contained (down.filter fun l => decide (l ∈ up))), ?_, ?_, ?_, ?_⟩
  · have f1 := filter_one hnt ((names_added hp first).mpr h1)
    have f2 := filter_one hnt ((names_added hp last).mpr h2)
    simp only [debugParts, hg, hu, Option.bind_eq_bind, Option.bind_some, f1, f2, ne_eq, not_true,
      if_false, hd1, hu1]
    rfl
  · intro l
    rw [List.mem_filter, decide_eq_true_eq, hd3, hu3]
    tauto
  · intro e
    rw [List.mem_filter, mem_unique, contained_iff]
  · exact (List.filter_sublist).trans (copyIf_sublist hd1)

/-- C100: in a flow without cycles that adds no action twice, the picture of the part between two added
actions has exactly the added actions that are these two or have to run after the first and before the
second, and exactly the direct orderings among them. -/
theorem C100_mermaid_partial (N : Names) (first last : Nat) (fs : List Frag) (hw : WellFormed fs)
    (hn : ∀ x ∈ progNames fs, Plain (N.text x)) (hc : ∀ f ∈ fs, Plain (N.cond f.whens.flatten))
    (hnd : ((progAdded fs).map (·.1)).Nodup) (hcyc : ¬ Cyclic fs) (h1 : Added fs first)
    (h2 : Added fs last) :
    ∃ t d, ∃ id : Nat → Str, debug N (mermaid N) first last fs = some t ∧ readMermaid t = some d ∧
      d.title = N.text first ++ " -> ".toList ++ N.text last ∧
      (∀ i s, (∃ sh, (i, sh, s) ∈ d.nodes) ↔ ∃ x, i = id x ∧ s = N.text x ∧ Added fs x ∧
        ReflTransGen (ProgDeclared fs) first x ∧ ReflTransGen (ProgDeclared fs) x last) ∧
      (∀ i j, (∃ c, (i, c, j) ∈ d.arrows) ↔ ∃ x y, i = id x ∧ j = id y ∧ Next fs x y ∧ Added fs x ∧
        Added fs y ∧ ReflTransGen (ProgDeclared fs) first x ∧ ReflTransGen (ProgDeclared fs) y last) ∧
      (∀ x y, id x = id y ↔ (N.text x).map (fun c => if c = ' ' then '_' else c) =
        (N.text y).map fun c => if c = ' ' then '_' else c) := by
  obtain ⟨ss, ts, hss, hts, hg, hp, hk⟩ := getNodes_flow hw
  obtain ⟨ns, es, hd, hns, hes, -⟩ := debugParts_spec hss hg hp hnd hcyc h1 h2
  have hdbg : debug N (mermaid N) first last fs =
      some (visualize (mermaid N) (debugName N first last) ns es) := by
    simp only [debug, hss, Option.bind_eq_bind, Option.bind_some, hd]
    rfl
  have hpl1 : ∀ l ∈ ns, Plain (N.text l.name) := fun l hl =>
    hn _ (added_mem ((names_added hp l.name).mp ⟨l, ((hns l).mp hl).1, rfl⟩))
  have hpl2 : ∀ e ∈ es, Plain (N.text e.src.name) ∧ Plain (N.text e.dst.name) ∧ Plain (N.cond e.cond) := by
    intro e he
    have hv := ((hes e).mp he).1
    obtain ⟨f, hf, hfo, hfc⟩ := (prog_vedges hss _ _ _).mp ⟨e, hv, rfl, rfl, rfl⟩
    have hm := next_mem (fs := fs) ⟨f, hf, hfo⟩
    exact ⟨hn _ hm.1, hn _ hm.2, by rw [hfc]; exact hc f hf⟩
  have hname : '\n' ∉ debugName N first last := by
    rw [debugName]
    simp [plain_newline (hn _ (added_mem h1)), plain_newline (hn _ (added_mem h2))]
  have hsh : ∀ x, (∃ l ∈ ns, l.name = x) ↔ Added fs x ∧ ReflTransGen (ProgDeclared fs) first x ∧
      ReflTransGen (ProgDeclared fs) x last := by
    intro x
    rw [← names_added hp]
    constructor
    · rintro ⟨l, hl, rfl⟩
      have := (hns l).mp hl
      exact ⟨⟨l, this.1, rfl⟩, this.2⟩
    · rintro ⟨⟨l, hl, rfl⟩, h⟩
      exact ⟨l, (hns l).mpr ⟨hl, h⟩, rfl⟩
  refine ⟨_, _, fun x => toId (N.text x), hdbg, readMermaid_visualize N hname hpl1 hpl2, rfl, fun i s => ?_,
    fun i j => ?_, fun x y => by simp [toId]⟩
  · simp only [← hsh, List.mem_map, Prod.mk.injEq]
    constructor
    · rintro ⟨sh, l, hl, rfl, -, rfl⟩
      exact ⟨l.name, rfl, rfl, l, hl, rfl⟩
    · rintro ⟨x, rfl, rfl, l, hl, rfl⟩
      exact ⟨_, l, hl, rfl, rfl, rfl⟩
  · simp only [List.mem_map, Prod.mk.injEq]
    constructor
    · rintro ⟨c, e, he, rfl, -, rfl⟩
      obtain ⟨h1, h2, h3⟩ := (hes e).mp he
      have g2 := (hsh _).mp h2
      have g3 := (hsh _).mp h3
      exact ⟨_, _, rfl, rfl, (prog_next hss _ _).mp ⟨e, h1, rfl, rfl⟩, g2.1, g3.1, g2.2.1, g3.2.2⟩
    · rintro ⟨x, y, rfl, rfl, hxy, ha1, ha2, hr1, hr2⟩
      obtain ⟨e, he, rfl, rfl⟩ := (prog_next hss _ _).mpr hxy
      have hd := (rtg_next fs _ _).mp (ReflTransGen.single hxy)
      refine ⟨_, e, (hes e).mpr ⟨he, (hsh _).mpr ⟨ha1, hr1, hd.trans hr2⟩, (hsh _).mpr ⟨ha2, hr1.trans hd, hr2⟩⟩,
        rfl, rfl, rfl⟩

/-- Non-vacuity of C100: the flow of the repository's test, `*x >> *xx >> *xxx >> *xxxx`, between `xx` and
`xxx`. -/
example : debug exNames (mermaid exNames) 6 7
    [⟨[], .seq (.seq (.seq (act 5) (act 6)) (act 7)) (act 8)⟩] =
    some ("---\ntitle: xx -> xxx\n---\nflowchart TD\n  _xx(xx)\n  _xxx(xxx)\n  _xx --> _xxx\n").toList := by
  decide

/-- C100: if some added action is ordered after a cycle (or is on it), and the cycle and the way from it
do not meet the first of the two actions, there is no picture: the compiler does not get to the end. -/
theorem C100_cycle (N : Names) (R : Renderer) (first last x z : Nat) (fs : List Frag) (hw : WellFormed fs)
    (hx : Added fs x) (hz : TransGen (fun a b => a ≠ first ∧ Next fs b a) z z)
    (hxz : ReflTransGen (fun a b => a ≠ first ∧ Next fs b a) x z) :
    debug N R first last fs = none := by
  obtain ⟨ss, ts, hss, hts, hg, hp, hk⟩ := getNodes_flow hw
  obtain ⟨l, hl, hlx⟩ := (names_added hp x).mpr hx
  have hpar : (fun a b => a ≠ first ∧ Next fs b a) =
      fun a b => a ≠ first ∧ b ∈ parentsOf (unique (ss.flatMap vedges)) a := by
    funext a b
    simp only [mem_parentsOf, ← prog_next hss, mem_unique]
  rw [hpar] at hz hxz
  have hnone : copyIf (reaches (parentsOf (unique (ss.flatMap vedges))) first
      ((unique (ss.flatMap vedges)).length + 1)) (unique ts) = none :=
    copyIf_none (l := l) (mem_unique.mpr hl) (by rw [hlx]; exact reaches_cycle hz hxz _)
  simp only [debug, hss, Option.bind_eq_bind, Option.bind_some, debugParts, hg, hnone]
  split
  · rfl
  · split <;> rfl

/-- C100: `*x >> *xx >> *xxx >> xx` has no picture between `x` and `xxx`, though `xx` and `xxx` are ordered
between them. -/
theorem C100_violated_cycle :
    debug exNames (mermaid exNames) 5 7
      [⟨[], .seq (.seq (.seq (act 5) (act 6)) (act 7)) (.action 6 0)⟩] = none := by
  decide

/-- C100: the graphviz picture of the part between two actions is never a graph, because its name is not
an identifier. -/
theorem C100_violated_graphviz (N : Names) (first last : Nat) (fs : List Frag) (t : Str)
    (h1 : Ident (N.text first)) (h2 : Ident (N.text last))
    (h : debug N (graphviz N) first last fs = some t) : readDot t = none := by
  simp only [debug, Option.bind_eq_bind, Option.bind_eq_some_iff] at h
  obtain ⟨ss, -, p, -, h⟩ := h
  cases h
  have hp : '\n' ∉ (graphviz N).prologue (debugName N first last) := by
    show '\n' ∉ "digraph ".toList ++ (N.text first ++ " -> ".toList ++ N.text last) ++ " {".toList
    simp [ident_newline h1, ident_newline h2]
  have hw : words ((graphviz N).prologue (debugName N first last)) =
      ["digraph".toList, N.text first, "->".toList, N.text last, "{".toList] := by
    show words ("digraph ".toList ++ (N.text first ++ " -> ".toList ++ N.text last) ++ " {".toList) = _
    rw [show "digraph ".toList ++ (N.text first ++ " -> ".toList ++ N.text last) ++ " {".toList =
      "digraph".toList ++ ' ' :: (N.text first ++ ' ' :: ("->".toList ++ ' ' :: (N.text last ++
        ' ' :: "{".toList))) by simp,
      words_cons (by decide) (by decide), words_cons h1.1 (ident_space h1),
      words_cons (by decide) (by decide), words_cons h2.1 (ident_space h2)]
    rfl
  rw [readDot, visualize, List.append_assoc, List.append_assoc, List.cons_append, lines_append hp]
  dsimp only
  rw [hw]

/-- Non-vacuity of the last theorem. -/
example : Ident (exNames.text 6) ∧ Ident (exNames.text 7) ∧
    (debug exNames (graphviz exNames) 6 7 [⟨[], .seq (act 6) (act 7)⟩]).isSome = true := by
  decide

end Verif.Viz
