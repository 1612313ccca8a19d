import Verif.Viz.Spec
import Mathlib.Data.List.Basic
import Mathlib.Data.List.TakeDrop

/-! # Lemmas about text -/
namespace Verif.Viz
open Verif.Flow Verif.Viz.Spec

/-! ## Lines -/

theorem lines_cons (s : Str) : ∃ l ls, lines s = l :: ls := by
  induction s with
  | nil => exact ⟨_, _, rfl⟩
  | cons c cs ih =>
    obtain ⟨l, ls, h⟩ := ih
    rw [lines]
    split
    · exact ⟨_, _, rfl⟩
    · rw [h]
      exact ⟨_, _, rfl⟩

theorem lines_line {a : Str} (h : '\n' ∉ a) : lines a = [a] := by
  induction a with
  | nil => rfl
  | cons c a ih =>
    rw [List.mem_cons, not_or] at h
    rw [lines, if_neg (fun hc => h.1 hc.symm), ih h.2]

theorem lines_append {a : Str} (h : '\n' ∉ a) (b : Str) : lines (a ++ '\n' :: b) = a :: lines b := by
  induction a with
  | nil => simp [lines]
  | cons c a ih =>
    rw [List.mem_cons, not_or] at h
    rw [List.cons_append, lines, if_neg (fun hc => h.1 hc.symm), ih h.2]

theorem lines_join {ls : List Str} (h : ∀ l ∈ ls, '\n' ∉ l) (hne : ls ≠ []) (b : Str) :
    lines (joinLines ls ++ '\n' :: b) = ls ++ lines b := by
  induction ls with
  | nil => exact absurd rfl hne
  | cons a ls ih =>
    cases ls with
    | nil => simp [joinLines, lines_append (h a List.mem_cons_self)]
    | cons c ls =>
      rw [joinLines, List.append_assoc, List.cons_append, lines_append (h a List.mem_cons_self),
        ih (fun l hl => h l (List.mem_cons_of_mem _ hl)) (by simp)]
      rfl

/-- The lines of joined lines: one empty line when there are none. -/
def orBlank (ls : List Str) : List Str := if ls = [] then [[]] else ls

theorem lines_orBlank {ls : List Str} (h : ∀ l ∈ ls, '\n' ∉ l) (b : Str) :
    lines (joinLines ls ++ '\n' :: b) = orBlank ls ++ lines b := by
  by_cases hne : ls = []
  · subst hne
    simp [joinLines, orBlank, lines]
  · rw [lines_join h hne, orBlank, if_neg hne]

/-- The lines of a picture. -/
theorem lines_visualize (R : Renderer) (name : Str) (ns : List Leaf) (es : List VEdge)
    (h1 : ∀ l ∈ ns, '\n' ∉ R.node l) (h2 : ∀ e ∈ es, '\n' ∉ R.edge e) (h3 : '\n' ∉ R.epilogue name) :
    lines (visualize R name ns es) =
      lines (R.prologue name ++ '\n' :: (joinLines (ns.map R.node) ++ '\n' :: (joinLines (es.map R.edge) ++
        '\n' :: R.epilogue name))) ∧
    lines (joinLines (ns.map R.node) ++ '\n' :: (joinLines (es.map R.edge) ++ '\n' :: R.epilogue name)) =
      orBlank (ns.map R.node) ++ (orBlank (es.map R.edge) ++ [R.epilogue name]) := by
  constructor
  · simp [visualize]
  · rw [lines_orBlank, lines_orBlank, lines_line h3]
    · intro l hl
      obtain ⟨e, he, rfl⟩ := List.mem_map.mp hl
      exact h2 e he
    · intro l hl
      obtain ⟨e, he, rfl⟩ := List.mem_map.mp hl
      exact h1 e he

/-! ## Words -/

theorem words_space (s : Str) : words (' ' :: s) = words s := by
  rw [words.eq_def]
  exact if_pos rfl

theorem words_cons {w : Str} (hne : w ≠ []) (h : ' ' ∉ w) (s : Str) :
    words (w ++ ' ' :: s) = w :: words s := by
  induction w with
  | nil => exact absurd rfl hne
  | cons c w ih =>
    rw [List.mem_cons, not_or] at h
    cases w with
    | nil =>
      show words (c :: ' ' :: s) = _
      have hc : c ≠ ' ' := fun hc => h.1 hc.symm
      rw [words.eq_def]
      simp [words_space, hc]
    | cons d w =>
      have hd : d ≠ ' ' := fun hd => h.2 (by simp [hd])
      have hc : c ≠ ' ' := fun hc => h.1 hc.symm
      have hi := ih (by simp) h.2
      show words (c :: ((d :: w) ++ ' ' :: s)) = _
      rw [words.eq_def]
      simp only [if_neg hc, hi]
      simp [hd]

theorem words_one {w : Str} (hne : w ≠ []) (h : ' ' ∉ w) : words w = [w] := by
  induction w with
  | nil => exact absurd rfl hne
  | cons c w ih =>
    rw [List.mem_cons, not_or] at h
    cases w with
    | nil =>
      rw [words, if_neg (fun hc => h.1 hc.symm)]
    | cons d w =>
      have hd : d ≠ ' ' := fun hd => h.2 (by simp [hd])
      rw [words, if_neg (fun hc => h.1 hc.symm), ih (by simp) h.2]
      simp [hd]

theorem ident_space {s : Str} (h : Ident s) : ' ' ∉ s := fun hc => by
  have := h.2 _ hc
  revert this
  decide

theorem ident_newline {s : Str} (h : Ident s) : '\n' ∉ s := fun hc => by
  have := h.2 _ hc
  revert this
  decide

theorem ident_brace {s : Str} (h : Ident s) : s ≠ "}".toList := by
  rintro rfl
  have := h.2 '}' (by decide)
  revert this
  decide

theorem ident_words {s : Str} (h : Ident s) : words s = [s] := words_one h.1 (ident_space h)

/-! ## Reading graphviz -/

theorem readDot_nodes (N : Names) {ns : List Leaf} (h : ∀ l ∈ ns, Ident (N.text l.name)) (rest : List Str) :
    readDotBody (ns.map (graphviz N).node ++ rest) =
      (readDotBody rest).map fun p => (ns.map (fun l => N.text l.name) ++ p.1, p.2) := by
  induction ns with
  | nil => simp
  | cons l ns ih =>
    have hl := h l List.mem_cons_self
    rw [List.map_cons, List.cons_append, readDotBody,
      show words ((graphviz N).node l) = [N.text l.name] from by
        show words (' ' :: ' ' :: N.text l.name) = _
        rw [words_space, words_space, ident_words hl]]
    dsimp only
    rw [if_neg (ident_brace hl), if_pos hl, ih fun l hl => h l (List.mem_cons_of_mem _ hl),
      Option.map_map]
    rfl

theorem readDot_edges (N : Names) {es : List VEdge}
    (h : ∀ e ∈ es, Ident (N.text e.src.name) ∧ Ident (N.text e.dst.name)) (rest : List Str) :
    readDotBody (es.map (graphviz N).edge ++ rest) =
      (readDotBody rest).map fun p =>
        (p.1, es.map (fun e => (N.text e.src.name, N.text e.dst.name)) ++ p.2) := by
  induction es with
  | nil => simp
  | cons e es ih =>
    obtain ⟨h1, h2⟩ := h e List.mem_cons_self
    rw [List.map_cons, List.cons_append, readDotBody,
      show words ((graphviz N).edge e) = [N.text e.src.name, "->".toList, N.text e.dst.name] from by
        show words (' ' :: ' ' :: (N.text e.src.name ++ " -> ".toList) ++ N.text e.dst.name) = _
        rw [List.cons_append, words_space, List.cons_append, words_space, List.append_assoc]
        show words (N.text e.src.name ++ ' ' :: ("->".toList ++ ' ' :: N.text e.dst.name)) = _
        rw [words_cons h1.1 (ident_space h1), words_cons (by decide) (by decide), ident_words h2]]
    dsimp only
    rw [if_pos ⟨rfl, h1, h2⟩, ih fun e he => h e (List.mem_cons_of_mem _ he), Option.map_map]
    rfl

theorem readDot_blank (rest : List Str) : readDotBody ([] :: rest) = readDotBody rest := by
  rw [readDotBody]
  rfl

theorem readDot_end : readDotBody ["}".toList] = some ([], []) := by
  simp [readDotBody, words]

/-- Reading a graphviz picture gives its nodes and edges. -/
theorem readDot_visualize (N : Names) {name : Str} {ns : List Leaf} {es : List VEdge} (hname : Ident name)
    (h1 : ∀ l ∈ ns, Ident (N.text l.name))
    (h2 : ∀ e ∈ es, Ident (N.text e.src.name) ∧ Ident (N.text e.dst.name)) :
    readDot (visualize (graphviz N) name ns es) =
      some ⟨name, ns.map fun l => N.text l.name, es.map fun e => (N.text e.src.name, N.text e.dst.name)⟩ := by
  have hn : ∀ l ∈ ns, '\n' ∉ (graphviz N).node l := by
    intro l hl
    show '\n' ∉ ' ' :: ' ' :: N.text l.name
    simp [ident_newline (h1 l hl)]
  have he : ∀ e ∈ es, '\n' ∉ (graphviz N).edge e := by
    intro e he
    show '\n' ∉ "  ".toList ++ N.text e.src.name ++ " -> ".toList ++ N.text e.dst.name
    simp [ident_newline (h2 e he).1, ident_newline (h2 e he).2]
  obtain ⟨hl1, hl2⟩ := lines_visualize (graphviz N) name ns es hn he (by show '\n' ∉ "}".toList; decide)
  have hp : '\n' ∉ (graphviz N).prologue name := by
    show '\n' ∉ "digraph ".toList ++ name ++ " {".toList
    simp [ident_newline hname]
  have hw : words ((graphviz N).prologue name) = ["digraph".toList, name, "{".toList] := by
    show words ("digraph ".toList ++ name ++ " {".toList) = _
    rw [List.append_assoc]
    show words ("digraph".toList ++ ' ' :: (name ++ ' ' :: "{".toList)) = _
    rw [words_cons (by decide) (by decide), words_cons hname.1 (ident_space hname)]
    rfl
  rw [readDot, hl1, lines_append hp, hl2]
  dsimp only
  rw [hw]
  dsimp only
  rw [if_pos ⟨rfl, rfl, hname⟩]
  have hb : ∀ rest, readDotBody (orBlank (ns.map (graphviz N).node) ++ rest) =
      (readDotBody rest).map fun p => (ns.map (fun l => N.text l.name) ++ p.1, p.2) := by
    intro rest
    rw [orBlank]
    split
    · rename_i hnil
      rw [List.map_eq_nil_iff] at hnil
      subst hnil
      show readDotBody ([] :: rest) = _
      rw [readDot_blank]
      simp
    · exact readDot_nodes N h1 rest
  have hc : ∀ rest, readDotBody (orBlank (es.map (graphviz N).edge) ++ rest) =
      (readDotBody rest).map fun p =>
        (p.1, es.map (fun e => (N.text e.src.name, N.text e.dst.name)) ++ p.2) := by
    intro rest
    rw [orBlank]
    split
    · rename_i hnil
      rw [List.map_eq_nil_iff] at hnil
      subst hnil
      show readDotBody ([] :: rest) = _
      rw [readDot_blank]
      simp
    · exact readDot_edges N h2 rest
  rw [hb, hc, show [(graphviz N).epilogue name] = ["}".toList] from rfl, readDot_end]
  simp

/-! ## Reading mermaid -/

theorem plain_newline {s : Str} (h : Plain s) : '\n' ∉ s := fun hc => by
  have := h _ hc
  revert this
  decide

theorem plain_dash {s : Str} (h : Plain s) : '-' ∉ s := fun hc => by
  have := h _ hc
  revert this
  decide

theorem toId_ident {s : Str} (h : Plain s) : Ident (toId s) := by
  refine ⟨by simp [toId], fun c hc => ?_⟩
  rcases List.mem_cons.mp hc with rfl | hc
  · decide
  · obtain ⟨d, hd, rfl⟩ := List.mem_map.mp hc
    split
    · decide
    · rename_i hne
      exact (h d hd).resolve_right hne

/-- Reading the identifier at the beginning of a statement. -/
theorem readItem_id {i : Str} (hi : Ident i) {c : Char} {rest : Str} (hc : identChar c = false) :
    readItem ("  ".toList ++ i ++ c :: rest) = readRest i (c :: rest) := by
  have hne : i ≠ [] := hi.1
  obtain ⟨d, i', rfl⟩ : ∃ d i', i = d :: i' := by
    cases i with
    | nil => exact absurd rfl hne
    | cons d i' => exact ⟨d, i', rfl⟩
  have hd : d ≠ ' ' := fun h => by
    have := hi.2 d List.mem_cons_self
    rw [h] at this
    revert this
    decide
  have h1 : ("  ".toList ++ (d :: i') ++ c :: rest).dropWhile (fun c => c = ' ') =
      (d :: i') ++ c :: rest := by
    show (' ' :: ' ' :: d :: (i' ++ c :: rest)).dropWhile (fun c => c = ' ') = _
    simp [List.dropWhile, hd]
  have h2 : ((d :: i') ++ c :: rest).takeWhile identChar = d :: i' := by
    rw [List.takeWhile_append_of_pos hi.2, List.takeWhile_cons, hc]
    simp
  have h3 : ((d :: i') ++ c :: rest).dropWhile identChar = c :: rest := by
    rw [List.dropWhile_append_of_pos hi.2, List.dropWhile_cons, hc]
    simp
  rw [readItem, h1, h2, h3, if_neg (by simp), if_pos hi]

theorem dropEnd_append (suffix s : Str) : dropEnd suffix (s ++ suffix) = some s := by
  rw [dropEnd, if_pos (by simp)]
  simp

theorem plain_head {s : Str} (h : Plain s) (c : Char) (hc : identChar c = false) (hs : c ≠ ' ') (t : Str) :
    s ≠ c :: t := by
  rintro rfl
  have := h c List.mem_cons_self
  rw [hc] at this
  rcases this with h | h
  · cases h
  · exact hs h

theorem readRest_circle (i s : Str) : readRest i ("((".toList ++ s ++ "))".toList) = some (.node i .circle s) := by
  show (dropEnd "))".toList (s ++ "))".toList)).map (Item.node i .circle) = _
  rw [dropEnd_append]
  rfl

theorem readRest_round (i : Str) {s : Str} (h : Plain s) :
    readRest i ('(' :: s ++ [')']) = some (.node i .round s) := by
  have : readRest i ('(' :: s ++ [')']) = (dropEnd ")".toList (s ++ [')'])).map (Item.node i .round) := by
    cases s with
    | nil => rfl
    | cons c s =>
      have hc : c ≠ '(' := fun hc => plain_head h '(' (by decide) (by decide) s (by rw [hc])
      rw [List.cons_append, List.cons_append, readRest]
      · intro t ht
        injection ht with ht
        exact hc ht
  rw [this]
  show (dropEnd ")".toList (s ++ ")".toList)).map (Item.node i .round) = _
  rw [dropEnd_append]
  rfl

theorem readRest_square (i s : Str) : readRest i ('[' :: s ++ [']']) = some (.node i .square s) := by
  show (dropEnd "]".toList (s ++ "]".toList)).map (Item.node i .square) = _
  rw [dropEnd_append]
  rfl

theorem readRest_arrow (i : Str) {d : Str} (hd : Ident d) :
    readRest i (" --> ".toList ++ d) = some (.arrow i none d) := by
  show (if Ident d then some (Item.arrow i none d) else none) = _
  rw [if_pos hd]

theorem readRest_label (i : Str) {c d : Str} (hc : Plain c) (hd : Ident d) :
    readRest i (" --".toList ++ c ++ "--> ".toList ++ d) = some (.arrow i (some c) d) := by
  have e : " --".toList ++ c ++ "--> ".toList ++ d = ' ' :: '-' :: '-' :: (c ++ "--> ".toList ++ d) := by
    simp
  have hcd : ∀ x ∈ c, (fun c => decide (c ≠ '-')) x = true := by
    intro x hx
    simp only [decide_eq_true_eq]
    rintro rfl
    exact plain_dash hc hx
  have h1 : (c ++ "--> ".toList ++ d).takeWhile (fun c => decide (c ≠ '-')) = c := by
    rw [List.append_assoc, List.takeWhile_append_of_pos hcd]
    show c ++ List.takeWhile _ ('-' :: _) = c
    simp
  have h2 : (c ++ "--> ".toList ++ d).dropWhile (fun c => decide (c ≠ '-')) = '-' :: '-' :: '>' :: ' ' :: d := by
    rw [List.append_assoc, List.dropWhile_append_of_pos hcd]
    rfl
  rw [e, readRest, h2]
  · show (if Ident d then some (Item.arrow i (some (List.takeWhile (fun c => decide (c ≠ '-'))
      (c ++ "--> ".toList ++ d))) d) else none) = _
    rw [if_pos hd, h1]
  · intro s hs
    cases c with
    | nil => cases hs
    | cons x c =>
      injection hs with hs
      exact plain_head hc '>' (by decide) (by decide) c (by rw [hs])

/-- The shape of a node. -/
def shapeOf (N : Names) (l : Leaf) : Shape :=
  if N.text l.name = "start".toList ∨ N.text l.name = "end".toList then .circle
  else if isMilestone N l then .square else .round

theorem readItem_node (N : Names) {l : Leaf} (h : Plain (N.text l.name)) :
    readItem ((mermaid N).node l) =
      some (.node (toId (N.text l.name)) (shapeOf N l) (N.text l.name)) := by
  show readItem (if N.text l.name = "start".toList ∨ N.text l.name = "end".toList then
      "  ".toList ++ toId (N.text l.name) ++ "((".toList ++ N.text l.name ++ "))".toList
    else "  ".toList ++ toId (N.text l.name) ++ toBox N l) = _
  rw [shapeOf]
  split
  · rw [show "  ".toList ++ toId (N.text l.name) ++ "((".toList ++ N.text l.name ++ "))".toList =
      "  ".toList ++ toId (N.text l.name) ++ '(' :: ('(' :: (N.text l.name ++ "))".toList)) by simp,
      readItem_id (toId_ident h) (by decide)]
    exact readRest_circle _ _
  · rw [toBox]
    split
    · rw [List.cons_append, readItem_id (toId_ident h) (by decide)]
      exact readRest_square _ _
    · rw [List.cons_append, readItem_id (toId_ident h) (by decide)]
      exact readRest_round _ h

/-- The label of an arrow. -/
def labelOf (N : Names) (c : List Nat) : Option Str :=
  if N.cond c = "always".toList then none else some (N.cond c)

theorem readItem_edge (N : Names) {e : VEdge} (h1 : Plain (N.text e.src.name)) (h2 : Plain (N.text e.dst.name))
    (h3 : Plain (N.cond e.cond)) :
    readItem ((mermaid N).edge e) =
      some (.arrow (toId (N.text e.src.name)) (labelOf N e.cond) (toId (N.text e.dst.name))) := by
  show readItem (if N.cond e.cond = "always".toList then
      "  ".toList ++ toId (N.text e.src.name) ++ " --> ".toList ++ toId (N.text e.dst.name)
    else
      "  ".toList ++ toId (N.text e.src.name) ++ " --".toList ++ N.cond e.cond ++ "--> ".toList ++
        toId (N.text e.dst.name)) = _
  rw [labelOf]
  split
  · rw [show "  ".toList ++ toId (N.text e.src.name) ++ " --> ".toList ++ toId (N.text e.dst.name) =
      "  ".toList ++ toId (N.text e.src.name) ++ ' ' :: ("--> ".toList ++ toId (N.text e.dst.name)) by simp,
      readItem_id (toId_ident h1) (by decide)]
    exact readRest_arrow _ (toId_ident h2)
  · rw [show "  ".toList ++ toId (N.text e.src.name) ++ " --".toList ++ N.cond e.cond ++ "--> ".toList ++
        toId (N.text e.dst.name) =
      "  ".toList ++ toId (N.text e.src.name) ++ ' ' :: ("--".toList ++ N.cond e.cond ++ "--> ".toList ++
        toId (N.text e.dst.name)) by simp,
      readItem_id (toId_ident h1) (by decide)]
    exact readRest_label _ h3 (toId_ident h2)

theorem readItem_blank : readItem [] = some .blank := rfl

theorem readItems_nodes (N : Names) {ns : List Leaf} (h : ∀ l ∈ ns, Plain (N.text l.name)) (rest : List Str) :
    readItems (ns.map (mermaid N).node ++ rest) =
      (readItems rest).map fun p =>
        (ns.map (fun l => (toId (N.text l.name), shapeOf N l, N.text l.name)) ++ p.1, p.2) := by
  induction ns with
  | nil => simp
  | cons l ns ih =>
    rw [List.map_cons, List.cons_append, readItems, readItem_node N (h l List.mem_cons_self),
      ih fun l hl => h l (List.mem_cons_of_mem _ hl)]
    cases readItems rest <;> rfl

theorem readItems_edges (N : Names) {es : List VEdge}
    (h : ∀ e ∈ es, Plain (N.text e.src.name) ∧ Plain (N.text e.dst.name) ∧ Plain (N.cond e.cond))
    (rest : List Str) :
    readItems (es.map (mermaid N).edge ++ rest) =
      (readItems rest).map fun p =>
        (p.1, es.map (fun e => (toId (N.text e.src.name), labelOf N e.cond, toId (N.text e.dst.name))) ++ p.2) := by
  induction es with
  | nil => simp
  | cons e es ih =>
    obtain ⟨h1, h2, h3⟩ := h e List.mem_cons_self
    rw [List.map_cons, List.cons_append, readItems, readItem_edge N h1 h2 h3,
      ih fun e he => h e (List.mem_cons_of_mem _ he)]
    cases readItems rest <;> rfl

theorem readItems_blank (rest : List Str) : readItems ([] :: rest) = readItems rest := by
  rw [readItems, readItem_blank]
  cases readItems rest <;> rfl

theorem toId_newline {s : Str} (h : Plain s) : '\n' ∉ toId s := ident_newline (toId_ident h)

/-- Reading a mermaid picture gives its nodes and edges. -/
theorem readMermaid_visualize (N : Names) {name : Str} {ns : List Leaf} {es : List VEdge}
    (hname : '\n' ∉ name) (h1 : ∀ l ∈ ns, Plain (N.text l.name))
    (h2 : ∀ e ∈ es, Plain (N.text e.src.name) ∧ Plain (N.text e.dst.name) ∧ Plain (N.cond e.cond)) :
    readMermaid (visualize (mermaid N) name ns es) =
      some ⟨name, ns.map fun l => (toId (N.text l.name), shapeOf N l, N.text l.name),
        es.map fun e => (toId (N.text e.src.name), labelOf N e.cond, toId (N.text e.dst.name))⟩ := by
  have hn : ∀ l ∈ ns, '\n' ∉ (mermaid N).node l := by
    intro l hl
    show '\n' ∉ (if N.text l.name = "start".toList ∨ N.text l.name = "end".toList then
      "  ".toList ++ toId (N.text l.name) ++ "((".toList ++ N.text l.name ++ "))".toList
    else "  ".toList ++ toId (N.text l.name) ++ toBox N l)
    have ha := plain_newline (h1 l hl)
    have hb := toId_newline (h1 l hl)
    split
    · simp [ha, hb]
    · rw [toBox]
      split <;> simp [ha, hb]
  have he : ∀ e ∈ es, '\n' ∉ (mermaid N).edge e := by
    intro e he
    obtain ⟨g1, g2, g3⟩ := h2 e he
    show '\n' ∉ (if N.cond e.cond = "always".toList then
      "  ".toList ++ toId (N.text e.src.name) ++ " --> ".toList ++ toId (N.text e.dst.name)
    else
      "  ".toList ++ toId (N.text e.src.name) ++ " --".toList ++ N.cond e.cond ++ "--> ".toList ++
        toId (N.text e.dst.name))
    split <;> simp [toId_newline g1, toId_newline g2, plain_newline g3]
  obtain ⟨hl1, hl2⟩ := lines_visualize (mermaid N) name ns es hn he (by show '\n' ∉ ([] : Str); simp)
  have hl3 : ∀ t, lines ((mermaid N).prologue name ++ '\n' :: t) =
      "---".toList :: ("title: ".toList ++ name) :: "---".toList :: "flowchart TD".toList :: lines t := by
    intro t
    show lines ("---\ntitle: ".toList ++ name ++ "\n---\nflowchart TD".toList ++ '\n' :: t) = _
    rw [show "---\ntitle: ".toList ++ name ++ "\n---\nflowchart TD".toList ++ '\n' :: t =
      "---".toList ++ '\n' :: (("title: ".toList ++ name) ++ '\n' :: ("---".toList ++ '\n' ::
        ("flowchart TD".toList ++ '\n' :: t))) by simp,
      lines_append (by decide), lines_append (by simp [hname]), lines_append (by decide),
      lines_append (by decide)]
  rw [readMermaid, hl1, hl3, hl2]
  dsimp only
  rw [if_pos ⟨rfl, rfl, rfl, by simp⟩]
  have hb : ∀ rest, readItems (orBlank (ns.map (mermaid N).node) ++ rest) =
      (readItems rest).map fun p =>
        (ns.map (fun l => (toId (N.text l.name), shapeOf N l, N.text l.name)) ++ p.1, p.2) := by
    intro rest
    rw [orBlank]
    split
    · rename_i hnil
      rw [List.map_eq_nil_iff] at hnil
      subst hnil
      show readItems ([] :: rest) = _
      rw [readItems_blank]
      simp
    · exact readItems_nodes N h1 rest
  have hc : ∀ rest, readItems (orBlank (es.map (mermaid N).edge) ++ rest) =
      (readItems rest).map fun p =>
        (p.1, es.map (fun e => (toId (N.text e.src.name), labelOf N e.cond, toId (N.text e.dst.name))) ++ p.2) := by
    intro rest
    rw [orBlank]
    split
    · rename_i hnil
      rw [List.map_eq_nil_iff] at hnil
      subst hnil
      show readItems ([] :: rest) = _
      rw [readItems_blank]
      simp
    · exact readItems_edges N h2 rest
  rw [hb, hc, show [(mermaid N).epilogue name] = [([] : Str)] from rfl, readItems_blank]
  simp [readItems]

end Verif.Viz
