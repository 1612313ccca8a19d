import Verif.Viz.Spec
import Verif.Flow.CheckLemmas
import Verif.Flow.BuildLemmas
import Mathlib.Data.Fintype.Card
import Mathlib.Data.List.Perm.Subperm

/-! # Lemmas about nodes and edges of pictures -/
namespace Verif.Viz
open Verif.Flow Verif.Flow.Spec Verif.Viz.Spec Relation

/-- The edge without the types of its ends. -/
def VEdge.plain (e : VEdge) : Edge := ⟨e.src.name, e.dst.name, e.cond⟩

theorem vcross_plain (c : List Nat) (as bs : List Leaf) :
    (vcross c as bs).map VEdge.plain = cross c as bs := by
  simp [vcross, cross, List.map_flatMap, VEdge.plain, Function.comp_def]

theorem vedges_plain (s : Sub) : (vedges s).map VEdge.plain = s.edges := by
  induction s with
  | leaf l => rfl
  | par st l r ihl ihr => simp [vedges, Sub.edges, ihl, ihr]
  | seq st c l r ihl ihr => simp [vedges, Sub.edges, ihl, ihr, vcross_plain]

theorem prog_vedges {fs : List Frag} {ss : List Sub} (h : evalAll fs = some ss) (x y : Nat) (c : List Nat) :
    (∃ e ∈ ss.flatMap vedges, e.src.name = x ∧ e.dst.name = y ∧ e.cond = c) ↔ NextIf fs x y c := by
  have hp : (ss.flatMap vedges).map VEdge.plain = ss.flatMap Sub.edges := by
    simp [List.map_flatMap, vedges_plain]
  rw [NextIf, ← prog_edges h x y c, ← hp, List.mem_map]
  constructor
  · rintro ⟨e, he, rfl, rfl, rfl⟩
    exact ⟨e, he, rfl⟩
  · rintro ⟨e, he, h⟩
    injection h with h1 h2 h3
    exact ⟨e, he, h1, h2, h3⟩

theorem next_iff_nextIf {fs : List Frag} {x y : Nat} : Next fs x y ↔ ∃ c, NextIf fs x y c := by
  constructor
  · rintro ⟨f, hf, h⟩
    exact ⟨_, f, hf, h, rfl⟩
  · rintro ⟨c, f, hf, h, -⟩
    exact ⟨f, hf, h⟩

theorem prog_next {fs : List Frag} {ss : List Sub} (h : evalAll fs = some ss) (x y : Nat) :
    (∃ e ∈ ss.flatMap vedges, e.src.name = x ∧ e.dst.name = y) ↔ Next fs x y := by
  rw [next_iff_nextIf]
  constructor
  · rintro ⟨e, he, h1, h2⟩
    exact ⟨e.cond, (prog_vedges h x y e.cond).mp ⟨e, he, h1, h2, rfl⟩⟩
  · rintro ⟨c, hc⟩
    obtain ⟨e, he, h1, h2, -⟩ := (prog_vedges h x y c).mpr hc
    exact ⟨e, he, h1, h2⟩

/-- The nodes of a well-formed flow. -/
theorem getNodes_flow {fs : List Frag} (hw : WellFormed fs) :
    ∃ ss ts, evalAll fs = some ss ∧ allNodes ss = some ts ∧ getNodes ss = some ts ∧
      (ts.map fun l => (l.name, l.func)).Perm ((progAdded fs).map fun a => (a.1, some a.2)) ∧
      ∀ l ∈ ts, l.kind = .action ∧ l.starred = true := by
  obtain ⟨ss, ts, h1, h2⟩ := wellFormed_total hw
  obtain ⟨h3, h4⟩ := allNodes_flow h1 h2 fun f hf => (hw f hf).1
  refine ⟨ss, ts, h1, h2, ?_, h3, h4⟩
  rw [getNodes, h2]
  exact congrArg some (nodesOf_flow fun l hl => (h4 l hl).1)

theorem names_perm {fs : List Frag} {ts : List Leaf}
    (h : (ts.map fun l => (l.name, l.func)).Perm ((progAdded fs).map fun a => (a.1, some a.2))) :
    (ts.map (·.name)).Perm ((progAdded fs).map (·.1)) := by
  have := h.map Prod.fst
  simpa [Function.comp_def] using this

theorem names_added {fs : List Frag} {ts : List Leaf}
    (h : (ts.map fun l => (l.name, l.func)).Perm ((progAdded fs).map fun a => (a.1, some a.2))) (x : Nat) :
    (∃ l ∈ ts, l.name = x) ↔ Added fs x := by
  rw [Added, ← (names_perm h).mem_iff, List.mem_map]

theorem mem_orderNodes (O : Order) {ts : List Leaf} {l : Leaf} : l ∈ O.nodes ts ↔ l ∈ ts := by
  rw [(O.nodes_perm ts).mem_iff, mem_unique]

theorem mem_orderEdges (O : Order) {es : List VEdge} {e : VEdge} : e ∈ O.edges es ↔ e ∈ es := by
  rw [(O.edges_perm es).mem_iff, mem_unique]

theorem isSource_iff {es : List VEdge} {l : Leaf} :
    isSource es l = true ↔ ∀ e ∈ es, e.dst.name ≠ l.name := by
  simp [isSource]

theorem isSink_iff {es : List VEdge} {l : Leaf} :
    isSink es l = true ↔ ∀ e ∈ es, e.src.name ≠ l.name := by
  simp [isSink]

/-- The names in the node lines. -/
theorem vizNodes_names (O : Order) (N : Names) {fs : List Frag} {ts : List Leaf}
    (h : (ts.map fun l => (l.name, l.func)).Perm ((progAdded fs).map fun a => (a.1, some a.2))) (x : Nat) :
    (∃ l ∈ vizNodes O N ts, l.name = x) ↔ x = N.start ∨ x = N.stop ∨ Added fs x := by
  rw [← names_added h]
  simp only [vizNodes, List.mem_cons, mem_orderNodes]
  constructor
  · rintro ⟨l, rfl | rfl | hl, rfl⟩
    · exact Or.inl rfl
    · exact Or.inr (Or.inl rfl)
    · exact Or.inr (Or.inr ⟨l, hl, rfl⟩)
  · rintro (rfl | rfl | ⟨l, hl, rfl⟩)
    · exact ⟨_, Or.inl rfl, rfl⟩
    · exact ⟨_, Or.inr (Or.inl rfl), rfl⟩
    · exact ⟨l, Or.inr (Or.inr hl), rfl⟩

theorem noPred_iff {fs : List Frag} {ss : List Sub} (h : evalAll fs = some ss) (O : Order) (l : Leaf) :
    isSource (O.edges (ss.flatMap vedges)) l = true ↔ ∀ z, ¬ Next fs z l.name := by
  rw [isSource_iff]
  constructor
  · intro hs z hz
    obtain ⟨e, he, -, h2⟩ := (prog_next h z l.name).mpr hz
    exact hs e ((mem_orderEdges O).mpr he) h2
  · intro hs e he hd
    exact hs e.src.name ((prog_next h _ _).mp ⟨e, (mem_orderEdges O).mp he, rfl, hd⟩)

theorem noSucc_iff {fs : List Frag} {ss : List Sub} (h : evalAll fs = some ss) (O : Order) (l : Leaf) :
    isSink (O.edges (ss.flatMap vedges)) l = true ↔ ∀ z, ¬ Next fs l.name z := by
  rw [isSink_iff]
  constructor
  · intro hs z hz
    obtain ⟨e, he, h1, -⟩ := (prog_next h l.name z).mpr hz
    exact hs e ((mem_orderEdges O).mpr he) h1
  · intro hs e he hd
    exact hs e.dst.name ((prog_next h _ _).mp ⟨e, (mem_orderEdges O).mp he, hd, rfl⟩)

/-- The edges to render. -/
theorem mem_vizEdges (O : Order) (N : Names) (ts : List Leaf) (es : List VEdge) (e : VEdge) :
    e ∈ vizEdges O N ts es ↔ e ∈ es ∨
      (∃ l ∈ ts, isSource (O.edges es) l = true ∧ e = ⟨startNode N, l, l.cond⟩) ∨
      (∃ l ∈ ts, isSink (O.edges es) l = true ∧ e = ⟨l, stopNode N, l.cond⟩) := by
  simp only [vizEdges, List.mem_append, List.mem_map, List.mem_filter, mem_orderNodes, mem_orderEdges,
    or_assoc, and_assoc, eq_comm]

/-- The arrows of the picture. -/
theorem vizEdges_arrow (O : Order) (N : Names) {fs : List Frag} {ss : List Sub} {ts : List Leaf}
    (hss : evalAll fs = some ss)
    (h : (ts.map fun l => (l.name, l.func)).Perm ((progAdded fs).map fun a => (a.1, some a.2))) (x y : Nat) :
    (∃ e ∈ vizEdges O N ts (ss.flatMap vedges), e.src.name = x ∧ e.dst.name = y) ↔
      Arrow N.start N.stop fs x y := by
  simp only [Arrow, ← prog_next hss x y, ← names_added h, mem_vizEdges]
  constructor
  · rintro ⟨e, he | ⟨l, hl, hs, rfl⟩ | ⟨l, hl, hs, rfl⟩, rfl, rfl⟩
    · exact Or.inl ⟨e, he, rfl, rfl⟩
    · exact Or.inr (Or.inl ⟨rfl, ⟨l, hl, rfl⟩, (noPred_iff hss O l).mp hs⟩)
    · exact Or.inr (Or.inr ⟨rfl, ⟨l, hl, rfl⟩, (noSucc_iff hss O l).mp hs⟩)
  · rintro (⟨e, he, h1, h2⟩ | ⟨rfl, ⟨l, hl, rfl⟩, hz⟩ | ⟨rfl, ⟨l, hl, rfl⟩, hz⟩)
    · exact ⟨e, Or.inl he, h1, h2⟩
    · exact ⟨_, Or.inr (Or.inl ⟨l, hl, (noPred_iff hss O l).mpr hz, rfl⟩), rfl, rfl⟩
    · exact ⟨_, Or.inr (Or.inr ⟨l, hl, (noSucc_iff hss O l).mpr hz, rfl⟩), rfl, rfl⟩

/-- The conditions of added actions. -/
theorem nodes_conds {fs : List Frag} {ss : List Sub} {ts : List Leaf} (h : evalAll fs = some ss)
    (hts : allNodes ss = some ts) (hf : ∀ f ∈ fs, FlowExpr f.expr) (hg : ∀ f ∈ fs, NoStarredGroup f.expr)
    (x : Nat) (c : List Nat) : (∃ l ∈ ts, l.name = x ∧ l.cond = c) ↔ AddedIf fs x c := by
  induction fs generalizing ss ts with
  | nil => cases h; cases hts; simp [AddedIf]
  | cons f fs ih =>
    simp only [evalAll, Option.bind_eq_bind, Option.bind_eq_some_iff] at h
    obtain ⟨s, hs, ss', hss, h⟩ := h
    cases h
    simp only [allNodes, Option.bind_eq_bind, Option.bind_eq_some_iff] at hts
    obtain ⟨a, ha, b, hb, h⟩ := hts
    cases h
    obtain ⟨s0, h0, rfl⟩ := Frag.eval_eq hs
    obtain ⟨p1, q1⟩ := nodes_spec h0 (hf f List.mem_cons_self) ha
    have hih := ih hss hb (fun f' hf' => hf f' (List.mem_cons_of_mem _ hf'))
      (fun f' hf' => hg f' (List.mem_cons_of_mem _ hf'))
    have pn : (a.map (·.name)).Perm ((added f.expr).map (·.1)) := by
      have := p1.map Prod.fst
      simpa [Function.comp_def] using this
    have key : (∃ l ∈ a, l.name = x ∧ l.cond = c) ↔
        x ∈ (added f.expr).map (·.1) ∧ c = f.whens.flatten := by
      rw [← pn.mem_iff, List.mem_map]
      constructor
      · rintro ⟨l, hl, rfl, rfl⟩
        exact ⟨⟨l, hl, rfl⟩, (q1 l hl).2.2 (hg f List.mem_cons_self)⟩
      · rintro ⟨⟨l, hl, rfl⟩, rfl⟩
        exact ⟨l, hl, rfl, (q1 l hl).2.2 (hg f List.mem_cons_self)⟩
    simp only [AddedIf, List.exists_mem_cons_iff]
    rw [← key]
    unfold AddedIf at hih
    rw [← hih]
    constructor
    · rintro ⟨l, hl, hx⟩
      rcases List.mem_append.mp hl with hl | hl
      · exact Or.inl ⟨l, hl, hx⟩
      · exact Or.inr ⟨l, hl, hx⟩
    · rintro (⟨l, hl, hx⟩ | ⟨l, hl, hx⟩)
      · exact ⟨l, List.mem_append_left _ hl, hx⟩
      · exact ⟨l, List.mem_append_right _ hl, hx⟩

/-- The arrows of the picture with their conditions. -/
theorem vizEdges_arrowIf (O : Order) (N : Names) {fs : List Frag} {ss : List Sub} {ts : List Leaf}
    (hss : evalAll fs = some ss)
    (hts : allNodes ss = some ts) (hf : ∀ f ∈ fs, FlowExpr f.expr) (hg : ∀ f ∈ fs, NoStarredGroup f.expr)
    (x y : Nat) (c : List Nat) :
    (∃ e ∈ vizEdges O N ts (ss.flatMap vedges), e.src.name = x ∧ e.dst.name = y ∧ e.cond = c) ↔
      ArrowIf N.start N.stop fs x y c := by
  simp only [ArrowIf, ← prog_vedges hss x y c, ← nodes_conds hss hts hf hg, mem_vizEdges]
  constructor
  · rintro ⟨e, he | ⟨l, hl, hs, rfl⟩ | ⟨l, hl, hs, rfl⟩, rfl, rfl, rfl⟩
    · exact Or.inl ⟨e, he, rfl, rfl, rfl⟩
    · exact Or.inr (Or.inl ⟨rfl, ⟨l, hl, rfl, rfl⟩, (noPred_iff hss O l).mp hs⟩)
    · exact Or.inr (Or.inr ⟨rfl, ⟨l, hl, rfl, rfl⟩, (noSucc_iff hss O l).mp hs⟩)
  · rintro (⟨e, he, h1, h2⟩ | ⟨rfl, ⟨l, hl, rfl, rfl⟩, hz⟩ | ⟨rfl, ⟨l, hl, rfl, rfl⟩, hz⟩)
    · exact ⟨e, Or.inl he, h1, h2⟩
    · exact ⟨_, Or.inr (Or.inl ⟨l, hl, (noPred_iff hss O l).mpr hz, rfl⟩), rfl, rfl, rfl⟩
    · exact ⟨_, Or.inr (Or.inr ⟨l, hl, (noSucc_iff hss O l).mpr hz, rfl⟩), rfl, rfl, rfl⟩

/-! ## Paths -/

theorem next_mem {fs : List Frag} {x y : Nat} (h : Next fs x y) : x ∈ progNames fs ∧ y ∈ progNames fs := by
  obtain ⟨f, hf, h⟩ := h
  exact ⟨List.mem_flatMap.mpr ⟨f, hf, h.mem.1⟩, List.mem_flatMap.mpr ⟨f, hf, h.mem.2⟩⟩

theorem next_declared (fs : List Frag) (x y : Nat) :
    TransGen (Next fs) x y ↔ TransGen (ProgDeclared fs) x y := progFollows_iff fs x y

theorem added_names {e : Expr} {x : Nat × Nat} (h : x ∈ added e) : x.1 ∈ names e := by
  have hocc : ∀ (e : Expr) (o : Nat × Nat × Bool), o ∈ occurrences e → o.1 ∈ names e := by
    intro e
    fun_induction occurrences e <;> intro o ho <;>
      simp only [names, List.mem_append, List.mem_singleton, List.not_mem_nil] at * <;>
      first
        | exact ho.elim
        | (subst ho; rfl)
        | (rename_i ih; exact ih o ho)
        | (rename_i ih1 ih2; exact ho.imp (ih1 o) (ih2 o))
        | (rename_i ih1 ih2; exact ho.imp (ih2 o) (ih1 o))
  induction e with
  | action n f => simp [added] at h
  | ref n => simp [added] at h
  | step n f => simp [added] at h
  | star e ih =>
    simp only [added, List.mem_map, List.mem_dedup] at h
    obtain ⟨o, ho, rfl⟩ := h
    exact hocc e o ho
  | par a b iha ihb =>
    rcases List.mem_append.mp h with h | h
    · exact List.mem_append_left _ (iha h)
    · exact List.mem_append_right _ (ihb h)
  | seq a b iha ihb =>
    rcases List.mem_append.mp h with h | h
    · exact List.mem_append_left _ (iha h)
    · exact List.mem_append_right _ (ihb h)

theorem added_mem {fs : List Frag} {x : Nat} (h : Added fs x) : x ∈ progNames fs := by
  obtain ⟨a, ha, rfl⟩ := List.mem_map.mp h
  obtain ⟨f, hf, ha⟩ := List.mem_flatMap.mp ha
  exact List.mem_flatMap.mpr ⟨f, hf, added_names ha⟩

/-- Induction along the direct orderings of an acyclic flow. -/
theorem acyclic_wf {fs : List Frag} (h : ¬ Cyclic fs) :
    WellFounded fun a b : {n // n ∈ progNames fs} => TransGen (Next fs) a.1 b.1 := by
  have : Finite {n // n ∈ progNames fs} :=
    Finite.of_injective (fun a => (⟨a.1, List.mem_toFinset.mpr a.2⟩ : (progNames fs).toFinset))
      fun a b hab => Subtype.ext (by simpa using hab)
  have ht : IsTrans {n // n ∈ progNames fs} fun a b => TransGen (Next fs) a.1 b.1 :=
    ⟨fun _ _ _ h1 h2 => h1.trans h2⟩
  have hi : Std.Irrefl fun a b : {n // n ∈ progNames fs} => TransGen (Next fs) a.1 b.1 :=
    ⟨fun a ha => h ⟨a.1, (next_declared fs _ _).mp ha⟩⟩
  exact Finite.wellFounded_of_trans_of_irrefl _

theorem acyclic_wf' {fs : List Frag} (h : ¬ Cyclic fs) :
    WellFounded fun a b : {n // n ∈ progNames fs} => TransGen (Next fs) b.1 a.1 := by
  have : Finite {n // n ∈ progNames fs} :=
    Finite.of_injective (fun a => (⟨a.1, List.mem_toFinset.mpr a.2⟩ : (progNames fs).toFinset))
      fun a b hab => Subtype.ext (by simpa using hab)
  have ht : IsTrans {n // n ∈ progNames fs} fun a b => TransGen (Next fs) b.1 a.1 :=
    ⟨fun _ _ _ h1 h2 => h2.trans h1⟩
  have hi : Std.Irrefl fun a b : {n // n ∈ progNames fs} => TransGen (Next fs) b.1 a.1 :=
    ⟨fun a ha => h ⟨a.1, (next_declared fs _ _).mp ha⟩⟩
  exact Finite.wellFounded_of_trans_of_irrefl _

theorem start_path {fs : List Frag} (h : ¬ Cyclic fs) (ha : ∀ x ∈ progNames fs, Added fs x)
    (first last x : Nat) (hx : Added fs x) : TransGen (Arrow first last fs) first x := by
  have key : ∀ a : {n // n ∈ progNames fs}, TransGen (Arrow first last fs) first a.1 := by
    intro a
    induction a using (acyclic_wf h).induction with
    | _ a ih =>
      by_cases hp : ∃ z, Next fs z a.1
      · obtain ⟨z, hz⟩ := hp
        exact (ih ⟨z, (next_mem hz).1⟩ (TransGen.single hz)).tail (Or.inl hz)
      · exact TransGen.single (Or.inr (Or.inl ⟨rfl, ha _ a.2, fun z hz => hp ⟨z, hz⟩⟩))
  exact key ⟨x, added_mem hx⟩

theorem stop_path {fs : List Frag} (h : ¬ Cyclic fs) (ha : ∀ x ∈ progNames fs, Added fs x)
    (first last x : Nat) (hx : Added fs x) : TransGen (Arrow first last fs) x last := by
  have key : ∀ a : {n // n ∈ progNames fs}, TransGen (Arrow first last fs) a.1 last := by
    intro a
    induction a using (acyclic_wf' h).induction with
    | _ a ih =>
      by_cases hp : ∃ z, Next fs a.1 z
      · obtain ⟨z, hz⟩ := hp
        exact TransGen.head (Or.inl hz) (ih ⟨z, (next_mem hz).2⟩ (TransGen.single hz))
      · exact TransGen.single (Or.inr (Or.inr ⟨rfl, ha _ a.2, fun z hz => hp ⟨z, hz⟩⟩))
  exact key ⟨x, added_mem hx⟩

/-- Between actions of the flow, the paths of the picture are the declared orderings. -/
theorem path_iff {fs : List Frag} {first last x y : Nat} (h1 : first ∉ progNames fs)
    (h2 : last ∉ progNames fs) (hne : first ≠ last) (hx : x ∈ progNames fs) (hy : y ∈ progNames fs) :
    TransGen (Arrow first last fs) x y ↔ TransGen (ProgDeclared fs) x y := by
  rw [← next_declared]
  constructor
  · intro h
    have key : ∀ z, TransGen (Arrow first last fs) x z → TransGen (Next fs) x z ∨ z = last := by
      intro z hz
      induction hz with
      | single hz =>
        rcases hz with hz | ⟨rfl, -⟩ | ⟨rfl, -⟩
        · exact Or.inl (TransGen.single hz)
        · exact absurd hx h1
        · exact Or.inr rfl
      | @tail b c _ hbc ih =>
        rcases hbc with hbc | ⟨rfl, -⟩ | ⟨rfl, -⟩
        · rcases ih with ih | rfl
          · exact Or.inl (ih.tail hbc)
          · exact absurd (next_mem hbc).1 h2
        · rcases ih with ih | ih
          · exfalso
            rcases TransGen.tail'_iff.mp ih with ⟨w, -, hw⟩
            exact h1 (next_mem hw).2
          · exact absurd ih hne
        · exact Or.inr rfl
    rcases key y h with h | rfl
    · exact h
    · exact absurd hy h2
  · exact fun h => tgMono h fun _ _ h => Or.inl h

/-! ## The recursion of `descendant_of_q` and `ancestor_of_q` -/

theorem anyOf_none {p : Nat → Option Bool} {l : List Nat} (h : anyOf p l = none) : ∃ a ∈ l, p a = none := by
  induction l with
  | nil => cases h
  | cons a l ih =>
    cases ha : p a with
    | none => exact ⟨a, List.mem_cons_self, ha⟩
    | some b =>
      cases hl : anyOf p l with
      | none =>
        obtain ⟨c, hc, h⟩ := ih hl
        exact ⟨c, List.mem_cons_of_mem _ hc, h⟩
      | some c => simp [anyOf, ha, hl] at h

theorem anyOf_none_of {p : Nat → Option Bool} {l : List Nat} {a : Nat} (ha : a ∈ l) (h : p a = none) :
    anyOf p l = none := by
  induction l with
  | nil => cases ha
  | cons b l ih =>
    rcases List.mem_cons.mp ha with rfl | ha
    · simp [anyOf, h]
    · cases hb : p b <;> simp [anyOf, hb, ih ha]

theorem anyOf_some {p : Nat → Option Bool} {l : List Nat} {b : Bool} (h : anyOf p l = some b) :
    (∀ a ∈ l, ∃ c, p a = some c) ∧ (b = true ↔ ∃ a ∈ l, p a = some true) := by
  induction l generalizing b with
  | nil => cases h; simp
  | cons a l ih =>
    simp only [anyOf, Option.bind_eq_bind, Option.bind_eq_some_iff] at h
    obtain ⟨c, hc, d, hd, h⟩ := h
    cases h
    obtain ⟨i1, i2⟩ := ih hd
    constructor
    · intro x hx
      rcases List.mem_cons.mp hx with rfl | hx
      · exact ⟨c, hc⟩
      · exact i1 x hx
    · rw [Bool.or_eq_true, i2, List.exists_mem_cons_iff, hc, Option.some.injEq]

theorem reaches_some {next : Nat → List Nat} {target fuel n : Nat} {b : Bool}
    (h : reaches next target fuel n = some b) :
    b = true ↔ ReflTransGen (fun x y => y ∈ next x) n target := by
  induction fuel generalizing n b with
  | zero =>
    rw [reaches] at h
    split at h
    · rename_i hn
      subst hn
      cases h
      simp [ReflTransGen.refl]
    · cases h
  | succ fuel ih =>
    rw [reaches] at h
    split at h
    · rename_i hn
      subst hn
      cases h
      simp [ReflTransGen.refl]
    · rename_i hn
      obtain ⟨h1, h2⟩ := anyOf_some h
      rw [h2]
      constructor
      · rintro ⟨a, ha, hr⟩
        exact ReflTransGen.head ha ((ih hr).mp rfl)
      · intro hp
        rcases ReflTransGen.cases_head hp with rfl | ⟨a, ha, hp⟩
        · exact absurd rfl hn
        · obtain ⟨c, hc⟩ := h1 a ha
          have := (ih hc).mpr hp
          subst this
          exact ⟨a, ha, hc⟩

/-- When the recursion does not end there is a path as long as the fuel. -/
theorem reaches_none {next : Nat → List Nat} {target fuel n : Nat}
    (h : reaches next target fuel n = none) :
    ∃ l : List Nat, l.length = fuel ∧ (∀ x ∈ l, ∃ y, y ∈ next x) ∧
      l.Pairwise (TransGen fun x y => y ∈ next x) ∧
      ∀ x ∈ l, ReflTransGen (fun x y => y ∈ next x) n x := by
  induction fuel generalizing n with
  | zero => exact ⟨[], rfl, by simp, by simp, by simp⟩
  | succ fuel ih =>
    rw [reaches] at h
    split at h
    · cases h
    · obtain ⟨a, ha, h⟩ := anyOf_none h
      obtain ⟨l, h1, h2, h3, h4⟩ := ih h
      refine ⟨n :: l, by simp [h1], ?_, ?_, ?_⟩
      · intro x hx
        rcases List.mem_cons.mp hx with rfl | hx
        · exact ⟨a, ha⟩
        · exact h2 x hx
      · refine List.pairwise_cons.mpr ⟨fun x hx => ?_, h3⟩
        exact TransGen.head' ha (h4 x hx)
      · intro x hx
        rcases List.mem_cons.mp hx with rfl | hx
        · exact ReflTransGen.refl
        · exact ReflTransGen.head ha (h4 x hx)

/-- Without cycles the recursion ends. -/
theorem reaches_total {next : Nat → List Nat} {target n : Nat} {dom : List Nat}
    (hd : ∀ x y, y ∈ next x → x ∈ dom)
    (hc : ∀ x, ¬ TransGen (fun x y => y ∈ next x) x x) :
    ∃ b, reaches next target (dom.length + 1) n = some b := by
  cases h : reaches next target (dom.length + 1) n with
  | some b => exact ⟨b, rfl⟩
  | none =>
    exfalso
    obtain ⟨l, h1, h2, h3, -⟩ := reaches_none h
    have hnd : l.Nodup := h3.imp fun {a b} hab => by
      rintro rfl
      exact hc _ hab
    have hsub : l ⊆ dom := fun x hx => by
      obtain ⟨y, hy⟩ := h2 x hx
      exact hd x y hy
    have := (List.subperm_of_subset hnd hsub).length_le
    omega

/-- On a walk that never ends and avoids the target the recursion never ends. -/
theorem reaches_walk {next : Nat → List Nat} {target : Nat} (S : Nat → Prop)
    (h : ∀ x, S x → x ≠ target ∧ ∃ y ∈ next x, S y) (fuel n : Nat) (hn : S n) :
    reaches next target fuel n = none := by
  induction fuel generalizing n with
  | zero => rw [reaches, if_neg (h n hn).1]
  | succ fuel ih =>
    rw [reaches, if_neg (h n hn).1]
    obtain ⟨y, hy, hs⟩ := (h n hn).2
    exact anyOf_none_of hy (ih y hs)

/-- The recursion never ends for a node that leads to a cycle without meeting the target. -/
theorem reaches_cycle {next : Nat → List Nat} {target m n : Nat}
    (h : TransGen (fun x y => x ≠ target ∧ y ∈ next x) n n)
    (hm : ReflTransGen (fun x y => x ≠ target ∧ y ∈ next x) m n) (fuel : Nat) :
    reaches next target fuel m = none := by
  refine reaches_walk (fun x => TransGen (fun x y => x ≠ target ∧ y ∈ next x) x n) ?_ fuel m
    (TransGen.trans_right hm h)
  intro x hx
  rcases TransGen.head'_iff.mp hx with ⟨y, hxy, hy⟩
  exact ⟨hxy.1, y, hxy.2, TransGen.trans_right hy h⟩

theorem copyIf_some {p : Nat → Option Bool} {ls : List Leaf} (h : ∀ l ∈ ls, ∃ b, p l.name = some b) :
    ∃ out, copyIf p ls = some out ∧ ∀ l, l ∈ out ↔ l ∈ ls ∧ p l.name = some true := by
  induction ls with
  | nil => exact ⟨[], rfl, by simp⟩
  | cons a ls ih =>
    obtain ⟨b, hb⟩ := h a List.mem_cons_self
    obtain ⟨out, ho, hm⟩ := ih fun l hl => h l (List.mem_cons_of_mem _ hl)
    refine ⟨if b then a :: out else out, by simp [copyIf, hb, ho], fun l => ?_⟩
    cases b with
    | true =>
      simp only [if_true, List.mem_cons, hm]
      constructor
      · rintro (rfl | ⟨h1, h2⟩)
        · exact ⟨Or.inl rfl, hb⟩
        · exact ⟨Or.inr h1, h2⟩
      · rintro ⟨rfl | h1, h2⟩
        · exact Or.inl rfl
        · exact Or.inr ⟨h1, h2⟩
    | false =>
      simp only [Bool.false_eq_true, if_false, List.mem_cons, hm]
      constructor
      · rintro ⟨h1, h2⟩
        exact ⟨Or.inr h1, h2⟩
      · rintro ⟨rfl | h1, h2⟩
        · rw [hb] at h2
          cases h2
        · exact ⟨h1, h2⟩

theorem copyIf_none {p : Nat → Option Bool} {ls : List Leaf} {l : Leaf} (hl : l ∈ ls)
    (h : p l.name = none) : copyIf p ls = none := by
  induction ls with
  | nil => cases hl
  | cons a ls ih =>
    rcases List.mem_cons.mp hl with rfl | hl
    · simp [copyIf, h]
    · cases hb : p a.name <;> simp [copyIf, hb, ih hl]

theorem copyIf_sublist {p : Nat → Option Bool} {ls out : List Leaf} (h : copyIf p ls = some out) :
    out.Sublist ls := by
  induction ls generalizing out with
  | nil => cases h; exact List.Sublist.refl _
  | cons a ls ih =>
    simp only [copyIf, Option.bind_eq_bind, Option.bind_eq_some_iff] at h
    obtain ⟨b, hb, r, hr, h⟩ := h
    cases h
    split
    · exact (ih hr).cons_cons _
    · exact (ih hr).cons _

theorem mem_parentsOf {es : List VEdge} {n m : Nat} :
    m ∈ parentsOf es n ↔ ∃ e ∈ es, e.src.name = m ∧ e.dst.name = n := by
  simp only [parentsOf, List.mem_map, List.mem_filter, decide_eq_true_eq]
  constructor
  · rintro ⟨e, ⟨h1, h2⟩, h3⟩
    exact ⟨e, h1, h3, h2⟩
  · rintro ⟨e, h1, h3, h2⟩
    exact ⟨e, ⟨h1, h2⟩, h3⟩

theorem mem_childrenOf {es : List VEdge} {n m : Nat} :
    m ∈ childrenOf es n ↔ ∃ e ∈ es, e.src.name = n ∧ e.dst.name = m := by
  simp only [childrenOf, List.mem_map, List.mem_filter, decide_eq_true_eq]
  constructor
  · rintro ⟨e, ⟨h1, h2⟩, h3⟩
    exact ⟨e, h1, h2, h3⟩
  · rintro ⟨e, h1, h3, h2⟩
    exact ⟨e, ⟨h1, h3⟩, h2⟩

theorem contained_iff {ns : List Leaf} {e : VEdge} :
    contained ns e = true ↔ (∃ l ∈ ns, l.name = e.src.name) ∧ ∃ l ∈ ns, l.name = e.dst.name := by
  simp [contained]

end Verif.Viz
