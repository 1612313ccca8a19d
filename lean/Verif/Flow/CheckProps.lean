import Verif.Flow.Props
import Verif.Flow.CheckLemmas

/-! # Flow properties: what is accepted, and conditions -/
namespace Verif.Flow
open Spec Relation

theorem keys_cycle {nodes : List Leaf} {edges : List Edge} {out : List Leaf} {g : Graph Leaf}
    (hi : Inv nodes (Direct nodes edges) out [] g) :
    g.empty = false ↔ ∃ x ∈ nodes, TransGen (Direct nodes edges) x x := by
  constructor
  · intro h
    by_contra hcon
    have hac : ∀ a, ¬ TransGen (Direct nodes edges) a a := by
      intro a ha
      rcases TransGen.head'_iff.mp ha with ⟨z, hz, -⟩
      exact hcon ⟨a, hz.1, ha⟩
    have hall := hi.all_of_acyclic (fun a b h => ⟨h.1, h.2.1⟩) hac
    have : g.empty = true := empty_iff.mpr fun k hk => by
      obtain ⟨h1, h2⟩ := (hi.keys k).mp hk
      exact h2 (hall k h1)
    rw [this] at h
    cases h
  · rintro ⟨x, hx, hxx⟩
    have hxo := hi.not_mem_of_cycle hxx
    cases h : g.empty with
    | false => rfl
    | true => exact absurd ((hi.keys x).mpr ⟨hx, hxo⟩) (empty_iff.mp h x)

theorem declared_mem {fs : List Frag} {x y : Nat} (h : ProgDeclared fs x y) :
    x ∈ progNames fs ∧ y ∈ progNames fs := by
  obtain ⟨f, hf', hdec⟩ := h
  have ht := hdec.follows
  rcases TransGen.head'_iff.mp ht with ⟨z, hz, -⟩
  rcases TransGen.tail'_iff.mp ht with ⟨w, -, hw⟩
  exact ⟨List.mem_flatMap.mpr ⟨f, hf', hz.mem.1⟩, List.mem_flatMap.mpr ⟨f, hf', hw.mem.2⟩⟩

/-- A cycle of names is a cycle of nodes. -/
theorem cyclic_iff {fs : List Frag} {ss : List Sub} (h : evalAll fs = some ss) {nodes : List Leaf}
    (hd : (nodes.map (·.name)).Nodup) (hn : ∀ n, n ∈ nodes.map (·.name) ↔ n ∈ progNames fs) :
    Cyclic fs ↔ ∃ x ∈ nodes, TransGen (Direct nodes (ss.flatMap Sub.edges)) x x := by
  constructor
  · rintro ⟨a, ha⟩
    have : a ∈ nodes.map (·.name) := by
      rw [hn]
      rcases TransGen.head'_iff.mp ha with ⟨z, hz, -⟩
      exact (declared_mem hz).1
    obtain ⟨x, hx, rfl⟩ := List.mem_map.mp this
    exact ⟨x, hx, (declared_iff h hd hn hx hx).mp ha⟩
  · rintro ⟨x, hx, hxx⟩
    exact ⟨x.name, (declared_iff h hd hn hx hx).mpr hxx⟩

/-! ## C32: cycles -/

/-- C32: when the other checks have passed, building fails exactly when the declared orderings are
cyclic. -/
theorem C32_cycle (picks : Nat → Nat) (fs : List Frag) (out : List Leaf) (g : Graph Leaf)
    (hf : ∀ f ∈ fs, FlowExpr f.expr) (h : program picks fs = .sorted out g) :
    flow picks fs = none ↔ Cyclic fs := by
  obtain ⟨ss, ts, hss, hts, -, -, hn, hd, -, hi⟩ := program_sorted hf h
  rw [cyclic_iff hss hd hn, ← keys_cycle hi, flow, h]
  dsimp only
  cases g.empty <;> simp

/-- All outcomes for a well-formed program. -/
theorem program_outcomes (picks : Nat → Nat) (fs : List Frag) (h : WellFormed fs) :
    program picks fs = .missing ∨ program picks fs = .duplicate ∨ program picks fs = .conditions ∨
    ∃ out g, program picks fs = .sorted out g := by
  obtain ⟨ss, ts, hss, hts⟩ := wellFormed_total h
  obtain ⟨-, hk⟩ := allNodes_flow hss hts fun f hf => (h f hf).1
  have hno : nodesOf ss ts = ts := nodesOf_flow fun l hl => (hk l hl).1
  have := build_spec picks hts (by
    rw [hno]
    exact fun l hl => createNode_action (hk l hl).1)
  rw [program, hss]
  dsimp only
  rcases this with ⟨-, h⟩ | ⟨-, ⟨-, h⟩ | ⟨-, ⟨-, h⟩ | ⟨-, o, g', h, -⟩⟩⟩
  · exact Or.inl h
  · exact Or.inr (Or.inl h)
  · exact Or.inr (Or.inr (Or.inl h))
  · exact Or.inr (Or.inr (Or.inr ⟨o, g', h⟩))

/-- C32: a well-formed flow program is rejected exactly for a wrong mention, a condition that is too
weak, or a cycle. In particular sorting never runs out of room. -/
theorem C32_rejected (picks : Nat → Nat) (fs : List Frag) (h : WellFormed fs) :
    flow picks fs = none ↔
      program picks fs = .missing ∨ program picks fs = .duplicate ∨ program picks fs = .conditions ∨
      Cyclic fs := by
  constructor
  · intro hn
    rcases program_outcomes picks fs h with h1 | h1 | h1 | ⟨out, g, h1⟩
    · exact Or.inl h1
    · exact Or.inr (Or.inl h1)
    · exact Or.inr (Or.inr (Or.inl h1))
    · exact Or.inr (Or.inr (Or.inr ((C32_cycle picks fs out g (fun f hf => (h f hf).1) h1).mp hn)))
  · rintro (h1 | h1 | h1 | h1)
    · rw [flow, h1]
    · rw [flow, h1]
    · rw [flow, h1]
    · rcases program_outcomes picks fs h with h2 | h2 | h2 | ⟨out, g, h2⟩
      · rw [flow, h2]
      · rw [flow, h2]
      · rw [flow, h2]
      · exact (C32_cycle picks fs out g (fun f hf => (h f hf).1) h2).mpr h1

/-- Non-vacuity of C32: `*1 >> *2 >> *3` with `3 >> 1` is cyclic and rejected; without it accepted. -/
example :
    flow (fun _ => 0) [⟨[], .seq (.seq (.star (.action 1 0)) (.star (.action 2 0))) (.star (.action 3 0))⟩,
      ⟨[], .seq (.action 3 0) (.action 1 0)⟩] = none ∧
    (flow (fun _ => 0) [⟨[], .seq (.seq (.star (.action 1 0)) (.star (.action 2 0)))
      (.star (.action 3 0))⟩]).isSome = true := by decide +kernel

/-! ## C33: mentions -/

theorem added_subset {e : Expr} : ∀ a ∈ added e, a.1 ∈ names e := by
  have hocc : ∀ e : Expr, ∀ o ∈ occurrences e, o.1 ∈ names e := by
    intro e
    induction e with
    | action n f => intro o ho; simp only [occurrences, List.mem_singleton] at ho; subst ho; simp [names]
    | ref n => intro o ho; cases ho
    | step n f => intro o ho; simp only [occurrences, List.mem_singleton] at ho; subst ho; simp [names]
    | star e ih =>
      cases e with
      | action n f => intro o ho; simp only [occurrences, List.mem_singleton] at ho; subst ho; simp [names]
      | ref n => intro o ho; cases ho
      | step n f => intro o ho; simp only [occurrences, List.mem_singleton] at ho; subst ho; simp [names]
      | star e => exact ih
      | par a b => exact ih
      | seq a b => exact ih
    | par a b iha ihb =>
      intro o ho
      rw [names, List.mem_append]
      exact (List.mem_append.mp ho).imp (iha o) (ihb o)
    | seq a b iha ihb =>
      intro o ho
      rw [names, List.mem_append]
      exact (List.mem_append.mp ho).imp (iha o) (ihb o)
  induction e with
  | action n f => intro a ha; cases ha
  | ref n => intro a ha; cases ha
  | step n f => intro a ha; cases ha
  | star e ih =>
    intro a ha
    obtain ⟨o, ho, rfl⟩ := List.mem_map.mp ha
    exact hocc e o (List.mem_dedup.mp ho)
  | par a b iha ihb =>
    intro x hx
    rw [names, List.mem_append]
    exact (List.mem_append.mp hx).imp (iha x) (ihb x)
  | seq a b iha ihb =>
    intro x hx
    rw [names, List.mem_append]
    exact (List.mem_append.mp hx).imp (iha x) (ihb x)

theorem nodup_iff_count {l : List Nat} : l.Nodup ↔ ∀ n ∈ l, l.count n = 1 := by
  rw [List.nodup_iff_count_le_one]
  constructor
  · intro h n hn
    have h1 := h n
    have h2 := List.count_pos_iff.mpr hn
    omega
  · intro h n
    by_cases hn : n ∈ l
    · rw [h n hn]
    · rw [List.count_eq_zero_of_not_mem hn]
      omega

/-- The mention checks in terms of what is written. -/
theorem mention_outcome (picks : Nat → Nat) (fs : List Frag) (h : WellFormed fs) :
    (program picks fs = .missing ↔ ∃ n ∈ progNames fs, n ∉ (progAdded fs).map (·.1)) ∧
    (program picks fs = .duplicate ↔ (∀ n ∈ progNames fs, n ∈ (progAdded fs).map (·.1)) ∧
      ¬ ((progAdded fs).map (·.1)).Nodup) := by
  obtain ⟨ss, ts, hss, hts⟩ := wellFormed_total h
  obtain ⟨hp, hk⟩ := allNodes_flow hss hts fun f hf => (h f hf).1
  have hno : nodesOf ss ts = ts := nodesOf_flow fun l hl => (hk l hl).1
  have hb := build_spec picks hts (by
    rw [hno]
    exact fun l hl => createNode_action (hk l hl).1)
  rw [hno, mentionedNames_eq hss] at hb
  have hpn : (ts.map (·.name)).Perm ((progAdded fs).map (·.1)) := by
    have := hp.map (·.1)
    simpa [List.map_map, Function.comp_def] using this
  have hsub : ∀ n ∈ ts.map (·.name), n ∈ progNames fs := by
    intro n hn
    rw [hpn.mem_iff] at hn
    obtain ⟨a, ha, rfl⟩ := List.mem_map.mp hn
    obtain ⟨f, hf, ha⟩ := List.mem_flatMap.mp ha
    exact List.mem_flatMap.mpr ⟨f, hf, added_subset a ha⟩
  have hprog : program picks fs = build picks ss := by
    rw [program, hss]
  rw [hprog, ← hpn.nodup_iff]
  simp only [← hpn.mem_iff]
  have hset : (∀ n, n ∈ ts.map (·.name) ↔ n ∈ progNames fs) ↔
      ∀ n ∈ progNames fs, n ∈ ts.map (·.name) :=
    ⟨fun h n => (h n).mpr, fun h n => ⟨hsub n, h n⟩⟩
  rw [hset] at hb
  have hneg : (∃ n ∈ progNames fs, n ∉ ts.map (·.name)) ↔
      ¬ ∀ n ∈ progNames fs, n ∈ ts.map (·.name) := by
    constructor
    · rintro ⟨n, h1, h2⟩ h
      exact h2 (h n h1)
    · intro h
      by_contra hc
      exact h fun n hn => by
        by_contra hcc
        exact hc ⟨n, hn, hcc⟩
  rw [hneg]
  rcases hb with ⟨h1, h⟩ | ⟨h1, ⟨h2, h⟩ | ⟨h2, ⟨-, h⟩ | ⟨-, o, g', h, -⟩⟩⟩ <;> rw [h]
  · exact ⟨⟨fun _ => h1, fun _ => rfl⟩, ⟨fun h => (by cases h), fun h => absurd h.1 h1⟩⟩
  · exact ⟨⟨fun h => (by cases h), fun h => absurd h1 h⟩, ⟨fun _ => ⟨h1, h2⟩, fun _ => rfl⟩⟩
  · exact ⟨⟨fun h => (by cases h), fun h => absurd h1 h⟩, ⟨fun h => (by cases h), fun h => absurd h2 h.2⟩⟩
  · exact ⟨⟨fun h => (by cases h), fun h => absurd h1 h⟩, ⟨fun h => (by cases h), fun h => absurd h2 h.2⟩⟩

/-- C33: the mentions are accepted exactly when every mentioned action is added with `*` exactly
once. -/
theorem C33_accepted (picks : Nat → Nat) (fs : List Frag) (h : WellFormed fs) :
    (program picks fs ≠ .missing ∧ program picks fs ≠ .duplicate) ↔
      ∀ n ∈ progNames fs, ((progAdded fs).map (·.1)).count n = 1 := by
  obtain ⟨h1, h2⟩ := mention_outcome picks fs h
  have hsub : ∀ n ∈ (progAdded fs).map (·.1), n ∈ progNames fs := by
    intro n hn
    obtain ⟨a, ha, rfl⟩ := List.mem_map.mp hn
    obtain ⟨f, hf, ha⟩ := List.mem_flatMap.mp ha
    exact List.mem_flatMap.mpr ⟨f, hf, added_subset a ha⟩
  rw [Ne, Ne, h1, h2]
  constructor
  · rintro ⟨ha, hb⟩ n hn
    have hin : ∀ n ∈ progNames fs, n ∈ (progAdded fs).map (·.1) := by
      intro m hm
      by_contra hc
      exact ha ⟨m, hm, hc⟩
    have hnd : ((progAdded fs).map (·.1)).Nodup := by
      by_contra hc
      exact hb ⟨hin, hc⟩
    exact nodup_iff_count.mp hnd n (hin n hn)
  · intro hc
    constructor
    · rintro ⟨n, hn, hna⟩
      have := hc n hn
      rw [List.count_eq_zero_of_not_mem hna] at this
      cases this
    · rintro ⟨-, hnd⟩
      exact hnd (nodup_iff_count.mpr fun n hn => hc n (hsub n hn))

/-- C33: which of the two errors is given: "referenced but not added" when some mentioned action was
added nowhere. -/
theorem C33_missing (picks : Nat → Nat) (fs : List Frag) (h : WellFormed fs) :
    program picks fs = .missing ↔ ∃ n ∈ progNames fs, n ∉ (progAdded fs).map (·.1) :=
  (mention_outcome picks fs h).1

/-- Non-vacuity of C33: a mention without `*`, a second `*`, and an accepted program. -/
example :
    program (fun _ => 0) [⟨[], .seq (.star (.action 1 0)) (.action 2 0)⟩] = .missing ∧
    program (fun _ => 0) [⟨[], .seq (.star (.action 1 0)) (.star (.action 2 0))⟩,
      ⟨[], .star (.action 2 0)⟩] = .duplicate ∧
    (flow (fun _ => 0) [⟨[], .seq (.star (.action 1 0)) (.star (.action 2 0))⟩,
      ⟨[], .par (.ref 2) (.action 1 0)⟩]).isSome = true ∧
    WellFormed [⟨[], .seq (.star (.action 1 0)) (.star (.action 2 0))⟩,
      ⟨[], .par (.ref 2) (.action 1 0)⟩] := by
  refine ⟨by decide +kernel, by decide +kernel, by decide +kernel, ?_⟩
  intro f hf
  simp only [List.mem_cons, List.not_mem_nil, or_false] at hf
  rcases hf with rfl | rfl
  · exact ⟨⟨trivial, trivial⟩, ⟨trivial, trivial⟩, Or.inl rfl⟩
  · exact ⟨⟨trivial, trivial⟩, ⟨trivial, trivial⟩, Or.inl rfl⟩

/-! ## C34: what `>>` and `&&` mean -/

/-- C34: the orders that follow from the edges of an expression are exactly those that follow from
reading `a >> b` as "everything in `a` before everything in `b`", and `a && b` as no order. -/
theorem C34_meaning (e : Expr) (s : Sub) (h : e.eval = some s) (x y : Nat) :
    TransGen (fun x y => ∃ c, ⟨x, y, c⟩ ∈ s.edges) x y ↔ TransGen (Declared e) x y := by
  have hE : ∀ x y, (∃ c, ⟨x, y, c⟩ ∈ s.edges) ↔ Follows e x y := by
    intro x y
    simp only [(Expr.eval_spec h).2.2.2]
    exact ⟨fun ⟨c, h, _⟩ => h, fun h => ⟨[], h, rfl⟩⟩
  constructor
  · exact fun h => tgMono h fun a b hab => ((hE a b).mp hab).declared
  · intro h
    induction h with
    | single h => exact tgMono h.follows fun a b hab => (hE a b).mpr hab
    | tail _ h ih => exact ih.trans (tgMono h.follows fun a b hab => (hE a b).mpr hab)

/-- C34: nothing else is ordered: every arrangement of the actions that respects the declared
orderings is what sorting gives for some container order. -/
theorem C34_no_other_order (picks : Nat → Nat) (fs : List Frag) (out : List Leaf)
    (hf : ∀ f ∈ fs, FlowExpr f.expr) (h : flow picks fs = some out) (w : List Nat)
    (hw : w.Perm (out.map (·.name))) (hord : ∀ a b, ProgDeclared fs a b → Precedes a b w) :
    ∃ picks' out', flow picks' fs = some out' ∧ out'.map (·.name) = w := by
  obtain ⟨g, hp, hg⟩ := flow_sorted h
  have hacyc : ¬ Cyclic fs := by
    intro hc
    rw [(C32_cycle picks fs out g hf hp).mpr hc] at h
    cases h
  obtain ⟨ss, ts, hss, hts, -, hk, hn, hd, hcond, hi⟩ := program_sorted hf hp
  have hot : out.Perm ts := by
    rw [List.perm_ext_iff_of_nodup hi.nodupOut (List.Nodup.of_map _ hd)]
    intro a
    constructor
    · exact hi.sub a
    · intro ha
      by_contra hao
      exact empty_iff.mp hg a ((hi.keys a).mpr ⟨ha, hao⟩)
  have hno : nodesOf ss ts = ts := nodesOf_flow fun l hl => (hk l hl).1
  have hfix : ∀ l ∈ ts, createNode l = l := fun l hl => createNode_action (hk l hl).1
  -- the arrangement, as nodes
  have hwts : ∀ n ∈ w, ∃ l ∈ ts, l.name = n := by
    intro n hnw
    have := hw.subset hnw
    obtain ⟨l, hl, rfl⟩ := List.mem_map.mp this
    exact ⟨l, hot.subset hl, rfl⟩
  have hlift : ∀ w : List Nat, (∀ n ∈ w, ∃ l ∈ ts, l.name = n) →
      ∃ wl : List Leaf, wl.map (·.name) = w ∧ ∀ l ∈ wl, l ∈ ts := by
    intro w
    induction w with
    | nil => exact fun _ => ⟨[], rfl, by simp⟩
    | cons n w ih =>
      intro hall
      obtain ⟨l, hl, hln⟩ := hall n List.mem_cons_self
      obtain ⟨wl, h1, h2⟩ := ih fun m hm => hall m (List.mem_cons_of_mem _ hm)
      refine ⟨l :: wl, by simp [hln, h1], fun x hx => ?_⟩
      rcases List.mem_cons.mp hx with rfl | hx
      · exact hl
      · exact h2 x hx
  obtain ⟨wl, hwl, hwlts⟩ := hlift w hwts
  have hwd : w.Nodup := (hw.nodup_iff).mpr ((hot.map (·.name)).nodup_iff.mpr hd)
  have hun : unique ts = ts := unique_of_nodup (List.Nodup.of_map _ hd)
  obtain ⟨m1, m2⟩ := makeGraph_spec hd hfix (unique (ss.flatMap Sub.edges))
  have hwlperm : wl.Perm (makeGraph ts (unique (ss.flatMap Sub.edges))).keys := by
    rw [List.perm_ext_iff_of_nodup (List.Nodup.of_map (·.name) (by rw [hwl]; exact hwd))
      (makeGraph_nodup _ _)]
    intro a
    rw [m1]
    constructor
    · exact hwlts a
    · intro ha
      have : a.name ∈ w := hw.symm.subset (List.mem_map_of_mem (hot.symm.subset ha))
      rw [← hwl] at this
      obtain ⟨b, hb, hbn⟩ := List.mem_map.mp this
      rwa [List.inj_on_of_nodup_map hd (hwlts b hb) ha hbn] at hb
  obtain ⟨picks', g', hps⟩ := topoSort_complete (makeGraph ts (unique (ss.flatMap Sub.edges)))
    (by
      intro a b hab
      rw [m1, m1]
      have := (m2 a b).mp hab
      exact ⟨this.1, this.2.1⟩)
    (makeGraph_nodup _ _) wl hwlperm (by
      intro p b r hpr a hab
      obtain ⟨ha, hb, c, hc⟩ := (m2 a b).mp hab
      rw [mem_unique] at hc
      obtain ⟨f, hfm, hfo, -⟩ := (prog_edges hss _ _ _).mp hc
      have := hord a.name b.name ⟨f, hfm, hfo.declared⟩ (p.map (·.name)) (r.map (·.name)) (by
        rw [← hwl, hpr]
        simp)
      obtain ⟨a', ha', han⟩ := List.mem_map.mp this
      have ha'ts : a' ∈ ts := hwlts a' (by rw [hpr]; simp [ha'])
      rwa [List.inj_on_of_nodup_map hd ha'ts ha han] at ha')
  have hbuild : program picks' fs = .sorted wl g' := by
    rw [program, hss]
    dsimp only
    have hmn := mentionedNames_eq hss
    have hin : ∀ e ∈ unique (ss.flatMap Sub.edges), e.src ∈ ts.map (·.name) ∧ e.dst ∈ ts.map (·.name) := by
      intro e he
      rw [mem_unique, List.mem_flatMap] at he
      obtain ⟨s, hs, he⟩ := he
      obtain ⟨ha, hb⟩ := edges_mentioned s e he
      rw [hn, hn, ← hmn, mentionedNames, List.map_flatMap, List.mem_flatMap, List.mem_flatMap]
      exact ⟨⟨s, hs, ha⟩, ⟨s, hs, hb⟩⟩
    rw [build_eq picks' hts, hno, hun, if_neg, if_neg, if_neg, hps]
    · have : CondsOk ts (unique (ss.flatMap Sub.edges)) := by
        simpa only [CondsOk, mem_unique] using hcond
      rw [(conditionsOk_iff hd hin).mpr this]
      decide
    · rw [hasDuplicates_iff.mpr hd]
      decide
    · rw [sameNames_iff.mpr (by rw [hmn]; exact hn)]
      decide
  cases hfl : flow picks' fs with
  | none => exact absurd ((C32_cycle picks' fs wl g' hf hbuild).mp hfl) hacyc
  | some o =>
    obtain ⟨g'', hp'', -⟩ := flow_sorted hfl
    rw [hbuild] at hp''
    cases hp''
    exact ⟨picks', wl, hfl, hwl⟩

/-- Non-vacuity of C34: in `*((1 && 2) >> (3 && 4))` the orders are 1,2 before 3,4 and no other. -/
example : Declared (.star (.seq (.par (.action 1 0) (.action 2 0)) (.par (.action 3 0) (.action 4 0)))) 2 3 ∧
    ¬ Declared (.star (.seq (.par (.action 1 0) (.action 2 0)) (.par (.action 3 0) (.action 4 0)))) 1 2 ∧
    (flow (fun _ => 0) [⟨[], .star (.seq (.par (.action 1 0) (.action 2 0))
      (.par (.action 3 0) (.action 4 0)))⟩]).map (·.map (·.name)) = some [1, 2, 3, 4] ∧
    (flow (fun _ => 1) [⟨[], .star (.seq (.par (.action 1 0) (.action 2 0))
      (.par (.action 3 0) (.action 4 0)))⟩]).map (·.map (·.name)) = some [2, 1, 4, 3] := by
  refine ⟨by simp [Declared, names], by simp [Declared, names], by decide +kernel, by decide +kernel⟩

/-! ## C35: conditions -/

/-- The node of an action keeps the conditions around the place where it was added. -/
theorem node_cond {fs : List Frag} {ss : List Sub} {ts : List Leaf} (hss : evalAll fs = some ss)
    (hts : allNodes ss = some ts) (hf : ∀ f ∈ fs, FlowExpr f.expr) {f : Frag} (hfm : f ∈ fs)
    (hg : NoStarredGroup f.expr) {a : Nat × Nat} (ha : a ∈ added f.expr) :
    ∃ l ∈ ts, l.name = a.1 ∧ l.cond = f.whens.flatten := by
  induction fs generalizing ss ts with
  | nil => cases hfm
  | cons f' fs ih =>
    simp only [evalAll, Option.bind_eq_bind, Option.bind_eq_some_iff] at hss
    obtain ⟨s, hs, ss', hss, h⟩ := hss
    cases h
    simp only [allNodes, Option.bind_eq_bind, Option.bind_eq_some_iff] at hts
    obtain ⟨na, hna, nb, hnb, h⟩ := hts
    cases h
    rcases List.mem_cons.mp hfm with rfl | hfm
    · obtain ⟨s0, h0, rfl⟩ := Frag.eval_eq hs
      obtain ⟨p1, q1⟩ := nodes_spec h0 (hf f List.mem_cons_self) hna
      have : (a.1, some a.2) ∈ na.map fun l => (l.name, l.func) :=
        p1.symm.subset (List.mem_map_of_mem ha)
      obtain ⟨l, hl, hla⟩ := List.mem_map.mp this
      simp only [Prod.mk.injEq] at hla
      exact ⟨l, List.mem_append_left _ hl, hla.1, (q1 l hl).2.2 hg⟩
    · obtain ⟨l, hl, h1, h2⟩ := ih hss hnb (fun f hf' => hf f (List.mem_cons_of_mem _ hf')) hfm
      exact ⟨l, List.mem_append_right _ hl, h1, h2⟩

/-- C35 (partial): an action added with its own `*` under runtime conditions has a place in the
built flow, and runs exactly when all predicates of all those conditions are true when the flow
reaches that place. Missing: actions added by a `*` before a group, for which it is false
(`C35_violated_group`). -/
theorem C35_conditional_partial (picks : Nat → Nat) (fs : List Frag) (out : List Leaf)
    (hf : ∀ f ∈ fs, FlowExpr f.expr) (h : flow picks fs = some out) (f : Frag) (hfm : f ∈ fs)
    (hg : NoStarredGroup f.expr) (a : Nat × Nat) (ha : a ∈ added f.expr) :
    ∃ k, k < out.length ∧ ∀ ρ : Nat → Nat → Bool,
      (∃ c ∈ run ρ out, c.2.name = a.1) ↔ ∀ w ∈ f.whens, ∀ p ∈ w, ρ k p = true := by
  obtain ⟨g, hp, hgr⟩ := flow_sorted h
  obtain ⟨ss, ts, hss, hts, -, -, -, hd, -, hi⟩ := program_sorted hf hp
  obtain ⟨l, hl, hla, hlc⟩ := node_cond hss hts hf hfm hg ha
  have hlo : l ∈ out := by
    by_contra hc
    exact empty_iff.mp hgr l ((hi.keys l).mpr ⟨hl, hc⟩)
  obtain ⟨k, hk, hkl⟩ := List.getElem_of_mem hlo
  refine ⟨k, hk, fun ρ => ?_⟩
  constructor
  · rintro ⟨⟨i, x⟩, hc, hx⟩ w hw p hp
    rw [run, runFrom_mem] at hc
    obtain ⟨j, rfl, hj, hpred⟩ := hc
    have hxo : x ∈ out := List.mem_of_getElem? hj
    have hxl : x = l := List.inj_on_of_nodup_map hd (hi.sub x hxo) hl (hx.trans hla.symm)
    subst hxl
    have hjk : j = k := by
      obtain ⟨hjlt, hje⟩ := List.getElem?_eq_some_iff.mp hj
      exact (List.Nodup.getElem_inj_iff hi.nodupOut).mp (hje.trans hkl.symm)
    subst hjk
    have := hpred p (by rw [hlc]; exact List.mem_flatten.mpr ⟨w, hw, hp⟩)
    simpa using this
  · intro hall
    refine ⟨(k, l), ?_, hla⟩
    rw [run, runFrom_mem]
    refine ⟨k, by simp, by rw [List.getElem?_eq_getElem hk, hkl], fun p hp => ?_⟩
    rw [hlc, List.mem_flatten] at hp
    obtain ⟨w, hw, hpw⟩ := hp
    exact hall w hw p hpw

/-- C35 is violated for a starred group: `when(0)(extend<flow>(*(1 && 2)))` builds, and both actions
run although predicate 0 is false. -/
theorem C35_violated_group :
    ∃ out, flow (fun _ => 0) [⟨[[0]], .star (.par (.action 1 10) (.action 2 20))⟩] = some out ∧
      (run (fun _ _ => false) out).map (·.2.name) = [1, 2] := by
  refine ⟨_, rfl, ?_⟩
  decide +kernel

/-- The same for a starred sequence: `when(0)(extend<flow>(*(1 >> 2)))`. -/
theorem C35_violated_seq_group :
    ∃ out, flow (fun _ => 0) [⟨[[0]], .star (.seq (.action 1 10) (.action 2 20))⟩] = some out ∧
      (run (fun _ _ => false) out).map (·.2.name) = [1, 2] := by
  refine ⟨_, rfl, ?_⟩
  decide +kernel

/-- Non-vacuity of C35: `*1 >> *2` under predicate 0 inside predicate 5, next to `*3`: with 5 false
only 3 runs, with both true all run. -/
example :
    ((flow (fun _ => 0) [⟨[[0], [5]], .seq (.star (.action 1 10)) (.star (.action 2 20))⟩,
      ⟨[], .star (.action 3 30)⟩]).map fun out =>
        ((run (fun _ p => p == 0) out).map (·.2.name), (run (fun _ _ => true) out).map (·.2.name))) =
      some ([3], [1, 3, 2]) := by decide +kernel

/-! ## C72: the condition of an ordering -/

/-- C72: in a built flow, when an ordering `x >> y` was declared under conditions that hold, then
both `x` and `y` have only conditions that hold: each predicate on either action is among the
predicates around the ordering. -/
theorem C72_stronger (picks : Nat → Nat) (fs : List Frag) (out : List Leaf)
    (hf : ∀ f ∈ fs, FlowExpr f.expr) (h : flow picks fs = some out) (f : Frag) (hfm : f ∈ fs) (x y : Nat)
    (hxy : Follows f.expr x y) (l : Leaf) (hl : l ∈ out) (hln : l.name = x ∨ l.name = y) :
    ∀ p ∈ l.cond, ∃ w ∈ f.whens, p ∈ w := by
  obtain ⟨g, hp, hgr⟩ := flow_sorted h
  obtain ⟨ss, ts, hss, hts, -, -, hn, hd, hc, hi⟩ := program_sorted hf hp
  have hmem := hxy.mem
  have hx : x ∈ ts.map (·.name) := (hn x).mpr (List.mem_flatMap.mpr ⟨f, hfm, hmem.1⟩)
  have hy : y ∈ ts.map (·.name) := (hn y).mpr (List.mem_flatMap.mpr ⟨f, hfm, hmem.2⟩)
  obtain ⟨lx, hlx, rfl⟩ := List.mem_map.mp hx
  obtain ⟨ly, hly, rfl⟩ := List.mem_map.mp hy
  have he := (prog_edges hss lx.name ly.name f.whens.flatten).mpr ⟨f, hfm, hxy, rfl⟩
  intro p hp
  rw [← List.mem_flatten]
  apply hc _ he lx hlx ly hly rfl rfl
  have hlt := hi.sub l hl
  rcases hln with hln | hln
  · rw [List.inj_on_of_nodup_map hd hlt hlx hln] at hp
    exact List.mem_append_left _ hp
  · rw [List.inj_on_of_nodup_map hd hlt hly hln] at hp
    exact List.mem_append_right _ hp

/-- The node of an action, from the other side: where it was added. -/
theorem node_origin {fs : List Frag} {ss : List Sub} {ts : List Leaf} (hss : evalAll fs = some ss)
    (hts : allNodes ss = some ts) (hf : ∀ f ∈ fs, FlowExpr f.expr)
    (hg : ∀ f ∈ fs, NoStarredGroup f.expr) {l : Leaf} (hl : l ∈ ts) :
    ∃ f ∈ fs, l.name ∈ (added f.expr).map (·.1) ∧ l.cond = f.whens.flatten := by
  induction fs generalizing ss ts with
  | nil => cases hss; cases hts; cases hl
  | cons f fs ih =>
    simp only [evalAll, Option.bind_eq_bind, Option.bind_eq_some_iff] at hss
    obtain ⟨s, hs, ss', hss, h⟩ := hss
    cases h
    simp only [allNodes, Option.bind_eq_bind, Option.bind_eq_some_iff] at hts
    obtain ⟨na, hna, nb, hnb, h⟩ := hts
    cases h
    rcases List.mem_append.mp hl with hl | hl
    · obtain ⟨s0, h0, rfl⟩ := Frag.eval_eq hs
      obtain ⟨p1, q1⟩ := nodes_spec h0 (hf f List.mem_cons_self) hna
      refine ⟨f, List.mem_cons_self, ?_, (q1 l hl).2.2 (hg f List.mem_cons_self)⟩
      have : (l.name, l.func) ∈ (added f.expr).map fun a => (a.1, some a.2) :=
        p1.subset (List.mem_map_of_mem (f := fun l : Leaf => (l.name, l.func)) hl)
      obtain ⟨a, ha, hla⟩ := List.mem_map.mp this
      simp only [Prod.mk.injEq] at hla
      exact List.mem_map.mpr ⟨a, ha, hla.1⟩
    · obtain ⟨f', hf', h1, h2⟩ := ih hss hnb (fun f hf' => hf f (List.mem_cons_of_mem _ hf'))
        (fun f hf' => hg f (List.mem_cons_of_mem _ hf')) hl
      exact ⟨f', List.mem_cons_of_mem _ hf', h1, h2⟩

/-- C72: so whenever the conditions around an ordering hold throughout a run, both its actions run. -/
theorem C72_both_run (picks : Nat → Nat) (fs : List Frag) (out : List Leaf)
    (hf : ∀ f ∈ fs, FlowExpr f.expr) (h : flow picks fs = some out) (f : Frag) (hfm : f ∈ fs) (x y : Nat)
    (hxy : Follows f.expr x y) (ρ : Nat → Nat → Bool)
    (hρ : ∀ k, ∀ w ∈ f.whens, ∀ p ∈ w, ρ k p = true) :
    (∃ c ∈ run ρ out, c.2.name = x) ∧ ∃ c ∈ run ρ out, c.2.name = y := by
  have hst := C72_stronger picks fs out hf h f hfm x y hxy
  obtain ⟨g, hp, hgr⟩ := flow_sorted h
  obtain ⟨ss, ts, hss, hts, -, -, hn, hd, hc, hi⟩ := program_sorted hf hp
  have key : ∀ n, n ∈ names f.expr → (n = x ∨ n = y) → ∃ c ∈ run ρ out, c.2.name = n := by
    intro n hn' hor
    obtain ⟨l, hl, rfl⟩ := List.mem_map.mp ((hn n).mpr (List.mem_flatMap.mpr ⟨f, hfm, hn'⟩))
    have hlo : l ∈ out := by
      by_contra hc
      exact empty_iff.mp hgr l ((hi.keys l).mpr ⟨hl, hc⟩)
    obtain ⟨k, hk, hkl⟩ := List.getElem_of_mem hlo
    refine ⟨(k, l), ?_, rfl⟩
    rw [run, runFrom_mem]
    refine ⟨k, by simp, by rw [List.getElem?_eq_getElem hk, hkl], fun p hp => ?_⟩
    obtain ⟨w, hw, hpw⟩ := hst l hlo hor p hp
    exact hρ k w hw p hpw
  exact ⟨key x hxy.mem.1 (Or.inl rfl), key y hxy.mem.2 (Or.inr rfl)⟩

/-- C72 (partial): and the error is given exactly when some ordering lacks a predicate that is around
the place where one of its actions was added. Missing: programs with starred groups, for which it is
false (`C72_violated_group`). -/
theorem C72_rejected_partial (picks : Nat → Nat) (fs : List Frag) (h : WellFormed fs)
    (hg : ∀ f ∈ fs, NoStarredGroup f.expr) (h1 : program picks fs ≠ .missing)
    (h2 : program picks fs ≠ .duplicate) :
    program picks fs = .conditions ↔
      ∃ f ∈ fs, ∃ x y, Follows f.expr x y ∧ ∃ f' ∈ fs,
        (x ∈ (added f'.expr).map (·.1) ∨ y ∈ (added f'.expr).map (·.1)) ∧
        ∃ w ∈ f'.whens, ∃ p ∈ w, ∀ w' ∈ f.whens, p ∉ w' := by
  obtain ⟨ss, ts, hss, hts⟩ := wellFormed_total h
  have hf : ∀ f ∈ fs, FlowExpr f.expr := fun f hf => (h f hf).1
  obtain ⟨-, hk⟩ := allNodes_flow hss hts hf
  have hno : nodesOf ss ts = ts := nodesOf_flow fun l hl => (hk l hl).1
  have hb := build_spec picks hts (by
    rw [hno]
    exact fun l hl => createNode_action (hk l hl).1)
  rw [hno, mentionedNames_eq hss] at hb
  have hprog : program picks fs = build picks ss := by
    rw [program, hss]
  rw [hprog] at h1 h2 ⊢
  rcases hb with ⟨-, h⟩ | ⟨hn, ⟨-, h⟩ | ⟨hd, hb⟩⟩
  · exact absurd h h1
  · exact absurd h h2
  have hneg : build picks ss = .conditions ↔ ¬ CondsOk ts (ss.flatMap Sub.edges) := by
    rcases hb with ⟨hc, h⟩ | ⟨hc, o, g, h, -⟩
    · rw [h]
      exact ⟨fun _ => hc, fun _ => rfl⟩
    · rw [h]
      exact ⟨fun h => (by cases h), fun h => absurd hc h⟩
  rw [hneg]
  constructor
  · intro hc
    by_contra hcon
    apply hc
    intro e he x hx y hy hxe hye p hp
    obtain ⟨es, ed, ec⟩ := e
    simp only at hxe hye ⊢
    subst hxe hye
    obtain ⟨f, hfm, hfo, rfl⟩ := (prog_edges hss _ _ _).mp he
    by_contra hpc
    apply hcon
    have hpc' : ∀ w' ∈ f.whens, p ∉ w' := fun w' hw' hpw => hpc (List.mem_flatten.mpr ⟨w', hw', hpw⟩)
    rcases List.mem_append.mp hp with hp | hp
    · obtain ⟨f', hf', hin, hcd⟩ := node_origin hss hts hf hg hx
      rw [hcd, List.mem_flatten] at hp
      obtain ⟨w, hw, hpw⟩ := hp
      exact ⟨f, hfm, _, _, hfo, f', hf', Or.inl hin, w, hw, p, hpw, hpc'⟩
    · obtain ⟨f', hf', hin, hcd⟩ := node_origin hss hts hf hg hy
      rw [hcd, List.mem_flatten] at hp
      obtain ⟨w, hw, hpw⟩ := hp
      exact ⟨f, hfm, _, _, hfo, f', hf', Or.inr hin, w, hw, p, hpw, hpc'⟩
  · rintro ⟨f, hfm, x, y, hxy, f', hf', hin, w, hw, p, hpw, hpc⟩ hc
    have hmem := hxy.mem
    have hx : x ∈ ts.map (·.name) := (hn x).mpr (List.mem_flatMap.mpr ⟨f, hfm, hmem.1⟩)
    have hy : y ∈ ts.map (·.name) := (hn y).mpr (List.mem_flatMap.mpr ⟨f, hfm, hmem.2⟩)
    obtain ⟨lx, hlx, rfl⟩ := List.mem_map.mp hx
    obtain ⟨ly, hly, rfl⟩ := List.mem_map.mp hy
    have he := (prog_edges hss lx.name ly.name f.whens.flatten).mpr ⟨f, hfm, hxy, rfl⟩
    have hpf : p ∈ f'.whens.flatten := List.mem_flatten.mpr ⟨w, hw, hpw⟩
    have : p ∈ f.whens.flatten := by
      apply hc _ he lx hlx ly hly rfl rfl
      rw [List.mem_append]
      rcases hin with hin | hin
      · obtain ⟨a, ha, hae⟩ := List.mem_map.mp hin
        obtain ⟨l, hl, hla, hlc⟩ := node_cond hss hts hf hf' (hg f' hf') ha
        rw [← List.inj_on_of_nodup_map hd hl hlx (hla.trans hae), hlc]
        exact Or.inl hpf
      · obtain ⟨a, ha, hae⟩ := List.mem_map.mp hin
        obtain ⟨l, hl, hla, hlc⟩ := node_cond hss hts hf hf' (hg f' hf') ha
        rw [← List.inj_on_of_nodup_map hd hl hly (hla.trans hae), hlc]
        exact Or.inr hpf
    obtain ⟨w', hw', hpw'⟩ := List.mem_flatten.mp this
    exact hpc w' hw' hpw'

/-- C72 is violated for a starred group: `when(0)(extend<flow>(*(1 && 2)))` with the unconditional
ordering `1 >> 2` is accepted. -/
theorem C72_violated_group :
    (flow (fun _ => 0) [⟨[[0]], .star (.par (.action 1 10) (.action 2 20))⟩,
      ⟨[], .seq (.action 1 10) (.action 2 20)⟩]).isSome = true := by decide +kernel

/-- Non-vacuity of C72: `*1 >> *2` is declared without a condition, but 2 is added under one:
rejected; with the ordering under the same condition it is accepted. -/
example :
    program (fun _ => 0) [⟨[[7]], .star (.action 2 0)⟩, ⟨[], .seq (.star (.action 1 0)) (.action 2 0)⟩] =
      .conditions ∧
    (flow (fun _ => 0) [⟨[[7]], .star (.action 2 0)⟩, ⟨[], .star (.action 1 0)⟩,
      ⟨[[7]], .seq (.action 1 0) (.action 2 0)⟩]).isSome = true := by decide +kernel

/-! ## C73: sequencer steps -/

/-- C73 is violated: a step mentioned without `*` is accepted, and has lost its functions. -/
theorem C73_violated_unstarred :
    ∃ out g, program (fun _ => 0) [⟨[], .step 1 10⟩] = .sorted out g ∧ g.empty = true ∧
      out.map (·.func) = [none] := by
  refine ⟨_, _, rfl, ?_, ?_⟩ <;> decide +kernel

/-- C73 is violated: a starred group of steps loses all functions, and its steps become one. -/
theorem C73_violated_group :
    ∃ out g, program (fun _ => 0) [⟨[], .star (.par (.step 1 10) (.step 2 20))⟩] = .sorted out g ∧
      g.empty = true ∧ out.map (·.func) = [none] := by
  refine ⟨_, _, rfl, ?_, ?_⟩ <;> decide +kernel

/-- C73 is violated: a step that is added with `*` exactly once cannot be mentioned a second time. -/
theorem C73_violated_mention :
    program (fun _ => 0) [⟨[], .seq (.star (.step 1 10)) (.star (.step 2 20))⟩,
      ⟨[], .seq (.step 2 20) (.star (.step 3 30))⟩] = .duplicate := by decide +kernel

/-- C73 (partial): a sequencer whose steps are each mentioned once, each with its own `*`, is sorted;
it is complete exactly when the orderings are not cyclic, and then it holds every step with its own
functions, each once, in an order that respects all declared orderings. Missing: steps mentioned
again without `*`, and starred groups, for which it is false. -/
theorem C73_steps_partial (picks : Nat → Nat) (fs : List Frag)
    (hs : ∀ f ∈ fs, StarredSteps f.expr ∧ f.whens = []) (hd : (progNames fs).Nodup) :
    ∃ out g, program picks fs = .sorted out g ∧ (g.empty = false ↔ Cyclic fs) ∧
      (g.empty = true →
        (out.map fun l => (l.name, l.func)).Perm ((progAdded fs).map fun a => (a.1, some a.2)) ∧
        ∀ a b, TransGen (ProgDeclared fs) a b → Precedes a b (out.map (·.name))) := by
  obtain ⟨ss, hss, hv, hts, hnames⟩ := starredSteps_all hs
  have hd' : ((progAdded fs).map (·.1)).Nodup := by rw [← hnames]; exact hd
  have hno : nodesOf ss ((progAdded fs).map fun a => (stepLeaf a).ty) = (progAdded fs).map stepLeaf := by
    rw [nodesOf, hv, List.map_map]
    apply List.map_congr_left
    intro a ha
    exact pickNode_step hd' ha
  have hfix : ∀ l ∈ nodesOf ss ((progAdded fs).map fun a => (stepLeaf a).ty), createNode l = l := by
    rw [hno]
    intro l hl
    obtain ⟨a, -, rfl⟩ := List.mem_map.mp hl
    rfl
  have hb := build_spec picks hts hfix
  rw [hno, mentionedNames_eq hss] at hb
  have hnn : ((progAdded fs).map stepLeaf).map (·.name) = progNames fs := by
    rw [hnames, List.map_map]
    rfl
  rw [hnn] at hb
  have hprog : program picks fs = build picks ss := by
    rw [program, hss]
  have hcond : CondsOk ((progAdded fs).map stepLeaf) (ss.flatMap Sub.edges) := by
    intro e _ x hx y hy _ _ p hp
    obtain ⟨a, -, rfl⟩ := List.mem_map.mp hx
    obtain ⟨b, -, rfl⟩ := List.mem_map.mp hy
    cases hp
  rcases hb with ⟨h, -⟩ | ⟨-, ⟨h, -⟩ | ⟨-, ⟨h, -⟩ | ⟨-, out, g, h, hi⟩⟩⟩
  · exact absurd (fun n => Iff.rfl) h
  · exact absurd hd h
  · exact absurd hcond h
  · have hdn : (((progAdded fs).map stepLeaf).map (·.name)).Nodup := by rw [hnn]; exact hd
    have hmem : ∀ n, n ∈ ((progAdded fs).map stepLeaf).map (·.name) ↔ n ∈ progNames fs := by
      rw [hnn]
      exact fun n => Iff.rfl
    refine ⟨out, g, hprog.trans h, ?_, fun hg => ?_⟩
    · rw [keys_cycle hi, cyclic_iff hss hdn hmem]
    · have hall : ∀ x ∈ (progAdded fs).map stepLeaf, x ∈ out := by
        intro x hx
        by_contra hxo
        exact empty_iff.mp hg x ((hi.keys x).mpr ⟨hx, hxo⟩)
      have hot : out.Perm ((progAdded fs).map stepLeaf) := by
        rw [List.perm_ext_iff_of_nodup hi.nodupOut (List.Nodup.of_map _ hdn)]
        exact fun a => ⟨hi.sub a, hall a⟩
      constructor
      · have := hot.map fun l => (l.name, l.func)
        rwa [List.map_map] at this
      · intro a b hab p r hpr
        have ha : a ∈ ((progAdded fs).map stepLeaf).map (·.name) := by
          rw [hmem]
          rcases TransGen.head'_iff.mp hab with ⟨z, hz, -⟩
          exact (declared_mem hz).1
        have hb' : b ∈ ((progAdded fs).map stepLeaf).map (·.name) := by
          rw [hmem]
          rcases TransGen.tail'_iff.mp hab with ⟨z, -, hz⟩
          exact (declared_mem hz).2
        obtain ⟨x, hx, rfl⟩ := List.mem_map.mp ha
        obtain ⟨y, hy, rfl⟩ := List.mem_map.mp hb'
        have ht := (declared_iff hss hdn hmem hx hy).mp hab
        obtain ⟨p', q', hout, hp', hq'⟩ := List.map_eq_append_iff.mp hpr
        obtain ⟨y', r', rfl, hy', -⟩ := List.map_eq_cons_iff.mp hq'
        have hy'' : y' = y :=
          List.inj_on_of_nodup_map hdn (hi.sub y' (by rw [hout]; simp)) hy hy'
        subst hy''
        rw [← hp']
        exact List.mem_map_of_mem (hi.trans_before ht p' r' hout)

/-- Non-vacuity of C73: two starred steps in sequence. -/
example :
    program (fun _ => 0) [⟨[], .seq (.star (.step 2 20)) (.star (.step 1 10))⟩] =
      .sorted [⟨.step, 2, true, [], some 20⟩, ⟨.step, 1, true, [], some 10⟩] ⟨[], []⟩ := by
  decide +kernel

/-! ## C74: the cycle report -/

theorem reported_eq {picks : Nat → Nat} {fs : List Frag} {out : List Leaf} {g : Graph Leaf}
    (h : program picks fs = .sorted out g) (hg : g.empty = false) :
    reported picks fs = g.pairs.map fun p => (p.1.name, p.2.name) := by
  rw [reported, h]
  dsimp only
  rw [hg]
  rfl

/-- C74: the cycle error lists every direct ordering that lies on a cycle. -/
theorem C74_lists_cycles (picks : Nat → Nat) (fs : List Frag) (out : List Leaf) (g : Graph Leaf)
    (hf : ∀ f ∈ fs, FlowExpr f.expr) (h : program picks fs = .sorted out g) (f : Frag) (hfm : f ∈ fs)
    (x y : Nat) (hxy : Follows f.expr x y) (hyx : ReflTransGen (ProgDeclared fs) y x) :
    (x, y) ∈ reported picks fs := by
  obtain ⟨ss, ts, hss, hts, -, -, hn, hd, -, hi⟩ := program_sorted hf h
  have hcyc : TransGen (ProgDeclared fs) x x :=
    TransGen.head' ⟨f, hfm, hxy.declared⟩ hyx
  have hempty : g.empty = false := by
    rw [keys_cycle hi, ← cyclic_iff hss hd hn]
    exact ⟨x, hcyc⟩
  rw [reported_eq h hempty]
  have hx : x ∈ ts.map (·.name) := (hn x).mpr (List.mem_flatMap.mpr ⟨f, hfm, hxy.mem.1⟩)
  have hy : y ∈ ts.map (·.name) := (hn y).mpr (List.mem_flatMap.mpr ⟨f, hfm, hxy.mem.2⟩)
  obtain ⟨lx, hlx, rfl⟩ := List.mem_map.mp hx
  obtain ⟨ly, hly, rfl⟩ := List.mem_map.mp hy
  have hnot := hi.not_mem_of_cycle ((declared_iff hss hd hn hlx hlx).mp hcyc)
  exact List.mem_map.mpr ⟨(lx, ly), (hi.pairs lx ly).mpr
    ⟨⟨hlx, hly, _, (prog_edges hss _ _ _).mpr ⟨f, hfm, hxy, rfl⟩⟩, hnot⟩, rfl⟩

/-- C74: and lists only direct orderings whose first action is on a cycle or comes after one. -/
theorem C74_only_after_cycles (picks : Nat → Nat) (fs : List Frag)
    (hf : ∀ f ∈ fs, FlowExpr f.expr) (x y : Nat) (h : (x, y) ∈ reported picks fs) :
    (∃ f ∈ fs, Follows f.expr x y) ∧
    ∃ z, TransGen (ProgDeclared fs) z z ∧ ReflTransGen (ProgDeclared fs) z x := by
  have hsort : ∃ out g, program picks fs = .sorted out g ∧ g.empty = false := by
    unfold reported at h
    split at h
    · rename_i o g hp
      cases hg : g.empty with
      | true => rw [hg] at h; cases h
      | false => exact ⟨o, g, hp, hg⟩
    · cases h
  obtain ⟨out, g, hp, hg⟩ := hsort
  rw [reported_eq hp hg] at h
  obtain ⟨ss, ts, hss, hts, -, -, hn, hd, -, hi⟩ := program_sorted hf hp
  obtain ⟨⟨lx, ly⟩, hmem, heq⟩ := List.mem_map.mp h
  simp only [Prod.mk.injEq] at heq
  obtain ⟨rfl, rfl⟩ := heq
  obtain ⟨⟨hlx, hly, c, hc⟩, hnot⟩ := (hi.pairs lx ly).mp hmem
  obtain ⟨f, hfm, hfo, -⟩ := (prog_edges hss _ _ _).mp hc
  refine ⟨⟨f, hfm, hfo⟩, ?_⟩
  by_contra hcon
  apply hnot
  refine hi.mem_of_no_cycle (fun a b h => ⟨h.1, h.2.1⟩) hlx fun a ha haa => hcon ?_
  rcases TransGen.head'_iff.mp haa with ⟨z, hz, -⟩
  refine ⟨a.name, (declared_iff hss hd hn hz.1 hz.1).mpr haa, ?_⟩
  rcases reflTransGen_iff_eq_or_transGen.mp ha with h | h
  · rw [h]
  · exact ((declared_iff hss hd hn hz.1 hlx).mpr h).to_reflTransGen

/-- Non-vacuity of C74: `*1 >> *2 >> *3`, `2 >> 1`: both orderings of the cycle and the one after it
are listed. -/
example :
    reported (fun _ => 0) [⟨[], .seq (.seq (.star (.action 1 0)) (.star (.action 2 0))) (.star (.action 3 0))⟩,
      ⟨[], .seq (.action 2 0) (.action 1 0)⟩] = [(1, 2), (2, 3), (2, 1)] := by decide +kernel

end Verif.Flow
