import Verif.Flow.BuildLemmas

/-!
# Flow properties

C30 (order), C31 (exactly once), C32 (cycles), C33 (mentions), C34 (meaning of `>>` and `&&`), C35
(conditions), C72 (conditions of orderings), C73 (sequencer steps), C74 (the cycle report). `picks`
is universally quantified: the theorems hold for every order in which the containers give back their
elements.
-/
namespace Verif.Flow
open Spec Relation

/-! ## From programs to nodes -/

/-- A program that was sorted. -/
theorem program_sorted {picks : Nat → Nat} {fs : List Frag} {out : List Leaf} {g : Graph Leaf}
    (hf : ∀ f ∈ fs, FlowExpr f.expr) (h : program picks fs = .sorted out g) :
    ∃ ss ts, evalAll fs = some ss ∧ allNodes ss = some ts ∧
      (ts.map fun l => (l.name, l.func)).Perm ((progAdded fs).map fun a => (a.1, some a.2)) ∧
      (∀ l ∈ ts, l.kind = .action ∧ l.starred = true) ∧
      (∀ n, n ∈ ts.map (·.name) ↔ n ∈ progNames fs) ∧
      (ts.map (·.name)).Nodup ∧ CondsOk ts (ss.flatMap Sub.edges) ∧
      Inv ts (Direct ts (ss.flatMap Sub.edges)) out [] g := by
  unfold program at h
  cases hss : evalAll fs with
  | none => rw [hss] at h; cases h
  | some ss =>
    rw [hss] at h
    dsimp only at h
    cases hts : allNodes ss with
    | none =>
      rw [build, hts] at h
      cases h
    | some ts =>
      obtain ⟨hp, hk⟩ := allNodes_flow hss hts hf
      have hno : nodesOf ss ts = ts := nodesOf_flow fun l hl => (hk l hl).1
      obtain ⟨h1, h2, h3, hi⟩ := build_sorted hts (by
        rw [hno]
        exact fun l hl => createNode_action (hk l hl).1) h
      rw [hno] at h1 h2 h3 hi
      rw [mentionedNames_eq hss] at h1
      exact ⟨ss, ts, rfl, hts, hp, hk, h1, h2, h3, hi⟩

theorem flow_sorted {picks : Nat → Nat} {fs : List Frag} {out : List Leaf}
    (h : flow picks fs = some out) : ∃ g, program picks fs = .sorted out g ∧ g.empty = true := by
  unfold flow at h
  split at h
  · rename_i o g hp
    split at h
    · cases h
      exact ⟨g, hp, by assumption⟩
    · cases h
  · cases h

theorem empty_iff {g : Graph Leaf} : g.empty = true ↔ ∀ k, k ∉ g.keys := by
  rw [Graph.empty, List.isEmpty_iff]
  constructor
  · intro h k hk
    rw [h] at hk
    cases hk
  · intro h
    cases hk : g.keys with
    | nil => rfl
    | cons x xs => exact absurd (by rw [hk]; exact List.mem_cons_self) (h x)

/-- A built flow holds all nodes. -/
theorem flow_perm {picks : Nat → Nat} {fs : List Frag} {out : List Leaf}
    (hf : ∀ f ∈ fs, FlowExpr f.expr) (h : flow picks fs = some out) :
    (out.map fun l => (l.name, l.func)).Perm ((progAdded fs).map fun a => (a.1, some a.2)) ∧
    (out.map (·.name)).Nodup := by
  obtain ⟨g, hp, hg⟩ := flow_sorted h
  obtain ⟨ss, ts, hss, hts, hperm, hk, hn, hd, -, hi⟩ := program_sorted hf hp
  have hot : out.Perm ts := by
    rw [List.perm_ext_iff_of_nodup hi.nodupOut (List.Nodup.of_map _ hd)]
    intro a
    constructor
    · exact hi.sub a
    · intro ha
      by_contra hao
      exact empty_iff.mp hg a ((hi.keys a).mpr ⟨ha, hao⟩)
  exact ⟨(hot.map _).trans hperm, ((hot.map (·.name)).nodup_iff).mpr hd⟩

theorem runFrom_mem (ρ : Nat → Nat → Bool) (k : Nat) (out : List Leaf) (i : Nat) (x : Leaf) :
    (i, x) ∈ runFrom ρ k out ↔ ∃ j, i = k + j ∧ out[j]? = some x ∧ ∀ p ∈ x.cond, ρ i p = true := by
  induction out generalizing k with
  | nil => simp [runFrom]
  | cons l ls ih =>
    rw [runFrom, List.mem_append, ih]
    constructor
    · rintro (h | ⟨j, rfl, h1, h2⟩)
      · split at h
        · rename_i hc
          simp only [List.mem_singleton, Prod.mk.injEq] at h
          obtain ⟨rfl, rfl⟩ := h
          exact ⟨0, rfl, rfl, by simpa using hc⟩
        · cases h
      · exact ⟨j + 1, by omega, by simpa using h1, h2⟩
    · rintro ⟨j, rfl, h1, h2⟩
      cases j with
      | zero =>
        simp only [List.getElem?_cons_zero, Option.some.injEq] at h1
        subst h1
        left
        rw [if_pos (by simpa using h2)]
        simp
      | succ j =>
        right
        exact ⟨j, by omega, by simpa using h1, h2⟩

theorem runFrom_sublist (ρ : Nat → Nat → Bool) (k : Nat) (out : List Leaf) :
    ((runFrom ρ k out).map (·.2)).Sublist out := by
  induction out generalizing k with
  | nil => simp [runFrom]
  | cons l ls ih =>
    rw [runFrom, List.map_append]
    split
    · exact (ih _).cons_cons _
    · exact (ih _).cons _

/-- In a part of a list without repetitions, orders are kept. -/
theorem precedes_sublist {a b : Nat} {l t : List Nat} (hd : l.Nodup) (hs : t.Sublist l)
    (h : Precedes a b l) (ha : a ∈ t) : Precedes a b t := by
  intro p r hpr
  subst hpr
  have hab : a ≠ b := by
    rintro rfl
    obtain ⟨p', r', hl⟩ := List.append_of_mem (hs.subset ha)
    have := h p' r' hl
    rw [hl, List.nodup_append] at hd
    exact hd.2.2 a this a List.mem_cons_self rfl
  rcases List.mem_append.mp ha with h1 | h1
  · exact h1
  · exfalso
    rcases List.mem_cons.mp h1 with h1 | h1
    · exact hab h1
    · -- `b` before `a` in the part, hence in the list
      have h2 : [b, a].Sublist l := by
        refine List.Sublist.trans ?_ hs
        refine List.Sublist.trans ?_ (List.sublist_append_right p (b :: r))
        exact List.Sublist.cons_cons b (List.singleton_sublist.mpr h1)
      have hbl : b ∈ l := h2.subset List.mem_cons_self
      obtain ⟨p', r', hl⟩ := List.append_of_mem hbl
      have h3 := h p' r' hl
      obtain ⟨q1, q2, rfl⟩ := List.append_of_mem h3
      have h4 : [a, b].Sublist l := by
        rw [hl]
        simp only [List.append_assoc, List.cons_append]
        refine List.Sublist.trans ?_ (List.sublist_append_right q1 _)
        refine List.Sublist.cons_cons a ?_
        refine List.Sublist.trans ?_ (List.sublist_append_right q2 _)
        exact List.singleton_sublist.mpr List.mem_cons_self
      have hpair : ∀ {l : List Nat}, l.Nodup → [a, b].Sublist l → [b, a].Sublist l → False := by
        intro l
        induction l with
        | nil => intro _ h _; cases h
        | cons c l ih =>
          intro hn h h'
          rw [List.nodup_cons] at hn
          cases h with
          | cons _ h =>
            cases h' with
            | cons _ h' => exact ih hn.2 h h'
            | cons_cons _ h' => exact hn.1 (h.subset (by simp))
          | cons_cons _ h =>
            cases h' with
            | cons _ h' => exact hn.1 (h'.subset (by simp))
            | cons_cons _ h' => exact hab rfl
      exact hpair hd h4 h2

/-! ## C30: order -/

/-- C30: what is declared to come before comes before: in the built flow an action that is declared,
directly or through others, to come before `b` is somewhere before `b`, for every container order. -/
theorem C30_order (picks : Nat → Nat) (fs : List Frag) (out : List Leaf)
    (hf : ∀ f ∈ fs, FlowExpr f.expr) (h : flow picks fs = some out) (a b : Nat)
    (hab : TransGen (ProgDeclared fs) a b) :
    a ∈ out.map (·.name) ∧ b ∈ out.map (·.name) ∧ Precedes a b (out.map (·.name)) := by
  obtain ⟨g, hp, hg⟩ := flow_sorted h
  obtain ⟨ss, ts, hss, hts, hperm, hk, hn, hd, -, hi⟩ := program_sorted hf hp
  have hall : ∀ x ∈ ts, x ∈ out := by
    intro x hx
    by_contra hxo
    exact empty_iff.mp hg x ((hi.keys x).mpr ⟨hx, hxo⟩)
  have hmem : ∀ x y, ProgDeclared fs x y → x ∈ progNames fs ∧ y ∈ progNames fs := by
    rintro x y ⟨f, hf', hdec⟩
    have ht := hdec.follows
    have hx : x ∈ names f.expr := by
      rcases TransGen.head'_iff.mp ht with ⟨z, hz, -⟩
      exact hz.mem.1
    have hy : y ∈ names f.expr := by
      rcases TransGen.tail'_iff.mp ht with ⟨z, -, hz⟩
      exact hz.mem.2
    exact ⟨List.mem_flatMap.mpr ⟨f, hf', hx⟩, List.mem_flatMap.mpr ⟨f, hf', hy⟩⟩
  have ha : a ∈ ts.map (·.name) := by
    rw [hn]
    rcases TransGen.head'_iff.mp hab with ⟨z, hz, -⟩
    exact (hmem _ _ hz).1
  have hb : b ∈ ts.map (·.name) := by
    rw [hn]
    rcases TransGen.tail'_iff.mp hab with ⟨z, -, hz⟩
    exact (hmem _ _ hz).2
  obtain ⟨x, hx, rfl⟩ := List.mem_map.mp ha
  obtain ⟨y, hy, rfl⟩ := List.mem_map.mp hb
  have ht := (declared_iff hss hd hn hx hy).mp hab
  refine ⟨List.mem_map_of_mem (hall x hx), List.mem_map_of_mem (hall y hy), fun p r hpr => ?_⟩
  obtain ⟨p', q', hout, hp', hq'⟩ := List.map_eq_append_iff.mp hpr
  obtain ⟨y', r', rfl, hy', -⟩ := List.map_eq_cons_iff.mp hq'
  have hy'' : y' = y := by
    have : y' ∈ ts := hi.sub y' (by rw [hout]; simp)
    exact List.inj_on_of_nodup_map hd this hy hy'
  subst hy''
  rw [← hp']
  exact List.mem_map_of_mem (hi.trans_before ht p' r' hout)

/-- C30: also in every run, whatever the conditions say: when both actions run, the one declared to
come before runs before. -/
theorem C30_run (picks : Nat → Nat) (fs : List Frag) (out : List Leaf)
    (hf : ∀ f ∈ fs, FlowExpr f.expr) (h : flow picks fs = some out) (ρ : Nat → Nat → Bool) (a b : Nat)
    (hab : TransGen (ProgDeclared fs) a b) (ha : a ∈ (run ρ out).map (·.2.name)) :
    Precedes a b ((run ρ out).map (·.2.name)) := by
  have hs : ((run ρ out).map (·.2.name)).Sublist (out.map (·.name)) := by
    have := (runFrom_sublist ρ 0 out).map (·.name)
    rwa [List.map_map] at this
  exact precedes_sublist (flow_perm hf h).2 hs (C30_order picks fs out hf h a b hab).2.2 ha

/-- Non-vacuity of C30: `*(2 >> 1)` and `1 >> *3` in two fragments: sorted as 2, 1, 3. -/
example :
    flow (fun _ => 0) [⟨[], .star (.seq (.action 2 20) (.action 1 10))⟩,
      ⟨[], .seq (.action 1 10) (.star (.action 3 30))⟩] =
      some [⟨.action, 2, true, [], some 20⟩, ⟨.action, 1, true, [], some 10⟩,
        ⟨.action, 3, true, [], some 30⟩] := by decide +kernel

/-! ## C31: exactly once -/

/-- C31: the built flow holds the added actions with their functions, each exactly once, and nothing
else. -/
theorem C31_once (picks : Nat → Nat) (fs : List Frag) (out : List Leaf)
    (hf : ∀ f ∈ fs, FlowExpr f.expr) (h : flow picks fs = some out) :
    (out.map fun l => (l.name, l.func)).Perm ((progAdded fs).map fun a => (a.1, some a.2)) ∧
    (out.map (·.name)).Nodup := flow_perm hf h

/-- C31: a run calls no action twice and only actions that were added, at their place in the order. -/
theorem C31_run_subset (out : List Leaf) (ρ : Nat → Nat → Bool) :
    ((run ρ out).map (·.2)).Sublist out := runFrom_sublist ρ 0 out

/-- C31: without conditions a run calls every added action exactly once, whatever predicates say. -/
theorem C31_run_all (picks : Nat → Nat) (fs : List Frag) (out : List Leaf)
    (hf : ∀ f ∈ fs, FlowExpr f.expr) (hw : ∀ f ∈ fs, f.whens = []) (h : flow picks fs = some out)
    (ρ : Nat → Nat → Bool) :
    ((run ρ out).map fun c => (c.2.name, c.2.func)).Perm ((progAdded fs).map fun a => (a.1, some a.2)) := by
  have hcond : ∀ l ∈ out, l.cond = [] := by
    obtain ⟨g, hp, hg⟩ := flow_sorted h
    obtain ⟨ss, ts, hss, hts, -, -, -, -, -, hi⟩ := program_sorted hf hp
    intro l hl
    have hlt := hi.sub l hl
    -- every leaf of every fragment has the empty condition
    have hsub : ∀ (s : Sub), (∀ l ∈ s.mentioned, l.cond = []) → ∀ ns, s.nodes = some ns →
        ∀ l ∈ ns, l.cond = [] := by
      have hstar : ∀ ls ns, starAll ls = some ns → (∀ l ∈ ls, l.cond = []) → ∀ l ∈ ns, l.cond = [] := by
        intro ls
        induction ls with
        | nil => intro ns h _ l hl; cases h; cases hl
        | cons a ls ih =>
          intro ns h hc l hl
          simp only [starAll, Option.bind_eq_bind, Option.bind_eq_some_iff] at h
          obtain ⟨a', ha, ls', hls, h⟩ := h
          cases h
          rcases List.mem_cons.mp hl with rfl | hl
          · have := hc a List.mem_cons_self
            obtain ⟨k, n, st, c, f⟩ := a
            cases k
            · cases ha; exact this
            · cases ha
            · cases ha; exact this
          · exact ih _ hls (fun l hl => hc l (List.mem_cons_of_mem _ hl)) l hl
      intro s
      induction s with
      | leaf l =>
        intro hc ns h x hx
        simp only [Sub.nodes, Option.some.injEq] at h
        subst h
        split at hx
        · exact hc x hx
        · cases hx
      | par st l r ihl ihr =>
        intro hc ns h x hx
        cases st with
        | true =>
          simp only [Sub.nodes, if_true] at h
          exact hstar _ _ h (fun l hl => hc l (mem_unique.mp hl)) x hx
        | false =>
          simp only [Sub.nodes, Bool.false_eq_true, if_false, Option.bind_eq_bind,
            Option.bind_eq_some_iff] at h
          obtain ⟨na, hna, nb, hnb, h⟩ := h
          cases h
          rcases List.mem_append.mp hx with hx | hx
          · exact ihl (fun l hl => hc l (List.mem_append_left _ hl)) _ hna x hx
          · exact ihr (fun l hl => hc l (List.mem_append_right _ hl)) _ hnb x hx
      | seq st c l r ihl ihr =>
        intro hc ns h x hx
        cases st with
        | true =>
          simp only [Sub.nodes, if_true] at h
          exact hstar _ _ h (fun l hl => hc l (mem_unique.mp hl)) x hx
        | false =>
          simp only [Sub.nodes, Bool.false_eq_true, if_false, Option.bind_eq_bind,
            Option.bind_eq_some_iff] at h
          obtain ⟨na, hna, nb, hnb, h⟩ := h
          cases h
          rcases List.mem_append.mp hx with hx | hx
          · exact ihl (fun l hl => hc l (List.mem_append_left _ hl)) _ hna x hx
          · exact ihr (fun l hl => hc l (List.mem_append_right _ hl)) _ hnb x hx
    have heval : ∀ (e : Expr) (s : Sub), e.eval = some s → ∀ l ∈ s.mentioned, l.cond = [] := by
      intro e
      induction e with
      | action n f => intro s h l hl; cases h; simp only [Sub.mentioned, List.mem_singleton] at hl; rw [hl]; rfl
      | ref n => intro s h l hl; cases h; simp only [Sub.mentioned, List.mem_singleton] at hl; rw [hl]; rfl
      | step n f => intro s h l hl; cases h; simp only [Sub.mentioned, List.mem_singleton] at hl; rw [hl]; rfl
      | star e ih =>
        intro s h l hl
        simp only [Expr.eval, Option.bind_eq_bind, Option.bind_eq_some_iff] at h
        obtain ⟨s0, h0, h⟩ := h
        have ih' := ih s0 h0
        cases s0 with
        | leaf l0 =>
          simp only [Sub.star, Option.map_eq_some_iff] at h
          obtain ⟨l', hl', rfl⟩ := h
          simp only [Sub.mentioned, List.mem_singleton] at hl
          subst hl
          have := ih' _ (List.mem_singleton.mpr rfl)
          obtain ⟨k, n, st, c, f⟩ := l0
          cases k
          · cases hl'; exact this
          · cases hl'
          · cases hl'; exact this
        | par _ a b =>
          cases h
          apply ih'
          simpa [Sub.mentioned, Sub.mentioned_init] using hl
        | seq _ _ a b =>
          cases h
          apply ih'
          simpa [Sub.mentioned, Sub.mentioned_init] using hl
      | par a b iha ihb =>
        intro s h l hl
        simp only [Expr.eval, Option.bind_eq_bind, Option.bind_eq_some_iff] at h
        obtain ⟨sa, ha, sb, hb, h⟩ := h
        cases h
        rcases List.mem_append.mp hl with hl | hl
        · exact iha _ ha l hl
        · exact ihb _ hb l hl
      | seq a b iha ihb =>
        intro s h l hl
        simp only [Expr.eval, Option.bind_eq_bind, Option.bind_eq_some_iff] at h
        obtain ⟨sa, ha, sb, hb, h⟩ := h
        cases h
        rcases List.mem_append.mp hl with hl | hl
        · exact iha _ ha l hl
        · exact ihb _ hb l hl
    have hall : ∀ (ss : List Sub) (ts : List Leaf), allNodes ss = some ts →
        (∀ s ∈ ss, ∀ l ∈ s.mentioned, l.cond = []) → ∀ l ∈ ts, l.cond = [] := by
      intro ss
      induction ss with
      | nil => intro ts h _ l hl; cases h; cases hl
      | cons s ss ih =>
        intro ts h hc l hl
        simp only [allNodes, Option.bind_eq_bind, Option.bind_eq_some_iff] at h
        obtain ⟨a, ha, b, hb, h⟩ := h
        cases h
        rcases List.mem_append.mp hl with hl | hl
        · exact hsub s (hc s List.mem_cons_self) _ ha l hl
        · exact ih _ hb (fun s hs => hc s (List.mem_cons_of_mem _ hs)) l hl
    apply hall ss ts hts _ l hlt
    intro s hs l hl
    obtain ⟨f, hfm, hfs⟩ := (evalAll_mem hss).2 s hs
    rw [Frag.eval, hw f hfm] at hfs
    simp only [Option.bind_eq_bind, Option.bind_eq_some_iff, applyWhens, Option.some.injEq] at hfs
    obtain ⟨s0, h0, rfl⟩ := hfs
    exact heval _ _ h0 l hl
  have hrun : ∀ (k : Nat) (l : List Leaf), (∀ x ∈ l, x.cond = []) → (runFrom ρ k l).map (·.2) = l := by
    intro k l
    induction l generalizing k with
    | nil => intro _; rfl
    | cons x l ih =>
      intro hc
      rw [runFrom, hc x List.mem_cons_self]
      simp [ih _ fun y hy => hc y (List.mem_cons_of_mem _ hy)]
  have : ((run ρ out).map fun c => (c.2.name, c.2.func)) = out.map fun l => (l.name, l.func) := by
    conv_rhs => rw [← hrun 0 out hcond]
    rw [List.map_map]
    rfl
  rw [this]
  exact (flow_perm hf h).1

/-- Non-vacuity of C31: three actions, added in different ways, all called once. -/
example :
    (run (fun _ _ => false) ((flow (fun _ => 0) [⟨[], .star (.par (.action 2 20) (.action 1 10))⟩,
      ⟨[], .seq (.star (.action 3 30)) (.action 2 20)⟩]).getD [])).map (fun c => (c.2.name, c.2.func)) =
      [(1, some 10), (3, some 30), (2, some 20)] := by decide +kernel

end Verif.Flow
