import Verif.Interrupt.RunLemmas
import Mathlib.Tactic.ByContra
/-!
# Lemmas about the dynamic controller
-/
namespace Verif.Interrupt

/-! ## Descendants -/

mutual
theorem mem_descendants : ∀ (x y : Irq), y ∈ x.descendants ↔ ∃ z ∈ x.subs, Below y z
  | .element i fs, y => by simp [Irq.descendants, Irq.subs]
  | .container i xs, y => by
    simp only [Irq.descendants, Irq.subs, List.mem_append]
    rw [mem_descendantsL xs y]
    constructor
    · rintro (h | ⟨z, hz, u, hu, h⟩)
      · exact ⟨y, h, .refl _⟩
      · refine ⟨z, hz, ?_⟩
        cases z with
        | element i fs => simp [Irq.subs] at hu
        | container i ys => exact .sub hu h
    · rintro ⟨z, hz, h⟩
      cases h with
      | refl => exact .inl hz
      | sub hu h => exact .inr ⟨_, hz, _, hu, h⟩
theorem mem_descendantsL : ∀ (xs : List Irq) (y : Irq),
    y ∈ descendantsL xs ↔ ∃ z ∈ xs, ∃ u ∈ z.subs, Below y u
  | [], y => by simp [descendantsL]
  | x :: xs, y => by
    simp only [descendantsL, List.mem_append, List.mem_cons]
    rw [mem_descendants x y, mem_descendantsL xs y]
    constructor
    · rintro (h | ⟨z, hz, h⟩)
      · exact ⟨x, .inl rfl, h⟩
      · exact ⟨z, .inr hz, h⟩
    · rintro ⟨z, rfl | hz, h⟩
      · exact .inl h
      · exact .inr ⟨z, hz, h⟩
end

theorem mem_root (root : List Irq) (x : Irq) : x ∈ rootDescendants root ↔ InTree root x := by
  simp only [rootDescendants, List.mem_append, InTree]
  rw [mem_descendantsL]
  constructor
  · rintro (h | ⟨z, hz, u, hu, h⟩)
    · exact ⟨x, h, .refl _⟩
    · refine ⟨z, hz, ?_⟩
      cases z with
      | element i fs => simp [Irq.subs] at hu
      | container i ys => exact .sub hu h
  · rintro ⟨z, hz, h⟩
    cases h with
    | refl => exact .inl hz
    | sub hu h => exact .inr ⟨_, hz, _, hu, h⟩

theorem InTree.below {root : List Irq} {x y : Irq} (hx : InTree root x) (h : Below y x) :
    InTree root y := by
  obtain ⟨z, hz, hb⟩ := hx
  exact ⟨z, hz, h.trans hb⟩

mutual
theorem mem_allFlows : ∀ (x : Irq) (t : Nat), t ∈ x.allFlows ↔ ∃ y, Below y x ∧ t ∈ y.flows
  | .element i fs, t => by
    simp only [Irq.allFlows]
    constructor
    · intro h; exact ⟨_, .refl _, h⟩
    · rintro ⟨y, h1, h2⟩; cases h1; exact h2
  | .container i xs, t => by
    simp only [Irq.allFlows]
    rw [mem_allFlowsL xs t]
    constructor
    · rintro ⟨z, hz, y, h1, h2⟩; exact ⟨y, .sub hz h1, h2⟩
    · rintro ⟨y, h1, h2⟩
      cases h1 with
      | refl => simp [Irq.flows] at h2
      | sub hz h => exact ⟨_, hz, y, h, h2⟩
theorem mem_allFlowsL : ∀ (xs : List Irq) (t : Nat),
    t ∈ allFlowsL xs ↔ ∃ x ∈ xs, ∃ y, Below y x ∧ t ∈ y.flows
  | [], t => by simp [allFlowsL]
  | x :: xs, t => by
    simp only [allFlowsL, List.mem_append, List.mem_cons]
    rw [mem_allFlows x t, mem_allFlowsL xs t]
    constructor
    · rintro (h | ⟨z, hz, h⟩)
      · exact ⟨x, .inl rfl, h⟩
      · exact ⟨z, .inr hz, h⟩
    · rintro ⟨z, rfl | hz, h⟩
      · exact .inl h
      · exact .inr ⟨z, hz, h⟩
end

theorem below_sub {x y : Irq} (h : y ∈ x.subs) : Below y x := by
  cases x with
  | element i fs => simp [Irq.subs] at h
  | container i xs => exact .sub h (.refl _)

theorem mem_allResources (x : Irq) (t : Nat) :
    t ∈ x.allResources ↔ t ∈ x.info.resources ∨ ∃ y ∈ x.subs, t ∈ y.info.resources := by
  simp only [Irq.allResources, List.mem_append, List.mem_flatten, List.mem_map]
  constructor
  · rintro (h | ⟨_, ⟨y, hy, rfl⟩, h⟩)
    · exact .inl h
    · exact .inr ⟨y, hy, h⟩
  · rintro (h | ⟨y, hy, h⟩)
    · exact .inl h
    · exact .inr ⟨_, ⟨y, hy, rfl⟩, h⟩

theorem mem_resourcesOf (root : List Irq) (t : Nat) :
    t ∈ resourcesOf root ↔ ∃ x, InTree root x ∧ t ∈ x.info.resources := by
  simp only [resourcesOf, List.mem_flatten, List.mem_map]
  constructor
  · rintro ⟨_, ⟨x, hx, rfl⟩, h⟩; exact ⟨x, (mem_root _ _).1 hx, h⟩
  · rintro ⟨x, hx, h⟩; exact ⟨_, ⟨x, (mem_root _ _).2 hx, rfl⟩, h⟩

theorem mem_flowsOf (root : List Irq) (t : Nat) :
    t ∈ flowsOf root ↔ ∃ x, InTree root x ∧ t ∈ x.flows := by
  simp only [flowsOf, List.mem_flatten, List.mem_map]
  constructor
  · rintro ⟨_, ⟨x, hx, rfl⟩, h⟩; exact ⟨x, (mem_root _ _).1 hx, h⟩
  · rintro ⟨x, hx, h⟩; exact ⟨_, ⟨x, (mem_root _ _).2 hx, rfl⟩, h⟩

theorem mem_namesOf (root : List Irq) (t : Nat) :
    t ∈ namesOf root ↔ ∃ x, InTree root x ∧ x.info.name = t := by
  simp only [namesOf, List.mem_map, mem_root]

/-- What `update` gets for `t`, if names are unique. -/
theorem mem_affected {root : List Irq}
    (hn : ∀ x y, InTree root x → InTree root y → x.info.name = y.info.name → x = y)
    (p : Bool) (ts : List Nat) (x : Irq) : x ∈ affected root p ts ↔ InTree root x ∧ ∃ t ∈ ts,
      (t ∈ (if p then x.allResources else x.info.resources) ∨
        t ∈ (if p then x.allFlows else x.flows)) := by
  simp only [affected, List.mem_filter, decide_eq_true_eq, List.mem_flatten, List.mem_map, mem_root]
  refine and_congr_right fun hx => ?_
  have key : ∀ t, x.info.name ∈ affectedNames root p t ↔
      (t ∈ (if p then x.allResources else x.info.resources) ∨
        t ∈ (if p then x.allFlows else x.flows)) := by
    intro t
    simp only [affectedNames, List.mem_append]
    refine or_congr ?_ ?_
    · constructor
      · intro h
        split at h
        · simp only [List.mem_map, List.mem_filter, mem_root, decide_eq_true_eq] at h
          obtain ⟨y, ⟨hy, ht⟩, he⟩ := h
          rwa [← hn y x hy hx he]
        · simp at h
      · intro h
        rw [if_pos]
        · exact List.mem_map.2 ⟨x, List.mem_filter.2 ⟨(mem_root _ _).2 hx, decide_eq_true h⟩, rfl⟩
        · rw [mem_resourcesOf]
          cases p with
          | false => exact ⟨x, hx, h⟩
          | true =>
            simp only [if_true, mem_allResources] at h
            rcases h with h | ⟨y, hy, h⟩
            · exact ⟨x, hx, h⟩
            · exact ⟨y, hx.below (below_sub hy), h⟩
    · constructor
      · intro h
        split at h
        · simp only [List.mem_map, List.mem_filter, mem_root, decide_eq_true_eq] at h
          obtain ⟨y, ⟨hy, ht⟩, he⟩ := h
          rwa [← hn y x hy hx he]
        · simp at h
      · intro h
        rw [if_pos]
        · exact List.mem_map.2 ⟨x, List.mem_filter.2 ⟨(mem_root _ _).2 hx, decide_eq_true h⟩, rfl⟩
        · rw [mem_flowsOf]
          cases p with
          | false => exact ⟨x, hx, h⟩
          | true =>
            simp only [if_true, mem_allFlows] at h
            obtain ⟨y, hy, h⟩ := h
            exact ⟨y, hx.below hy, h⟩
  constructor
  · rintro ⟨_, ⟨t, ht, rfl⟩, h⟩; exact ⟨t, ht, (key t).1 h⟩
  · rintro ⟨t, ht, h⟩; exact ⟨_, ⟨t, ht, rfl⟩, (key t).2 h⟩

/-! ## `isOn` -/

mutual
theorem isOn_iff (c : Enables) : ∀ x : Irq, isOn c x = true ↔ On c x
  | .element i fs => by
    simp only [isOn, Bool.and_eq_true, List.all_eq_true, List.any_eq_true]
    constructor
    · rintro ⟨⟨h1, h2⟩, f, hf, h3⟩; exact .element h1 h2 hf h3
    · intro h; cases h with
      | element h1 h2 hf h3 => exact ⟨⟨h1, h2⟩, _, hf, h3⟩
  | .container i xs => by
    simp only [isOn, Bool.and_eq_true, List.all_eq_true]
    rw [anyOn_iff c xs]
    constructor
    · rintro ⟨⟨h1, h2⟩, f, hf, h3⟩; exact .container h1 h2 hf h3
    · intro h; cases h with
      | container h1 h2 hf h3 => exact ⟨⟨h1, h2⟩, _, hf, h3⟩
theorem anyOn_iff (c : Enables) : ∀ xs : List Irq, anyOn c xs = true ↔ ∃ y ∈ xs, On c y
  | [] => by simp [anyOn]
  | x :: xs => by
    simp only [anyOn, Bool.or_eq_true, List.mem_cons]
    rw [isOn_iff c x, anyOn_iff c xs]
    constructor
    · rintro (h | ⟨z, hz, h⟩)
      · exact ⟨x, .inl rfl, h⟩
      · exact ⟨z, .inr hz, h⟩
    · rintro ⟨z, rfl | hz, h⟩
      · exact .inl h
      · exact .inr ⟨z, hz, h⟩
end

/-- `On` depends on the names, resources and flows of the interrupts below only. -/
theorem On.congr {c c' : Enables} {x : Irq} (h : On c x)
    (hc : ∀ y, Below y x → c'.name y.info.name = c.name y.info.name ∧
      (∀ r ∈ y.info.resources, c'.res r = c.res r) ∧ (∀ f ∈ y.flows, c'.flow f = c.flow f)) :
    On c' x := by
  induction h with
  | @element i fs f h1 h2 h3 h4 =>
    obtain ⟨e1, e2, e3⟩ := hc _ (.refl _)
    exact .element (e1.trans h1) (fun r hr => (e2 r hr).trans (h2 r hr)) h3 ((e3 f h3).trans h4)
  | container h1 h2 h3 _ ih =>
    obtain ⟨e1, e2, _⟩ := hc _ (.refl _)
    exact .container (e1.trans h1) (fun r hr => (e2 r hr).trans (h2 r hr)) h3
      (ih fun y hy => hc y (.sub h3 hy))

theorem On.congr_iff {c c' : Enables} {x : Irq}
    (hc : ∀ y, Below y x → c'.name y.info.name = c.name y.info.name ∧
      (∀ r ∈ y.info.resources, c'.res r = c.res r) ∧ (∀ f ∈ y.flows, c'.flow f = c.flow f)) :
    On c' x ↔ On c x := by
  constructor
  · intro h
    exact h.congr fun y hy => ⟨(hc y hy).1.symm, fun r hr => ((hc y hy).2.1 r hr).symm,
      fun f hf => ((hc y hy).2.2 f hf).symm⟩
  · intro h; exact h.congr hc

/-! ## `update` -/

theorem maskOf_bit {w : Nat} (H : Hal w) (irqs : List Irq) (i : Nat) :
    (maskOf H irqs).getLsbD i = true ↔ ∃ x ∈ irqs, (maskFor H x).getLsbD i = true := by
  have key : ∀ (irqs : List Irq) (m : BitVec w),
      (irqs.foldl (fun m x => m ||| maskFor H x) m).getLsbD i = true ↔
        m.getLsbD i = true ∨ ∃ x ∈ irqs, (maskFor H x).getLsbD i = true := by
    intro irqs
    induction irqs with
    | nil => simp
    | cons x xs ih =>
      intro m
      rw [List.foldl_cons, ih]
      simp [or_assoc]
  rw [maskOf, key]
  simp

theorem valueOf_bit {w : Nat} (H : Hal w) (c : Enables) (irqs : List Irq) (i : Nat) :
    (valueOf H c irqs).getLsbD i = true ↔
      ∃ x ∈ irqs, isOn c x = true ∧ (maskFor H x).getLsbD i = true := by
  have key : ∀ (irqs : List Irq) (m : BitVec w),
      (irqs.foldl (fun v x => if isOn c x then v ||| maskFor H x else v) m).getLsbD i = true ↔
        m.getLsbD i = true ∨ ∃ x ∈ irqs, isOn c x = true ∧ (maskFor H x).getLsbD i = true := by
    intro irqs
    induction irqs with
    | nil => simp
    | cons x xs ih =>
      intro m
      rw [List.foldl_cons, ih]
      by_cases hx : isOn c x = true
      · simp [hx, or_assoc]
      · simp [hx]
  rw [valueOf, key]
  simp

theorem ownsBit_iff {w : Nat} (H : Hal w) (x : Irq) (r i : Nat) :
    OwnsBit H x r i ↔ x.info.enable.map H.reg = some r ∧ (maskFor H x).getLsbD i = true := by
  simp only [OwnsBit, maskFor]
  cases x.info.enable with
  | none => simp
  | some f => simp

/-- New contents of one register. -/
def newReg {w : Nat} (H : Hal w) (irqs : List Irq) (c : Enables) (old : BitVec w) (r : Nat) :
    BitVec w :=
  (old &&& ~~~(maskOf H (inReg H irqs r))) ||| valueOf H c (inReg H irqs r)

theorem newReg_bit {w : Nat} (H : Hal w) (irqs : List Irq) (c : Enables) (old : BitVec w)
    (r i : Nat) : (newReg H irqs c old r).getLsbD i = true ↔
      (old.getLsbD i = true ∧ ¬ ∃ x ∈ irqs, OwnsBit H x r i) ∨
        ∃ x ∈ irqs, On c x ∧ OwnsBit H x r i := by
  have h1 : (maskOf H (inReg H irqs r)).getLsbD i = true ↔ ∃ x ∈ irqs, OwnsBit H x r i := by
    rw [maskOf_bit]
    simp only [inReg, List.mem_filter, decide_eq_true_eq, ownsBit_iff]
    constructor
    · rintro ⟨x, ⟨a, b⟩, c⟩; exact ⟨x, a, b, c⟩
    · rintro ⟨x, a, b, c⟩; exact ⟨x, ⟨a, b⟩, c⟩
  have h2 : (valueOf H c (inReg H irqs r)).getLsbD i = true ↔
      ∃ x ∈ irqs, On c x ∧ OwnsBit H x r i := by
    rw [valueOf_bit]
    simp only [inReg, List.mem_filter, decide_eq_true_eq, ownsBit_iff, isOn_iff]
    constructor
    · rintro ⟨x, ⟨a, b⟩, c, d⟩; exact ⟨x, a, c, b, d⟩
    · rintro ⟨x, a, c, b, d⟩; exact ⟨x, ⟨a, b⟩, c, d⟩
  rw [newReg, BitVec.getLsbD_or, Bool.or_eq_true, BitVec.getLsbD_and, Bool.and_eq_true, h2, ← h1,
    BitVec.getLsbD_not]
  by_cases hi : i < w
  · simp [hi]
  · have : old.getLsbD i = false := BitVec.getLsbD_of_ge _ _ (by omega)
    simp [hi, this]

theorem uniq_mem (xs : List Nat) (x : Nat) : x ∈ uniq xs ↔ x ∈ xs := by
  induction xs with
  | nil => simp [uniq]
  | cons y ys ih =>
    simp only [uniq, List.mem_cons, List.mem_filter, ih, bne_iff_ne]
    by_cases h : x = y <;> simp [h]

theorem uniq_nodup (xs : List Nat) : (uniq xs).Nodup := by
  induction xs with
  | nil => simp [uniq]
  | cons y ys ih =>
    simp only [uniq, List.nodup_cons, List.mem_filter]
    exact ⟨by simp, ih.filter _⟩

theorem newReg_of_not_mem {w : Nat} (H : Hal w) (irqs : List Irq) (c : Enables) (old : BitVec w)
    (r : Nat) (h : r ∉ regsOf H irqs) : newReg H irqs c old r = old := by
  have : inReg H irqs r = [] := by
    rw [inReg, List.filter_eq_nil_iff]
    intro x hx hd
    rw [decide_eq_true_eq] at hd
    exact h ((uniq_mem _ _).2 (List.mem_filterMap.2 ⟨x, hx, hd⟩))
  simp only [newReg, this, maskOf, valueOf, List.foldl_nil]
  have h0 : ~~~(0 : BitVec w) = BitVec.allOnes w := by simp
  rw [h0, BitVec.and_allOnes]
  exact BitVec.or_zero

/-- State after writing some registers. -/
structure Wrote {w : Nat} (H : Hal w) (force : Bool) (irqs : List Irq) (rs : List Nat)
    (d d' : Ctl w) : Prop where
  en : d'.en = d.en
  shadow : ∀ r, d'.shadow r = if r ∈ rs then newReg H irqs d.en (d.shadow r) r else d.shadow r
  hw : ∀ r, d'.hw r = if r ∈ rs ∧ (force = true ∨ newReg H irqs d.en (d.shadow r) r ≠ d.shadow r)
    then newReg H irqs d.en (d.shadow r) r else d.hw r

theorem wrote_foldl {w : Nat} (H : Hal w) (force : Bool) (irqs : List Irq) (rs : List Nat)
    (hn : rs.Nodup) (d : Ctl w) :
    Wrote H force irqs rs d (rs.foldl (updateReg H force irqs) d) := by
  induction rs generalizing d with
  | nil => exact ⟨rfl, fun r => by simp, fun r => by simp⟩
  | cons q qs ih =>
    rw [List.nodup_cons] at hn
    obtain ⟨h1, h2, h3⟩ := ih hn.2 (updateReg H force irqs d q)
    have e : (updateReg H force irqs d q).en = d.en := rfl
    have s : ∀ r, (updateReg H force irqs d q).shadow r =
        if r = q then newReg H irqs d.en (d.shadow q) q else d.shadow r := fun r => rfl
    have hh : ∀ r, (updateReg H force irqs d q).hw r =
        if r = q then (if force || newReg H irqs d.en (d.shadow q) q != d.shadow q then
          newReg H irqs d.en (d.shadow q) q else d.hw r) else d.hw r := fun r => rfl
    refine ⟨by rw [List.foldl_cons, h1, e], fun r => ?_, fun r => ?_⟩
    · rw [List.foldl_cons, h2, e, s]
      by_cases hr : r = q
      · subst hr; simp [hn.1]
      · simp [hr]
    · rw [List.foldl_cons, h3, e, s, hh]
      by_cases hr : r = q
      · subst hr; simp [hn.1]
      · simp [hr]

theorem wrote_update {w : Nat} (H : Hal w) (force : Bool) (irqs : List Irq) (d : Ctl w) :
    Wrote H force irqs (regsOf H irqs) d (update H force irqs d) :=
  wrote_foldl H force irqs _ (uniq_nodup _) d

theorem update_en {w : Nat} (H : Hal w) (force : Bool) (irqs : List Irq) (d : Ctl w) :
    (update H force irqs d).en = d.en := (wrote_update H force irqs d).en

theorem update_shadow {w : Nat} (H : Hal w) (force : Bool) (irqs : List Irq) (d : Ctl w) (r : Nat) :
    (update H force irqs d).shadow r = newReg H irqs d.en (d.shadow r) r := by
  rw [(wrote_update H force irqs d).shadow]
  split
  · rfl
  · next h => rw [newReg_of_not_mem _ _ _ _ _ h]

theorem update_hw {w : Nat} (H : Hal w) (force : Bool) (irqs : List Irq) (d : Ctl w) (r : Nat)
    (h : d.hw r = d.shadow r) : (update H force irqs d).hw r = (update H force irqs d).shadow r := by
  rw [update_shadow, (wrote_update H force irqs d).hw]
  split
  · rfl
  · next hc =>
    rw [h]
    by_cases hr : r ∈ regsOf H irqs
    · by_contra hne
      exact hc ⟨hr, .inr (fun h' => hne h'.symm)⟩
    · rw [newReg_of_not_mem _ _ _ _ _ hr]

theorem update_hw_force {w : Nat} (H : Hal w) (irqs : List Irq) (d : Ctl w) (r : Nat)
    (h : r ∈ regsOf H irqs) : (update H true irqs d).hw r = (update H true irqs d).shadow r := by
  rw [update_shadow, (wrote_update H true irqs d).hw, if_pos ⟨h, .inl rfl⟩]

theorem mem_regsOf {w : Nat} (H : Hal w) (irqs : List Irq) (r : Nat) :
    r ∈ regsOf H irqs ↔ ∃ x ∈ irqs, x.info.enable.map H.reg = some r := by
  rw [regsOf, uniq_mem, List.mem_filterMap]

end Verif.Interrupt
