import Verif.Control.Spec
import Verif.Interrupt.Props
/-!
# Lemmas about turning interrupts on and off
-/
namespace Verif.Control
open Verif.Interrupt

theorem On.allowed {c : Enables} {x : Irq} (h : On c x) : Allowed c x := by
  cases h with
  | element h1 h2 h3 h4 => exact ⟨h1, h2, fun i fs e => by cases e; exact ⟨_, h3, h4⟩⟩
  | container h1 h2 => exact ⟨h1, h2, fun i fs e => by cases e⟩

theorem Allowed.congr {c c' : Enables} {x : Irq} (h : Allowed c x)
    (hn : c'.name x.info.name = c.name x.info.name)
    (hr : ∀ r ∈ x.info.resources, c'.res r = c.res r)
    (hf : ∀ f ∈ x.flows, c'.flow f = c.flow f) : Allowed c' x := by
  refine ⟨by rw [hn]; exact h.name, fun r hx => by rw [hr r hx]; exact h.resources r hx,
    fun i fs e => ?_⟩
  obtain ⟨f, hm, ht⟩ := h.flow i fs e
  subst e
  exact ⟨f, hm, by rw [hf f hm]; exact ht⟩

variable {w : Nat}

theorem obeys_of_right {H : Hal w} {d : Ctl w} {x : Irq} (h : BitsRight H d x) : Obeys H d x :=
  fun r i ho hb => On.allowed ((h r i ho).1 hb)

/-- An update puts right the interrupts it is given, and the others obey if they did. -/
theorem obeys_update {H : Hal w} {root irqs : List Irq} (hw : WellFormed H root)
    (ht : ∀ y ∈ irqs, InTree root y) {force : Bool} {d : Ctl w} {c : Enables} {x : Irq}
    (hx : InTree root x) (hs : Synced H root d ∨ (force = true ∧ x ∈ irqs))
    (h : x ∈ irqs ∨ (Obeys H d x ∧ (Allowed d.en x → Allowed c x))) :
    Obeys H (update H force irqs { d with en := c }) x := by
  by_cases hxi : x ∈ irqs
  · exact obeys_of_right (bitsRight_update hw ht hx hs (.inl hxi))
  · rcases h with h | ⟨hb, ha⟩
    · exact absurd h hxi
    have hsx : Synced H root d := by
      rcases hs with hs | hs
      · exact hs
      · exact absurd hs.2 hxi
    intro r i ho hbit
    obtain ⟨f, hf, rfl, hm⟩ := id ho
    rw [update_hw _ _ _ { d with en := c } _ (hsx x f hx hf), update_shadow, newReg_bit] at hbit
    rw [update_en]
    refine ha (hb _ i ho ?_)
    rw [hsx x f hx hf]
    rcases hbit with h1 | ⟨y, hy, _, hoy⟩
    · exact h1.1
    · exact absurd (hw.bits y x _ i (ht y hy) hx hoy ho ▸ hy) hxi

theorem touches_mem {H : Hal w} {root : List Irq} (hw : WellFormed H root) {x : Irq}
    (hx : InTree root x) {op : Op} (h : Touches x op) : x ∈ op.irqs root := by
  cases op with
  | items b p ts =>
    obtain ⟨t, ht, hc⟩ := h
    refine (mem_affected hw.names p ts x).2 ⟨hx, t, ht, ?_⟩
    cases p with
    | false => exact hc
    | true =>
      rcases hc with hc | hc
      · exact .inl ((mem_allResources _ _).2 (.inl hc))
      · exact .inr ((mem_allFlows _ _).2 ⟨x, .refl _, hc⟩)
  | names b ns =>
    simp only [Op.irqs, List.mem_flatten, List.mem_map]
    exact ⟨_, ⟨_, h, rfl⟩, List.mem_filter.2 ⟨(mem_root _ _).2 hx, by simp⟩⟩
  | refreshTop => exact h.elim
  | refreshAll => exact (mem_root _ _).2 hx
  | reset => exact (mem_root _ _).2 hx

/-- An operation that does not touch the interrupt leaves what is on of it. -/
theorem allowed_untouched {root : List Irq} {x : Irq} {op : Op} (ho : op.NamesByName root)
    (hx : InTree root x) (h : ¬ Touches x op) (c : Enables) (ha : Allowed c x) :
    Allowed (op.enables root c) x := by
  cases op with
  | items b p ts =>
    have hno : ∀ t ∈ ts, t ∉ x.info.resources ∧ t ∉ x.flows := fun t ht =>
      ⟨fun hr => h ⟨t, ht, .inl hr⟩, fun hf => h ⟨t, ht, .inr hf⟩⟩
    obtain ⟨b1, b2, _, b4, _⟩ := puts_other root b ts c
    exact ha.congr (by simp only [Op.enables]; rw [b4 ho])
      (fun r hr => b1 r fun h => (hno r h).1 hr) (fun f hf => b2 f fun h => (hno f h).2 hf)
  | names b ns =>
    obtain ⟨_, _, b3, _, b5⟩ := puts_other root b ns c
    obtain ⟨e1, e2⟩ := b5 ho
    exact ha.congr (b3 _ h) (fun r _ => by simp only [Op.enables]; rw [e1])
      (fun f _ => by simp only [Op.enables]; rw [e2])
  | refreshTop => exact ha
  | refreshAll => exact ha
  | reset => exact absurd trivial h

/-- An operation that touches the interrupt makes it obey. -/
theorem obeys_touched {H : Hal w} {root : List Irq} (hw : WellFormed H root) {x : Irq}
    (hx : InTree root x) {op : Op} (h : Touches x op) {d : Ctl w} (hs : Synced H root d) :
    Obeys H (op.run H root d) x := by
  rw [Op.run_eq]
  exact obeys_update hw (fun y hy => (Op.irqs_tree hw.names _ hy).1) hx (.inl hs)
    (.inl (touches_mem hw hx h))

theorem synced_run {H : Hal w} {root : List Irq} {d : Ctl w} (hs : Synced H root d) (op : Op) :
    Synced H root (op.run H root d) := by
  rw [Op.run_eq]; exact synced_update hs

theorem obeys_run {H : Hal w} {root : List Irq} (hw : WellFormed H root) {x : Irq}
    (hx : InTree root x) {op : Op} (ho : op.NamesByName root) {d : Ctl w} (hs : Synced H root d)
    (hb : Obeys H d x) : Obeys H (op.run H root d) x := by
  by_cases ht : Touches x op
  · exact obeys_touched hw hx ht hs
  · rw [Op.run_eq]
    exact obeys_update hw (fun y hy => (Op.irqs_tree hw.names _ hy).1) hx (.inl hs)
      (.inr ⟨hb, allowed_untouched ho hx ht d.en⟩)

/-! ## Invariants of running -/

/-- What a piece of the program keeps, and what holds for each of its calls. -/
def Holds (I : Mach w → Prop) (G : List (Irq × Mach w) → Nat → Nat → Prop) (a : Prog w) : Prop :=
  ∀ m, I m → I (a m).1 ∧ ∀ p f n, Act.call p f n ∈ (a m).2 → G p f n

theorem Holds.seq {I : Mach w → Prop} {G : List (Irq × Mach w) → Nat → Nat → Prop} {a b : Prog w}
    (ha : Holds I G a) (hb : Holds I G b) : Holds I G (seq a b) := by
  intro m hm
  obtain ⟨a1, a2⟩ := ha m hm
  obtain ⟨b1, b2⟩ := hb _ a1
  refine ⟨b1, fun p f n h => ?_⟩
  rcases List.mem_append.1 h with h | h
  · exact a2 p f n h
  · exact b2 p f n h

/-- What `run` needs of an invariant: it does not look at status fields, and commands of flows keep
it. -/
structure Inv (fw : Firmware w) (I : Mach w → Prop) : Prop where
  mem : ∀ m mem, I m → I { m with mem := mem }
  work : ∀ f n m0 m, I m → ∀ c ∈ fw.work f n m0, I (fw.does m c)

theorem holds_clear {fw : Firmware w} {I : Mach w → Prop} (hI : Inv fw I)
    (G : List (Irq × Mach w) → Nat → Nat → Prop) (f : Option Nat) : Holds I G (clearStatus f) := by
  intro m hm
  cases f with
  | none => exact ⟨hm, fun p f n h => by simp [clearStatus] at h⟩
  | some g => exact ⟨hI.mem m _ hm, fun p f n h => by simp [clearStatus] at h⟩

theorem holds_policy {fw : Firmware w} {I : Mach w → Prop} (hI : Inv fw I)
    {G : List (Irq × Mach w) → Nat → Nat → Prop} (i : Info) {a : Prog w} (ha : Holds I G a) :
    Holds I G (policyRun i a) := by
  simp only [policyRun]
  cases i.clear with
  | first => exact (holds_clear hI G _).seq ha
  | last => exact ha.seq (holds_clear hI G _)
  | dont => exact ha

theorem inv_cmds {fw : Firmware w} {I : Mach w → Prop} {cs : List Cmd}
    (h : ∀ m, I m → ∀ c ∈ cs, I (fw.does m c)) (m : Mach w) (hm : I m) : I (cs.foldl fw.does m) := by
  induction cs generalizing m with
  | nil => exact hm
  | cons c cs ih =>
    exact ih (fun m hm c hc => h m hm c (List.mem_cons_of_mem _ hc)) _ (h m hm c (by simp))

theorem holds_isr {fw : Firmware w} {I : Mach w → Prop} (hI : Inv fw I)
    {G : List (Irq × Mach w) → Nat → Nat → Prop} (path : List (Irq × Mach w)) (cs : List (Nat × Nat))
    (hG : ∀ c ∈ cs, G path c.1 c.2) : Holds I G (fw.isr path cs) := by
  induction cs with
  | nil => intro m hm; exact ⟨hm, fun p f n h => by simp [Firmware.isr] at h⟩
  | cons c cs ih =>
    obtain ⟨f, n⟩ := c
    refine Holds.seq (fun m hm => ⟨inv_cmds (fun m' hm' c hc => hI.work f n m m' hm' c hc) m hm, ?_⟩)
      (ih fun c hc => hG c (List.mem_cons_of_mem _ hc))
    intro p f' n' h
    simp only [List.mem_singleton, Act.call.injEq] at h
    obtain ⟨rfl, rfl, rfl⟩ := h
    exact hG (_, _) (by simp)

/-- `P` is kept when an interrupt whose enable field reads true is entered. -/
def Enters (fw : Firmware w) (I : Mach w → Prop) (P : List (Irq × Mach w) → Prop) : Prop :=
  ∀ x m p, InTree fw.root x → I m → fw.readEnable m x.info.enable = true → P p → P ((x, m) :: p)

mutual
theorem holds_run {fw : Firmware w} {I : Mach w → Prop} (hI : Inv fw I)
    {P : List (Irq × Mach w) → Prop} (hP : Enters fw I P) :
    ∀ (x : Irq) (path : List (Irq × Mach w)), InTree fw.root x → P path →
      (∀ m, Leads fw.root ((x, m) :: path) x) →
      Holds I (fun p f n => P p ∧ ∃ i fs, Leads fw.root p (.element i fs) ∧ f ∈ fs ∧ n ∈ fw.nexi)
        (fw.run path x)
  | .element i fs, path, hx, hp, hl => by
    intro m hm
    simp only [Firmware.run]
    split
    · rename_i hc
      simp only [Bool.and_eq_true] at hc
      refine holds_policy hI i (holds_isr hI _ _ ?_) m hm
      rintro ⟨f, n⟩ hfn
      obtain ⟨hf, hn⟩ := (mem_isrCalls _ _ _ _).1 hfn
      exact ⟨hP _ m path hx hm hc.2.1 hp, i, fs, hl m, hf, hn⟩
    · exact ⟨hm, fun p f n h => by simp at h⟩
  | .container i xs, path, hx, hp, hl => by
    intro m hm
    simp only [Firmware.run]
    split
    · rename_i hc
      simp only [Bool.and_eq_true] at hc
      refine holds_policy hI i (holds_runL hI hP xs _ ?_ (hP _ m path hx hm hc.2.1 hp) ?_) m hm
      · exact fun y hy => hx.below (.sub hy (.refl _))
      · exact fun y hy m' => .sub (hl m) hy
    · exact ⟨hm, fun p f n h => by simp at h⟩
theorem holds_runL {fw : Firmware w} {I : Mach w → Prop} (hI : Inv fw I)
    {P : List (Irq × Mach w) → Prop} (hP : Enters fw I P) :
    ∀ (xs : List Irq) (path : List (Irq × Mach w)), (∀ y ∈ xs, InTree fw.root y) → P path →
      (∀ y ∈ xs, ∀ m, Leads fw.root ((y, m) :: path) y) →
      Holds I (fun p f n => P p ∧ ∃ i fs, Leads fw.root p (.element i fs) ∧ f ∈ fs ∧ n ∈ fw.nexi)
        (fw.runL path xs)
  | [], path, _, _, _ => by
    intro m hm
    exact ⟨hm, fun p f n h => by simp [Firmware.runL] at h⟩
  | x :: xs, path, hx, hp, hl => by
    intro m hm
    simp only [Firmware.runL]
    exact ((holds_run hI hP x path (hx x (by simp)) hp (hl x (by simp))).seq
      (holds_runL hI hP xs path (fun y hy => hx y (List.mem_cons_of_mem _ hy)) hp
        (fun y hy => hl y (List.mem_cons_of_mem _ hy)))) m hm
end

theorem holds_runs {fw : Firmware w} {I : Mach w → Prop} (hI : Inv fw I)
    {P : List (Irq × Mach w) → Prop} (hP : Enters fw I P) (h0 : P []) (ss : List Step)
    (hs : ∀ m c, I m → Step.cmd c ∈ ss → I (fw.does m c)) :
    Holds I (fun p f n => P p ∧ ∃ i fs, Leads fw.root p (.element i fs) ∧ f ∈ fs ∧ n ∈ fw.nexi)
      (fw.runs ss) := by
  induction ss with
  | nil => intro m hm; exact ⟨hm, fun p f n h => by simp [Firmware.runs] at h⟩
  | cons s ss ih =>
    simp only [Firmware.runs]
    refine Holds.seq ?_ (ih fun m c hm hc => hs m c hm (List.mem_cons_of_mem _ hc))
    intro m hm
    cases s with
    | cmd c => exact ⟨hs m c hm (by simp), fun p f n h => by simp [Firmware.step] at h⟩
    | run k =>
      simp only [Firmware.step, Firmware.runNumber]
      cases hk : fw.impls.find? (·.1 == k) with
      | none => exact ⟨hm, fun p f n h => by simp at h⟩
      | some x =>
        have hx : x.2 ∈ fw.root := List.mem_map.2 ⟨x, List.mem_of_find?_eq_some hk, rfl⟩
        exact holds_run hI hP x.2 [] ⟨x.2, hx, .refl _⟩ h0 (fun _ => .top hx) m hm

end Verif.Control
