import Verif.Interrupt.Props
/-!
# What initialisation of the interrupt controller leaves in the hardware, whatever was there before

Exact forms of C43, C44 and C65 for `init` and `manager::init`: `init` writes a register if and only
if an interrupt that was not given as already enabled is enabled in it.
-/
namespace Verif.Interrupt
variable {w : Nat} {H : Hal w} {root : List Irq}

/-- An interrupt other than those already enabled is to be enabled in register `r`. -/
def Newly (H : Hal w) (root already : List Irq) (c : Enables) (r : Nat) : Prop :=
  ∃ x, InTree root x ∧ x ∉ already ∧ On c x ∧ ∃ i, OwnsBit H x r i

/-- Bit `i` of register `r` belongs to an interrupt already enabled, or to one to be enabled. -/
def Wanted (H : Hal w) (root already : List Irq) (c : Enables) (r i : Nat) : Prop :=
  (∃ y ∈ already, OwnsBit H y r i) ∨ ∃ x, InTree root x ∧ x ∉ already ∧ On c x ∧ OwnsBit H x r i

/-- The registers after `init`. -/
theorem init_regs (hw : WellFormed H root) (already : List Irq) (hal : ∀ y ∈ already, InTree root y)
    (res flows : Nat → Bool) (d : Ctl w) {x : Irq} {f : Nat} (hx : InTree root x)
    (hf : x.info.enable = some f) :
    (∀ i, ((init H root already res flows d).shadow (H.reg f)).getLsbD i = true ↔
      Wanted H root already ⟨res, flows, fun _ => true⟩ (H.reg f) i) ∧
    (Newly H root already ⟨res, flows, fun _ => true⟩ (H.reg f) →
      (init H root already res flows d).hw (H.reg f) =
        (init H root already res flows d).shadow (H.reg f)) ∧
    (¬ Newly H root already ⟨res, flows, fun _ => true⟩ (H.reg f) →
      (init H root already res flows d).hw (H.reg f) = d.hw (H.reg f)) := by
  obtain ⟨d2, e, hen, hhw, hsh⟩ := init_eq H root already res flows d
  have hmem : ∀ y, y ∈ (rootDescendants root).filter
      (fun x => decide (x.info.name ∉ already.map (fun y => y.info.name))) ↔
      InTree root y ∧ y ∉ already := by
    intro y
    rw [List.mem_filter, mem_root, decide_eq_true_eq]
    refine and_congr_right fun hy => not_congr ?_
    rw [List.mem_map]
    exact ⟨fun ⟨z, hz, hn⟩ => hw.names z y (hal z hz) hy hn ▸ hz, fun h => ⟨y, h, rfl⟩⟩
  rw [e]
  have hold := hsh x f hx hf
  generalize hL : (rootDescendants root).filter
    (fun x => decide (x.info.name ∉ already.map (fun y => y.info.name))) = L at hmem ⊢
  have hbit : ∀ i, ((update H false L d2).shadow (H.reg f)).getLsbD i = true ↔
      Wanted H root already ⟨res, flows, fun _ => true⟩ (H.reg f) i := by
    intro i
    rw [update_shadow, newReg_bit, hold i, hen]
    constructor
    · rintro (⟨h, _⟩ | ⟨y, hy, ho, hb⟩)
      · exact .inl h
      · exact .inr ⟨y, ((hmem y).1 hy).1, ((hmem y).1 hy).2, ho, hb⟩
    · rintro (⟨y, hy, hb⟩ | ⟨y, h1, h2, ho, hb⟩)
      · refine .inl ⟨⟨y, hy, hb⟩, ?_⟩
        rintro ⟨z, hz, hzb⟩
        have := hw.bits z y _ i ((hmem z).1 hz).1 (hal y hy) hzb hb
        exact ((hmem z).1 hz).2 (this ▸ hy)
      · exact .inr ⟨y, (hmem y).2 ⟨h1, h2⟩, ho, hb⟩
  have hhw2 := (wrote_update H false L d2).hw (H.reg f)
  refine ⟨hbit, ?_, ?_⟩
  · rintro ⟨y, hy, hya, ho, i, hb⟩
    have hreg : H.reg f ∈ regsOf H L :=
      (mem_regsOf _ _ _).2 ⟨y, (hmem y).2 ⟨hy, hya⟩, ((ownsBit_iff _ _ _ _).1 hb).1⟩
    have hne : newReg H L d2.en (d2.shadow (H.reg f)) (H.reg f) ≠ d2.shadow (H.reg f) := by
      intro he
      have h1 : ((update H false L d2).shadow (H.reg f)).getLsbD i = true :=
        (hbit i).2 (.inr ⟨y, hy, hya, ho, hb⟩)
      rw [update_shadow, he, hold i] at h1
      obtain ⟨z, hz, hzb⟩ := h1
      exact hya (hw.bits z y _ i (hal z hz) hy hzb hb ▸ hz)
    rw [hhw2, update_shadow]
    simp [hreg, hne]
  · intro hno
    have heq : newReg H L d2.en (d2.shadow (H.reg f)) (H.reg f) = d2.shadow (H.reg f) := by
      apply BitVec.eq_of_getLsbD_eq
      intro i _
      rw [Bool.eq_iff_iff, ← update_shadow H false L d2, hbit i, hold i]
      constructor
      · rintro (h | ⟨y, h1, h2, ho, hb⟩)
        · exact h
        · exact absurd ⟨y, h1, h2, ho, i, hb⟩ hno
      · exact .inl
    rw [hhw2, heq, hhw]
    simp

/-- C44 exactly: after `init` from any state the hardware has what the controller remembers if and
only if each register either gets an interrupt enabled that was not before, or had exactly the enable
bits of the interrupts that were given as already enabled. -/
theorem C44_init_exact (hw : WellFormed H root) (already : List Irq)
    (hal : ∀ y ∈ already, InTree root y) (res flows : Nat → Bool) (d : Ctl w) :
    Synced H root (init H root already res flows d) ↔
      ∀ x f, InTree root x → x.info.enable = some f →
        Newly H root already ⟨res, flows, fun _ => true⟩ (H.reg f) ∨
          ∀ i, (d.hw (H.reg f)).getLsbD i = true ↔ ∃ y ∈ already, OwnsBit H y (H.reg f) i := by
  refine forall_congr' fun x => forall_congr' fun f => forall_congr' fun hx =>
    forall_congr' fun hf => ?_
  obtain ⟨hs, hn, ho⟩ := init_regs hw already hal res flows d hx hf
  by_cases h : Newly H root already ⟨res, flows, fun _ => true⟩ (H.reg f)
  · simp only [hn h, h, true_or]
  · rw [ho h]
    simp only [h, false_or]
    have hw' : ∀ i, Wanted H root already ⟨res, flows, fun _ => true⟩ (H.reg f) i ↔
        ∃ y ∈ already, OwnsBit H y (H.reg f) i := fun i =>
      ⟨fun k => k.elim id fun ⟨y, h1, h2, h3, h4⟩ => absurd ⟨y, h1, h2, h3, i, h4⟩ h, .inl⟩
    constructor
    · intro he i
      rw [he, hs i, hw' i]
    · intro he
      apply BitVec.eq_of_getLsbD_eq
      intro i _
      rw [Bool.eq_iff_iff, he i, hs i, hw' i]

/-- C43 exactly: after `init` without interrupts already enabled the enable bits match what is
enabled if and only if each register with an enable bit gets some interrupt enabled, or had none of
the enable bits set. -/
theorem C43_init_exact (hw : WellFormed H root) (res flows : Nat → Bool) (d : Ctl w) :
    Matches H root (init H root [] res flows d) ↔
      ∀ x r i, InTree root x → OwnsBit H x r i →
        (∃ y, InTree root y ∧ On ⟨res, flows, fun _ => true⟩ y ∧ ∃ j, OwnsBit H y r j) ∨
          (d.hw r).getLsbD i = false := by
  have hen : (init H root [] res flows d).en = ⟨res, flows, fun _ => true⟩ := by
    obtain ⟨d2, e, h, _⟩ := init_eq H root [] res flows d
    rw [e, update_en, h]
  simp only [Matches, BitsRight]
  constructor
  · intro hm x r i hx hb
    obtain ⟨f, hf, hr, _⟩ := id hb
    subst hr
    obtain ⟨hs, hn, ho⟩ := init_regs hw [] (by simp) res flows d hx hf
    by_cases h : Newly H root [] ⟨res, flows, fun _ => true⟩ (H.reg f)
    · obtain ⟨y, h1, _, h2, h3⟩ := h
      exact .inl ⟨y, h1, h2, h3⟩
    · refine .inr ?_
      have := hm x hx _ i hb
      rw [ho h, hen] at this
      rw [Bool.eq_false_iff]
      intro hd
      exact h ⟨x, hx, by simp, this.1 hd, i, hb⟩
  · intro hm x hx r i hb
    obtain ⟨f, hf, hr, _⟩ := id hb
    subst hr
    obtain ⟨hs, hn, ho⟩ := init_regs hw [] (by simp) res flows d hx hf
    rw [hen]
    by_cases h : Newly H root [] ⟨res, flows, fun _ => true⟩ (H.reg f)
    · rw [hn h, hs i]
      constructor
      · rintro (⟨y, hy, _⟩ | ⟨y, h1, _, h2, h3⟩)
        · simp at hy
        · exact hw.bits y x _ i h1 hx h3 hb ▸ h2
      · intro hon
        exact .inr ⟨x, hx, by simp, hon, hb⟩
    · rw [ho h]
      rcases hm x _ i hx hb with ⟨y, h1, h2, h3⟩ | hd
      · exact absurd ⟨y, h1, by simp, h2, h3⟩ h
      · rw [hd]
        simp only [Bool.false_eq_true, false_iff]
        exact fun hon => h ⟨x, hx, by simp, hon, i, hb⟩

/-- C65 exactly, from registers without enable bits: after the manager's initialisation the enable
bits of a top-level interrupt are set if and only if it is active or some interrupt below the top
level is enabled in the same register; the enable bits of the other interrupts are right; and the
hardware has what the controller remembers if and only if in each register all top-level interrupts
are active or some interrupt below the top level is enabled. -/
theorem C65_exact (hw : WellFormed H root) (world : World) (res flows : Nat → Bool) (d : Ctl w)
    (h0 : OnlySet H root [] d) :
    (∀ x ∈ root, ∀ r i, OwnsBit H x r i →
      (((managerInit H world root res flows d).hw r).getLsbD i = true ↔
        x.active world = true ∨ Newly H root root ⟨res, flows, fun _ => true⟩ r)) ∧
    (∀ x, InTree root x → x ∉ root → BitsRight H (managerInit H world root res flows d) x) ∧
    (Synced H root (managerInit H world root res flows d) ↔
      ∀ x f, InTree root x → x.info.enable = some f →
        Newly H root root ⟨res, flows, fun _ => true⟩ (H.reg f) ∨
          ∀ y ∈ root, ∀ i, OwnsBit H y (H.reg f) i → y.active world = true) := by
  have hroot : ∀ y ∈ root, InTree root y := fun y hy => ⟨y, hy, .refl _⟩
  have htop : ∀ x f, InTree root x → x.info.enable = some f → ∀ i,
      (((initTop H world root d).hw (H.reg f)).getLsbD i = true ↔
        ∃ y ∈ root, y.active world = true ∧ OwnsBit H y (H.reg f) i) := by
    intro x f hx hf i
    rw [initTop_bit, h0 x f hx hf i]
    simp
  have hen : (managerInit H world root res flows d).en = ⟨res, flows, fun _ => true⟩ := by
    obtain ⟨d2, e, h, _⟩ := init_eq H root root res flows (initTop H world root d)
    rw [managerInit, e, update_en, h]
  refine ⟨?_, ?_, ?_⟩
  · intro x hx r i hb
    obtain ⟨f, hf, hr, _⟩ := id hb
    subst hr
    obtain ⟨hs, hn, ho⟩ := init_regs hw root hroot res flows (initTop H world root d) (hroot x hx) hf
    rw [managerInit]
    by_cases h : Newly H root root ⟨res, flows, fun _ => true⟩ (H.reg f)
    · rw [hn h, hs i]
      simp only [h, or_true, iff_true]
      exact .inl ⟨x, hx, hb⟩
    · rw [ho h, htop x f (hroot x hx) hf i]
      simp only [h, or_false]
      constructor
      · rintro ⟨y, hy, ha, hyb⟩
        exact hw.bits y x _ i (hroot y hy) (hroot x hx) hyb hb ▸ ha
      · intro ha; exact ⟨x, hx, ha, hb⟩
  · intro x hx hnx r i hb
    obtain ⟨f, hf, hr, _⟩ := id hb
    subst hr
    obtain ⟨hs, hn, ho⟩ := init_regs hw root hroot res flows (initTop H world root d) hx hf
    rw [hen, managerInit]
    by_cases h : Newly H root root ⟨res, flows, fun _ => true⟩ (H.reg f)
    · rw [hn h, hs i]
      constructor
      · rintro (⟨y, hy, hyb⟩ | ⟨y, h1, _, h2, h3⟩)
        · exact absurd (hw.bits y x _ i (hroot y hy) hx hyb hb ▸ hy) hnx
        · exact hw.bits y x _ i h1 hx h3 hb ▸ h2
      · intro hon
        exact .inr ⟨x, hx, hnx, hon, hb⟩
    · rw [ho h, htop x f hx hf i]
      constructor
      · rintro ⟨y, hy, _, hyb⟩
        exact absurd (hw.bits y x _ i (hroot y hy) hx hyb hb ▸ hy) hnx
      · intro hon
        exact absurd ⟨x, hx, hnx, hon, i, hb⟩ h
  · rw [managerInit, C44_init_exact hw root hroot]
    refine forall_congr' fun x => forall_congr' fun f => forall_congr' fun hx =>
      forall_congr' fun hf => or_congr_right ?_
    constructor
    · intro h y hy i hb
      obtain ⟨z, hz, ha, hzb⟩ := (htop x f hx hf i).1 ((h i).2 ⟨y, hy, hb⟩)
      exact hw.bits z y _ i (hroot z hz) (hroot y hy) hzb hb ▸ ha
    · intro h i
      rw [htop x f hx hf i]
      exact ⟨fun ⟨y, hy, _, hb⟩ => ⟨y, hy, hb⟩, fun ⟨y, hy, hb⟩ => ⟨y, hy, h y hy i hb, hb⟩⟩

/-- The hypotheses are met by a tree with an interrupt below the top level, and both answers occur. -/
example : WellFormed exHal [top2] ∧ OnlySet exHal [top2] [] blank ∧
    Newly exHal [top2] [top2] ⟨fun _ => true, fun _ => true, fun _ => true⟩ 0 ∧
    ¬ Newly exHal [top2] [top2] ⟨fun _ => true, fun _ => false, fun _ => true⟩ 0 := by
  have hin : InTree [top2] leaf3 := ⟨top2, by simp, .sub (List.mem_singleton.2 rfl) (.refl _)⟩
  refine ⟨wf2, blank_onlySet _, ⟨leaf3, hin,
    fun h => absurd (congrArg (·.info.name) (List.mem_singleton.1 h)) (by decide), ?_, 2, ⟨2, rfl, rfl, by decide⟩⟩, ?_⟩
  · rw [← isOn_iff]; decide
  · rintro ⟨x, hx, hn, hon, _⟩
    rcases inTree2 hx with rfl | rfl
    · simp at hn
    · rw [← isOn_iff] at hon
      revert hon
      decide

end Verif.Interrupt
