import Verif.Control.ExactProps
/-!
# C168: what is in the status fields after a run
-/
namespace Verif.Control
open Verif.Interrupt

variable {w : Nat}

/-- The act clears field `f`. -/
def Act.clears (f : Nat) : Act w → Bool
  | .clear g => g == f
  | .call .. => false

/-- Status fields change by clearing only, and each clearing is recorded. -/
def Accounts (root : List Irq) (a : Prog w) : Prop :=
  ∀ m f, IsStatus root f → (a m).1.mem f = (m.mem f && !(a m).2.any (Act.clears f))

theorem Accounts.seq {root : List Irq} {a b : Prog w} (ha : Accounts root a) (hb : Accounts root b) :
    Accounts root (Control.seq a b) := by
  intro m f hf
  simp only [Control.seq]
  rw [hb _ f hf, ha m f hf, List.any_append, Bool.not_or, Bool.and_assoc]

theorem accounts_nothing (root : List Irq) : Accounts root (fun m : Mach w => (m, [])) := by
  intro m f _
  simp

theorem accounts_clear (root : List Irq) (s : Option Nat) : Accounts root (clearStatus (w := w) s) := by
  cases s with
  | none => exact accounts_nothing root
  | some g =>
    intro m f _
    simp only [clearStatus, List.any_cons, List.any_nil, Act.clears, Bool.or_false]
    by_cases h : f = g
    · simp [h]
    · have : (g == f) = false := by simpa using fun e => h e.symm
      simp [h, this]

theorem accounts_cmds {fw : Firmware w} (cs : List Cmd) (h : ∀ c ∈ cs, ∃ g b, c = .put g b ∧
    ∀ x, InTree fw.root x → x.info.status ≠ some g) (m : Mach w) {f : Nat} (hf : IsStatus fw.root f) :
    (cs.foldl fw.does m).mem f = m.mem f := by
  induction cs generalizing m with
  | nil => rfl
  | cons c cs ih =>
    rw [List.foldl_cons, ih fun c hc => h c (List.mem_cons_of_mem _ hc)]
    obtain ⟨g, b, rfl, hg⟩ := h c List.mem_cons_self
    obtain ⟨x, hx, hs⟩ := hf
    have : f ≠ g := by rintro rfl; exact hg x hx hs
    simp [Firmware.does, this]

theorem accounts_isr {fw : Firmware w} (hq : Quiet fw) (path : List (Irq × Mach w)) (cs : List (Nat × Nat)) :
    Accounts fw.root (fw.isr path cs) := by
  induction cs with
  | nil => intro m f _; simp [Firmware.isr]
  | cons c cs ih =>
    obtain ⟨f, n⟩ := c
    have h1 : Accounts fw.root fun m => ((fw.work f n m).foldl fw.does m, [Act.call path f n]) := by
      intro m g hg
      simp [accounts_cmds _ (hq f n m) m hg, Act.clears]
    have h2 : fw.isr path ((f, n) :: cs) =
        Control.seq (fun m => ((fw.work f n m).foldl fw.does m, [Act.call path f n])) (fw.isr path cs) := by
      funext m; rw [Firmware.isr]
    rw [h2]
    exact h1.seq ih

theorem accounts_policy {root : List Irq} (i : Info) {body : Prog w} (h : Accounts root body) :
    Accounts root (policyRun i body) := by
  rw [policyRun]
  cases i.clear with
  | first => exact (accounts_clear root _).seq h
  | last => exact h.seq (accounts_clear root _)
  | dont => exact h

mutual
theorem accounts_run {fw : Firmware w} (hq : Quiet fw) :
    ∀ (x : Irq) (path : List (Irq × Mach w)), Accounts fw.root (fw.run path x)
  | .element i fs, path => by
    intro m f hf
    simp only [Firmware.run]
    split
    · exact accounts_policy i (accounts_isr hq _ _) m f hf
    · exact accounts_nothing fw.root m f hf
  | .container i xs, path => by
    intro m f hf
    simp only [Firmware.run]
    split
    · exact accounts_policy i (accounts_runL hq xs _) m f hf
    · exact accounts_nothing fw.root m f hf
theorem accounts_runL {fw : Firmware w} (hq : Quiet fw) :
    ∀ (xs : List Irq) (path : List (Irq × Mach w)), Accounts fw.root (fw.runL path xs)
  | [], path => by intro m f _; simp [Firmware.runL]
  | x :: xs, path => by
    have h : fw.runL path (x :: xs) = Control.seq (fw.run path x) (fw.runL path xs) := by
      funext m; rw [Firmware.runL]
    rw [h]
    exact (accounts_run hq x path).seq (accounts_runL hq xs path)
end

/-- C168: when flows do not touch status fields, a status field is false after a run exactly when it was
before, or was cleared in the run. -/
theorem C168_status (fw : Firmware w) (hq : Quiet fw) (k : Nat) (m : Mach w) {f : Nat}
    (hf : IsStatus fw.root f) :
    (fw.runNumber k m).1.mem f = true ↔ m.mem f = true ∧ ∀ a ∈ (fw.runNumber k m).2, a.clears f = false := by
  have : Accounts fw.root (fw.runNumber k) := by
    intro m f hf
    rw [Firmware.runNumber]
    split
    · exact accounts_run hq _ _ m f hf
    · exact accounts_nothing fw.root m f hf
  rw [this m f hf]
  simp

theorem clears_ev (f : Nat) (l : List (Act w)) :
    (∃ a ∈ l, a.clears f = true) ↔ Ev.clear f ∈ l.filterMap Act.ev := by
  rw [List.mem_filterMap]
  constructor
  · rintro ⟨a, ha, h⟩
    cases a with
    | call => cases h
    | clear g =>
      have : g = f := by simpa [Act.clears] using h
      exact ⟨_, ha, by rw [Act.ev, this]⟩
  · rintro ⟨a, ha, h⟩
    refine ⟨a, ha, ?_⟩
    cases a with
    | call p f' n => cases p <;> simp [Act.ev] at h
    | clear g =>
      simp only [Act.ev, Option.some.injEq, Ev.clear.injEq] at h
      simp [Act.clears, h]

/-- C168: in the situation of `C168_exact_partial`, the status field of an interrupt is false after the
run if the interrupt was due and its policy is to clear the field, and otherwise as before. -/
theorem C168_cleared_partial (fw : Firmware w) (hr : ReadsFields fw) (hq : Quiet fw) (m : Mach w)
    (hm : Matches fw.H fw.root m.ctl) {k : Nat} {r : Irq}
    (hk : fw.impls.find? (·.1 == k) = some (k, r)) (hn : r.names.Nodup) (hs : r.statuses.Nodup)
    (ha : ∀ g ∈ r.statuses, g ∉ r.enables) (he : ∀ x, Below x r → x.info.enable ≠ none)
    {i : Info} {fs : List Nat} (hb : Below (.element i fs) r) {s : Nat} (hst : i.status = some s) :
    (Due fw.world m.ctl.en m.mem (.element i fs) r ∧ i.clear ≠ .dont →
      (fw.runNumber k m).1.mem s = false) ∧
    (¬ (Due fw.world m.ctl.en m.mem (.element i fs) r ∧ i.clear ≠ .dont) →
      (fw.runNumber k m).1.mem s = m.mem s) := by
  have hrr : r ∈ fw.root := List.mem_map.2 ⟨_, List.mem_of_find?_eq_some hk, rfl⟩
  have hx : InTree fw.root r := ⟨r, hrr, .refl _⟩
  have hT : ∀ g ∈ r.statuses, IsStatus fw.root g := by
    intro g hg
    simp only [Irq.statuses, List.mem_filterMap] at hg
    obtain ⟨y, hy, hyg⟩ := hg
    exact ⟨y, hx.below ((mem_nodes _ _).1 hy), hyg⟩
  have hsn : Seen fw (fieldsOf fw r m) r.statuses r.enables m :=
    ⟨fun g hg => by simp [fieldsOf, ha g hg], fun g hg => by simp [fieldsOf, hg]⟩
  have htidy : Tidy fw.world r := ⟨hn, hs, ha, fun _ _ _ _ _ => rfl⟩
  have hsf : IsStatus fw.root s := ⟨_, hx.below hb, hst⟩
  have hiff := executed_iff_due hr hm hx he ha (i := i) (fs := fs) (.refl r)
  have hev : (fw.runNumber k m).2.filterMap Act.ev = (Irq.run fw.world r (fieldsOf fw r m)).2 := by
    simp only [Firmware.runNumber, hk]
    rw [run_ev hq (fieldsOf fw r m) r [] m hs hT hsn, ← run_eq_trace htidy]
  have hcl : (∃ a ∈ (fw.runNumber k m).2, a.clears s = true) ↔
      Due fw.world m.ctl.en m.mem (.element i fs) r ∧ i.clear ≠ .dont := by
    rw [clears_ev, hev, ← hiff]
    by_cases hd : Executed fw.world (fieldsOf fw r m) (.element i fs) r
    · have h1 := C41_once htidy (fieldsOf fw r m) hd (s := s) hst
      rw [← List.count_pos_iff, h1]
      by_cases hc : (Irq.element i fs).info.clear = .dont
      · rw [if_pos hc]
        exact ⟨fun h => absurd h (by decide), fun h => absurd hc h.2⟩
      · rw [if_neg hc]
        exact ⟨fun _ => ⟨hd, hc⟩, fun _ => by decide⟩
    · simp only [hd, false_and, iff_false]
      exact C41_none htidy _ hb hd hst
  have hac := C168_status fw hq k m hsf
  constructor
  · intro h
    obtain ⟨a, h1, h2⟩ := hcl.2 h
    rw [Bool.eq_false_iff]
    intro h3
    rw [(hac.1 h3).2 a h1] at h2
    cases h2
  · intro h
    rw [Bool.eq_iff_iff, hac]
    refine ⟨fun h1 => h1.1, fun h1 => ⟨h1, fun a h2 => ?_⟩⟩
    rw [Bool.eq_false_iff]
    exact fun h3 => h (hcl.1 ⟨a, h2, h3⟩)

/-- An interrupt with a status field that is cleared after its flow. -/
def leafS : Irq := .element { name := 12, enable := some 2, status := some 9, clear := .last } [5]

example : ((exFw leafS []).runNumber 3 (exStart leafS fun _ => true)).1.mem 9 = false ∧
    ((exFw leafS []).runNumber 3 (exStart leafS fun _ => true)).2.filterMap (Act.forName 12) = [(5, 0)] := by
  decide +kernel

/-- All hypotheses of `C168_cleared_partial` hold. -/
example : ((exFw leafS []).runNumber 3 (exStart leafS fun _ => true)).1.mem 9 = false := by
  have hin : ∀ {x}, InTree [leafS] x → x = leafS := fun {x} h => by
    have := (mem_root _ _).2 h
    simpa [rootDescendants, descendantsL, leafS, Irq.descendants] using this
  have hwf : WellFormed exHal [leafS] := by
    apply wf_ex
    · intro x hx
      rw [hin hx]
      exact ⟨2, rfl, by omega, rfl⟩
    · intro x y hx hy _
      rw [hin hx, hin hy]
    · intro x y hx hy
      rw [hin hx, hin hy]
      decide
  refine (C168_cleared_partial (exFw leafS []) ?_ (fun _ _ _ c hc => by cases hc) (exStart leafS _)
    (C43_init_partial hwf _ _ _ (blank_onlySet _)) (k := 3) (r := leafS) rfl (by decide) (by decide)
    (by decide) ?_ (i := leafS.info) (fs := [5]) (.refl _) (s := 9) rfl).1 ⟨?_, by decide⟩
  · apply exFw_reads
    intro x f hx hf
    rw [hin hx] at hf
    cases hf
    decide
  · intro x hx
    rw [hin ⟨leafS, by simp, hx⟩]
    decide
  · refine .here ⟨by decide, by decide, fun _ _ e => ?_⟩ (fun _ e => by cases e; rfl) ?_
    · cases e; exact ⟨5, by simp, by decide⟩
    · exact ⟨5, by simp, 0, by simp [Firmware.world, exFw], rfl⟩

end Verif.Control
