import Verif.Control.Props
/-!
# C168: which flows run, when only the code outside of interrupts turns things on and off
-/
namespace Verif.Control
open Verif.Interrupt

variable {w : Nat}

theorem Due.on {act : World} {c : Enables} {st : Nat → Bool} {x r : Irq} (h : Due act c st x r) :
    On c r := by
  induction h with
  | here ha _ _ =>
    obtain ⟨f, hf, ht⟩ := ha.flow _ _ rfl
    exact .element ha.name ha.resources hf ht
  | deeper ha _ hy _ ih => exact .container ha.name ha.resources hy ih

/-- The field contents that `Verif.Interrupt` starts with. -/
def fieldsOf (fw : Firmware w) (r : Irq) (m : Mach w) : Nat → Bool := fun g =>
  if g ∈ r.enables then fw.read g (m.ctl.hw (fw.H.reg g)) else m.mem g

theorem mem_enables {x r : Irq} (h : Below x r) {f : Nat} (hf : x.info.enable = some f) :
    f ∈ r.enables := by
  simp only [Irq.enables, List.mem_filterMap]
  exact ⟨x, (mem_nodes _ _).2 h, hf⟩

theorem mem_statuses {x r : Irq} (h : Below x r) {f : Nat} (hf : x.info.status = some f) :
    f ∈ r.statuses := by
  simp only [Irq.statuses, List.mem_filterMap]
  exact ⟨x, (mem_nodes _ _).2 h, hf⟩

theorem reads_enable {fw : Firmware w} (hr : ReadsFields fw) {r x : Irq} {m : Mach w}
    (hm : Matches fw.H fw.root m.ctl) (hx : InTree fw.root x) (hb : Below x r)
    (he : x.info.enable ≠ none) :
    Reads (fieldsOf fw r m) x.info.enable ↔ On m.ctl.en x := by
  obtain ⟨f, hf⟩ := Option.ne_none_iff_exists'.1 he
  have hs : fieldsOf fw r m f = fw.read f (m.ctl.hw (fw.H.reg f)) := by
    simp [fieldsOf, mem_enables hb hf]
  obtain ⟨h1, h2⟩ := hr x f hx hf (m.ctl.hw (fw.H.reg f))
  constructor
  · intro h
    by_contra hno
    have := h f hf
    rw [hs, h2 ?_] at this
    · cases this
    · intro i hi
      rw [Bool.eq_false_iff]
      exact fun hbit => hno ((hm x hx _ i ⟨f, hf, rfl, hi⟩).1 hbit)
  · intro ho g hg
    rw [hf] at hg
    cases hg
    rw [hs]
    exact h1 fun i hi => (hm x hx _ i ⟨f, hf, rfl, hi⟩).2 ho

theorem reads_status {fw : Firmware w} {r x : Irq} {m : Mach w}
    (ha : ∀ g ∈ r.statuses, g ∉ r.enables) (hb : Below x r) :
    Reads (fieldsOf fw r m) x.info.status ↔ Reads m.mem x.info.status := by
  have : ∀ g, x.info.status = some g → fieldsOf fw r m g = m.mem g := fun g hg => by
    simp [fieldsOf, ha g (mem_statuses hb hg)]
  constructor
  · intro h g hg; rw [← this g hg]; exact h g hg
  · intro h g hg; rw [this g hg]; exact h g hg

theorem executed_iff_due {fw : Firmware w} (hr : ReadsFields fw) {r0 : Irq} {m : Mach w}
    (hm : Matches fw.H fw.root m.ctl) (hx : InTree fw.root r0)
    (he : ∀ x, Below x r0 → x.info.enable ≠ none) (ha : ∀ g ∈ r0.statuses, g ∉ r0.enables)
    {i : Info} {fs : List Nat} {r : Irq} (hb : Below r r0) :
    Executed fw.world (fieldsOf fw r0 m) (.element i fs) r ↔
      Due fw.world m.ctl.en m.mem (.element i fs) r := by
  constructor
  · intro h
    generalize hz : Irq.element i fs = z at h
    induction h with
    | here h1 h2 h3 h4 =>
      subst hz
      cases h3
      rw [reads_enable hr hm (hx.below hb) hb (he _ hb)] at h1
      rw [reads_status ha hb] at h2
      exact .here (On.allowed h1) h2 h4
    | @deeper i' xs y x h1 h2 hy _ ih =>
      have hd := ih (Below.trans (.sub hy (.refl _)) hb) hz
      have h1' := (reads_enable (x := .container i' xs) hr hm (hx.below hb) hb (he _ hb)).1 h1
      have h2' := (reads_status (x := .container i' xs) ha hb).1 h2
      exact .deeper (On.allowed h1') h2' hy hd
  · intro h
    generalize hz : Irq.element i fs = z at h
    induction h with
    | @here i' fs' h1 h2 h3 =>
      refine .here (x := .element i' fs') ?_ ?_ (.refl _) h3
      · exact (reads_enable hr hm (hx.below hb) hb (he _ hb)).2 (Due.on (.here h1 h2 h3))
      · exact (reads_status (x := .element i' fs') ha hb).2 h2
    | @deeper i' xs x y h1 h2 hy hd ih =>
      refine .deeper ?_ ?_ hy (ih (Below.trans (.sub hy (.refl _)) hb) hz)
      · exact (reads_enable (x := .container i' xs) hr hm (hx.below hb) hb (he _ hb)).2
          (Due.on (.deeper h1 h2 hy hd))
      · exact (reads_status (x := .container i' xs) ha hb).2 h2

/-- A call recorded by `Verif.Interrupt`, for one interrupt. -/
def runFor (n : Nat) : Ev → Option (Nat × Nat)
  | .run m f k => if m = n then some (f, k) else none
  | .clear _ => none

theorem forName_ev (n : Nat) (l : List (Act w)) :
    l.filterMap (Act.forName n) = (l.filterMap Act.ev).filterMap (runFor n) := by
  rw [List.filterMap_filterMap]
  congr 1
  funext a
  cases a with
  | clear f => rfl
  | call p f k =>
    cases p with
    | nil => rfl
    | cons y p => rfl

theorem runFor_filter (n : Nat) (l : List Ev) :
    l.filterMap (runFor n) = (l.filter (Ev.isRunOf n)).filterMap (runFor n) := by
  induction l with
  | nil => rfl
  | cons e l ih =>
    cases e with
    | clear f =>
      rw [List.filterMap_cons_none rfl, ih]
      rfl
    | run m f k =>
      by_cases h : m = n
      · simp [runFor, Ev.isRunOf, h, ih]
      · simp [runFor, Ev.isRunOf, h, ih]

theorem runFor_runs (n : Nat) (fs ns : List Nat) :
    (fs.map fun f => ns.map fun k => Ev.run n f k).flatten.filterMap (runFor n) =
      fs.flatMap fun f => ns.map fun k => (f, k) := by
  induction fs with
  | nil => rfl
  | cons f fs ih =>
    rw [List.map_cons, List.flatten_cons, List.filterMap_append, ih, List.flatMap_cons]
    congr 1
    induction ns with
    | nil => rfl
    | cons k ns ih => simp [runFor, List.filterMap_map, Function.comp_def]

/-- C168: when the enable bits match what is on (see `C168_matches_partial`), and flows neither turn
things on or off nor change status fields, running an interrupt calls for each interrupt below it all
its flows, if it is due, and none otherwise: it is due if from the top-level interrupt down to it
nothing is turned off and all status fields are set. Missing: interrupts without enable field (see
`C168_violated_no_field`), and the histories in which the enable bits do not match (see
`C168_violated_depth`). -/
theorem C168_exact_partial (fw : Firmware w) (hr : ReadsFields fw) (hq : Quiet fw) (m : Mach w)
    (hm : Matches fw.H fw.root m.ctl) {k : Nat} {r : Irq}
    (hk : fw.impls.find? (·.1 == k) = some (k, r)) (hn : r.names.Nodup) (hs : r.statuses.Nodup)
    (ha : ∀ g ∈ r.statuses, g ∉ r.enables) (he : ∀ x, Below x r → x.info.enable ≠ none)
    {i : Info} {fs : List Nat} (hb : Below (.element i fs) r) :
    (Due fw.world m.ctl.en m.mem (.element i fs) r →
      (fw.runNumber k m).2.filterMap (Act.forName i.name) =
        fs.flatMap fun f => fw.nexi.map fun n => (f, n)) ∧
    (¬ Due fw.world m.ctl.en m.mem (.element i fs) r →
      (fw.runNumber k m).2.filterMap (Act.forName i.name) = []) := by
  have hrr : r ∈ fw.root := List.mem_map.2 ⟨_, List.mem_of_find?_eq_some hk, rfl⟩
  have hx : InTree fw.root r := ⟨r, hrr, .refl _⟩
  have hT : ∀ g ∈ r.statuses, IsStatus fw.root g := by
    intro g hg
    simp only [Irq.statuses, List.mem_filterMap] at hg
    obtain ⟨y, hy, hyg⟩ := hg
    exact ⟨y, hx.below ((mem_nodes _ _).1 hy), hyg⟩
  have hsn : Seen fw (fieldsOf fw r m) r.statuses r.enables m :=
    ⟨fun g hg => by simp [fieldsOf, ha g hg], fun g hg => by simp [fieldsOf, hg]⟩
  have htidy : Tidy fw.world r := ⟨hn, hs, ha, fun _ _ _ _ _ => rfl⟩
  have hrun : (fw.runNumber k m).2.filterMap (Act.forName i.name) =
      ((Irq.run fw.world r (fieldsOf fw r m)).2.filter (Ev.isRunOf i.name)).filterMap
        (runFor i.name) := by
    simp only [Firmware.runNumber, hk]
    rw [forName_ev, run_ev hq (fieldsOf fw r m) r [] m hs hT hsn, ← run_eq_trace htidy,
      runFor_filter]
  have hiff := executed_iff_due hr hm hx he ha (i := i) (fs := fs) (.refl r)
  rw [hrun]
  constructor
  · intro hd
    rw [C40_all htidy _ (hiff.2 hd)]
    exact runFor_runs i.name fs fw.nexi
  · intro hd
    rw [C40_none htidy _ hb fun h => hd (hiff.1 h)]
    rfl

/-! ## An example, and what is violated -/

/-- One nexus, in which flow 5 has actions; what flows do when they are called is given. -/
def exFw (r : Irq) (cmds : List Cmd) : Firmware 8 :=
  ⟨exHal, [(3, r)], [0], fun _ f => f == 5, fun f v => v.getLsbD f, fun _ _ _ => cmds⟩

/-- After `init` with the given resources, all status fields set. -/
def exStart (r : Irq) (res : Nat → Bool) : Mach 8 :=
  ⟨init exHal [r] [] res (fun _ => true) blank, fun _ => true⟩

theorem exFw_reads {r : Irq} {cmds : List Cmd}
    (h : ∀ x f, InTree [r] x → x.info.enable = some f → f < 8) : ReadsFields (exFw r cmds) := by
  intro x f hx hf v
  have hb := (exHal_bit (i := f) (h x f hx hf)).2 rfl
  exact ⟨fun h1 => h1 f hb, fun h1 => h1 f hb⟩

theorem exFw_reads2 (cmds : List Cmd) : ReadsFields (exFw top2 cmds) := by
  apply exFw_reads
  intro x f hx hf
  rcases inTree2 hx with rfl | rfl <;> cases hf <;> decide

theorem exFw_reads3 (cmds : List Cmd) : ReadsFields (exFw top3 cmds) := by
  apply exFw_reads
  intro x f hx hf
  rcases inTree3 hx with rfl | rfl | rfl <;> cases hf <;> decide

/-- The flow is called in the first run and turns off the resource its interrupt requires; so it is not
called in the second run. -/
example : ((exFw top2 [.op (.items false true [50])]).runs [.run 3, .run 3]
    (exStart top2 fun _ => true)).2.filterMap (Act.forName 12) = [(5, 0)] := by decide +kernel

/-- All hypotheses of `C168_resource_off` hold for it. -/
example (m' : Mach 8) {path : List (Irq × Mach 8)} {f n : Nat}
    (hc : Act.call path f n ∈ ((exFw top2 [.op (.items false true [50])]).runs
      [.cmd (.op (.items false true [50])), .run 3, .cmd (.op (.items true true [60])), .run 3]
      (exStart top2 fun _ => true)).2) : (leaf3, m') ∉ path := by
  refine C168_resource_off _ wf2 (exFw_reads2 _) (exStart top2 _) (C44_init_partial _ _ _ _ _ _ (blank_onlySet _))
    (x := leaf3) ⟨top2, by simp [Firmware.root, exFw], .sub (List.mem_singleton.2 rfl) (.refl _)⟩
    (by decide) (r := 50) (by decide) true (ts := [50]) (by decide) _ ⟨?_, ?_⟩ hc m'
  · intro f n m o ho
    have : o = .items false true [50] := by simpa [exFw] using ho
    subst this
    exact ⟨by unfold Op.NamesByName; decide, by simp [LeavesOff]⟩
  · intro o ho
    have : o = .items true true [60] := by simpa using ho
    subst this
    exact ⟨by unfold Op.NamesByName; decide, by simp [LeavesOff]⟩

/-- All hypotheses of `C168_exact_partial` hold. -/
example : ((exFw top2 []).runNumber 3 (exStart top2 fun _ => true)).2.filterMap (Act.forName 12) =
    [(5, 0)] := by
  refine (C168_exact_partial (exFw top2 []) (exFw_reads2 _) (fun _ _ _ c hc => by cases hc)
    (exStart top2 _)
    (C43_init_partial wf2 _ _ _ (blank_onlySet _)) (k := 3) (r := top2) rfl (by decide) (by decide)
    (by decide) ?_ (i := leaf3.info) (fs := [5]) (.sub (List.mem_singleton.2 rfl) (.refl _))).1 ?_
  · intro x hx
    rcases inTree2 ⟨top2, by simp, hx⟩ with rfl | rfl <;> decide
  · refine .deeper ⟨by decide, by decide, fun _ _ e => by cases e⟩ (fun _ e => by cases e)
      (List.mem_singleton.2 rfl) (.here ⟨by decide, by decide, fun _ _ e => ?_⟩
        (fun _ e => by cases e) ?_)
    · cases e; exact ⟨5, by simp, by decide⟩
    · exact ⟨5, by simp, 0, by simp [Firmware.world, exFw], rfl⟩

/-- The interrupt of the example without enable field. -/
def bare : Irq := .element { name := 12, resources := [50] } [5]

/-- C168 is violated by interrupts without enable field: the resource that the interrupt requires is
turned off, and its flow is still called. -/
theorem C168_violated_no_field : ∃ (fw : Firmware 8) (m : Mach 8) (i : Info) (r : Nat),
    WellFormed fw.H fw.root ∧ ReadsFields fw ∧ Synced fw.H fw.root m.ctl ∧
    Matches fw.H fw.root m.ctl ∧ InTree fw.root (.element i [5]) ∧ r ∈ i.resources ∧
    (fw.runs [.cmd (.op (.items false true [r])), .run 3] m).2.filterMap (Act.forName i.name) =
      [(5, 0)] := by
  have hin : ∀ {x}, InTree [bare] x → x = bare := fun {x} h => by
    have := (mem_root _ _).2 h
    simpa [rootDescendants, descendantsL, bare, Irq.descendants] using this
  have hwf : WellFormed exHal [bare] := by
    refine ⟨fun x y hx hy _ => by rw [hin hx, hin hy], fun x y hx hy => ?_,
      fun x y r i hx hy ⟨f, hf, _⟩ => ?_⟩
    · rw [hin hx, hin hy]; decide
    · rw [hin hx] at hf; cases hf
  refine ⟨exFw bare [], exStart bare fun _ => true, { name := 12, resources := [50] }, 50, hwf, ?_,
    C44_init_partial _ _ _ _ _ _ (blank_onlySet _), C43_init_partial hwf _ _ _ (blank_onlySet _),
    ⟨bare, by simp [Firmware.root, exFw], .refl _⟩, by decide, by decide +kernel⟩
  apply exFw_reads
  intro x f hx hf
  rw [hin hx] at hf
  cases hf

/-- C168 is violated in trees of three levels: after the resource has been turned on everything is on
and requested, but the enable bit of the top-level interrupt is not updated, and no flow is called. -/
theorem C168_violated_depth : ∃ (fw : Firmware 8) (m : Mach 8) (i : Info) (r : Irq) (t : Nat),
    WellFormed fw.H fw.root ∧ ReadsFields fw ∧ Quiet fw ∧ Synced fw.H fw.root m.ctl ∧
    Matches fw.H fw.root m.ctl ∧ fw.impls = [(3, r)] ∧
    Due fw.world (fw.runs [.cmd (.op (.items true true [t]))] m).1.ctl.en
      (fw.runs [.cmd (.op (.items true true [t]))] m).1.mem (.element i [5]) r ∧
    (fw.runs [.cmd (.op (.items true true [t])), .run 3] m).2.filterMap (Act.forName i.name) =
      [] := by
  refine ⟨exFw top3 [], exStart top3 fun _ => false, leaf3.info, top3, 50, wf3, exFw_reads3 _,
    fun _ _ _ c hc => (by cases hc), C44_init_partial _ _ _ _ _ _ (blank_onlySet _),
    C43_init_partial wf3 _ _ _ (blank_onlySet _), rfl, ?_, by decide +kernel⟩
  refine .deeper ⟨by decide +kernel, by decide, fun _ _ e => by cases e⟩ (fun _ e => by cases e)
    (List.mem_singleton.2 rfl) (.deeper ⟨by decide +kernel, by decide, fun _ _ e => by cases e⟩
      (fun _ e => by cases e) (List.mem_singleton.2 rfl)
      (.here ⟨by decide +kernel, by decide +kernel, fun _ _ e => ?_⟩ (fun _ e => by cases e) ?_))
  · cases e
    exact ⟨5, by simp, by decide +kernel⟩
  · exact ⟨5, by simp, 0, by simp [Firmware.world, exFw], rfl⟩

/-- An interrupt with two flows. -/
def two : Irq := .element { name := 12, enable := some 2 } [5, 6]

/-- C168: one flow that is on is enough: all flows of the interrupt are called, also those that are
turned off. -/
theorem C168_one_flow : ∃ (fw : Firmware 8) (m : Mach 8) (i : Info) (f : Nat),
    WellFormed fw.H fw.root ∧ ReadsFields fw ∧ Synced fw.H fw.root m.ctl ∧
    Matches fw.H fw.root m.ctl ∧ InTree fw.root (.element i [5, 6]) ∧ i.enable ≠ none ∧
    (f, 0) ∈ (fw.runs [.cmd (.op (.items false true [f])), .run 3] m).2.filterMap
      (Act.forName i.name) := by
  have hin : ∀ {x}, InTree [two] x → x = two := fun {x} h => by
    have := (mem_root _ _).2 h
    simpa [rootDescendants, descendantsL, two, Irq.descendants] using this
  have hwf : WellFormed exHal [two] := by
    apply wf_ex
    · intro x hx
      rw [hin hx]
      exact ⟨2, rfl, by omega, rfl⟩
    · intro x y hx hy _
      rw [hin hx, hin hy]
    · intro x y hx hy
      rw [hin hx, hin hy]
      decide
  refine ⟨exFw two [], exStart two fun _ => true, { name := 12, enable := some 2 }, 6, hwf, ?_,
    C44_init_partial _ _ _ _ _ _ (blank_onlySet _), C43_init_partial hwf _ _ _ (blank_onlySet _),
    ⟨two, by simp [Firmware.root, exFw], .refl _⟩, by decide, by decide +kernel⟩
  apply exFw_reads
  intro x f hx hf
  rw [hin hx] at hf
  cases hf
  decide

end Verif.Control
