import Verif.Control.Lemmas
/-!
# C168: what is turned off does not run, what is turned on does
-/
namespace Verif.Control
open Verif.Interrupt

variable {w : Nat}

/-! ## What is turned off -/

theorem bit_of_read {fw : Firmware w} (hr : ReadsFields fw) {x : Irq} {f : Nat}
    (hx : InTree fw.root x) (hf : x.info.enable = some f) {m : Mach w}
    (h : fw.readEnable m x.info.enable = true) :
    ∃ i, OwnsBit fw.H x (fw.H.reg f) i ∧ (m.ctl.hw (fw.H.reg f)).getLsbD i = true := by
  rw [hf] at h
  simp only [Firmware.readEnable] at h
  by_contra hno
  rw [(hr x f hx hf (m.ctl.hw (fw.H.reg f))).2 ?_] at h
  · cases h
  · intro i hi
    rw [Bool.eq_false_iff]
    intro hb
    exact hno ⟨i, ⟨f, hf, rfl, hi⟩, hb⟩

theorem does_ctl {fw : Firmware w} {Q : Ctl w → Prop} {P : Op → Prop}
    (h : ∀ o d, P o → Q d → Q (o.run fw.H fw.root d)) (m : Mach w) (c : Cmd) (hm : Q m.ctl)
    (hc : ∀ o, c = .op o → P o) : Q (fw.does m c).ctl := by
  cases c with
  | op o => exact h o _ (hc o rfl) hm
  | put f b => exact hm

theorem inv_ctl {fw : Firmware w} {Q : Ctl w → Prop} {P : Op → Prop} {ss : List Step}
    (hu : Uses fw P ss) (h : ∀ o d, P o → Q d → Q (o.run fw.H fw.root d)) :
    Inv fw (fun m => Q m.ctl) ∧
      ∀ m c, Q m.ctl → Step.cmd c ∈ ss → Q (fw.does m c).ctl := by
  refine ⟨⟨fun m mem hm => hm, fun f n m0 m hm c hc => ?_⟩, fun m c hm hc => ?_⟩
  · exact does_ctl h m c hm fun o e => hu.1 f n m0 o (e ▸ hc)
  · exact does_ctl h m c hm fun o e => hu.2 o (e ▸ hc)

/-- C168: every flow that is called is a flow of an interrupt of the configuration, reached from a
top-level interrupt. -/
theorem C168_calls (fw : Firmware w) (ss : List Step) (m : Mach w) {p : List (Irq × Mach w)}
    {f n : Nat} (h : Act.call p f n ∈ (fw.runs ss m).2) :
    ∃ i fs, Leads fw.root p (.element i fs) ∧ f ∈ fs ∧ n ∈ fw.nexi := by
  have hi := inv_ctl (fw := fw) (Q := fun _ => True) (P := fun _ => True) (ss := ss)
    ⟨fun _ _ _ _ _ => trivial, fun _ _ => trivial⟩ (fun _ _ _ _ => trivial)
  have hP : Enters fw (fun _ => True) (fun _ => True) := fun _ _ _ _ _ _ _ => trivial
  exact ((holds_runs hi.1 hP trivial ss hi.2) m trivial |>.2 p f n h).2

/-- C168: from a time on at which the enable bits of an interrupt with an enable field are set only if
nothing of it is turned off, the interrupt is entered only at times when nothing of it is turned off,
whatever is turned on and off, also by the flows while they run. -/
theorem C168_off (fw : Firmware w) (hw : WellFormed fw.H fw.root) (hr : ReadsFields fw)
    (ss : List Step) (hu : Uses fw (Op.NamesByName fw.root) ss) (m : Mach w)
    (hs : Synced fw.H fw.root m.ctl) {x : Irq} (hx : InTree fw.root x) (he : x.info.enable ≠ none)
    (h0 : Obeys fw.H m.ctl x) {p : List (Irq × Mach w)} {f n : Nat}
    (hc : Act.call p f n ∈ (fw.runs ss m).2) {m' : Mach w} (hp : (x, m') ∈ p) :
    Allowed m'.ctl.en x := by
  obtain ⟨hI, hss⟩ := inv_ctl (Q := fun d => Synced fw.H fw.root d ∧ Obeys fw.H d x) hu
    (fun o d ho hd => ⟨synced_run hd.1 o, obeys_run hw hx ho hd.1 hd.2⟩)
  have hP : Enters fw (fun m => Synced fw.H fw.root m.ctl ∧ Obeys fw.H m.ctl x)
      (fun p => ∀ m', (x, m') ∈ p → Allowed m'.ctl.en x) := by
    intro y m1 p1 hy hm1 hread hp1 m' hm'
    rcases List.mem_cons.1 hm' with e | e
    · cases e
      obtain ⟨g, hg⟩ := Option.ne_none_iff_exists'.1 he
      obtain ⟨i, ho, hb⟩ := bit_of_read hr hx hg hread
      exact hm1.2 _ i ho hb
    · exact hp1 m' e
  exact ((holds_runs hI hP (by simp) ss hss) m ⟨hs, h0⟩ |>.2 p f n hc).1 m' hp

/-- C168: when the enable bits obey: after initialising the controller all do; after the default
initialisation of the manager, with all top-level interrupts active, all below the top level do; after
an operation on an interrupt it does. -/
theorem C168_obeys (fw : Firmware w) (hw : WellFormed fw.H fw.root) {x : Irq}
    (hx : InTree fw.root x) (d : Ctl w) :
    (∀ res flows, OnlySet fw.H fw.root [] d → Obeys fw.H (init fw.H fw.root [] res flows d) x) ∧
    (∀ res flows, OnlySet fw.H fw.root [] d → (∀ y ∈ fw.root, y.active fw.world = true) →
      x ∉ fw.root → Obeys fw.H (managerInit fw.H fw.world fw.root res flows d) x) ∧
    (∀ op, Synced fw.H fw.root d → Touches x op → Obeys fw.H (op.run fw.H fw.root d) x) :=
  ⟨fun res flows h0 => obeys_of_right (C43_init_partial hw res flows d h0 x hx),
   fun res flows h0 ha hn =>
    obeys_of_right ((C65_manager_init_partial hw fw.world res flows d h0 ha).2.2 x hx hn),
   fun _ hs ht => obeys_touched hw hx ht hs⟩

/-- The operation does not turn on the thing. -/
def LeavesOff (t : Nat) : Op → Prop
  | .items b _ ts => b = true → t ∉ ts
  | .names b ns => b = true → t ∉ ns
  | _ => True

theorem put_off (root : List Irq) (b : Bool) (c : Enables) (u t : Nat) (h : b = true → t ≠ u) :
    (c.res t = false → (Enables.put root b c u).res t = false) ∧
    (c.flow t = false → (Enables.put root b c u).flow t = false) ∧
    (c.name t = false → (Enables.put root b c u).name t = false) := by
  simp only [Enables.put]
  cases b with
  | true =>
    have := h rfl
    refine ⟨fun hc => ?_, fun hc => ?_, fun hc => ?_⟩ <;>
      (split; · simp [setOne, this, hc]
       split; · simp [setOne, this, hc]
       split <;> simp [setOne, this, hc])
  | false =>
    refine ⟨fun hc => ?_, fun hc => ?_, fun hc => ?_⟩ <;>
      (split; · simp [setOne, hc]
       split; · simp [setOne, hc]
       split <;> simp [setOne, hc])

theorem puts_off (root : List Irq) (b : Bool) (ts : List Nat) (c : Enables) (t : Nat)
    (h : b = true → t ∉ ts) :
    (c.res t = false → (ts.foldl (Enables.put root b) c).res t = false) ∧
    (c.flow t = false → (ts.foldl (Enables.put root b) c).flow t = false) ∧
    (c.name t = false → (ts.foldl (Enables.put root b) c).name t = false) := by
  induction ts generalizing c with
  | nil => exact ⟨id, id, id⟩
  | cons u us ih =>
    obtain ⟨a1, a2, a3⟩ := put_off root b c u t fun hb e => h hb (by simp [e])
    obtain ⟨b1, b2, b3⟩ := ih (Enables.put root b c u) fun hb e => h hb (by simp [e])
    exact ⟨fun hc => b1 (a1 hc), fun hc => b2 (a2 hc), fun hc => b3 (a3 hc)⟩

theorem enables_off (root : List Irq) (c : Enables) (t : Nat) (op : Op) (h : LeavesOff t op) :
    (c.res t = false → (op.enables root c).res t = false) ∧
    (c.flow t = false → (op.enables root c).flow t = false) ∧
    (c.name t = false → (op.enables root c).name t = false) := by
  cases op with
  | items b p ts => exact puts_off root b ts c t h
  | names b ns => exact puts_off root b ns c t h
  | refreshTop => exact ⟨id, id, id⟩
  | refreshAll => exact ⟨id, id, id⟩
  | reset => exact ⟨fun _ => rfl, fun _ => rfl, fun _ => rfl⟩

/-- If what is off stays off, an interrupt that is not allowed is not entered. -/
theorem never_entered (fw : Firmware w) (hw : WellFormed fw.H fw.root) (hr : ReadsFields fw)
    (ss : List Step) {K : Op → Prop}
    (hu : Uses fw (fun o => o.NamesByName fw.root ∧ K o) ss)
    {Z : Enables → Prop} (hZ : ∀ o c, K o → Z c → Z (o.enables fw.root c)) {x : Irq}
    (hno : ∀ c, Z c → ¬ Allowed c x) (m : Mach w)
    (hs : Synced fw.H fw.root m.ctl) (hx : InTree fw.root x) (he : x.info.enable ≠ none)
    (h0 : Obeys fw.H m.ctl x) (hz : Z m.ctl.en) {p : List (Irq × Mach w)} {f n : Nat}
    (hc : Act.call p f n ∈ (fw.runs ss m).2) (m' : Mach w) : (x, m') ∉ p := by
  obtain ⟨hI, hss⟩ := inv_ctl
    (Q := fun d => (Synced fw.H fw.root d ∧ Obeys fw.H d x) ∧ Z d.en) hu
    (fun o d ho hd => ⟨⟨synced_run hd.1.1 o, obeys_run hw hx ho.1 hd.1.1 hd.1.2⟩,
      by rw [Op.run_eq, update_en]; exact hZ o _ ho.2 hd.2⟩)
  have hP : Enters fw (fun m => (Synced fw.H fw.root m.ctl ∧ Obeys fw.H m.ctl x) ∧ Z m.ctl.en)
      (fun p => ∀ m', (x, m') ∉ p) := by
    intro y m1 p1 hy hm1 hread hp1 m' hm'
    rcases List.mem_cons.1 hm' with e | e
    · cases e
      obtain ⟨g, hg⟩ := Option.ne_none_iff_exists'.1 he
      obtain ⟨i, ho, hb⟩ := bit_of_read hr hx hg hread
      exact hno _ hm1.2 (hm1.1.2 _ i ho hb)
    · exact hp1 m' e
  exact ((holds_runs hI hP (by simp) ss hss) m ⟨⟨hs, h0⟩, hz⟩ |>.2 p f n hc).1 m'

theorem runs_cons_op (fw : Firmware w) (op : Op) (ss : List Step) (m : Mach w) :
    ∃ m1 : Mach w, m1.ctl = op.run fw.H fw.root m.ctl ∧
      (fw.runs (.cmd (.op op) :: ss) m).2 = (fw.runs ss m1).2 :=
  ⟨{ m with ctl := op.run fw.H fw.root m.ctl }, rfl, by
    simp [Firmware.runs, seq, Firmware.step, Firmware.does]⟩

/-- C168: after a resource has been turned off, and as long as nothing turns it on again, no flow is
called of an interrupt with an enable field that requires the resource, nor of one below it. -/
theorem C168_resource_off (fw : Firmware w) (hw : WellFormed fw.H fw.root) (hr : ReadsFields fw)
    (m : Mach w) (hs : Synced fw.H fw.root m.ctl) {x : Irq} (hx : InTree fw.root x)
    (he : x.info.enable ≠ none) {r : Nat} (hrx : r ∈ x.info.resources) (p : Bool) {ts : List Nat}
    (hrt : r ∈ ts) (ss : List Step)
    (hu : Uses fw (fun o => o.NamesByName fw.root ∧ LeavesOff r o) ss)
    {path : List (Irq × Mach w)} {f n : Nat}
    (hc : Act.call path f n ∈ (fw.runs (.cmd (.op (.items false p ts)) :: ss) m).2) (m' : Mach w) :
    (x, m') ∉ path := by
  obtain ⟨m1, e1, e2⟩ := runs_cons_op fw (.items false p ts) ss m
  rw [e2] at hc
  refine never_entered fw hw hr ss hu (Z := fun c => c.res r = false)
    (fun o c ho hz => (enables_off fw.root c r o ho).1 hz)
    (fun c hz ha => by rw [ha.resources r hrx] at hz; cases hz)
    m1 (by rw [e1]; exact synced_run hs _) hx he
    (by rw [e1]; exact obeys_touched (op := .items false p ts) hw hx ⟨r, hrt, .inl hrx⟩ hs) ?_ hc m'
  rw [e1]
  have := (C43_enables hw m.ctl false p ts x hx).1 r hrx
  rw [if_pos hrt] at this
  exact this

/-- C168: the same after an interrupt has been disabled by its name. -/
theorem C168_name_off (fw : Firmware w) (hw : WellFormed fw.H fw.root) (hr : ReadsFields fw)
    (m : Mach w) (hs : Synced fw.H fw.root m.ctl) {x : Irq} (hx : InTree fw.root x)
    (he : x.info.enable ≠ none) {ns : List Nat} (hn : ∀ n ∈ ns, ∃ y, InTree fw.root y ∧ y.info.name = n)
    (hxn : x.info.name ∈ ns) (ss : List Step)
    (hu : Uses fw (fun o => o.NamesByName fw.root ∧ LeavesOff x.info.name o) ss)
    {path : List (Irq × Mach w)} {f n : Nat}
    (hc : Act.call path f n ∈ (fw.runs (.cmd (.op (.names false ns)) :: ss) m).2) (m' : Mach w) :
    (x, m') ∉ path := by
  obtain ⟨m1, e1, e2⟩ := runs_cons_op fw (.names false ns) ss m
  rw [e2] at hc
  refine never_entered fw hw hr ss hu (Z := fun c => c.name x.info.name = false)
    (fun o c ho hz => (enables_off fw.root c _ o ho).2.2 hz)
    (fun c hz ha => by rw [ha.name] at hz; cases hz)
    m1 (by rw [e1]; exact synced_run hs _) hx he (by rw [e1]; exact obeys_touched (op := .names false ns) hw hx hxn hs) ?_ hc m'
  rw [e1]
  have := (C43_enables_names hw m.ctl false ns hn x hx).2.2
  rw [if_pos hxn] at this
  exact this

/-- C168: the same after all flows of an interrupt have been disabled. -/
theorem C168_flows_off (fw : Firmware w) (hw : WellFormed fw.H fw.root) (hr : ReadsFields fw)
    (m : Mach w) (hs : Synced fw.H fw.root m.ctl) {i : Info} {fs : List Nat}
    (hx : InTree fw.root (.element i fs)) (he : i.enable ≠ none) (hne : fs ≠ []) (p : Bool)
    {ts : List Nat} (hft : ∀ f ∈ fs, f ∈ ts) (ss : List Step)
    (hu : Uses fw (fun o => o.NamesByName fw.root ∧ ∀ f ∈ fs, LeavesOff f o) ss)
    {path : List (Irq × Mach w)} {f n : Nat}
    (hc : Act.call path f n ∈ (fw.runs (.cmd (.op (.items false p ts)) :: ss) m).2) (m' : Mach w) :
    (Irq.element i fs, m') ∉ path := by
  obtain ⟨m1, e1, e2⟩ := runs_cons_op fw (.items false p ts) ss m
  rw [e2] at hc
  obtain ⟨g, gs, rfl⟩ := List.exists_cons_of_ne_nil hne
  refine never_entered fw hw hr ss hu (Z := fun c => ∀ f ∈ g :: gs, c.flow f = false)
    (fun o c ho hz f hf => (enables_off fw.root c f o (ho f hf)).2.1 (hz f hf))
    (fun c hz ha => ?_) m1 (by rw [e1]; exact synced_run hs _) hx he
    (by rw [e1]; exact obeys_touched (op := .items false p ts) hw hx ⟨g, hft g (by simp), .inr List.mem_cons_self⟩ hs) ?_ hc m'
  · obtain ⟨f, hf, ht⟩ := ha.flow i (g :: gs) rfl
    rw [hz f hf] at ht; cases ht
  · intro f hf
    rw [e1]
    have := (C43_enables hw m.ctl false p ts _ hx).2.1 f hf
    rw [if_pos (hft f hf)] at this
    exact this

/-! ## What is turned on -/

/-- C168: while only operations are used for which the controller updates every interrupt it should,
also by flows, the enable bits match what is on. -/
theorem C168_matches_partial (fw : Firmware w) (hw : WellFormed fw.H fw.root) (ss : List Step)
    (hu : Uses fw (Op.Safe fw.root) ss) (m : Mach w) (hs : Synced fw.H fw.root m.ctl)
    (hm : Matches fw.H fw.root m.ctl) :
    Synced fw.H fw.root (fw.runs ss m).1.ctl ∧ Matches fw.H fw.root (fw.runs ss m).1.ctl := by
  obtain ⟨hI, hss⟩ := inv_ctl (Q := fun d => Synced fw.H fw.root d ∧ Matches fw.H fw.root d) hu
    (fun o d ho hd => ⟨synced_run hd.1 o, step_matches hw d hd.1 hd.2 o ho⟩)
  have hP : Enters fw (fun m => Synced fw.H fw.root m.ctl ∧ Matches fw.H fw.root m.ctl)
      (fun _ => True) := fun _ _ _ _ _ _ _ => trivial
  exact ((holds_runs hI hP trivial ss hss) m ⟨hs, hm⟩).1

/-- What a piece of the program leaves alone: the controller, and the fields in `T` but not in `ex`. -/
def Keeps (T : Nat → Prop) (ex : List Nat) (a : Prog w) : Prop :=
  ∀ m, (a m).1.ctl = m.ctl ∧ ∀ g, T g → g ∉ ex → (a m).1.mem g = m.mem g

theorem Keeps.seq {T : Nat → Prop} {e1 e2 : List Nat} {a b : Prog w} (ha : Keeps T e1 a)
    (hb : Keeps T e2 b) : Keeps T (e1 ++ e2) (seq a b) := by
  intro m
  refine ⟨(hb _).1.trans (ha m).1, fun g hT hg => ?_⟩
  simp only [List.mem_append, not_or] at hg
  exact ((hb _).2 g hT hg.2).trans ((ha m).2 g hT hg.1)

theorem Keeps.mono {T : Nat → Prop} {e1 e2 : List Nat} {a : Prog w} (ha : Keeps T e1 a)
    (h : ∀ g ∈ e1, g ∈ e2) : Keeps T e2 a := fun m =>
  ⟨(ha m).1, fun g hT hg => (ha m).2 g hT fun h' => hg (h g h')⟩

theorem keeps_clear (T : Nat → Prop) (f : Option Nat) :
    Keeps (w := w) T f.toList (clearStatus f) := by
  intro m
  cases f with
  | none => exact ⟨rfl, fun _ _ _ => rfl⟩
  | some s =>
    refine ⟨rfl, fun g _ hg => ?_⟩
    simp only [Option.toList, List.mem_singleton] at hg
    simp [clearStatus, hg]

theorem keeps_policy {T : Nat → Prop} {e : List Nat} (i : Info) {a : Prog w} (ha : Keeps T e a) :
    Keeps T (i.status.toList ++ e) (policyRun i a) := by
  simp only [policyRun]
  cases i.clear with
  | first => exact (keeps_clear T _).seq ha
  | last =>
    exact (ha.seq (keeps_clear T _)).mono (by intro g; simp only [List.mem_append]; tauto)
  | dont => exact ha.mono (by intro g; simp only [List.mem_append]; tauto)

/-- A status field of the configuration. -/
def IsStatus (root : List Irq) (g : Nat) : Prop := ∃ x, InTree root x ∧ x.info.status = some g

theorem keeps_cmds {fw : Firmware w} {cs : List Cmd}
    (h : ∀ c ∈ cs, ∃ g b, c = .put g b ∧ ∀ x, InTree fw.root x → x.info.status ≠ some g)
    (m : Mach w) : (cs.foldl fw.does m).ctl = m.ctl ∧
      ∀ g, IsStatus fw.root g → (cs.foldl fw.does m).mem g = m.mem g := by
  induction cs generalizing m with
  | nil => exact ⟨rfl, fun _ _ => rfl⟩
  | cons c cs ih =>
    obtain ⟨g, b, rfl, hg⟩ := h c (by simp)
    obtain ⟨h1, h2⟩ := ih (fun c hc => h c (List.mem_cons_of_mem _ hc)) (fw.does m (.put g b))
    refine ⟨h1, fun k hk => (h2 k hk).trans ?_⟩
    obtain ⟨x, hx, hxk⟩ := hk
    have : k ≠ g := fun e => hg x hx (by rw [hxk, e])
    simp [Firmware.does, this]

theorem keeps_isr {fw : Firmware w} (hq : Quiet fw) (path : List (Irq × Mach w))
    (cs : List (Nat × Nat)) : Keeps (IsStatus fw.root) [] (fw.isr path cs) := by
  induction cs with
  | nil => intro m; exact ⟨rfl, fun _ _ _ => rfl⟩
  | cons c cs ih =>
    obtain ⟨f, n⟩ := c
    refine Keeps.seq (e1 := []) (e2 := []) (fun m => ?_) ih
    obtain ⟨h1, h2⟩ := keeps_cmds (hq f n m) m
    exact ⟨h1, fun g hg _ => h2 g hg⟩

mutual
theorem keeps_run {fw : Firmware w} (hq : Quiet fw) : ∀ (x : Irq) (path : List (Irq × Mach w)),
    Keeps (IsStatus fw.root) x.statuses (fw.run path x)
  | .element i fs, path => by
    intro m
    simp only [Firmware.run]
    split
    · refine (keeps_policy i (keeps_isr hq _ _)).mono ?_ m
      intro g hg
      simp only [Irq.statuses, Irq.nodes, List.filterMap_cons, Irq.info, List.filterMap_nil]
      cases hs : i.status <;> simp_all
    · exact ⟨rfl, fun _ _ _ => rfl⟩
  | .container i xs, path => by
    intro m
    simp only [Firmware.run]
    split
    · rw [statuses_container]
      exact keeps_policy i (keeps_runL hq xs _) m
    · exact ⟨rfl, fun _ _ _ => rfl⟩
theorem keeps_runL {fw : Firmware w} (hq : Quiet fw) : ∀ (xs : List Irq)
    (path : List (Irq × Mach w)), Keeps (IsStatus fw.root) (statusesL xs) (fw.runL path xs)
  | [], path => fun m => ⟨rfl, fun _ _ _ => rfl⟩
  | x :: xs, path => by
    rw [statusesL_cons]
    intro m
    simp only [Firmware.runL]
    exact ((keeps_run hq x path).seq (keeps_runL hq xs path)) m
end

/-- What `Verif.Interrupt` records of an act. -/
def Act.ev : Act w → Option Ev
  | .call ((x, _) :: _) f n => some (.run x.info.name f n)
  | .call [] _ _ => none
  | .clear f => some (.clear f)

theorem isr_ev (fw : Firmware w) (x : Irq) (m0 : Mach w) (path : List (Irq × Mach w))
    (cs : List (Nat × Nat)) (m : Mach w) :
    (fw.isr ((x, m0) :: path) cs m).2.filterMap Act.ev =
      cs.map (fun c => Ev.run x.info.name c.1 c.2) := by
  induction cs generalizing m with
  | nil => rfl
  | cons c cs ih =>
    obtain ⟨f, n⟩ := c
    simp [Firmware.isr, seq, Act.ev, ih]

theorem clear_ev (i : Info) (m : Mach w) :
    (clearStatus i.status m).2.filterMap Act.ev = clearEv i := by
  cases h : i.status <;> simp [clearStatus, clearEv, h, Act.ev]

/-- The fields of the tree read as `σ` says. -/
structure Seen (fw : Firmware w) (σ : Nat → Bool) (ss es : List Nat) (m : Mach w) : Prop where
  status : ∀ g ∈ ss, m.mem g = σ g
  enable : ∀ g ∈ es, fw.read g (m.ctl.hw (fw.H.reg g)) = σ g

theorem seen_ready {fw : Firmware w} {σ : Nat → Bool} {ss es : List Nat} {m : Mach w}
    (h : Seen fw σ ss es m) (i : Info) (hs : ∀ g ∈ i.status.toList, g ∈ ss)
    (he : ∀ g ∈ i.enable.toList, g ∈ es) :
    (fw.readEnable m i.enable && readStatus m i.status) = i.ready σ := by
  have h1 : fw.readEnable m i.enable = readField σ i.enable := by
    cases hi : i.enable with
    | none => rfl
    | some g => exact h.enable g (he g (by simp [hi]))
  have h2 : readStatus m i.status = readField σ i.status := by
    cases hi : i.status with
    | none => rfl
    | some g => exact h.status g (hs g (by simp [hi]))
  rw [h1, h2, Info.ready]

theorem Seen.after {fw : Firmware w} {σ : Nat → Bool} {ss es ex : List Nat} {a : Prog w}
    (ha : Keeps (IsStatus fw.root) ex a) {m : Mach w} (h : Seen fw σ ss es m)
    (hT : ∀ g ∈ ss, IsStatus fw.root g) (hd : ∀ g ∈ ss, g ∉ ex) : Seen fw σ ss es (a m).1 :=
  ⟨fun g hg => ((ha m).2 g (hT g hg) (hd g hg)).trans (h.status g hg),
   fun g hg => by rw [(ha m).1]; exact h.enable g hg⟩

theorem Seen.sub {fw : Firmware w} {σ : Nat → Bool} {ss es ss' es' : List Nat} {m : Mach w}
    (h : Seen fw σ ss es m) (h1 : ∀ g ∈ ss', g ∈ ss) (h2 : ∀ g ∈ es', g ∈ es) :
    Seen fw σ ss' es' m := ⟨fun g hg => h.status g (h1 g hg), fun g hg => h.enable g (h2 g hg)⟩

mutual
theorem run_ev {fw : Firmware w} (hq : Quiet fw) (σ : Nat → Bool) :
    ∀ (x : Irq) (path : List (Irq × Mach w)) (m : Mach w), x.statuses.Nodup →
      (∀ g ∈ x.statuses, IsStatus fw.root g) → Seen fw σ x.statuses x.enables m →
      (fw.run path x m).2.filterMap Act.ev = trace fw.world σ x
  | .element i fs, path, m => by
    intro hn hT hg
    have hr := seen_ready hg i
      (by intro g h; simp only [Irq.statuses, Irq.nodes, List.filterMap_cons, Irq.info,
            List.filterMap_nil]; cases he : i.status <;> simp_all)
      (by intro g h; simp only [Irq.enables, Irq.nodes, List.filterMap_cons, Irq.info,
            List.filterMap_nil]; cases he : i.enable <;> simp_all)
    simp only [Firmware.run, trace, hr]
    split
    · simp only [policyRun, wrap]
      cases i.clear <;>
        simp [seq, List.filterMap_append, isr_ev, clear_ev, callsEv, Irq.info]
    · rfl
  | .container i xs, path, m => by
    intro hn hT hg
    rw [statuses_container] at hn hT hg
    rw [enables_container] at hg
    have hr := seen_ready hg i (fun g h => by simp [h]) (fun g h => by simp [h])
    simp only [Firmware.run, trace, hr]
    split
    · rw [List.nodup_append] at hn
      have hT' : ∀ g ∈ statusesL xs, IsStatus fw.root g := fun g h => hT g (by simp [h])
      have hsub := fun (p : List (Irq × Mach w)) (m' : Mach w)
          (h : Seen fw σ (statusesL xs) (enablesL xs) m') =>
        runL_ev hq σ xs p m' hn.2.1 hT' h
      have hg' : Seen fw σ (statusesL xs) (enablesL xs) m :=
        hg.sub (fun g h => by simp [h]) (fun g h => by simp [h])
      simp only [policyRun, wrap]
      cases i.clear with
      | first =>
        simp only [seq, List.filterMap_append, clear_ev]
        rw [hsub]
        exact hg'.after (keeps_clear _ _) hT' (fun g hg hs => hn.2.2 g hs g hg rfl)
      | last => simp only [seq, List.filterMap_append, clear_ev]; rw [hsub _ _ hg']
      | dont => exact hsub _ _ hg'
    · rfl
theorem runL_ev {fw : Firmware w} (hq : Quiet fw) (σ : Nat → Bool) :
    ∀ (xs : List Irq) (path : List (Irq × Mach w)) (m : Mach w), (statusesL xs).Nodup →
      (∀ g ∈ statusesL xs, IsStatus fw.root g) → Seen fw σ (statusesL xs) (enablesL xs) m →
      (fw.runL path xs m).2.filterMap Act.ev = traceL fw.world σ xs
  | [], path, m => by intro _ _ _; rfl
  | x :: xs, path, m => by
    intro hn hT hg
    rw [statusesL_cons] at hn hT hg
    rw [enablesL_cons] at hg
    rw [List.nodup_append] at hn
    simp only [Firmware.runL, traceL, seq, List.filterMap_append]
    rw [run_ev hq σ x path m hn.1 (fun g h => hT g (by simp [h]))
      (hg.sub (fun g h => by simp [h]) (fun g h => by simp [h]))]
    rw [runL_ev hq σ xs path _ hn.2.1 (fun g h => hT g (by simp [h]))]
    exact (hg.sub (ss' := statusesL xs) (es' := enablesL xs) (fun g h => by simp [h])
      (fun g h => by simp [h])).after (keeps_run hq x path) (fun g h => hT g (by simp [h]))
      (fun g h hs => hn.2.2 g hs g h rfl)
end

end Verif.Control
