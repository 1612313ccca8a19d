import Verif.Interrupt.CtlLemmas
/-!
# Properties of interrupt handling
-/
namespace Verif.Interrupt

/-! ## C40, C41: running -/

theorem run_eq_trace {w : World} {x : Irq} (h : Tidy w x) (σ : Nat → Bool) :
    (Irq.run w x σ).2 = trace w σ x :=
  run_trace (T := fun g => g ∈ x.statuses ∨ g ∈ x.enables) h.quiet σ x σ h.statuses h.apart
    (fun _ hg => hg) (fun _ _ => rfl)

/-- C40: a flow is only called for an interrupt that is executed, and only one of its flows. -/
theorem C40_only {w : World} {root : Irq} (h : Tidy w root) (σ : Nat → Bool) {n f k : Nat}
    (he : Ev.run n f k ∈ (Irq.run w root σ).2) :
    ∃ i fs, Executed w σ (.element i fs) root ∧ i.name = n ∧ f ∈ fs ∧ k ∈ w.nexi := by
  rw [run_eq_trace h] at he
  obtain ⟨y, hy, i, fs, rfl, hn, hf, hk⟩ := trace_makes w σ root _ he
  exact ⟨i, fs, hy, hn, hf, hk⟩

theorem inj_of_nodup_map {l : List Irq} {f : Irq → Nat} (h : (l.map f).Nodup) {x y : Irq}
    (hx : x ∈ l) (hy : y ∈ l) (he : f x = f y) : x = y := by
  induction l with
  | nil => simp at hx
  | cons u us ih =>
    rw [List.map_cons, List.nodup_cons] at h
    rcases List.mem_cons.1 hx with rfl | hx' <;> rcases List.mem_cons.1 hy with rfl | hy'
    · rfl
    · exact absurd (List.mem_map.2 ⟨y, hy', he.symm⟩) h.1
    · exact absurd (List.mem_map.2 ⟨x, hx', he⟩) h.1
    · exact ih h.2 hx' hy'

theorem filter_none {p : Ev → Bool} {l : List Ev} (h : ∀ e ∈ l, p e = false) : l.filter p = [] := by
  rw [List.filter_eq_nil_iff]
  intro e he; simp [h e he]

/-- C40: for an executed interrupt each of its flows is called once in each nexus: the first flow in
every nexus, then the second, and so on. -/
theorem C40_all {w : World} {root : Irq} (h : Tidy w root) (σ : Nat → Bool) {i : Info}
    {fs : List Nat} (hx : Executed w σ (.element i fs) root) :
    (Irq.run w root σ).2.filter (Ev.isRunOf i.name) =
      (fs.map (fun f => w.nexi.map (fun k => Ev.run i.name f k))).flatten := by
  rw [run_eq_trace h]
  obtain ⟨a, b, e1, e2⟩ := trace_executed hx h.names h.statuses
  have hno : ∀ e ∈ a ++ b, Ev.isRunOf i.name e = false := by
    intro e he
    cases e with
    | clear s => rfl
    | run n f k =>
      have := e2 _ he
      simp only [Owned, Irq.names, Irq.nodes, List.map_cons, List.map_nil, List.mem_singleton,
        Irq.info] at this
      simpa [Ev.isRunOf] using this
  rw [e1, List.filter_append, List.filter_append, filter_none (fun e he => hno e (by simp [he])),
    filter_none (l := b) (fun e he => hno e (by simp [he])), List.nil_append, List.append_nil]
  have hxx := hx.self
  have hc : (fs.any w.flowActive && i.ready σ) = true := by
    rw [Bool.and_eq_true, anyActive_iff, ready_iff]
    cases hxx with
    | here h1 h2 h3 h4 => cases h3; exact ⟨h4, h1, h2⟩
  have hcl : (clearEv i).filter (Ev.isRunOf i.name) = [] := by
    apply filter_none
    intro e he
    simp only [clearEv, List.mem_map] at he
    obtain ⟨s, _, rfl⟩ := he
    rfl
  have hcalls : (callsEv w i.name fs).filter (Ev.isRunOf i.name) = callsEv w i.name fs := by
    rw [List.filter_eq_self]
    intro e he
    simp only [callsEv, List.mem_map] at he
    obtain ⟨c, _, rfl⟩ := he
    simp [Ev.isRunOf]
  have hsh : callsEv w i.name fs =
      (fs.map (fun f => w.nexi.map (fun k => Ev.run i.name f k))).flatten := by
    rw [callsEv, isrCalls, List.map_flatten, List.map_map]
    congr 1
    apply List.map_congr_left
    intro f _
    simp
  simp only [trace, hc, if_true, wrap]
  cases i.clear <;> simp [List.filter_append, hcl, hcalls, ← hsh]

/-- C40: nothing is called for an interrupt that is not executed. -/
theorem C40_none {w : World} {root : Irq} (h : Tidy w root) (σ : Nat → Bool) {i : Info}
    {fs : List Nat} (hb : Below (.element i fs) root) (hx : ¬ Executed w σ (.element i fs) root) :
    (Irq.run w root σ).2.filter (Ev.isRunOf i.name) = [] := by
  apply filter_none
  intro e he
  cases e with
  | clear s => rfl
  | run n f k =>
    obtain ⟨j, gs, hj, hn, _⟩ := C40_only h σ he
    simp only [Ev.isRunOf, beq_eq_false_iff_ne]
    intro hni
    apply hx
    have : (Irq.element j gs) = .element i fs := by
      have hnd := h.names
      rw [Irq.names] at hnd
      exact inj_of_nodup_map hnd ((mem_nodes _ _).2 hj.isBelow) ((mem_nodes _ _).2 hb)
        (by simp [Irq.info, hn, hni])
    rwa [← this]

/-- C40: the manager runs the interrupt of that number, and nothing if there is none. -/
theorem C40_manager (w : World) (impls : List (Nat × Irq)) (number : Nat) (σ : Nat → Bool) :
    (∀ x, (number, x) ∈ impls → (∀ y, (number, y) ∈ impls → y = x) →
      managerRun w impls number σ = Irq.run w x σ) ∧
    ((∀ x, (number, x) ∉ impls) → managerRun w impls number σ = (σ, [])) := by
  constructor
  · intro x hx hu
    simp only [managerRun]
    cases hf : impls.find? (·.1 == number) with
    | none =>
      rw [List.find?_eq_none] at hf
      exact absurd (by simp) (hf _ hx)
    | some p =>
      obtain ⟨m, y⟩ := p
      have h1 := List.find?_some hf
      have h2 := List.mem_of_find?_eq_some hf
      simp only [beq_iff_eq] at h1
      subst h1
      rw [hu y h2]
  · intro hx
    have : impls.find? (·.1 == number) = none := by
      rw [List.find?_eq_none]
      intro p hp he
      simp only [beq_iff_eq] at he
      subst he
      exact hx _ hp
    simp [managerRun, this]

/-- C41: the status field of an interrupt is only cleared if it is executed and its policy clears. -/
theorem C41_only {w : World} {root : Irq} (h : Tidy w root) (σ : Nat → Bool) {s : Nat}
    (he : Ev.clear s ∈ (Irq.run w root σ).2) :
    ∃ y, Executed w σ y root ∧ y.info.status = some s ∧ y.info.clear ≠ .dont := by
  rw [run_eq_trace h] at he
  obtain ⟨y, hy, hm⟩ := trace_makes w σ root _ he
  exact ⟨y, hy, hm⟩

/-- An interrupt has only the events of its own body between. -/
theorem trace_shape {w : World} {σ : Nat → Bool} {y : Irq} (h : Executed w σ y y)
    (hs : y.statuses.Nodup) : ∃ body, trace w σ y = wrap y.info body ∧
      (∀ e ∈ body, Owned y e) ∧ ∀ s, y.info.status = some s → Ev.clear s ∉ body := by
  have hrd : y.info.ready σ = true ∧ y.active w = true := by
    constructor
    · cases h with
      | here h1 h2 _ _ => exact (ready_iff _ _).2 ⟨h1, h2⟩
      | deeper h1 h2 _ _ => exact (ready_iff _ _).2 ⟨h1, h2⟩
    · exact (active_iff w y).2 h.activeLeaf
  cases y with
  | element i fs =>
    simp only [Irq.info, Irq.active] at hrd
    refine ⟨callsEv w i.name fs, by simp [trace, hrd, Irq.info], ?_, ?_⟩
    · intro e he
      simp only [callsEv, List.mem_map] at he
      obtain ⟨c, _, rfl⟩ := he
      simp [Owned, Irq.names, Irq.nodes, Irq.info]
    · intro s _ he
      simp [callsEv] at he
  | container i xs =>
    simp only [Irq.info, Irq.active] at hrd
    refine ⟨traceL w σ xs, by simp [trace, hrd, Irq.info], ?_, ?_⟩
    · intro e he
      obtain ⟨z, hz, y, hy, hm⟩ := traceL_makes w σ xs e he
      exact makes_owned (.sub hz hy.isBelow) hm
    · intro s hst he
      obtain ⟨z, hz, y, hy, hm⟩ := traceL_makes w σ xs _ he
      simp only [Irq.info] at hst
      rw [statuses_container, List.nodup_append] at hs
      refine hs.2.2 s (by simp [hst]) s ?_ rfl
      exact List.mem_filterMap.2 ⟨y, (mem_nodesL xs y).2 ⟨z, hz, hy.isBelow⟩, hm.1⟩

theorem status_owned {y : Irq} {s : Nat} (h : y.info.status = some s) : Owned y (.clear s) :=
  List.mem_filterMap.2 ⟨y, (mem_nodes y y).2 (.refl _), h⟩

theorem nodup_below {y x : Irq} (hb : Below y x) (h : x.statuses.Nodup) : y.statuses.Nodup := by
  induction hb with
  | refl => exact h
  | @sub i xs z y hz _ ih =>
    apply ih
    rw [statuses_container, List.nodup_append] at h
    have : ∀ xs : List Irq, z ∈ xs → (statusesL xs).Nodup → z.statuses.Nodup := by
      intro xs
      induction xs with
      | nil => simp
      | cons u us ihu =>
        intro hz hs
        rw [statusesL_cons, List.nodup_append] at hs
        rcases List.mem_cons.1 hz with rfl | hz
        · exact hs.1
        · exact ihu hz hs.2.1
    exact this xs hz h.2.1

/-- C41: with clear-first the field is cleared once, and everything else that concerns the executed
interrupt or those below it comes after. -/
theorem C41_first {w : World} {root y : Irq} (h : Tidy w root) (σ : Nat → Bool)
    (hx : Executed w σ y root) {s : Nat} (hs : y.info.status = some s)
    (hc : y.info.clear = .first) :
    ∃ pre body post, (Irq.run w root σ).2 = pre ++ Ev.clear s :: (body ++ post) ∧
      (∀ e ∈ body, Owned y e ∧ e ≠ .clear s) ∧ ∀ e ∈ pre ++ post, ¬ Owned y e := by
  rw [run_eq_trace h]
  obtain ⟨a, b, e1, e2⟩ := trace_executed hx h.names h.statuses
  obtain ⟨body, h1, h2, h3⟩ := trace_shape hx.self (nodup_below hx.isBelow h.statuses)
  refine ⟨a, body, b, ?_, fun e he => ⟨h2 e he, ?_⟩, e2⟩
  · rw [e1, h1, wrap, hc]
    simp [clearEv, hs]
  · rintro rfl; exact h3 s hs he

/-- C41: with clear-last it is cleared once, and everything else that concerns the executed
interrupt or those below it comes before. -/
theorem C41_last {w : World} {root y : Irq} (h : Tidy w root) (σ : Nat → Bool)
    (hx : Executed w σ y root) {s : Nat} (hs : y.info.status = some s)
    (hc : y.info.clear = .last) :
    ∃ pre body post, (Irq.run w root σ).2 = pre ++ (body ++ Ev.clear s :: post) ∧
      (∀ e ∈ body, Owned y e ∧ e ≠ .clear s) ∧ ∀ e ∈ pre ++ post, ¬ Owned y e := by
  rw [run_eq_trace h]
  obtain ⟨a, b, e1, e2⟩ := trace_executed hx h.names h.statuses
  obtain ⟨body, h1, h2, h3⟩ := trace_shape hx.self (nodup_below hx.isBelow h.statuses)
  refine ⟨a, body, b, ?_, fun e he => ⟨h2 e he, ?_⟩, e2⟩
  · rw [e1, h1, wrap, hc]
    simp [clearEv, hs]
  · rintro rfl; exact h3 s hs he

/-- C41: an executed interrupt's status is cleared exactly once unless the policy is dont-clear. -/
theorem C41_once {w : World} {root y : Irq} (h : Tidy w root) (σ : Nat → Bool)
    (hx : Executed w σ y root) {s : Nat} (hs : y.info.status = some s) :
    (Irq.run w root σ).2.count (.clear s) = if y.info.clear = .dont then 0 else 1 := by
  cases hc : y.info.clear with
  | first =>
    obtain ⟨pre, body, post, e, h1, h2⟩ := C41_first h σ hx hs hc
    have ho := status_owned hs
    rw [e, List.count_append, List.count_cons_self, List.count_append,
      List.count_eq_zero_of_not_mem (fun hm => h2 _ (by simp [hm]) ho),
      List.count_eq_zero_of_not_mem (fun hm => (h1 _ hm).2 rfl),
      List.count_eq_zero_of_not_mem (fun hm => h2 _ (by simp [hm]) ho)]
    simp
  | last =>
    obtain ⟨pre, body, post, e, h1, h2⟩ := C41_last h σ hx hs hc
    have ho := status_owned hs
    rw [e, List.count_append, List.count_append, List.count_cons_self,
      List.count_eq_zero_of_not_mem (fun hm => h2 _ (by simp [hm]) ho),
      List.count_eq_zero_of_not_mem (fun hm => (h1 _ hm).2 rfl),
      List.count_eq_zero_of_not_mem (fun hm => h2 _ (by simp [hm]) ho)]
    simp
  | dont =>
    rw [List.count_eq_zero_of_not_mem]
    · simp
    · intro hm
      obtain ⟨z, hz, hzs, hzd⟩ := C41_only h σ hm
      obtain ⟨a, b, e1, e2⟩ := trace_executed hx h.names h.statuses
      obtain ⟨body, h1, h2, h3⟩ := trace_shape hx.self (nodup_below hx.isBelow h.statuses)
      rw [run_eq_trace h, e1, h1, wrap, hc] at hm
      simp only [List.mem_append] at hm
      rcases hm with (hm | hm) | hm
      · exact e2 _ (by simp [hm]) (status_owned hs)
      · exact h3 s hs hm
      · exact e2 _ (by simp [hm]) (status_owned hs)

/-- C41: the status of an interrupt that is not executed is not cleared. -/
theorem C41_none {w : World} {root y : Irq} (h : Tidy w root) (σ : Nat → Bool)
    (hb : Below y root) (hx : ¬ Executed w σ y root) {s : Nat} (hs : y.info.status = some s) :
    Ev.clear s ∉ (Irq.run w root σ).2 := by
  intro hm
  obtain ⟨z, hz, hzs, _⟩ := C41_only h σ hm
  apply hx
  have hnd := h.statuses
  have : z = y := by
    have key : ∀ l : List Irq, (l.filterMap (fun y => y.info.status)).Nodup → z ∈ l → y ∈ l → z = y := by
      intro l
      induction l with
      | nil => simp
      | cons u us ih =>
        intro hn hz hy
        rw [List.filterMap_cons] at hn
        rcases List.mem_cons.1 hz with rfl | hz' <;> rcases List.mem_cons.1 hy with rfl | hy'
        · rfl
        · rw [hzs] at hn
          exact absurd (List.mem_filterMap.2 ⟨y, hy', hs⟩) (List.nodup_cons.1 hn).1
        · rw [hs] at hn
          exact absurd (List.mem_filterMap.2 ⟨z, hz', hzs⟩) (List.nodup_cons.1 hn).1
        · refine ih ?_ hz' hy'
          cases hu : u.info.status with
          | none => rw [hu] at hn; exact hn
          | some t => rw [hu] at hn; exact (List.nodup_cons.1 hn).2
    exact key _ hnd ((mem_nodes _ _).2 hz.isBelow) ((mem_nodes _ _).2 hb)
  rwa [← this]

/-- A shared interrupt with two sub-interrupts: one enabled and pending, one not pending. -/
def exTree : Irq := .container { name := 0, enable := some 10, clear := .dont }
  [.element { name := 1, enable := some 11, status := some 21, clear := .first } [100],
   .element { name := 2, status := some 22, clear := .last } [101, 102]]
/-- Two nexuses; flow 101 is inactive everywhere. -/
def exWorld : World := ⟨[0, 1], fun n f => f == 100 || (n == 1 && f == 102), fun _ _ σ => σ⟩

example : Tidy exWorld exTree :=
  ⟨by decide, by decide, by decide, fun _ _ _ _ _ => rfl⟩
example : (Irq.run exWorld exTree (fun f => f != 22)).2 =
    [.clear 21, .run 1 100 0, .run 1 100 1] := by decide +kernel
example : (Irq.run exWorld exTree (fun f => f != 11)).2 =
    [.run 2 101 0, .run 2 101 1, .run 2 102 0, .run 2 102 1, .clear 22] := by decide +kernel
example : Executed exWorld (fun f => f != 22)
    (.element { name := 1, enable := some 11, status := some 21, clear := .first } [100]) exTree :=
  .deeper (fun g h => by cases h; rfl) (fun g h => by cases h) (List.mem_cons_self)
    (.here (fun g h => by cases h; rfl) (fun g h => by cases h; rfl) (.refl _)
      ⟨100, by simp, 0, by simp [exWorld], rfl⟩)

/-! ## C42: only the bits of affected interrupts change -/

/-- The interrupts that an operation writes. -/
def Op.irqs (root : List Irq) : Op → List Irq
  | .items _ p ts => affected root p ts
  | .names _ ns => (ns.map (fun n => (rootDescendants root).filter
      (fun x => x.info.name == n))).flatten
  | .refreshTop => root
  | .refreshAll => rootDescendants root
  | .reset => rootDescendants root

/-- The enables after an operation. -/
def Op.enables (root : List Irq) (c : Enables) : Op → Enables
  | .items b _ ts => ts.foldl (Enables.put root b) c
  | .names b ns => ns.foldl (Enables.put root b) c
  | .refreshTop => c
  | .refreshAll => c
  | .reset => ⟨fun _ => false, fun _ => false, fun _ => false⟩

/-- Whether registers are written if unchanged. -/
def Op.force : Op → Bool
  | .items .. => false
  | .names .. => false
  | _ => true

theorem Op.run_eq {w : Nat} (H : Hal w) (root : List Irq) (d : Ctl w) (op : Op) :
    op.run H root d = update H op.force (op.irqs root) { d with en := op.enables root d.en } := by
  cases op <;> rfl

theorem Op.irqs_tree {root : List Irq}
    (hn : ∀ x y, InTree root x → InTree root y → x.info.name = y.info.name → x = y) (op : Op)
    {x : Irq} (h : x ∈ op.irqs root) : InTree root x ∧ op.About root x := by
  cases op with
  | items b p ts =>
    obtain ⟨hx, t, ht, hc⟩ := (mem_affected hn p ts x).1 h
    refine ⟨hx, t, ht, ?_⟩
    cases p with
    | false => exact ⟨x, rfl, hc⟩
    | true =>
      simp only [if_true, mem_allResources, mem_allFlows] at hc
      rcases hc with (hc | ⟨y, hy, hc⟩) | ⟨y, hy, hc⟩
      · exact ⟨x, .refl _, .inl hc⟩
      · exact ⟨y, below_sub hy, .inl hc⟩
      · exact ⟨y, hy, .inr hc⟩
  | names b ns =>
    simp only [Op.irqs, List.mem_flatten, List.mem_map] at h
    obtain ⟨_, ⟨n, hn, rfl⟩, h⟩ := h
    rw [List.mem_filter] at h
    refine ⟨(mem_root _ _).1 h.1, ?_⟩
    have : x.info.name = n := by simpa using h.2
    simpa [Op.About, this] using hn
  | refreshTop => exact ⟨⟨x, h, .refl _⟩, h⟩
  | refreshAll => exact ⟨(mem_root _ _).1 h, trivial⟩
  | reset => exact ⟨(mem_root _ _).1 h, trivial⟩

theorem inTree_reg {w : Nat} {H : Hal w} {root irqs : List Irq} {r : Nat}
    (ht : ∀ x ∈ irqs, InTree root x) (hr : r ∈ regsOf H irqs) :
    ∃ x f, InTree root x ∧ x.info.enable = some f ∧ H.reg f = r := by
  obtain ⟨x, hx, he⟩ := (mem_regsOf H irqs r).1 hr
  cases hf : x.info.enable with
  | none => rw [hf] at he; simp at he
  | some f => rw [hf] at he; exact ⟨x, f, ht x hx, hf, by simpa using he⟩

theorem synced_update {w : Nat} {H : Hal w} {root irqs : List Irq} {d : Ctl w} {force : Bool}
    (hs : Synced H root d) : Synced H root (update H force irqs d) :=
  fun x f hx hf => update_hw H force irqs d _ (hs x f hx hf)

/-- C42: a hardware register bit that an operation changes is the enable bit of an interrupt that the
operation is about. -/
theorem C42_only_owned {w : Nat} {H : Hal w} {root : List Irq} (hw : WellFormed H root) (d : Ctl w)
    (hs : Synced H root d) (op : Op) (r i : Nat)
    (h : ((op.run H root d).hw r).getLsbD i ≠ (d.hw r).getLsbD i) :
    ∃ x, InTree root x ∧ op.About root x ∧ OwnsBit H x r i := by
  rw [Op.run_eq] at h
  have W := (wrote_update H op.force (op.irqs root) { d with en := op.enables root d.en })
  by_cases hr : r ∈ regsOf H (op.irqs root)
  · obtain ⟨x, f, hx, hf, rfl⟩ := inTree_reg (fun x hx => (Op.irqs_tree hw.names op hx).1) hr
    have hsx := hs x f hx hf
    rw [update_hw _ _ _ { d with en := op.enables root d.en } _ hsx, update_shadow, hsx] at h
    by_contra hno
    apply h
    rw [Bool.eq_iff_iff, newReg_bit]
    have hn : ∀ y ∈ op.irqs root, ¬ OwnsBit H y (H.reg f) i := fun y hy ho =>
      hno ⟨y, (Op.irqs_tree hw.names op hy).1, (Op.irqs_tree hw.names op hy).2, ho⟩
    constructor
    · rintro (⟨h1, _⟩ | ⟨y, hy, _, ho⟩)
      · exact h1
      · exact absurd ho (hn y hy)
    · intro h1
      exact .inl ⟨h1, fun ⟨y, hy, ho⟩ => hn y hy ho⟩
  · rw [W.hw, if_neg (fun hc => hr hc.1)] at h
    exact absurd rfl h

theorem synced_ops {w : Nat} {H : Hal w} {root : List Irq} (ops : List Op) (d : Ctl w)
    (hs : Synced H root d) : Synced H root (runOps H root d ops) := by
  induction ops generalizing d with
  | nil => exact hs
  | cons op ops ih =>
    rw [runOps, List.foldl_cons]
    exact ih _ (by rw [Op.run_eq]; exact synced_update hs)

/-- C42 for histories: a bit that differs afterwards is the enable bit of an interrupt that one of the
operations was about. -/
theorem C42_histories {w : Nat} {H : Hal w} {root : List Irq} (hw : WellFormed H root)
    (ops : List Op) (d : Ctl w) (hs : Synced H root d) (r i : Nat)
    (h : ((runOps H root d ops).hw r).getLsbD i ≠ (d.hw r).getLsbD i) :
    ∃ op ∈ ops, ∃ x, InTree root x ∧ op.About root x ∧ OwnsBit H x r i := by
  induction ops generalizing d with
  | nil => exact absurd rfl h
  | cons op ops ih =>
    by_cases he : ((op.run H root d).hw r).getLsbD i = (d.hw r).getLsbD i
    · rw [runOps, List.foldl_cons] at h
      obtain ⟨o, ho, hx⟩ := ih (op.run H root d) (by rw [Op.run_eq]; exact synced_update hs)
        (by rw [he]; exact h)
      exact ⟨o, by simp [ho], hx⟩
    · exact ⟨op, by simp, C42_only_owned hw d hs op r i he⟩

/-! ## C44: shadow and hardware -/

/-- C44: operations keep the remembered values equal to the hardware. -/
theorem C44_histories {w : Nat} (H : Hal w) (root : List Irq) (ops : List Op) (d : Ctl w)
    (hs : Synced H root d) : Synced H root (runOps H root d ops) := synced_ops ops d hs

/-- C44: refreshing everything, and resetting, make them equal whatever they were. -/
theorem C44_forced {w : Nat} (H : Hal w) (root : List Irq) (d : Ctl w) (op : Op)
    (ho : op = .refreshAll ∨ op = .reset) : Synced H root (op.run H root d) := by
  intro x f hx hf
  have hr : H.reg f ∈ regsOf H (rootDescendants root) :=
    (mem_regsOf _ _ _).2 ⟨x, (mem_root _ _).2 hx, by rw [hf]; rfl⟩
  rcases ho with rfl | rfl <;> exact update_hw_force H _ _ _ hr

/-- The shadow values that `init` starts from. -/
theorem init_eq {w : Nat} (H : Hal w) (root already : List Irq) (res flows : Nat → Bool)
    (d : Ctl w) : ∃ d2 : Ctl w, init H root already res flows d = update H false
      ((rootDescendants root).filter (fun x => decide (x.info.name ∉ already.map (fun y => y.info.name)))) d2 ∧
      d2.en = ⟨res, flows, fun _ => true⟩ ∧ d2.hw = d.hw ∧
      ∀ x f, InTree root x → x.info.enable = some f → ∀ i,
        ((d2.shadow (H.reg f)).getLsbD i = true ↔ ∃ y ∈ already, OwnsBit H y (H.reg f) i) := by
  refine ⟨_, rfl, rfl, rfl, fun x f hx hf i => ?_⟩
  have hr : H.reg f ∈ regsOf H (rootDescendants root) :=
    (mem_regsOf _ _ _).2 ⟨x, (mem_root _ _).2 hx, by rw [hf]; rfl⟩
  have hb : (∃ y ∈ inReg H already (H.reg f), (maskFor H y).getLsbD i = true) ↔
      ∃ y ∈ already, OwnsBit H y (H.reg f) i := by
    simp only [inReg, List.mem_filter, decide_eq_true_eq, ownsBit_iff]
    constructor
    · rintro ⟨x, ⟨a, b⟩, c⟩; exact ⟨x, a, b, c⟩
    · rintro ⟨x, a, b, c⟩; exact ⟨x, ⟨a, b⟩, c⟩
  simp only [hr, if_true]
  split
  · rw [BitVec.getLsbD_or, Bool.or_eq_true, maskOf_bit, hb]
    simp
  · next hno =>
    constructor
    · intro h; simp at h
    · rintro ⟨y, hy, ho⟩
      exact absurd ((mem_regsOf _ _ _).2 ⟨y, hy, ((ownsBit_iff _ _ _ _).1 ho).1⟩) hno

/-- C44: initialisation makes them equal if exactly the enable bits of the interrupts given as already
enabled were set before. -/
theorem C44_init_partial {w : Nat} (H : Hal w) (root already : List Irq) (res flows : Nat → Bool)
    (d : Ctl w) (h0 : OnlySet H root already d) :
    Synced H root (init H root already res flows d) := by
  obtain ⟨d2, e, _, hhw, hsh⟩ := init_eq H root already res flows d
  rw [e]
  apply synced_update
  intro x f hx hf
  rw [hhw]
  apply BitVec.eq_of_getLsbD_eq
  intro i _
  rw [Bool.eq_iff_iff, hsh x f hx hf i, h0 x f hx hf i]

/-- C44 from initialisation on. -/
theorem C44_init_histories_partial {w : Nat} (H : Hal w) (root already : List Irq)
    (res flows : Nat → Bool) (d : Ctl w) (h0 : OnlySet H root already d) (ops : List Op) :
    Synced H root (runOps H root (init H root already res flows d) ops) :=
  synced_ops ops _ (C44_init_partial H root already res flows d h0)

/-- One interrupt with enable field 0, in bit 0 of register 0. -/
def exOne : List Irq := [.element { name := 0, enable := some 0 } [5]]
/-- All fields are in register 0, each in its own bit. -/
def exHal : Hal 8 := ⟨fun _ => 0, fun f => (1 : BitVec 8) <<< f⟩

/-- C44 is violated by a second initialisation that makes nothing active: the register is not
written, and the interrupt stays enabled in the hardware. -/
theorem C44_violated_reinit : ∃ (res flows : Nat → Bool) (d : Ctl 8),
    OnlySet exHal exOne [] d ∧
    Synced exHal exOne (init exHal exOne [] res (fun _ => true) d) ∧
    ¬ Synced exHal exOne (init exHal exOne [] res flows
      (init exHal exOne [] res (fun _ => true) d)) ∧
    ¬ Matches exHal exOne (init exHal exOne [] res flows
      (init exHal exOne [] res (fun _ => true) d)) := by
  refine ⟨fun _ => false, fun _ => false,
    ⟨⟨fun _ => false, fun _ => false, fun _ => false⟩, fun _ => 0, fun _ => 0⟩, ?_, ?_, ?_, ?_⟩
  · intro x f _ _ i
    simp
  · apply C44_init_partial
    intro x f _ _ i
    simp
  · intro h
    have := h (.element { name := 0, enable := some 0 } [5]) 0 ⟨_, by simp [exOne], .refl _⟩ rfl
    revert this
    decide +kernel
  · intro h
    have := (h (.element { name := 0, enable := some 0 } [5]) ⟨_, by simp [exOne], .refl _⟩ 0 0
      ⟨0, rfl, rfl, by decide⟩).1 (by decide +kernel)
    rw [← isOn_iff] at this
    revert this
    decide +kernel

/-! ## C43: hardware enables match what is enabled -/

/-- An update puts right the interrupts it is given and leaves alone those whose state is the same. -/
theorem bitsRight_update {w : Nat} {H : Hal w} {root irqs : List Irq} (hw : WellFormed H root)
    (ht : ∀ y ∈ irqs, InTree root y) {force : Bool} {d : Ctl w} {c : Enables}
    {x : Irq} (hx : InTree root x) (hs : Synced H root d ∨ (force = true ∧ x ∈ irqs))
    (h : x ∈ irqs ∨ (BitsRight H d x ∧ (On c x ↔ On d.en x))) :
    BitsRight H (update H force irqs { d with en := c }) x := by
  intro r i ho
  obtain ⟨f, hf, hrf, hm⟩ := id ho
  subst hrf
  have hhw : (update H force irqs { d with en := c }).hw (H.reg f) =
      newReg H irqs c (d.shadow (H.reg f)) (H.reg f) := by
    rcases hs with hs | ⟨rfl, hxi⟩
    · rw [update_hw _ _ _ { d with en := c } _ (hs x f hx hf), update_shadow]
    · rw [update_hw_force _ _ _ _ ((mem_regsOf _ _ _).2 ⟨x, hxi, by rw [hf]; rfl⟩), update_shadow]
  rw [hhw, newReg_bit, update_en]
  have hu : ∀ y ∈ irqs, OwnsBit H y (H.reg f) i → y = x := fun y hy hoy =>
    hw.bits y x _ i (ht y hy) hx hoy ho
  by_cases hxi : x ∈ irqs
  · constructor
    · rintro (⟨_, hn⟩ | ⟨y, hy, hon, hoy⟩)
      · exact absurd ⟨x, hxi, ho⟩ hn
      · rwa [← hu y hy hoy]
    · intro hon; exact .inr ⟨x, hxi, hon, ho⟩
  · rcases h with h | ⟨hb, hon⟩
    · exact absurd h hxi
    · have hsx : Synced H root d := by
        rcases hs with hs | hs
        · exact hs
        · exact absurd hs.2 hxi
      show _ ↔ On c x
      rw [hon, ← hb _ i ho, hsx x f hx hf]
      constructor
      · rintro (h1 | ⟨y, hy, _, hoy⟩)
        · exact h1.1
        · exact absurd (hu y hy hoy ▸ hy) hxi
      · intro h1
        exact .inl ⟨h1, fun ⟨y, hy, hoy⟩ => hxi (hu y hy hoy ▸ hy)⟩

/-- C43: refreshing everything makes all enable bits right, whatever they were. -/
theorem C43_refreshAll {w : Nat} {H : Hal w} {root : List Irq} (hw : WellFormed H root) (d : Ctl w) :
    Matches H root (Op.refreshAll.run H root d) := fun x hx =>
  bitsRight_update (c := d.en) hw (fun y hy => (mem_root _ _).1 hy) hx
    (.inr ⟨rfl, (mem_root _ _).2 hx⟩) (.inl ((mem_root _ _).2 hx))

/-- C43: resetting disables everything in the hardware, whatever it was. -/
theorem C43_reset {w : Nat} {H : Hal w} {root : List Irq} (hw : WellFormed H root) (d : Ctl w) :
    Matches H root (Op.reset.run H root d) ∧
      ∀ x r i, InTree root x → OwnsBit H x r i → ((Op.reset.run H root d).hw r).getLsbD i = false := by
  have h : Matches H root (Op.reset.run H root d) := fun x hx =>
    bitsRight_update hw (fun y hy => (mem_root _ _).1 hy) hx
      (.inr ⟨rfl, (mem_root _ _).2 hx⟩) (.inl ((mem_root _ _).2 hx))
  refine ⟨h, fun x r i hx ho => ?_⟩
  rw [Bool.eq_false_iff]
  intro hb
  have := (h x hx r i ho).1 hb
  rw [Op.run_eq, update_en] at this
  cases this with
  | element h1 => simp [Op.enables] at h1
  | container h1 => simp [Op.enables] at h1

/-- C43: after initialisation without interrupts that were enabled before, and with no enable bit
set, all enable bits are right. -/
theorem C43_init_partial {w : Nat} {H : Hal w} {root : List Irq} (hw : WellFormed H root)
    (res flows : Nat → Bool) (d : Ctl w) (h0 : OnlySet H root [] d) :
    Matches H root (init H root [] res flows d) := by
  obtain ⟨d2, e, hen, hhw, hsh⟩ := init_eq H root [] res flows d
  intro x hx
  rw [e]
  have hmem : x ∈ (rootDescendants root).filter
      (fun x => decide (x.info.name ∉ ([] : List Irq).map (fun y => y.info.name))) := by
    simp [(mem_root _ _).2 hx]
  refine bitsRight_update (c := d2.en) hw (fun y hy => (mem_root _ _).1 (List.mem_filter.1 hy).1) hx
    (.inl ?_) (.inl hmem)
  intro y f hy hf
  rw [hhw]
  apply BitVec.eq_of_getLsbD_eq
  intro i _
  rw [Bool.eq_iff_iff, hsh y f hy hf i, h0 y f hy hf i]

/-! ### What an operation does to the enables -/

theorem put_other (root : List Irq) (b : Bool) (c : Enables) (t : Nat) :
    (∀ r, r ≠ t → (Enables.put root b c t).res r = c.res r) ∧
    (∀ r, r ≠ t → (Enables.put root b c t).flow r = c.flow r) ∧
    (∀ r, r ≠ t → (Enables.put root b c t).name r = c.name r) ∧
    (t ∉ namesOf root → (Enables.put root b c t).name = c.name) ∧
    (t ∉ resourcesOf root → t ∉ flowsOf root →
      (Enables.put root b c t).res = c.res ∧ (Enables.put root b c t).flow = c.flow) := by
  simp only [Enables.put]
  refine ⟨fun r hr => ?_, fun r hr => ?_, fun r hr => ?_, fun h => ?_, fun h2 h3 => ?_⟩
  · split
    · simp [setOne, hr]
    · split
      · rfl
      · split <;> rfl
  · split
    · rfl
    · split
      · simp [setOne, hr]
      · split <;> rfl
  · split
    · rfl
    · split
      · rfl
      · split
        · simp [setOne, hr]
        · rfl
  · split
    · rfl
    · split
      · rfl
      · first | rfl | rw [if_neg h]
  · rw [if_neg h2, if_neg h3]; split <;> exact ⟨rfl, rfl⟩

theorem puts_other (root : List Irq) (b : Bool) (ts : List Nat) (c : Enables) :
    (∀ r, r ∉ ts → (ts.foldl (Enables.put root b) c).res r = c.res r) ∧
    (∀ r, r ∉ ts → (ts.foldl (Enables.put root b) c).flow r = c.flow r) ∧
    (∀ r, r ∉ ts → (ts.foldl (Enables.put root b) c).name r = c.name r) ∧
    ((∀ t ∈ ts, t ∉ namesOf root) → (ts.foldl (Enables.put root b) c).name = c.name) ∧
    ((∀ t ∈ ts, t ∉ resourcesOf root ∧ t ∉ flowsOf root) →
      (ts.foldl (Enables.put root b) c).res = c.res ∧
      (ts.foldl (Enables.put root b) c).flow = c.flow) := by
  induction ts generalizing c with
  | nil => simp
  | cons t ts ih =>
    obtain ⟨a1, a2, a3, a4, a5⟩ := put_other root b c t
    obtain ⟨b1, b2, b3, b4, b5⟩ := ih (Enables.put root b c t)
    simp only [List.foldl_cons, List.mem_cons, not_or]
    refine ⟨fun r h => by rw [b1 r h.2, a1 r h.1], fun r h => by rw [b2 r h.2, a2 r h.1],
      fun r h => by rw [b3 r h.2, a3 r h.1], fun h => ?_, fun h => ?_⟩
    · rw [b4 (fun t ht => h t (.inr ht)), a4 (h t (.inl rfl))]
    · obtain ⟨h2, h3⟩ := h t (.inl rfl)
      obtain ⟨e1, e2⟩ := b5 fun t ht => h t (.inr ht)
      obtain ⟨f1, f2⟩ := a5 h2 h3
      exact ⟨e1.trans f1, e2.trans f2⟩

/-- What an operation asks for is what the enables have afterwards. -/
theorem puts_set (root : List Irq) (b : Bool) (ts : List Nat) (c : Enables) (t : Nat) (h : t ∈ ts) :
    (t ∈ resourcesOf root → (ts.foldl (Enables.put root b) c).res t = b) ∧
    (t ∈ flowsOf root → t ∉ resourcesOf root → (ts.foldl (Enables.put root b) c).flow t = b) ∧
    (t ∈ namesOf root → t ∉ resourcesOf root → t ∉ flowsOf root →
      (ts.foldl (Enables.put root b) c).name t = b) := by
  induction ts generalizing c with
  | nil => simp at h
  | cons u us ih =>
    rw [List.foldl_cons]
    by_cases hu : t ∈ us
    · exact ih _ hu
    · have htu : t = u := by
        rcases List.mem_cons.1 h with h | h
        · exact h
        · exact absurd h hu
      subst htu
      obtain ⟨b1, b2, b3, _⟩ := puts_other root b us (Enables.put root b c t)
      refine ⟨fun h1 => ?_, fun h1 h2 => ?_, fun h1 h2 h3 => ?_⟩
      · rw [b1 t hu]; simp [Enables.put, h1, setOne]
      · rw [b2 t hu]; simp [Enables.put, h1, h2, setOne]
      · rw [b3 t hu]; simp [Enables.put, h1, h2, h3, setOne]

/-- C43: the operation enables or disables what it is asked to and nothing else. -/
theorem C43_enables {w : Nat} {H : Hal w} {root : List Irq} (hw : WellFormed H root) (d : Ctl w)
    (b p : Bool) (ts : List Nat) (x : Irq) (hx : InTree root x) :
    (∀ r ∈ x.info.resources, ((Op.items b p ts).run H root d).en.res r =
      if r ∈ ts then b else d.en.res r) ∧
    (∀ f ∈ x.flows, ((Op.items b p ts).run H root d).en.flow f =
      if f ∈ ts then b else d.en.flow f) ∧
    ((Op.items b p ts).run H root d).en.name x.info.name =
      if x.info.name ∈ ts then b else d.en.name x.info.name := by
  rw [Op.run_eq, update_en]
  show _ ∧ _ ∧ _
  simp only [Op.enables]
  obtain ⟨b1, b2, b3, _⟩ := puts_other root b ts d.en
  refine ⟨fun r hr => ?_, fun f hf => ?_, ?_⟩
  · split
    · next h => exact (puts_set root b ts d.en r h).1 ((mem_resourcesOf _ _).2 ⟨x, hx, hr⟩)
    · next h => exact b1 r h
  · split
    · next h =>
      refine (puts_set root b ts d.en f h).2.1 ((mem_flowsOf _ _).2 ⟨x, hx, hf⟩) ?_
      intro hr
      obtain ⟨y, hy, hry⟩ := (mem_resourcesOf _ _).1 hr
      exact (hw.kinds x y hx hy).2.2 f hf hry
    · next h => exact b2 f h
  · split
    · next h =>
      refine (puts_set root b ts d.en _ h).2.2 ((mem_namesOf _ _).2 ⟨x, hx, rfl⟩) ?_ ?_
      · intro hr
        obtain ⟨y, hy, hry⟩ := (mem_resourcesOf _ _).1 hr
        exact (hw.kinds x y hx hy).1 hry
      · intro hr
        obtain ⟨y, hy, hry⟩ := (mem_flowsOf _ _).1 hr
        exact (hw.kinds x y hx hy).2.1 hry
    · next h => exact b3 _ h

/-- C43: initialisation enables the resources and flows of the policy, and all names. -/
theorem C43_init_enables {w : Nat} (H : Hal w) (root already : List Irq) (res flows : Nat → Bool)
    (d : Ctl w) (n : Nat) : (init H root already res flows d).en.res n = res n ∧
      (init H root already res flows d).en.flow n = flows n ∧
      (init H root already res flows d).en.name n = true := by
  obtain ⟨d2, e, hen, _⟩ := init_eq H root already res flows d
  rw [e, update_en, hen]
  exact ⟨rfl, rfl, rfl⟩

/-- C43: an operation by name enables or disables the named interrupts and nothing else. -/
theorem C43_enables_names {w : Nat} {H : Hal w} {root : List Irq} (hw : WellFormed H root) (d : Ctl w)
    (b : Bool) (ns : List Nat) (hn : ∀ n ∈ ns, ∃ y, InTree root y ∧ y.info.name = n) (x : Irq)
    (hx : InTree root x) :
    (∀ r ∈ x.info.resources, ((Op.names b ns).run H root d).en.res r = d.en.res r) ∧
    (∀ f ∈ x.flows, ((Op.names b ns).run H root d).en.flow f = d.en.flow f) ∧
    ((Op.names b ns).run H root d).en.name x.info.name =
      if x.info.name ∈ ns then b else d.en.name x.info.name := by
  rw [Op.run_eq, update_en]
  simp only [Op.enables]
  obtain ⟨_, _, b3, _, b5⟩ := puts_other root b ns d.en
  have hk : ∀ y, InTree root y → y.info.name ∉ resourcesOf root ∧ y.info.name ∉ flowsOf root := by
    intro y hy
    constructor
    · intro h
      obtain ⟨z, hz, hr⟩ := (mem_resourcesOf _ _).1 h
      exact (hw.kinds y z hy hz).1 hr
    · intro h
      obtain ⟨z, hz, hr⟩ := (mem_flowsOf _ _).1 h
      exact (hw.kinds y z hy hz).2.1 hr
  obtain ⟨e1, e2⟩ := b5 fun n h => by
    obtain ⟨y, hy, rfl⟩ := hn n h
    exact hk y hy
  refine ⟨fun r _ => by rw [e1], fun f _ => by rw [e2], ?_⟩
  split
  · next h =>
    exact (puts_set root b ns d.en _ h).2.2 ((mem_namesOf _ _).2 ⟨x, hx, rfl⟩) (hk x hx).1 (hk x hx).2
  · next h => exact b3 _ h

/-- The operation is one for which the controller updates every interrupt it should: with propagation,
for flows, and for resources at most one level below another interrupt; by name, for interrupts whose
ancestors are named too; or a refresh of everything or reset. -/
def Op.Safe (root : List Irq) : Op → Prop
  | .items _ p ts => p = true ∧ ∀ t ∈ ts, t ∉ namesOf root ∧ Near root t
  | .names _ ns => ∀ n ∈ ns, (n ∉ resourcesOf root ∧ n ∉ flowsOf root) ∧
      ∀ x y, InTree root x → Below y x → y.info.name = n → x.info.name ∈ ns
  | _ => True

theorem refreshTop_matches {w : Nat} {H : Hal w} {root : List Irq} (hw : WellFormed H root)
    (d : Ctl w) (hs : Synced H root d) (hm : Matches H root d) :
    Matches H root (Op.refreshTop.run H root d) := fun x hx =>
  bitsRight_update (c := d.en) hw (fun y hy => ⟨y, hy, .refl _⟩) hx (.inl hs)
    (.inr ⟨hm x hx, Iff.rfl⟩)

theorem step_matches {w : Nat} {H : Hal w} {root : List Irq} (hw : WellFormed H root)
    (d : Ctl w) (hs : Synced H root d) (hm : Matches H root d) (op : Op) (ho : op.Safe root) :
    Matches H root (op.run H root d) := by
  cases op with
  | refreshAll => exact C43_refreshAll hw d
  | reset => exact (C43_reset hw d).1
  | refreshTop => exact refreshTop_matches hw d hs hm
  | items b p ts =>
    obtain ⟨rfl, ho⟩ := ho
    intro x hx
    rw [Op.run_eq]
    refine bitsRight_update hw (fun y hy => (Op.irqs_tree hw.names _ hy).1) hx (.inl hs) ?_
    by_cases ha : x ∈ affected root true ts
    · exact .inl ha
    · refine .inr ⟨hm x hx, On.congr_iff fun y hy => ?_⟩
      have hno : ∀ t ∈ ts, t ∉ y.info.resources ∧ t ∉ y.flows := by
        intro t ht
        rw [mem_affected hw.names] at ha
        simp only [if_true, mem_allResources, mem_allFlows] at ha
        constructor
        · intro hr
          apply ha
          refine ⟨hx, t, ht, .inl ?_⟩
          rcases (ho t ht).2 x y hx hy hr with rfl | hsub
          · exact .inl hr
          · exact .inr ⟨y, hsub, hr⟩
        · intro hf
          exact ha ⟨hx, t, ht, .inr ⟨y, hy, hf⟩⟩
      obtain ⟨b1, b2, b3, b4, _⟩ := puts_other root b ts d.en
      simp only [Op.enables]
      refine ⟨by rw [b4 fun t ht => (ho t ht).1], fun r hr => b1 r fun h => (hno r h).1 hr,
        fun f hf => b2 f fun h => (hno f h).2 hf⟩
  | names b ns =>
    intro x hx
    rw [Op.run_eq]
    refine bitsRight_update hw (fun y hy => (Op.irqs_tree hw.names _ hy).1) hx (.inl hs) ?_
    by_cases ha : x.info.name ∈ ns
    · refine .inl ?_
      simp only [Op.irqs, List.mem_flatten, List.mem_map]
      exact ⟨_, ⟨_, ha, rfl⟩, List.mem_filter.2 ⟨(mem_root _ _).2 hx, by simp⟩⟩
    · refine .inr ⟨hm x hx, On.congr_iff fun y hy => ?_⟩
      have hny : y.info.name ∉ ns := fun h => ha ((ho _ h).2 x y hx hy rfl)
      have hy' := hx.below hy
      simp only [Op.enables]
      obtain ⟨_, _, b3, _, b5⟩ := puts_other root b ns d.en
      obtain ⟨e1, e2⟩ := b5 fun n hn => (ho n hn).1
      exact ⟨b3 _ hny, fun r _ => by rw [e1], fun f _ => by rw [e2]⟩

/-- C43: from a state where all enable bits are right they stay right over every history of safe
operations. Missing: propagation past one level for resources, operations without propagation, by
name on an interrupt whose ancestors are not named (see the violations below). -/
theorem C43_histories_partial {w : Nat} {H : Hal w} {root : List Irq} (hw : WellFormed H root)
    (ops : List Op) (ho : ∀ op ∈ ops, op.Safe root) (d : Ctl w) (hs : Synced H root d)
    (hm : Matches H root d) : Matches H root (runOps H root d ops) := by
  induction ops generalizing d with
  | nil => exact hm
  | cons op ops ih =>
    rw [runOps, List.foldl_cons]
    exact ih (fun o h => ho o (by simp [h])) _ (by rw [Op.run_eq]; exact synced_update hs)
      (step_matches hw d hs hm op (ho op (by simp)))

/-- C43 from initialisation on. -/
theorem C43_init_histories_partial {w : Nat} {H : Hal w} {root : List Irq} (hw : WellFormed H root)
    (res flows : Nat → Bool) (d : Ctl w) (h0 : OnlySet H root [] d) (ops : List Op)
    (ho : ∀ op ∈ ops, op.Safe root) :
    Matches H root (runOps H root (init H root [] res flows d) ops) :=
  C43_histories_partial hw ops ho _ (C44_init_partial H root [] res flows d h0)
    (C43_init_partial hw res flows d h0)

/-- All interrupts without sub-interrupts are right. -/
def LeavesMatch {w : Nat} (H : Hal w) (root : List Irq) (d : Ctl w) : Prop :=
  ∀ i fs, InTree root (.element i fs) → BitsRight H d (.element i fs)

/-- No interrupt is enabled or disabled by giving its name as a type, and names are no resources or
flows. -/
def Op.NamesByName (root : List Irq) : Op → Prop
  | .items _ _ ts => ∀ t ∈ ts, t ∉ namesOf root
  | .names _ ns => ∀ n ∈ ns, n ∉ resourcesOf root ∧ n ∉ flowsOf root
  | _ => True

theorem step_leaves {w : Nat} {H : Hal w} {root : List Irq} (hw : WellFormed H root)
    (d : Ctl w) (hs : Synced H root d) (hm : LeavesMatch H root d) (op : Op)
    (ho : op.NamesByName root) : LeavesMatch H root (op.run H root d) := by
  intro i fs hx
  cases op with
  | refreshAll => exact C43_refreshAll hw d _ hx
  | reset => exact (C43_reset hw d).1 _ hx
  | refreshTop =>
    exact bitsRight_update (c := d.en) hw (fun y hy => ⟨y, hy, .refl _⟩) hx (.inl hs)
      (.inr ⟨hm i fs hx, Iff.rfl⟩)
  | items b p ts =>
    rw [Op.run_eq]
    refine bitsRight_update hw (fun y hy => (Op.irqs_tree hw.names _ hy).1) hx (.inl hs) ?_
    by_cases ha : Irq.element i fs ∈ affected root p ts
    · exact .inl ha
    · refine .inr ⟨hm i fs hx, On.congr_iff fun y hy => ?_⟩
      cases hy
      have hno : ∀ t ∈ ts, t ∉ i.resources ∧ t ∉ fs := by
        intro t ht
        rw [mem_affected hw.names] at ha
        constructor
        · intro hr
          apply ha
          refine ⟨hx, t, ht, .inl ?_⟩
          cases p with
          | false => exact hr
          | true => exact (mem_allResources _ _).2 (.inl hr)
        · intro hf
          apply ha
          refine ⟨hx, t, ht, .inr ?_⟩
          cases p <;> exact hf
      obtain ⟨b1, b2, b3, b4, _⟩ := puts_other root b ts d.en
      simp only [Op.enables]
      exact ⟨by rw [b4 ho], fun r hr => b1 r fun h => (hno r h).1 hr,
        fun f hf => b2 f fun h => (hno f h).2 hf⟩
  | names b ns =>
    rw [Op.run_eq]
    refine bitsRight_update hw (fun y hy => (Op.irqs_tree hw.names _ hy).1) hx (.inl hs) ?_
    by_cases ha : i.name ∈ ns
    · refine .inl ?_
      simp only [Op.irqs, List.mem_flatten, List.mem_map]
      exact ⟨_, ⟨_, ha, rfl⟩, List.mem_filter.2 ⟨(mem_root _ _).2 hx, by simp [Irq.info]⟩⟩
    · refine .inr ⟨hm i fs hx, On.congr_iff fun y hy => ?_⟩
      cases hy
      obtain ⟨_, _, b3, _, b5⟩ := puts_other root b ns d.en
      obtain ⟨e1, e2⟩ := b5 ho
      simp only [Op.enables]
      exact ⟨b3 _ ha, fun r _ => by rw [e1], fun f _ => by rw [e2]⟩

/-- C43 for interrupts without sub-interrupts: their enable bits stay right over every history, with
or without propagation, by name or not. -/
theorem C43_leaves {w : Nat} {H : Hal w} {root : List Irq} (hw : WellFormed H root)
    (ops : List Op) (ho : ∀ op ∈ ops, op.NamesByName root) (d : Ctl w) (hs : Synced H root d)
    (hm : LeavesMatch H root d) : LeavesMatch H root (runOps H root d ops) := by
  induction ops generalizing d with
  | nil => exact hm
  | cons op ops ih =>
    rw [runOps, List.foldl_cons]
    exact ih (fun o h => ho o (by simp [h])) _ (by rw [Op.run_eq]; exact synced_update hs)
      (step_leaves hw d hs hm op (ho op (by simp)))

/-! ### Cases -/

/-- Three levels; resource 50 is two levels below the top. -/
def leaf3 : Irq := .element { name := 12, enable := some 2, resources := [50] } [5]
/-- The middle level. -/
def mid3 : Irq := .container { name := 11, enable := some 1 } [leaf3]
/-- The top level. -/
def top3 : Irq := .container { name := 10, enable := some 0 } [mid3]
/-- Two levels; resource 50 is one level below the top. -/
def top2 : Irq := .container { name := 10, enable := some 0 } [leaf3]

theorem inTree3 {x : Irq} (h : InTree [top3] x) : x = top3 ∨ x = mid3 ∨ x = leaf3 := by
  have := (mem_root _ _).2 h
  simpa [rootDescendants, descendantsL, top3, mid3, leaf3, Irq.descendants] using this

theorem inTree2 {x : Irq} (h : InTree [top2] x) : x = top2 ∨ x = leaf3 := by
  have := (mem_root _ _).2 h
  simpa [rootDescendants, descendantsL, top2, leaf3, Irq.descendants] using this

theorem exHal_bit {f i : Nat} (hf : f < 8) : (exHal.mask f).getLsbD i = true ↔ i = f := by
  simp only [exHal]
  rw [BitVec.getLsbD_shiftLeft]
  by_cases h : i = f
  · subst h; simp [hf]
  · simp only [h, iff_false]
    intro hb
    simp at hb
    omega

theorem wf_ex {root : List Irq}
    (h1 : ∀ x, InTree root x → ∃ f, x.info.enable = some f ∧ f < 8 ∧ x.info.name = 10 + f)
    (h2 : ∀ x y, InTree root x → InTree root y → x.info.enable = y.info.enable → x = y)
    (h3 : ∀ x y, InTree root x → InTree root y →
      x.info.name ∉ y.info.resources ∧ x.info.name ∉ y.flows ∧ ∀ t ∈ x.flows, t ∉ y.info.resources) :
    WellFormed exHal root := by
  refine ⟨fun x y hx hy he => ?_, h3, fun x y r i hx hy ⟨f, hf, _, hm⟩ ⟨g, hg, _, hn⟩ => ?_⟩
  · obtain ⟨f, hf, _, hn⟩ := h1 x hx
    obtain ⟨g, hg, _, hm⟩ := h1 y hy
    apply h2 x y hx hy
    rw [hf, hg]; congr 1; omega
  · obtain ⟨f', hf', hl, _⟩ := h1 x hx
    obtain ⟨g', hg', hl', _⟩ := h1 y hy
    rw [hf] at hf'; cases hf'
    rw [hg] at hg'; cases hg'
    apply h2 x y hx hy
    rw [hf, hg, ← (exHal_bit hl).1 hm, ← (exHal_bit hl').1 hn]

theorem wf3 : WellFormed exHal [top3] := by
  apply wf_ex
  · intro x hx
    rcases inTree3 hx with rfl | rfl | rfl
    · exact ⟨0, rfl, by omega, rfl⟩
    · exact ⟨1, rfl, by omega, rfl⟩
    · exact ⟨2, rfl, by omega, rfl⟩
  · intro x y hx hy he
    rcases inTree3 hx with rfl | rfl | rfl <;> rcases inTree3 hy with rfl | rfl | rfl <;>
      first | rfl | (exact absurd he (by decide))
  · intro x y hx hy
    rcases inTree3 hx with rfl | rfl | rfl <;> rcases inTree3 hy with rfl | rfl | rfl <;> decide

theorem wf2 : WellFormed exHal [top2] := by
  apply wf_ex
  · intro x hx
    rcases inTree2 hx with rfl | rfl
    · exact ⟨0, rfl, by omega, rfl⟩
    · exact ⟨2, rfl, by omega, rfl⟩
  · intro x y hx hy he
    rcases inTree2 hx with rfl | rfl <;> rcases inTree2 hy with rfl | rfl <;>
      first | rfl | (exact absurd he (by decide))
  · intro x y hx hy
    rcases inTree2 hx with rfl | rfl <;> rcases inTree2 hy with rfl | rfl <;> decide

/-- Nothing set, nothing enabled. -/
def blank : Ctl 8 := ⟨⟨fun _ => false, fun _ => false, fun _ => false⟩, fun _ => 0, fun _ => 0⟩

theorem blank_onlySet (root : List Irq) : OnlySet exHal root [] blank := by
  intro x f _ _ i
  simp [blank]

/-- In a tree of two levels resource operations with propagation are safe. -/
example : (Op.items false true [50, 5]).Safe [top2] := by
  refine ⟨rfl, fun t _ => ⟨?_, fun x y hx hy _ => ?_⟩⟩
  · rename_i ht
    rcases List.mem_cons.1 ht with rfl | ht
    · decide
    · rw [List.mem_singleton.1 ht]; decide
  · rcases inTree2 hx with rfl | rfl
    · cases hy with
      | refl => exact .inl rfl
      | sub hz h =>
        simp only [List.mem_singleton] at hz
        subst hz
        cases h
        exact .inr (List.mem_singleton.2 rfl)
    · cases hy
      exact .inl rfl
example : (Op.names false [10]).Safe [top2] := by
  intro n hn
  rw [List.mem_singleton] at hn
  subst hn
  refine ⟨by decide, fun x y hx hy he => ?_⟩
  rcases inTree2 hx with rfl | rfl
  · decide
  · cases hy
    exact absurd he (by decide)

/-- C43 is violated with three levels: disabling a resource of the lowest interrupt with propagation
leaves the top interrupt enabled although nothing below it is. -/
theorem C43_violated_depth : ∃ (root : List Irq) (d : Ctl 8) (t : Nat),
    WellFormed exHal root ∧ Synced exHal root d ∧ Matches exHal root d ∧
    (∃ x, InTree root x ∧ t ∈ x.info.resources) ∧
    ¬ Matches exHal root ((Op.items false true [t]).run exHal root d) := by
  refine ⟨[top3], init exHal [top3] [] (fun _ => true) (fun _ => true) blank, 50, wf3,
    C44_init_partial _ _ _ _ _ _ (blank_onlySet _), C43_init_partial wf3 _ _ _ (blank_onlySet _),
    ⟨leaf3, ⟨top3, by simp, .sub (List.mem_singleton.2 rfl) (.sub (List.mem_singleton.2 rfl) (.refl _))⟩,
      by decide⟩, fun h => ?_⟩
  have := (h top3 ⟨top3, by simp, .refl _⟩ 0 0 ⟨0, rfl, rfl, by decide⟩).1 (by decide +kernel)
  rw [← isOn_iff] at this
  revert this
  decide +kernel

/-- C43 is violated by name: disabling the only sub-interrupt by its name leaves the interrupt above
it enabled. -/
theorem C43_violated_name : ∃ (root : List Irq) (d : Ctl 8) (n : Nat),
    WellFormed exHal root ∧ Synced exHal root d ∧ Matches exHal root d ∧
    (∃ x, InTree root x ∧ x.info.name = n) ∧
    ¬ Matches exHal root ((Op.names false [n]).run exHal root d) := by
  refine ⟨[top2], init exHal [top2] [] (fun _ => true) (fun _ => true) blank, 12, wf2,
    C44_init_partial _ _ _ _ _ _ (blank_onlySet _), C43_init_partial wf2 _ _ _ (blank_onlySet _),
    ⟨leaf3, ⟨top2, by simp, .sub (List.mem_singleton.2 rfl) (.refl _)⟩, rfl⟩, fun h => ?_⟩
  have := (h top2 ⟨top2, by simp, .refl _⟩ 0 0 ⟨0, rfl, rfl, by decide⟩).1 (by decide +kernel)
  rw [← isOn_iff] at this
  revert this
  decide +kernel

/-- C43 is violated by giving a name as a type: the interrupt is marked disabled, but its own enable
bit stays set. -/
theorem C43_violated_name_type : ∃ (root : List Irq) (d : Ctl 8) (x : Irq),
    WellFormed exHal root ∧ Synced exHal root d ∧ Matches exHal root d ∧ InTree root x ∧
    ¬ BitsRight exHal ((Op.items false true [x.info.name]).run exHal root d) x := by
  refine ⟨[top2], init exHal [top2] [] (fun _ => true) (fun _ => true) blank, leaf3, wf2,
    C44_init_partial _ _ _ _ _ _ (blank_onlySet _), C43_init_partial wf2 _ _ _ (blank_onlySet _),
    ⟨top2, by simp, .sub (List.mem_singleton.2 rfl) (.refl _)⟩, fun h => ?_⟩
  have := (h 0 2 ⟨2, rfl, rfl, by decide⟩).1 (by decide +kernel)
  rw [← isOn_iff] at this
  revert this
  decide +kernel

/-! ## C65: initialisation by the manager -/

theorem initTop_bit {w : Nat} (H : Hal w) (world : World) (root : List Irq) (d : Ctl w) (r i : Nat) :
    ((initTop H world root d).hw r).getLsbD i = true ↔ (d.hw r).getLsbD i = true ∨
      ∃ x ∈ root, x.active world = true ∧ OwnsBit H x r i := by
  simp only [initTop, BitVec.getLsbD_or, Bool.or_eq_true, maskOf_bit, inReg, List.mem_filter,
    decide_eq_true_eq, ownsBit_iff]
  refine or_congr_right ?_
  constructor
  · rintro ⟨x, ⟨⟨a, b⟩, c⟩, e⟩; exact ⟨x, a, b, c, e⟩
  · rintro ⟨x, a, b, c, e⟩; exact ⟨x, ⟨⟨a, b⟩, c⟩, e⟩

/-- C65: if every top-level interrupt is active, then after the manager's initialisation the hardware
has what the controller remembers, every top-level interrupt is enabled, and every other interrupt's
enable bits are right. Missing: configurations with an inactive top-level interrupt. -/
theorem C65_manager_init_partial {w : Nat} {H : Hal w} {root : List Irq} (hw : WellFormed H root)
    (world : World) (res flows : Nat → Bool) (d : Ctl w) (h0 : OnlySet H root [] d)
    (ha : ∀ x ∈ root, x.active world = true) :
    Synced H root (managerInit H world root res flows d) ∧
    (∀ x ∈ root, ∀ r i, OwnsBit H x r i →
      ((managerInit H world root res flows d).hw r).getLsbD i = true) ∧
    ∀ x, InTree root x → x ∉ root → BitsRight H (managerInit H world root res flows d) x := by
  have h1 : OnlySet H root root (initTop H world root d) := by
    intro x f hx hf i
    rw [initTop_bit, h0 x f hx hf i]
    simp only [List.not_mem_nil, false_and, exists_false, false_or]
    constructor
    · rintro ⟨y, hy, _, ho⟩; exact ⟨y, hy, ho⟩
    · rintro ⟨y, hy, ho⟩; exact ⟨y, hy, ha y hy, ho⟩
  have hs := C44_init_partial H root root res flows _ h1
  refine ⟨hs, ?_, ?_⟩
  · intro x hx r i ho
    obtain ⟨f, hf, hr, _⟩ := id ho
    subst hr
    have hxt : InTree root x := ⟨x, hx, .refl _⟩
    obtain ⟨d2, e, hen, hhw, hsh⟩ := init_eq H root root res flows (initTop H world root d)
    rw [managerInit, hs x f hxt hf, e, update_shadow, newReg_bit]
    refine .inl ⟨(hsh x f hxt hf i).2 ⟨x, hx, ho⟩, ?_⟩
    rintro ⟨y, hy, hoy⟩
    rw [List.mem_filter] at hy
    have := hw.bits y x _ i ((mem_root _ _).1 hy.1) hxt hoy ho
    subst this
    simp only [decide_eq_true_eq] at hy
    exact hy.2 (List.mem_map.2 ⟨y, hx, rfl⟩)
  · intro x hx hnx
    obtain ⟨d2, e, hen, hhw, hsh⟩ := init_eq H root root res flows (initTop H world root d)
    rw [managerInit, e]
    refine bitsRight_update (c := d2.en) hw (fun y hy => (mem_root _ _).1 (List.mem_filter.1 hy).1) hx
      (.inl ?_) (.inl ?_)
    · intro y f hy hf
      rw [hhw]
      apply BitVec.eq_of_getLsbD_eq
      intro i _
      rw [Bool.eq_iff_iff, hsh y f hy hf i, h1 y f hy hf i]
    · rw [List.mem_filter]
      refine ⟨(mem_root _ _).2 hx, ?_⟩
      simp only [decide_eq_true_eq, List.mem_map]
      rintro ⟨y, hy, he⟩
      exact hnx (hw.names y x ⟨y, hy, .refl _⟩ hx he ▸ hy)

example : (∀ x ∈ [top2], x.active ⟨[0], fun _ f => f == 5, fun _ _ σ => σ⟩ = true) ∧
    (managerInit exHal ⟨[0], fun _ f => f == 5, fun _ _ σ => σ⟩ [top2] (fun _ => true)
      (fun f => f == 5) blank).hw 0 = 5#8 := by
  constructor
  · intro x hx; rw [List.mem_singleton.1 hx]; decide
  · decide +kernel

/-- An inactive top-level interrupt. -/
def idle : Irq := .element { name := 11, enable := some 1 } [6]

/-- C65 is violated by an inactive top-level interrupt that shares a register: writing the enable of
a sub-interrupt enables it too. -/
theorem C65_violated : ∃ (root : List Irq) (world : World) (x : Irq) (flows : Nat → Bool),
    WellFormed exHal root ∧ x ∈ root ∧ x.active world = false ∧
    (∀ f, flows f = true → ∃ n ∈ world.nexi, world.active n f = true) ∧
    OwnsBit exHal x 0 1 ∧ (blank.hw 0).getLsbD 1 = false ∧
    ((managerInit exHal world root (fun _ => true) flows blank).hw 0).getLsbD 1 = true ∧
    ¬ On (managerInit exHal world root (fun _ => true) flows blank).en x := by
  refine ⟨[top2, idle], ⟨[0], fun _ f => f == 5, fun _ _ σ => σ⟩, idle, fun f => f == 5, ?_, by simp,
    by decide, fun f hf => ⟨0, by simp, hf⟩, ⟨1, rfl, rfl, by decide⟩, by decide, by decide +kernel, ?_⟩
  · have ht : ∀ x, InTree [top2, idle] x → x = top2 ∨ x = idle ∨ x = leaf3 := by
      intro x h
      have := (mem_root _ _).2 h
      simpa [rootDescendants, descendantsL, top2, leaf3, idle, Irq.descendants] using this
    apply wf_ex
    · intro x hx
      rcases ht x hx with rfl | rfl | rfl
      · exact ⟨0, rfl, by omega, rfl⟩
      · exact ⟨1, rfl, by omega, rfl⟩
      · exact ⟨2, rfl, by omega, rfl⟩
    · intro x y hx hy he
      rcases ht x hx with rfl | rfl | rfl <;> rcases ht y hy with rfl | rfl | rfl <;>
        first | rfl | (exact absurd he (by decide))
    · intro x y hx hy
      rcases ht x hx with rfl | rfl | rfl <;> rcases ht y hy with rfl | rfl | rfl <;> decide
  · rw [← isOn_iff]
    decide +kernel

end Verif.Interrupt
