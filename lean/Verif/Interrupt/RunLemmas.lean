import Verif.Interrupt.Spec
import Mathlib.Tactic.Tauto
/-!
# Lemmas about running interrupts
-/
namespace Verif.Interrupt

/-! ## Trees -/

mutual
theorem mem_nodes : ∀ (x y : Irq), y ∈ x.nodes ↔ Below y x
  | .element i fs, y => by
    simp only [Irq.nodes, List.mem_singleton]
    constructor
    · rintro rfl; exact .refl _
    · intro h; cases h; rfl
  | .container i xs, y => by
    simp only [Irq.nodes, List.mem_cons, mem_nodesL xs y]
    constructor
    · rintro (rfl | ⟨z, hz, h⟩)
      · exact .refl _
      · exact .sub hz h
    · intro h
      cases h with
      | refl => exact .inl rfl
      | sub hz h => exact .inr ⟨_, hz, h⟩
theorem mem_nodesL : ∀ (xs : List Irq) (y : Irq), y ∈ nodesL xs ↔ ∃ z ∈ xs, Below y z
  | [], y => by simp [nodesL]
  | x :: xs, y => by
    simp only [nodesL, List.mem_append, mem_nodes x y, mem_nodesL xs y, List.mem_cons]
    constructor
    · rintro (h | ⟨z, hz, h⟩)
      · exact ⟨x, .inl rfl, h⟩
      · exact ⟨z, .inr hz, h⟩
    · rintro ⟨z, rfl | hz, h⟩
      · exact .inl h
      · exact .inr ⟨z, hz, h⟩
end

mutual
theorem active_iff (w : World) : ∀ x : Irq,
    x.active w = true ↔ ∃ i fs, Below (.element i fs) x ∧ SomeActive w fs
  | .element i fs => by
    have : fs.any w.flowActive = true ↔ SomeActive w fs := by
      simp [World.flowActive, SomeActive, List.any_eq_true]
    simp only [Irq.active, this]
    constructor
    · intro h; exact ⟨i, fs, .refl _, h⟩
    · rintro ⟨i', fs', h1, h2⟩; cases h1; exact h2
  | .container i xs => by
    simp only [Irq.active, activeL_iff w xs]
    constructor
    · rintro ⟨z, hz, i', fs, h1, h2⟩; exact ⟨i', fs, .sub hz h1, h2⟩
    · rintro ⟨i', fs, h1, h2⟩
      cases h1 with
      | sub hz h => exact ⟨_, hz, i', fs, h, h2⟩
theorem activeL_iff (w : World) : ∀ xs : List Irq,
    activeL w xs = true ↔ ∃ x ∈ xs, ∃ i fs, Below (.element i fs) x ∧ SomeActive w fs
  | [] => by simp [activeL]
  | x :: xs => by
    simp only [activeL, Bool.or_eq_true, active_iff w x, activeL_iff w xs, List.mem_cons]
    constructor
    · rintro (h | ⟨z, hz, h⟩)
      · exact ⟨x, .inl rfl, h⟩
      · exact ⟨z, .inr hz, h⟩
    · rintro ⟨z, rfl | hz, h⟩
      · exact .inl h
      · exact .inr ⟨z, hz, h⟩
end

theorem readField_iff (σ : Nat → Bool) (f : Option Nat) : readField σ f = true ↔ Reads σ f := by
  cases f <;> simp [readField, Reads]

theorem ready_iff (i : Info) (σ : Nat → Bool) :
    i.ready σ = true ↔ Reads σ i.enable ∧ Reads σ i.status := by
  simp [Info.ready, readField_iff]

theorem anyActive_iff (w : World) (fs : List Nat) : fs.any w.flowActive = true ↔ SomeActive w fs := by
  simp [World.flowActive, SomeActive, List.any_eq_true]

/-- Statuses of a list of trees. -/
def statusesL (xs : List Irq) : List Nat := (nodesL xs).filterMap (fun y => y.info.status)
/-- Enables of a list of trees. -/
def enablesL (xs : List Irq) : List Nat := (nodesL xs).filterMap (fun y => y.info.enable)
/-- Names of a list of trees. -/
def namesL (xs : List Irq) : List Nat := (nodesL xs).map (fun y => y.info.name)

theorem statuses_container (i : Info) (xs : List Irq) :
    (Irq.container i xs).statuses = i.status.toList ++ statusesL xs := by
  simp only [Irq.statuses, Irq.nodes, List.filterMap_cons, Irq.info, statusesL]
  cases i.status <;> rfl

theorem enables_container (i : Info) (xs : List Irq) :
    (Irq.container i xs).enables = i.enable.toList ++ enablesL xs := by
  simp only [Irq.enables, Irq.nodes, List.filterMap_cons, Irq.info, enablesL]
  cases i.enable <;> rfl

theorem names_container (i : Info) (xs : List Irq) :
    (Irq.container i xs).names = i.name :: namesL xs := rfl

theorem statusesL_cons (x : Irq) (xs : List Irq) :
    statusesL (x :: xs) = x.statuses ++ statusesL xs := by
  simp [statusesL, nodesL, Irq.statuses]

theorem enablesL_cons (x : Irq) (xs : List Irq) :
    enablesL (x :: xs) = x.enables ++ enablesL xs := by
  simp [enablesL, nodesL, Irq.enables]

theorem namesL_cons (x : Irq) (xs : List Irq) : namesL (x :: xs) = x.names ++ namesL xs := by
  simp [namesL, nodesL, Irq.names]

/-! ## Running with fixed field contents -/

/-- The clearing of the status field, as events. -/
def clearEv (i : Info) : List Ev := i.status.toList.map Ev.clear

/-- Events of a body with the clearing around it. -/
def wrap (i : Info) (body : List Ev) : List Ev :=
  match i.clear with
  | .first => clearEv i ++ body
  | .last => body ++ clearEv i
  | .dont => body

/-- Events of the flows of an element. -/
def callsEv (w : World) (n : Nat) (fs : List Nat) : List Ev :=
  (isrCalls w fs).map (fun c => .run n c.1 c.2)

mutual
/-- The events when every field reads its first content. -/
def trace (w : World) (σ : Nat → Bool) : Irq → List Ev
  | .element i fs => if fs.any w.flowActive && i.ready σ then wrap i (callsEv w i.name fs) else []
  | .container i xs => if activeL w xs && i.ready σ then wrap i (traceL w σ xs) else []
/-- The events of a list of interrupts. -/
def traceL (w : World) (σ : Nat → Bool) : List Irq → List Ev
  | [] => []
  | x :: xs => trace w σ x ++ traceL w σ xs
end

/-- What the fields protected by `T` keep, apart from those in `ex`. -/
def Keeps (T : Nat → Prop) (ex : List Nat) (f : (Nat → Bool) → (Nat → Bool) × List Ev) : Prop :=
  ∀ σ g, T g → g ∉ ex → (f σ).1 g = σ g

theorem Keeps.andThen {T : Nat → Prop} {e1 e2 : List Nat}
    {a b : (Nat → Bool) → (Nat → Bool) × List Ev} (ha : Keeps T e1 a) (hb : Keeps T e2 b) :
    Keeps T (e1 ++ e2) (andThen a b) := by
  intro σ g hT hg
  simp only [List.mem_append, not_or] at hg
  simp only [Interrupt.andThen]
  rw [hb _ g hT hg.2, ha _ g hT hg.1]

theorem Keeps.mono {T : Nat → Prop} {e1 e2 : List Nat}
    {a : (Nat → Bool) → (Nat → Bool) × List Ev} (ha : Keeps T e1 a) (h : ∀ g ∈ e1, g ∈ e2) :
    Keeps T e2 a := fun σ g hT hg => ha σ g hT (fun h' => hg (h g h'))

theorem keeps_clear (T : Nat → Prop) (f : Option Nat) :
    Keeps T f.toList (fun σ => clearField σ f) := by
  intro σ g _ hg
  cases f with
  | none => rfl
  | some s =>
    simp only [Option.toList, List.mem_singleton] at hg
    simp [clearField, hg]

theorem keeps_policy {T : Nat → Prop} {e : List Nat} (i : Info)
    {body : (Nat → Bool) → (Nat → Bool) × List Ev} (hb : Keeps T e body) :
    Keeps T (i.status.toList ++ e) (policyRun i body) := by
  simp only [policyRun]
  cases i.clear with
  | first => exact (keeps_clear T _).andThen hb
  | last => exact (hb.andThen (keeps_clear T _)).mono (by simp; tauto)
  | dont => exact hb.mono (by simp; tauto)

theorem keeps_isr {w : World} {T : Nat → Prop} (hq : ∀ f n σ g, T g → w.effect f n σ g = σ g)
    (name : Nat) (cs : List (Nat × Nat)) : Keeps T [] (isr w name cs) := by
  induction cs with
  | nil => intro σ g _ _; rfl
  | cons c cs ih =>
    obtain ⟨f, n⟩ := c
    intro σ g hT hg
    simp only [isr, Interrupt.andThen]
    rw [ih _ g hT hg, hq _ _ _ _ hT]

mutual
theorem keeps_run {w : World} {T : Nat → Prop} (hq : ∀ f n σ g, T g → w.effect f n σ g = σ g) :
    ∀ x : Irq, Keeps T x.statuses (Irq.run w x)
  | .element i fs => by
    intro σ g hT hg
    simp only [Irq.run]
    split
    · refine keeps_policy i (keeps_isr hq i.name _) σ g hT ?_
      revert hg
      simp only [Irq.statuses, Irq.nodes, List.filterMap_cons, Irq.info, List.filterMap_nil]
      cases i.status <;> simp
    · rfl
  | .container i xs => by
    intro σ g hT hg
    simp only [Irq.run]
    split
    · exact keeps_policy i (keeps_runL hq xs) σ g hT (by rwa [statuses_container] at hg)
    · rfl
theorem keeps_runL {w : World} {T : Nat → Prop} (hq : ∀ f n σ g, T g → w.effect f n σ g = σ g) :
    ∀ xs : List Irq, Keeps T (statusesL xs) (runL w xs)
  | [] => by intro σ g _ _; rfl
  | x :: xs => by
    rw [statusesL_cons]
    intro σ g hT hg
    simp only [runL]
    exact (keeps_run hq x).andThen (keeps_runL hq xs) σ g hT hg
end

theorem isr_trace (w : World) (name : Nat) (cs : List (Nat × Nat)) (σ : Nat → Bool) :
    (isr w name cs σ).2 = cs.map (fun c => .run name c.1 c.2) := by
  induction cs generalizing σ with
  | nil => rfl
  | cons c cs ih => obtain ⟨f, n⟩ := c; simp [isr, Interrupt.andThen, ih]

theorem clearField_trace (σ : Nat → Bool) (i : Info) : (clearField σ i.status).2 = clearEv i := by
  cases h : i.status <;> simp [clearField, clearEv, h]

theorem ready_congr {σ τ : Nat → Bool} (i : Info)
    (h : ∀ g, g ∈ i.enable.toList ++ i.status.toList → τ g = σ g) : i.ready τ = i.ready σ := by
  have : ∀ f : Option Nat, (∀ g ∈ f.toList, τ g = σ g) → readField τ f = readField σ f := by
    intro f hf
    cases f with
    | none => rfl
    | some g => exact hf g (by simp)
  rw [Info.ready, Info.ready, this _ fun g hg => h g (by simp [hg]),
    this _ fun g hg => h g (by simp [hg])]

mutual
theorem run_trace {w : World} {T : Nat → Prop} (hq : ∀ f n σ g, T g → w.effect f n σ g = σ g)
    (σ : Nat → Bool) : ∀ (x : Irq) (τ : Nat → Bool), x.statuses.Nodup →
      (∀ s ∈ x.statuses, s ∉ x.enables) → (∀ g, g ∈ x.statuses ∨ g ∈ x.enables → T g) →
      (∀ g, g ∈ x.statuses ∨ g ∈ x.enables → τ g = σ g) → (Irq.run w x τ).2 = trace w σ x
  | .element i fs, τ => by
    intro hn ha hT hg
    have hr : i.ready τ = i.ready σ := by
      apply ready_congr
      intro g h
      apply hg
      simp only [Irq.statuses, Irq.enables, Irq.nodes, List.filterMap_cons, Irq.info,
        List.filterMap_nil]
      rw [List.mem_append] at h
      rcases h with h | h
      · right; cases he : i.enable <;> simp_all
      · left; cases he : i.status <;> simp_all
    simp only [Irq.run, trace, hr]
    split
    · simp only [policyRun, wrap]
      cases i.clear <;> simp [Interrupt.andThen, isr_trace, clearField_trace, callsEv]
    · rfl
  | .container i xs, τ => by
    intro hn ha hT hg
    rw [statuses_container] at hn ha hT hg
    rw [enables_container] at ha hT hg
    have hr : i.ready τ = i.ready σ := by
      apply ready_congr
      intro g h
      apply hg
      simp only [List.mem_append] at h ⊢
      tauto
    simp only [Irq.run, trace, hr]
    split
    · rw [List.nodup_append] at hn
      have hsub : ∀ τ : Nat → Bool, (∀ g, g ∈ statusesL xs ∨ g ∈ enablesL xs → τ g = σ g) →
          (runL w xs τ).2 = traceL w σ xs := fun τ hτ =>
        runL_trace hq σ xs τ hn.2.1
          (fun s hs he => ha s (by simp [hs]) (by simp [he]))
          (fun g h => hT g (by simp only [List.mem_append]; tauto)) hτ
      have hg' : ∀ g, g ∈ statusesL xs ∨ g ∈ enablesL xs → τ g = σ g := fun g h =>
        hg g (by simp only [List.mem_append]; tauto)
      simp only [policyRun, wrap]
      cases i.clear with
      | first =>
        simp only [Interrupt.andThen, clearField_trace]
        rw [hsub]
        intro g h
        rw [keeps_clear T i.status τ g (hT g (by simp only [List.mem_append]; tauto)) ?_, hg' g h]
        intro hs
        rcases h with h | h
        · exact hn.2.2 g hs g h rfl
        · exact ha g (by simp [hs]) (by simp [h])
      | last => simp [Interrupt.andThen, clearField_trace, hsub τ hg']
      | dont => exact hsub τ hg'
    · rfl
theorem runL_trace {w : World} {T : Nat → Prop} (hq : ∀ f n σ g, T g → w.effect f n σ g = σ g)
    (σ : Nat → Bool) : ∀ (xs : List Irq) (τ : Nat → Bool), (statusesL xs).Nodup →
      (∀ s ∈ statusesL xs, s ∉ enablesL xs) → (∀ g, g ∈ statusesL xs ∨ g ∈ enablesL xs → T g) →
      (∀ g, g ∈ statusesL xs ∨ g ∈ enablesL xs → τ g = σ g) → (runL w xs τ).2 = traceL w σ xs
  | [], τ => by intro _ _ _ _; rfl
  | x :: xs, τ => by
    intro hn ha hT hg
    rw [statusesL_cons] at hn ha hT hg
    rw [enablesL_cons] at ha hT hg
    rw [List.nodup_append] at hn
    simp only [runL, traceL, Interrupt.andThen]
    rw [run_trace hq σ x τ hn.1 (fun s hs he => ha s (by simp [hs]) (by simp [he]))
      (fun g h => hT g (by simp only [List.mem_append]; tauto))
      (fun g h => hg g (by simp only [List.mem_append]; tauto))]
    rw [runL_trace hq σ xs _ hn.2.1 (fun s hs he => ha s (by simp [hs]) (by simp [he]))
      (fun g h => hT g (by simp only [List.mem_append]; tauto))]
    intro g h
    rw [keeps_run hq x τ g (hT g (by simp only [List.mem_append]; tauto)) ?_]
    · exact hg g (by simp only [List.mem_append]; tauto)
    · intro hs
      rcases h with h | h
      · exact hn.2.2 g hs g h rfl
      · exact ha g (by simp [hs]) (by simp [h])
end

/-! ## Events and interrupts -/

/-- The event is the clearing of the status field of `y`, or the call of a flow of `y`. -/
def Makes (w : World) (y : Irq) : Ev → Prop
  | .clear s => y.info.status = some s ∧ y.info.clear ≠ .dont
  | .run n f k => ∃ i fs, y = .element i fs ∧ i.name = n ∧ f ∈ fs ∧ k ∈ w.nexi

theorem mem_isrCalls (w : World) (fs : List Nat) (f k : Nat) :
    (f, k) ∈ isrCalls w fs ↔ f ∈ fs ∧ k ∈ w.nexi := by
  simp only [isrCalls, List.mem_flatten, List.mem_map]
  constructor
  · rintro ⟨_, ⟨f', hf, rfl⟩, hk⟩
    obtain ⟨k', hk', h⟩ := List.mem_map.1 hk
    cases h; exact ⟨hf, hk'⟩
  · rintro ⟨hf, hk⟩
    exact ⟨_, ⟨f, hf, rfl⟩, List.mem_map.2 ⟨k, hk, rfl⟩⟩

theorem mem_wrap {i : Info} {b : List Ev} {e : Ev} (h : e ∈ wrap i b) :
    e ∈ b ∨ (i.clear ≠ .dont ∧ ∃ s, i.status = some s ∧ e = .clear s) := by
  have hc : e ∈ clearEv i → ∃ s, i.status = some s ∧ e = .clear s := by
    simp only [clearEv, List.mem_map]
    rintro ⟨s, hs, rfl⟩
    cases hi : i.status with
    | none => simp [hi] at hs
    | some t => simp [hi] at hs; exact ⟨s, by rw [hs], rfl⟩
  simp only [wrap] at h
  cases hcl : i.clear <;> simp only [hcl, List.mem_append] at h
  · rcases h with h | h
    · exact .inr ⟨by simp, hc h⟩
    · exact .inl h
  · rcases h with h | h
    · exact .inl h
    · exact .inr ⟨by simp, hc h⟩
  · exact .inl h

mutual
theorem trace_makes (w : World) (σ : Nat → Bool) : ∀ (x : Irq) (e : Ev), e ∈ trace w σ x →
    ∃ y, Executed w σ y x ∧ Makes w y e
  | .element i fs, e => by
    intro h
    simp only [trace] at h
    split at h
    · next hc =>
      rw [Bool.and_eq_true, anyActive_iff, ready_iff] at hc
      have hex : Executed w σ (.element i fs) (.element i fs) :=
        .here hc.2.1 hc.2.2 (.refl _) hc.1
      rcases mem_wrap h with h | ⟨hd, s, hs, rfl⟩
      · simp only [callsEv, List.mem_map] at h
        obtain ⟨⟨f, k⟩, hm, rfl⟩ := h
        rw [mem_isrCalls] at hm
        exact ⟨_, hex, i, fs, rfl, rfl, hm.1, hm.2⟩
      · exact ⟨_, hex, hs, hd⟩
    · simp at h
  | .container i xs, e => by
    intro h
    simp only [trace] at h
    split at h
    · next hc =>
      rw [Bool.and_eq_true, activeL_iff, ready_iff] at hc
      rcases mem_wrap h with h | ⟨hd, s, hs, rfl⟩
      · obtain ⟨z, hz, y, hy, hm⟩ := traceL_makes w σ xs e h
        exact ⟨y, .deeper hc.2.1 hc.2.2 hz hy, hm⟩
      · obtain ⟨⟨z, hz, j, fs, hb, ha⟩, hr⟩ := hc
        exact ⟨_, .here hr.1 hr.2 (.sub hz hb) ha, hs, hd⟩
    · simp at h
theorem traceL_makes (w : World) (σ : Nat → Bool) : ∀ (xs : List Irq) (e : Ev), e ∈ traceL w σ xs →
    ∃ x ∈ xs, ∃ y, Executed w σ y x ∧ Makes w y e
  | [], e => by intro h; simp [traceL] at h
  | x :: xs, e => by
    intro h
    simp only [traceL, List.mem_append] at h
    rcases h with h | h
    · obtain ⟨y, hy⟩ := trace_makes w σ x e h
      exact ⟨x, by simp, y, hy⟩
    · obtain ⟨z, hz, y, hy⟩ := traceL_makes w σ xs e h
      exact ⟨z, by simp [hz], y, hy⟩
end

theorem Executed.isBelow {w : World} {σ : Nat → Bool} {y x : Irq} (h : Executed w σ y x) :
    Below y x := by
  induction h with
  | here => exact .refl _
  | deeper _ _ hz _ ih => exact .sub hz ih

theorem Executed.self {w : World} {σ : Nat → Bool} {y x : Irq} (h : Executed w σ y x) :
    Executed w σ y y := by
  induction h with
  | here h1 h2 h3 h4 => exact .here h1 h2 h3 h4
  | deeper _ _ _ _ ih => exact ih

theorem Executed.activeLeaf {w : World} {σ : Nat → Bool} {y x : Irq} (h : Executed w σ y x) :
    ∃ i fs, Below (.element i fs) x ∧ SomeActive w fs := by
  induction h with
  | here _ _ h3 h4 => exact ⟨_, _, h3, h4⟩
  | deeper _ _ hz _ ih =>
    obtain ⟨i, fs, h1, h2⟩ := ih
    exact ⟨i, fs, .sub hz h1, h2⟩

theorem Below.trans {a b c : Irq} (h1 : Below a b) (h2 : Below b c) : Below a c := by
  induction h2 with
  | refl => exact h1
  | sub hz _ ih => exact .sub hz (ih h1)

theorem makes_owned {w : World} {y x : Irq} {e : Ev} (hb : Below y x) (hm : Makes w y e) :
    Owned x e := by
  cases e with
  | clear s =>
    exact List.mem_filterMap.2 ⟨y, (mem_nodes x y).2 hb, hm.1⟩
  | run n f k =>
    obtain ⟨i, fs, rfl, hn, _⟩ := hm
    exact List.mem_map.2 ⟨_, (mem_nodes x _).2 hb, hn⟩

theorem trace_owned {w : World} {σ : Nat → Bool} {x : Irq} {e : Ev} (h : e ∈ trace w σ x) :
    Owned x e := by
  obtain ⟨y, hy, hm⟩ := trace_makes w σ x e h
  exact makes_owned hy.isBelow hm

theorem Owned.mono {y x : Irq} {e : Ev} (hb : Below y x) (h : Owned y e) : Owned x e := by
  cases e with
  | clear s =>
    obtain ⟨z, hz, hs⟩ := List.mem_filterMap.1 h
    exact List.mem_filterMap.2 ⟨z, (mem_nodes x z).2 (((mem_nodes y z).1 hz).trans hb), hs⟩
  | run n f k =>
    obtain ⟨z, hz, hs⟩ := List.mem_map.1 h
    exact List.mem_map.2 ⟨z, (mem_nodes x z).2 (((mem_nodes y z).1 hz).trans hb), hs⟩

/-- The events of one element of a list stand together, and the others belong to others. -/
theorem traceL_split (w : World) (σ : Nat → Bool) (xs : List Irq) (hn : (namesL xs).Nodup)
    (hs : (statusesL xs).Nodup) (z : Irq) (hz : z ∈ xs) :
    ∃ a b, traceL w σ xs = a ++ trace w σ z ++ b ∧ ∀ e ∈ a ++ b, ¬ Owned z e := by
  induction xs with
  | nil => simp at hz
  | cons x xs ih =>
    rw [namesL_cons, List.nodup_append] at hn
    rw [statusesL_cons, List.nodup_append] at hs
    have hother : ∀ (p q : Irq), p ∈ xs → (∀ e, Owned p e → Owned x e → False) := by
      intro p q hp e he hx
      cases e with
      | clear s =>
        refine hs.2.2 s hx s ?_ rfl
        obtain ⟨y, hy, hys⟩ := List.mem_filterMap.1 he
        exact List.mem_filterMap.2 ⟨y, (mem_nodesL xs y).2 ⟨p, hp, (mem_nodes p y).1 hy⟩, hys⟩
      | run n f k =>
        refine hn.2.2 n hx n ?_ rfl
        obtain ⟨y, hy, hys⟩ := List.mem_map.1 he
        exact List.mem_map.2 ⟨y, (mem_nodesL xs y).2 ⟨p, hp, (mem_nodes p y).1 hy⟩, hys⟩
    rcases List.mem_cons.1 hz with rfl | hz'
    · refine ⟨[], traceL w σ xs, by simp [traceL], fun e he ho => ?_⟩
      simp only [List.nil_append] at he
      obtain ⟨p, hp, y, hy, hm⟩ := traceL_makes w σ xs e he
      exact hother p p hp e (makes_owned hy.isBelow hm) ho
    · obtain ⟨a, b, h1, h2⟩ := ih hn.2.1 hs.2.1 hz'
      refine ⟨trace w σ x ++ a, b, by simp [traceL, h1], fun e he ho => ?_⟩
      simp only [List.append_assoc, List.mem_append] at he
      rcases he with he | he
      · exact hother z z hz' e ho (trace_owned he)
      · exact h2 e (by simpa using he) ho

theorem trace_executed {w : World} {σ : Nat → Bool} {y x : Irq} (h : Executed w σ y x)
    (hn : x.names.Nodup) (hs : x.statuses.Nodup) :
    ∃ a b, trace w σ x = a ++ trace w σ y ++ b ∧ ∀ e ∈ a ++ b, ¬ Owned y e := by
  induction h with
  | here => exact ⟨[], [], by simp, by simp⟩
  | @deeper i xs z x h1 h2 hz hx ih =>
    rw [names_container, List.nodup_cons] at hn
    rw [statuses_container, List.nodup_append] at hs
    have hnz : z.names.Nodup ∧ z.statuses.Nodup := by
      clear ih hx h1 h2
      have key : ∀ xs : List Irq, z ∈ xs → (namesL xs).Nodup → (statusesL xs).Nodup →
          z.names.Nodup ∧ z.statuses.Nodup := by
        intro xs
        induction xs with
        | nil => simp
        | cons y ys ih =>
          intro hz hn hs
          rw [namesL_cons, List.nodup_append] at hn
          rw [statusesL_cons, List.nodup_append] at hs
          rcases List.mem_cons.1 hz with rfl | hz
          · exact ⟨hn.1, hs.1⟩
          · exact ih hz hn.2.1 hs.2.1
      exact key xs hz hn.2 hs.2.1
    obtain ⟨a, b, e1, e2⟩ := ih hnz.1 hnz.2
    obtain ⟨c, d, f1, f2⟩ := traceL_split w σ xs hn.2 hs.2.1 z hz
    have hact : activeL w xs = true := by
      rw [activeL_iff]
      obtain ⟨j, fs, hb, ha⟩ := hx.activeLeaf
      exact ⟨z, hz, j, fs, hb, ha⟩
    have hr : i.ready σ = true := (ready_iff i σ).2 ⟨h1, h2⟩
    have hin : ∀ e, (e ∈ a ++ b ∨ e ∈ c ++ d) → ¬ Owned x e := by
      rintro e (he | he) ho
      · exact e2 e he ho
      · exact f2 e he (ho.mono hx.isBelow)
    have hcl : ∀ e ∈ clearEv i, ¬ Owned x e := by
      intro e he ho
      simp only [clearEv, List.mem_map] at he
      obtain ⟨s, hs', rfl⟩ := he
      refine hs.2.2 s hs' s ?_ rfl
      obtain ⟨y, hy, hys⟩ := List.mem_filterMap.1 (ho.mono hx.isBelow)
      exact List.mem_filterMap.2 ⟨y, (mem_nodesL xs y).2 ⟨z, hz, (mem_nodes z y).1 hy⟩, hys⟩
    simp only [trace, hact, hr, Bool.and_self, if_true, f1, e1, wrap]
    cases i.clear with
    | first =>
      refine ⟨clearEv i ++ c ++ a, b ++ d, by simp, fun e he => ?_⟩
      simp only [List.mem_append] at he
      rcases he with ((he | he) | he) | (he | he)
      · exact hcl e he
      all_goals exact hin e (by simp only [List.mem_append]; tauto)
    | last =>
      refine ⟨c ++ a, b ++ d ++ clearEv i, by simp, fun e he => ?_⟩
      simp only [List.mem_append] at he
      by_cases hc : e ∈ clearEv i
      · exact hcl e hc
      · exact hin e (by simp only [List.mem_append]; tauto)
    | dont =>
      refine ⟨c ++ a, b ++ d, by simp, fun e he => ?_⟩
      simp only [List.mem_append] at he
      rcases he with (he | he) | (he | he)
      all_goals exact hin e (by simp only [List.mem_append]; tauto)

end Verif.Interrupt
