import Verif.Pending.Spec
/-!
# Lemmas about requests
-/
namespace Verif.Pending
open Verif.Interrupt

variable {up : Nat → List Nat} {w : World}

/-! ## Without requests -/

/-- `a` does what `b` does when nothing is coming. -/
def Same (a : Prog) (b : (Nat → Bool) → (Nat → Bool) × List Ev) : Prop :=
  ∀ σ, a ⟨σ, []⟩ = (⟨(b σ).1, []⟩, (b σ).2.map ofEv)

theorem Same.seq {a a' : Prog} {b b'} (h : Same a b) (h' : Same a' b') :
    Same (seq a a') (andThen b b') := by
  intro σ
  simp only [Pending.seq, h σ, h' _, andThen, List.map_append]

theorem same_skip : Same skip (fun σ => (σ, [])) := fun _ => rfl

theorem same_clear (f : Option Nat) : Same (clear up f) (fun σ => clearField σ f) := by
  intro σ
  cases f <;> simp [clear, skip, clearField, Pending.seq, tick, ofEv]

theorem same_policy {a : Prog} {b} (i : Info) (h : Same a b) :
    Same (policyRun up i a) (Interrupt.policyRun i b) := by
  unfold policyRun Interrupt.policyRun
  cases i.clear
  · exact (same_clear _).seq h
  · exact h.seq (same_clear _)
  · exact h

theorem same_isr (name : Nat) (cs : List (Nat × Nat)) :
    Same (isr up w name cs) (Interrupt.isr w name cs) := by
  induction cs with
  | nil => exact same_skip
  | cons c cs ih =>
    have : Same (flowStep up w name c) (fun σ => (w.effect c.1 c.2 σ, [.run name c.1 c.2])) := by
      intro σ; simp [flowStep, Pending.seq, tick, ofEv]
    exact this.seq ih

theorem same_when {a : Prog} {b} (i : Info) (h : Same a b) :
    Same (whenSet up i.enable (whenSet up i.status a))
      (fun σ => if i.ready σ then b σ else (σ, [])) := by
  intro σ
  unfold whenSet Info.ready readField
  cases i.enable with
  | none =>
    cases i.status with
    | none => simpa using h σ
    | some g =>
      simp only [Pending.seq, tick, Bool.true_and]
      by_cases hg : σ g = true
      · simp [hg, h σ]
      · simp [hg]
  | some e =>
    by_cases he : σ e = true
    · cases i.status with
      | none => simp [Pending.seq, tick, he, h σ]
      | some g =>
        by_cases hg : σ g = true
        · simp [Pending.seq, tick, he, hg, h σ]
        · simp [Pending.seq, tick, he, hg]
    · cases i.status <;> simp [Pending.seq, tick, he]

theorem same_run (x : Irq) : Same (run up w x) (Irq.run w x) := by
  induction x using Irq.rec (motive_2 := fun xs => Same (runL up w xs) (Interrupt.runL w xs)) with
  | element i fs =>
    intro σ
    rw [run, Irq.run]
    by_cases ha : fs.any w.flowActive = true
    · rw [if_pos ha, ha, Bool.true_and]
      exact same_when i (same_policy i (same_isr i.name _)) σ
    · rw [if_neg ha]
      simp only [Bool.not_eq_true] at ha
      simp [ha, skip]
  | container i xs ih =>
    intro σ
    rw [run, Irq.run]
    by_cases ha : activeL w xs = true
    · rw [if_pos ha, ha, Bool.true_and]
      exact same_when i (same_policy i ih) σ
    · rw [if_neg ha]
      simp only [Bool.not_eq_true] at ha
      simp [ha, skip]
  | nil => intro σ; rw [runL, Interrupt.runL]; rfl
  | cons x xs h1 h2 =>
    intro σ; rw [runL, Interrupt.runL]; exact (h1.seq h2) σ

/-! ## What pieces keep -/

/-- A request of `f` has been raised and the call `c` has not been made since. -/
def owed (f : Nat) (c : Act) (b : Bool) (t : List Act) : Bool :=
  t.foldl (fun b a => if a = .raise f then true else if a = c then false else b) b

theorem owed_append (f : Nat) (c : Act) (b : Bool) (t u : List Act) :
    owed f c b (t ++ u) = owed f c (owed f c b t) u := by simp [owed, List.foldl_append]

/-- The fields `E` are set, and those of `S` if something is owed. -/
def P (E S : List Nat) (h : Hw) (b : Bool) : Prop := AllSet h.σ E ∧ (b = true → AllSet h.σ S)

/-- `a` leads from `X` to `Y`. -/
def Leads (f : Nat) (c : Act) (X : Hw → Bool → Prop) (a : Prog) (Y : Hw → Bool → Prop) : Prop :=
  ∀ h b, X h b → Y (a h).1 (owed f c b (a h).2)

theorem Leads.seq {f : Nat} {c : Act} {X Y Z} {a b : Prog} (h1 : Leads f c X a Y)
    (h2 : Leads f c Y b Z) : Leads f c X (seq a b) Z := by
  intro h d hx
  simp only [Pending.seq, owed_append]
  exact h2 _ _ (h1 _ _ hx)

theorem Leads.weaken {f : Nat} {c : Act} {X Y Y'} {a : Prog} (h1 : Leads f c X a Y)
    (hw : ∀ h b, Y h b → Y' h b) : Leads f c X a Y' := fun h d hx => hw _ _ (h1 h d hx)

theorem Leads.strengthen {f : Nat} {c : Act} {X X' Y} {a : Prog} (h1 : Leads f c X a Y)
    (hw : ∀ h b, X' h b → X h b) : Leads f c X' a Y := fun h d hx => h1 h d (hw _ _ hx)

theorem leads_skip (f : Nat) (c : Act) (X) : Leads f c X skip X := fun _ _ h => h

theorem owed_raises {f : Nat} {c : Act} {b : Bool} {fs : List Nat}
    (h : owed f c b (fs.map .raise) = true) : b = true ∨ f ∈ fs := by
  induction fs generalizing b with
  | nil => exact .inl h
  | cons g fs ih =>
    rw [List.map_cons, owed, List.foldl_cons] at h
    rcases ih h with h | h
    · split at h
      · next e => cases e; exact .inr (by simp)
      · split at h
        · cases h
        · exact .inl h
    · exact .inr (List.mem_cons_of_mem _ h)

/-- Ticks only set fields, and a request of `f` sets all it is wired to. -/
theorem leads_tick {f : Nat} (c : Act) (E S : List Nat) (hS : ∀ g ∈ S, g = f ∨ g ∈ up f) :
    Leads f c (P E S) (tick up) (P E S) := by
  intro h b ⟨hE, hb⟩
  unfold tick
  split
  · exact ⟨hE, hb⟩
  · next fs rest _ =>
    refine ⟨fun g hg => by simp [hE g hg], fun ho g hg => ?_⟩
    rcases owed_raises ho with h1 | h1
    · simp [hb h1 g hg]
    · simp only [Bool.or_eq_true, List.any_eq_true, beq_iff_eq, List.contains_iff_mem]
      exact .inr ⟨f, h1, hS g hg⟩

theorem leads_clear {f : Nat} {n fl k : Nat} (E S S' : List Nat) (hS : ∀ g ∈ S, g = f ∨ g ∈ up f)
    (o : Option Nat) (hE : ∀ g, o = some g → g ∉ E) (hS' : ∀ g ∈ S', g ∈ S ∧ o ≠ some g) :
    Leads f (.run n fl k) (P E S) (clear up o) (P E S') := by
  unfold clear
  cases o with
  | none =>
    intro h b ⟨h1, h2⟩
    exact ⟨h1, fun hb g hg => h2 hb g (hS' g hg).1⟩
  | some s =>
    refine (leads_tick _ E S hS).seq ?_
    intro h b ⟨h1, h2⟩
    refine ⟨fun g hg => ?_, fun hb g hg => ?_⟩
    · have : g ≠ s := fun e => hE s rfl (e ▸ hg)
      simp only [this, if_false]
      exact h1 g hg
    · have hne : g ≠ s := fun e => (hS' g hg).2 (by rw [e])
      simp only [hne, if_false]
      exact h2 (by simpa [owed] using hb) g (hS' g hg).1

theorem leads_flow {f : Nat} {n fl k : Nat} (E S : List Nat) (hS : ∀ g ∈ S, g = f ∨ g ∈ up f)
    (hq : ∀ fl n σ g, g ∈ S ∨ g ∈ E → w.effect fl n σ g = σ g) (m : Nat) (d : Nat × Nat) :
    Leads f (.run n fl k) (P E S) (flowStep up w m d) (P E S) := by
  refine (leads_tick _ E S hS).seq ?_
  intro h b ⟨h1, h2⟩
  refine ⟨fun g hg => ?_, fun hb g hg => ?_⟩
  · show w.effect _ _ h.σ g = true
    rw [hq _ _ _ _ (.inr hg)]; exact h1 g hg
  · show w.effect _ _ h.σ g = true
    rw [hq _ _ _ _ (.inl hg)]
    apply h2 _ g hg
    simp only [owed, List.foldl_cons, List.foldl_nil, reduceCtorEq, if_false] at hb
    split at hb
    · cases hb
    · exact hb

/-- Making the call settles the debt. -/
theorem leads_call {f : Nat} {n fl k : Nat} (E S : List Nat)
    (hq : ∀ fl n σ g, g ∈ E → w.effect fl n σ g = σ g) :
    Leads f (.run n fl k) (P E []) (flowStep up w n (fl, k)) (P E S) := by
  refine (leads_tick _ E [] (by simp)).seq ?_
  intro h b ⟨h1, _⟩
  refine ⟨fun g hg => ?_, fun hb g hg => ?_⟩
  · show w.effect _ _ h.σ g = true
    rw [hq _ _ _ _ hg]; exact h1 g hg
  · simp [owed] at hb

theorem leads_isr {f : Nat} {n fl k : Nat} (E S : List Nat) (hS : ∀ g ∈ S, g = f ∨ g ∈ up f)
    (hq : ∀ fl n σ g, g ∈ S ∨ g ∈ E → w.effect fl n σ g = σ g) (m : Nat) (cs : List (Nat × Nat)) :
    Leads f (.run n fl k) (P E S) (isr up w m cs) (P E S) := by
  induction cs with
  | nil => exact leads_skip _ _ _
  | cons c cs ih => exact (leads_flow E S hS hq m c).seq ih

theorem leads_isr_call {f : Nat} {n fl k : Nat} (E S : List Nat) (hS : ∀ g ∈ S, g = f ∨ g ∈ up f)
    (hq : ∀ fl n σ g, g ∈ S ∨ g ∈ E → w.effect fl n σ g = σ g) (cs : List (Nat × Nat))
    (hc : (fl, k) ∈ cs) :
    Leads f (.run n fl k) (P E []) (isr up w n cs) (P E S) := by
  induction cs with
  | nil => simp at hc
  | cons c cs ih =>
    rcases List.mem_cons.1 hc with rfl | hc
    · exact (leads_call E S (fun a b σ g h => hq a b σ g (.inr h))).seq (leads_isr E S hS hq n cs)
    · refine (leads_flow E [] (by simp) (fun a b σ g h => hq a b σ g (.inr ?_)) n c).seq (ih hc)
      simpa using h

/-- Reading a field leads on only if it is set. -/
theorem leads_when {f : Nat} {c : Act} (E S : List Nat) (Y : Hw → Bool → Prop)
    (hS : ∀ g ∈ S, g = f ∨ g ∈ up f) (o : Option Nat) {a : Prog}
    (ha : Leads f c (P E S) a Y)
    (hn : ∀ g, o = some g → ∀ h b, P E S h b → h.σ g = false → Y h b) :
    Leads f c (P E S) (whenSet up o a) Y := by
  unfold whenSet
  cases o with
  | none => exact ha
  | some g =>
    refine (leads_tick c E S hS).seq ?_
    intro h b hp
    by_cases hg : h.σ g = true
    · simp only [hg, if_true]; exact ha h b hp
    · simp only [hg]
      exact hn g rfl h b hp (by simpa using hg)

theorem leads_policy {f : Nat} {n fl k : Nat} (E S : List Nat) (hS : ∀ g ∈ S, g = f ∨ g ∈ up f)
    (i : Info) (hE : ∀ g, i.status = some g → g ∉ E) (hd : ∀ g, i.status = some g → g ∉ S) {a : Prog}
    (ha : Leads f (.run n fl k) (P E S) a (P E S)) :
    Leads f (.run n fl k) (P E S) (policyRun up i a) (P E S) := by
  have hc : Leads f (.run n fl k) (P E S) (clear up i.status) (P E S) :=
    leads_clear E S S hS i.status hE (fun g hg => ⟨hg, fun e => hd g e hg⟩)
  unfold policyRun
  cases i.clear
  · exact hc.seq ha
  · exact ha.seq hc
  · exact ha

theorem mem_statuses_container {i : Info} {xs : List Irq} {g : Nat} :
    g ∈ (Irq.container i xs).statuses ↔
      i.status = some g ∨ g ∈ (nodesL xs).filterMap (fun y => y.info.status) := by
  simp only [Irq.statuses, Irq.nodes, List.filterMap_cons, Irq.info]
  cases i.status with
  | none => simp
  | some s => simp [eq_comm]

theorem mem_statuses_element {i : Info} {fs : List Nat} {g : Nat} :
    g ∈ (Irq.element i fs).statuses ↔ i.status = some g := by
  simp only [Irq.statuses, Irq.nodes, List.filterMap_cons, Irq.info, List.filterMap_nil]
  cases i.status with
  | none => simp
  | some s => simp [eq_comm]

/-- Interrupts off the way keep everything. -/
theorem leads_run_other {f : Nat} {n fl k : Nat} (E S : List Nat) (hS : ∀ g ∈ S, g = f ∨ g ∈ up f)
    (hq : ∀ fl n σ g, g ∈ S ∨ g ∈ E → w.effect fl n σ g = σ g) (x : Irq)
    (hx : ∀ g ∈ x.statuses, g ∉ E ∧ g ∉ S) :
    Leads f (.run n fl k) (P E S) (run up w x) (P E S) := by
  induction x using Irq.rec (motive_2 := fun xs =>
    (∀ g ∈ (nodesL xs).filterMap (fun y => y.info.status), g ∉ E ∧ g ∉ S) →
      Leads f (.run n fl k) (P E S) (runL up w xs) (P E S)) with
  | element i fs =>
    rw [run]
    split
    · refine leads_when E S _ hS _ (leads_when E S _ hS _
        (leads_policy E S hS i (fun g hg => (hx g (mem_statuses_element.2 hg)).1)
          (fun g hg => (hx g (mem_statuses_element.2 hg)).2) (leads_isr E S hS hq _ _))
        fun _ _ _ _ h _ => h) fun _ _ _ _ h _ => h
    · exact leads_skip _ _ _
  | container i xs ih =>
    rw [run]
    split
    · refine leads_when E S _ hS _ (leads_when E S _ hS _
        (leads_policy E S hS i (fun g hg => (hx g (mem_statuses_container.2 (.inl hg))).1)
          (fun g hg => (hx g (mem_statuses_container.2 (.inl hg))).2)
          (ih fun g hg => hx g (mem_statuses_container.2 (.inr hg))))
        fun _ _ _ _ h _ => h) fun _ _ _ _ h _ => h
    · exact leads_skip _ _ _
  | nil => rw [runL]; exact leads_skip _ _ _
  | cons x xs h1 h2 =>
    rename_i hx
    rw [runL]
    simp only [nodesL, List.filterMap_append, List.mem_append] at hx
    exact (h1 fun g hg => hx g (.inl hg)).seq (h2 fun g hg => hx g (.inr hg))

theorem leads_runL_other {f : Nat} {n fl k : Nat} (E S : List Nat) (hS : ∀ g ∈ S, g = f ∨ g ∈ up f)
    (hq : ∀ fl n σ g, g ∈ S ∨ g ∈ E → w.effect fl n σ g = σ g) (xs : List Irq)
    (hx : ∀ g ∈ (nodesL xs).filterMap (fun y => y.info.status), g ∉ E ∧ g ∉ S) :
    Leads f (.run n fl k) (P E S) (runL up w xs) (P E S) := by
  induction xs with
  | nil => rw [runL]; exact leads_skip _ _ _
  | cons x xs ih =>
    rw [runL]
    simp only [nodesL, List.filterMap_append, List.mem_append] at hx
    exact (leads_run_other E S hS hq x fun g hg => hx g (.inl hg)).seq (ih fun g hg => hx g (.inr hg))

theorem runL_append (a b : List Irq) (h : Hw) :
    runL up w (a ++ b) h = seq (runL up w a) (runL up w b) h := by
  induction a generalizing h with
  | nil => rw [List.nil_append, runL.eq_1]; simp [seq, skip]
  | cons x a ih =>
    rw [List.cons_append, runL, runL]
    simp only [seq, ih, List.append_assoc]

theorem nodesL_append (a b : List Irq) : nodesL (a ++ b) = nodesL a ++ nodesL b := by
  induction a with
  | nil => rfl
  | cons x a ih => rw [List.cons_append, nodesL, nodesL, ih, List.append_assoc]

theorem Chain.active {e x : Irq} {p : List Irq} (h : Chain e x p) (he : e.active w = true) :
    x.active w = true := by
  induction h with
  | here _ => exact he
  | under _ ih =>
    rw [Irq.active]
    rename_i a b x p _
    have : ∀ l : List Irq, x ∈ l → activeL w l = true := by
      intro l hl
      induction l with
      | nil => simp at hl
      | cons y l ihl =>
        rw [activeL]
        rcases List.mem_cons.1 hl with rfl | hl
        · simp [ih]
        · simp [ihl hl]
    exact this _ (by simp)

theorem Chain.statuses_sub {e x : Irq} {p : List Irq} (h : Chain e x p) :
    ∀ g ∈ statusesOf p, g ∈ x.statuses := by
  induction h with
  | here he =>
    subst he
    intro g hg
    simp only [statusesOf, List.filterMap_cons, Irq.info, List.filterMap_nil] at hg
    rw [mem_statuses_element]
    split at hg
    · simp at hg
    · next h => simp at hg; rw [h, hg]
  | under _ ih =>
    intro g hg
    rw [mem_statuses_container]
    simp only [statusesOf, List.filterMap_cons, Irq.info] at hg
    have hrest : ∀ g ∈ statusesOf _, _ := ih
    split at hg
    · right
      rw [nodesL_append, nodesL, List.filterMap_append, List.filterMap_append]
      simp only [List.mem_append]
      exact .inr (.inl (ih g hg))
    · next s hs =>
      rcases List.mem_cons.1 hg with rfl | hg
      · exact .inl hs
      · right
        rw [nodesL_append, nodesL, List.filterMap_append, List.filterMap_append]
        simp only [List.mem_append]
        exact .inr (.inl (ih g hg))

/-- The status fields of a shared interrupt: its own, and those of three groups below, all apart. -/
theorem container_parts {i : Info} {a b : List Irq} {x : Irq}
    (h : (Irq.container i (a ++ x :: b)).statuses.Nodup) :
    (∀ s, i.status = some s → s ∉ (nodesL a).filterMap (fun y => y.info.status) ∧
      s ∉ x.statuses ∧ s ∉ (nodesL b).filterMap (fun y => y.info.status)) ∧
    x.statuses.Nodup ∧
    (∀ g ∈ (nodesL a).filterMap (fun y => y.info.status), g ∉ x.statuses) ∧
    (∀ g ∈ (nodesL b).filterMap (fun y => y.info.status), g ∉ x.statuses) := by
  simp only [Irq.statuses, Irq.nodes, nodesL_append, nodesL, List.filterMap_cons, Irq.info,
    List.filterMap_append] at h ⊢
  have key : ∀ A X B : List Nat, (A ++ (X ++ B)).Nodup →
      X.Nodup ∧ (∀ g ∈ A, g ∉ X) ∧ (∀ g ∈ B, g ∉ X) := by
    intro A X B h
    rw [List.nodup_append] at h
    obtain ⟨_, h2, h3⟩ := h
    rw [List.nodup_append] at h2
    refine ⟨h2.1, fun g hg hx => h3 g hg g (by simp [hx]) rfl, fun g hg hx => h2.2.2 g hx g hg rfl⟩
  split at h
  · next hs =>
    have hs : i.status = none := hs
    refine ⟨fun s he => (by rw [hs] at he; cases he), key _ _ _ h⟩
  · next s hs =>
    have hs : i.status = some s := hs
    rw [List.nodup_cons] at h
    refine ⟨fun s' he => ?_, key _ _ _ h.2⟩
    rw [hs] at he
    cases he
    have := h.1
    simp only [List.mem_append, not_or] at this
    exact this

/-- The main step: an interrupt on the way from which everything owed is pending leaves everything
owed pending on the whole way `U`. -/
theorem leads_chain {f fl k : Nat} {i₀ : Info} {fs₀ : List Nat} (E U : List Nat)
    (hU : ∀ g ∈ U, g = f ∨ g ∈ up f)
    (hq : ∀ fl n σ g, g ∈ U ∨ g ∈ E → w.effect fl n σ g = σ g)
    (hact : (Irq.element i₀ fs₀).active w = true) (hc : (fl, k) ∈ isrCalls w fs₀)
    {x : Irq} {p : List Irq} (h : Chain (.element i₀ fs₀) x p)
    (hpol : ∀ y ∈ p, y.info.clear ≠ .last)
    (hen : ∀ g ∈ enablesOf p, g ∈ E)
    (hsub : ∀ g ∈ statusesOf p, g ∈ U)
    (hnd : x.statuses.Nodup)
    (hE : ∀ g ∈ x.statuses, g ∉ E)
    (hown : ∀ g ∈ x.statuses, g ∈ U → g ∈ statusesOf p) :
    Leads f (.run i₀.name fl k) (P E (statusesOf p)) (run up w x) (P E U) := by
  have hP0 : ∀ S S' : List Nat, (∀ g ∈ S', g ∈ S) → ∀ h b, P E S h b → P E S' h b :=
    fun S S' hs h b hp => ⟨hp.1, fun hb g hg => hp.2 hb g (hs g hg)⟩
  -- reading the two fields
  have hread : ∀ (i : Info) (S : List Nat) (a : Prog), (∀ g ∈ S, g ∈ U) →
      (∀ g, i.enable = some g → g ∈ E) → (∀ g, i.status = some g → g ∈ S) →
      Leads f (.run i₀.name fl k) (P E S) a (P E U) →
      Leads f (.run i₀.name fl k) (P E S) (whenSet up i.enable (whenSet up i.status a)) (P E U) := by
    intro i S a hSU hi hst ha
    have hS : ∀ g ∈ S, g = f ∨ g ∈ up f := fun g hg => hU g (hSU g hg)
    refine leads_when E S _ hS _ (leads_when E S _ hS _ ha ?_) ?_
    · intro g hg h b hp hf
      refine ⟨hp.1, fun hb => ?_⟩
      rw [hp.2 hb g (hst g hg)] at hf; cases hf
    · intro g hg h b hp hf
      rw [hp.1 g (hi g hg)] at hf; cases hf
  -- clearing
  have hpolicy : ∀ (i : Info) (S S' : List Nat) (a : Prog), (∀ g ∈ S, g ∈ U) → i.clear ≠ .last →
      (∀ g, i.status = some g → g ∉ E) → (∀ g ∈ S', g ∈ S ∧ i.status ≠ some g) →
      Leads f (.run i₀.name fl k) (P E S') a (P E U) →
      Leads f (.run i₀.name fl k) (P E S) (policyRun up i a) (P E U) := by
    intro i S S' a hSU hl hiE hS' ha
    unfold policyRun
    cases hcl : i.clear with
    | first => exact (leads_clear E S S' (fun g hg => hU g (hSU g hg)) i.status hiE hS').seq ha
    | last => exact absurd hcl hl
    | dont => exact ha.strengthen (hP0 S S' fun g hg => (hS' g hg).1)
  induction h with
  | here he =>
    have hst : statusesOf [Irq.element i₀ fs₀] = i₀.status.toList := by
      simp only [statusesOf, List.filterMap_cons, Irq.info, List.filterMap_nil]
      cases i₀.status <;> rfl
    rw [run]
    rw [Irq.active] at hact
    rw [if_pos hact]
    refine hread i₀ _ _ hsub (fun g hg => hen g ?_) (fun g hg => ?_)
      (hpolicy i₀ _ [] _ hsub (hpol (.element i₀ fs₀) (by simp)) (fun g hg => hE g (mem_statuses_element.2 hg))
        (by simp) (leads_isr_call E U hU hq _ hc))
    · simp [enablesOf, Irq.info, hg]
    · rw [hst, hg]; simp
  | under hch ih =>
    rename_i i a b x p
    have hparts := container_parts hnd
    have hmem : ∀ g, g ∈ (Irq.container i (a ++ x :: b)).statuses ↔ i.status = some g ∨
        (g ∈ (nodesL a).filterMap (fun y => y.info.status) ∨ g ∈ x.statuses ∨
          g ∈ (nodesL b).filterMap (fun y => y.info.status)) := by
      intro g
      rw [mem_statuses_container, nodesL_append, nodesL, List.filterMap_append,
        List.filterMap_append]
      simp only [List.mem_append, Irq.statuses]
    have hS : ∀ g, g ∈ statusesOf (Irq.container i (a ++ x :: b) :: p) ↔
        i.status = some g ∨ g ∈ statusesOf p := by
      intro g
      simp only [statusesOf, List.filterMap_cons, Irq.info]
      cases i.status with
      | none => simp
      | some s => simp [eq_comm]
    have hsubp : ∀ g ∈ statusesOf p, g ∈ U := fun g hg => hsub g ((hS g).2 (.inr hg))
    have hpx := hch.statuses_sub
    rw [run]
    have ha : activeL w (a ++ x :: b) = true := by
      have := (Chain.under (i := i) (a := a) (b := b) hch).active hact
      rwa [Irq.active] at this
    rw [if_pos ha]
    refine hread i _ _ hsub (fun g hg => hen g ?_) (fun g hg => (hS g).2 (.inl hg))
      (hpolicy i _ (statusesOf p) _ hsub (hpol (.container i (a ++ x :: b)) (by simp))
        (fun g hg => hE g ((hmem g).2 (.inl hg)))
        (fun g hg => ⟨(hS g).2 (.inr hg), fun he => (hparts.1 g he).2.1 (hpx g hg)⟩) ?_)
    · simp [enablesOf, Irq.info, hg]
    · have h1 : Leads f (.run i₀.name fl k) (P E (statusesOf p)) (runL up w a)
          (P E (statusesOf p)) := by
        refine leads_runL_other E _ (fun g hg => hU g (hsubp g hg)) (fun fl n σ g hg => hq fl n σ g ?_)
          a (fun g hg => ⟨hE g ((hmem g).2 (.inr (.inl hg))), fun hp => hparts.2.2.1 g hg (hpx g hp)⟩)
        exact hg.imp (hsubp g) id
      have h2 := ih (fun y hy => hpol y (List.mem_cons_of_mem _ hy))
        (fun g hg => hen g (by
          simp only [enablesOf, List.filterMap_cons]
          split
          · exact hg
          · exact List.mem_cons_of_mem _ hg))
        hsubp hparts.2.1 (fun g hg => hE g ((hmem g).2 (.inr (.inr (.inl hg)))))
        (fun g hg hu => by
          rcases (hS g).1 (hown g ((hmem g).2 (.inr (.inr (.inl hg)))) hu) with he | he
          · exact absurd hg (hparts.1 g he).2.1
          · exact he)
      have h3 : Leads f (.run i₀.name fl k) (P E U) (runL up w b) (P E U) := by
        refine leads_runL_other E _ hU hq b fun g hg =>
          ⟨hE g ((hmem g).2 (.inr (.inr (.inr hg)))), fun hu => ?_⟩
        rcases (hS g).1 (hown g ((hmem g).2 (.inr (.inr (.inr hg)))) hu) with he | he
        · exact (hparts.1 g he).2.2 hg
        · exact hparts.2.2.2 g hg (hpx g he)
      intro h b' hp
      rw [runL_append, runL]
      exact (h1.seq (h2.seq h3)) h b' hp

/-! ## What is pending at the beginning is handled -/

/-- `a` leaves the fields `L` set. -/
def Keeps (L : List Nat) (a : Prog) : Prop := ∀ h, AllSet h.σ L → AllSet (a h).1.σ L

theorem Leads.keeps {f : Nat} {c : Act} {L : List Nat} {a : Prog}
    (h : Leads f c (P L []) a (P L [])) : Keeps L a :=
  fun h' hl => (h h' false ⟨hl, by simp⟩).1

theorem keeps_tick (L : List Nat) : Keeps L (tick up) :=
  (leads_tick (f := 0) (.raise 0) L [] (by simp)).keeps

theorem whenSet_reads {a : Prog} {c : Act} {L : List Nat} (o : Option Nat) (ho : ∀ g, o = some g → g ∈ L)
    (ha : ∀ h, AllSet h.σ L → c ∈ (a h).2) (h : Hw) (hl : AllSet h.σ L) :
    c ∈ (whenSet up o a h).2 := by
  unfold whenSet
  cases o with
  | none => exact ha h hl
  | some g =>
    have hk := keeps_tick (up := up) L h hl
    simp only [seq, hk g (ho g rfl), if_true, List.mem_append]
    exact .inr (ha _ hk)

theorem isr_calls (name : Nat) (fl k : Nat) (cs : List (Nat × Nat)) (hc : (fl, k) ∈ cs) (h : Hw) :
    Act.run name fl k ∈ (isr up w name cs h).2 := by
  induction cs generalizing h with
  | nil => simp at hc
  | cons c cs ih =>
    rw [isr]
    simp only [seq, List.mem_append]
    rcases List.mem_cons.1 hc with rfl | hc
    · left; simp [flowStep, seq]
    · exact .inr (ih hc _)

theorem reach_chain {fl k : Nat} {i₀ : Info} {fs₀ : List Nat} (E : List Nat)
    (hact : (Irq.element i₀ fs₀).active w = true) (hc : (fl, k) ∈ isrCalls w fs₀)
    {x : Irq} {p : List Irq} (h : Chain (.element i₀ fs₀) x p)
    (hq : ∀ fl n σ g, g ∈ statusesOf p ∨ g ∈ E → w.effect fl n σ g = σ g)
    (hen : ∀ g ∈ enablesOf p, g ∈ E) (hnd : x.statuses.Nodup)
    (hE : ∀ g ∈ x.statuses, g ∉ E) (s : Hw) (hs : AllSet s.σ (E ++ statusesOf p)) :
    Act.run i₀.name fl k ∈ (run up w x s).2 := by
  induction h generalizing s with
  | here he =>
    rw [run]
    rw [Irq.active] at hact
    rw [if_pos hact]
    refine whenSet_reads (L := E ++ statusesOf [Irq.element i₀ fs₀]) _ (fun g hg => ?_)
      (whenSet_reads _ (fun g hg => ?_) (fun h _ => ?_)) s hs
    · exact List.mem_append.2 (.inl (hen g (by simp [enablesOf, Irq.info, hg])))
    · exact List.mem_append.2 (.inr (by simp [statusesOf, Irq.info, hg]))
    · unfold policyRun
      cases i₀.clear
      · simp only [seq, List.mem_append]; exact .inr (isr_calls _ _ _ _ hc _)
      · simp only [seq, List.mem_append]; exact .inl (isr_calls _ _ _ _ hc _)
      · exact isr_calls _ _ _ _ hc _
  | under hch ih =>
    rename_i i a b x p
    have hparts := container_parts hnd
    have hmem : ∀ g, g ∈ (Irq.container i (a ++ x :: b)).statuses ↔ i.status = some g ∨
        (g ∈ (nodesL a).filterMap (fun y => y.info.status) ∨ g ∈ x.statuses ∨
          g ∈ (nodesL b).filterMap (fun y => y.info.status)) := by
      intro g
      rw [mem_statuses_container, nodesL_append, nodesL, List.filterMap_append,
        List.filterMap_append]
      simp only [List.mem_append, Irq.statuses]
    have hS : ∀ g, g ∈ statusesOf (Irq.container i (a ++ x :: b) :: p) ↔
        i.status = some g ∨ g ∈ statusesOf p := by
      intro g
      simp only [statusesOf, List.filterMap_cons, Irq.info]
      cases i.status with
      | none => simp
      | some s => simp [eq_comm]
    have hpx := hch.statuses_sub
    have ha : activeL w (a ++ x :: b) = true := by
      have := (Chain.under (i := i) (a := a) (b := b) hch).active hact
      rwa [Irq.active] at this
    have hq' : ∀ fl n σ g, g ∈ ([] : List Nat) ∨ g ∈ E ++ statusesOf p → w.effect fl n σ g = σ g := by
      intro fl n σ g hg
      apply hq
      rcases hg with hg | hg
      · simp at hg
      · rcases List.mem_append.1 hg with hg | hg
        · exact .inr hg
        · exact .inl ((hS g).2 (.inr hg))
    have hbody : ∀ h, AllSet h.σ (E ++ statusesOf p) →
        Act.run i₀.name fl k ∈ (runL up w (a ++ x :: b) h).2 := by
      intro h hl
      rw [runL_append, runL]
      simp only [seq, List.mem_append]
      refine .inr (.inl (ih (fun fl n σ g hg => hq fl n σ g (hg.imp (fun hg => (hS g).2 (.inr hg)) id))
        (fun g hg => hen g ?_) hparts.2.1
        (fun g hg => hE g ((hmem g).2 (.inr (.inr (.inl hg))))) _ ?_))
      · simp only [enablesOf, List.filterMap_cons]
        split
        · exact hg
        · exact List.mem_cons_of_mem _ hg
      · refine (leads_runL_other (f := 0) (n := 0) (fl := 0) (k := 0) (E ++ statusesOf p) [] (by simp)
          hq' a (fun g hg => ⟨fun hg' => ?_, by simp⟩)).keeps h hl
        rcases List.mem_append.1 hg' with hg' | hg'
        · exact hE g ((hmem g).2 (.inr (.inl hg))) hg'
        · exact hparts.2.2.1 g hg (hpx g hg')
    rw [run, if_pos ha]
    refine whenSet_reads (L := E ++ statusesOf (Irq.container i (a ++ x :: b) :: p)) _
      (fun g hg => ?_) (whenSet_reads _ (fun g hg => ?_) (fun h hl => ?_)) s hs
    · exact List.mem_append.2 (.inl (hen g (by simp [enablesOf, Irq.info, hg])))
    · exact List.mem_append.2 (.inr ((hS g).2 (.inl hg)))
    · have hl' : AllSet h.σ (E ++ statusesOf p) := fun g hg => hl g (by
        rcases List.mem_append.1 hg with hg | hg
        · exact List.mem_append.2 (.inl hg)
        · exact List.mem_append.2 (.inr ((hS g).2 (.inr hg))))
      unfold policyRun
      cases i.clear with
      | first =>
        simp only [seq, List.mem_append]
        refine .inr (hbody _ ?_)
        refine (leads_clear (f := 0) (n := 0) (fl := 0) (k := 0) (E ++ statusesOf p) [] [] (by simp)
          i.status (fun g hg hg' => ?_) (by simp)).keeps h hl'
        rcases List.mem_append.1 hg' with hg' | hg'
        · exact hE g ((hmem g).2 (.inl hg)) hg'
        · exact (hparts.1 g hg).2.1 (hpx g hg')
      | last => simp only [seq, List.mem_append]; exact .inl (hbody _ hl')
      | dont => exact hbody _ hl'

/-! ## Runs one after the other -/

theorem keeps_run {L : List Nat} (x : Irq) (hL : ∀ g ∈ x.statuses, g ∉ L)
    (hq : ∀ fl n σ g, g ∈ L → w.effect fl n σ g = σ g) : Keeps L (run up w x) :=
  (leads_run_other (f := 0) (n := 0) (fl := 0) (k := 0) L [] (by simp)
    (fun fl n σ g hg => hq fl n σ g (by simpa using hg)) x (fun g hg => ⟨hL g hg, by simp⟩)).keeps

/-- Something owed at the end was raised and not served. -/
theorem owed_of_split {f : Nat} {c : Act} (hc : c ≠ .raise f) (b : Bool) (t u : List Act)
    (hu : c ∉ u) : owed f c b (t ++ .raise f :: u) = true := by
  rw [owed_append, owed, List.foldl_cons, if_pos rfl]
  have : ∀ l : List Act, c ∉ l →
      l.foldl (fun b a => if a = Act.raise f then true else if a = c then false else b) true = true := by
    intro l hl
    induction l with
    | nil => rfl
    | cons a l ih =>
      simp only [List.mem_cons, not_or] at hl
      rw [List.foldl_cons]
      have : (if a = Act.raise f then true else if a = c then false else true) = true := by
        split
        · rfl
        · rw [if_neg (fun e => hl.1 e.symm)]
      rw [this]
      exact ih hl.2
  exact this u hu

/-! ## Not more often than requested -/

/-- One if the field is set. -/
def pend (f : Nat) (h : Hw) : Nat := if h.σ f then 1 else 0

/-- Calls `c` and what is pending at the end are paid for by what was pending, `d` more, and
requests. -/
def Paid (up : Nat → List Nat) (f : Nat) (c : Act) (d : Nat) (h : Hw) (r : Hw × List Act) : Prop :=
  r.2.count c + pend f r.1 ≤ pend f h + d + requests up f r.2

theorem Paid.seq {f : Nat} {c : Act} {a b : Prog} {d d' : Nat} {h : Hw}
    (h1 : Paid up f c d h (a h)) (h2 : Paid up f c d' (a h).1 (b (a h).1)) :
    Paid up f c (d + d') h (Pending.seq a b h) := by
  simp only [Paid, Pending.seq, requests, List.count_append, List.countP_append] at *
  omega

theorem Paid.seq0 {f : Nat} {c : Act} {a b : Prog} {h : Hw}
    (h1 : Paid up f c 0 h (a h)) (h2 : ∀ h', Paid up f c 0 h' (b h')) :
    Paid up f c 0 h (Pending.seq a b h) := by
  have := Paid.seq (d := 0) (d' := 0) (b := b) h1 (h2 _)
  simpa using this

theorem paid_skip (f : Nat) (c : Act) (h : Hw) : Paid up f c 0 h (skip h) := by
  simp [Paid, skip, requests]

theorem count_raises (n fl k : Nat) (fs : List Nat) : (fs.map Act.raise).count (.run n fl k) = 0 := by
  rw [List.count_eq_zero]
  simp

theorem paid_tick (f n fl k : Nat) (h : Hw) : Paid up f (.run n fl k) 0 h (tick up h) := by
  unfold tick
  split
  · simp [Paid, requests]
  · next fs rest _ =>
    simp only [Paid, requests, count_raises, Nat.zero_add, Nat.add_zero, pend]
    by_cases hf : h.σ f = true
    · simp [hf]
    · by_cases ha : (fs.any fun g => f == g || (up g).contains f) = true
      · have : 0 < (fs.map Act.raise).countP (Act.sets up f) := by
          rw [List.countP_pos_iff]
          obtain ⟨g, hg, hs⟩ := List.any_eq_true.1 ha
          refine ⟨.raise g, List.mem_map.2 ⟨g, hg, rfl⟩, ?_⟩
          simp only [Act.sets]
          rwa [BEq.comm]
        simp only [hf, ha, Bool.or_true, if_true]
        omega
      · simp only [hf, ha]
        simp

theorem paid_when {f n fl k : Nat} (o : Option Nat) {a : Prog} (h : Hw)
    (ha : ∀ h', (∀ g, o = some g → h'.σ g = true) → Paid up f (.run n fl k) 0 h' (a h')) :
    Paid up f (.run n fl k) 0 h (whenSet up o a h) := by
  unfold whenSet
  cases o with
  | none => exact ha h (fun _ hg => by cases hg)
  | some g =>
    refine (paid_tick f n fl k h).seq0 fun h' => ?_
    by_cases hg : h'.σ g = true
    · simp only [hg, if_true]
      exact ha h' (fun g' e => by cases e; exact hg)
    · simp only [hg]
      exact paid_skip f _ h'

theorem paid_clear_other {f n fl k : Nat} (o : Option Nat) (ho : o ≠ some f) (h : Hw) :
    Paid up f (.run n fl k) 0 h (clear up o h) := by
  unfold clear
  cases o with
  | none => exact paid_skip f _ h
  | some g =>
    refine (paid_tick f n fl k h).seq0 fun h' => ?_
    have : f ≠ g := fun e => ho (by rw [e])
    simp [Paid, requests, pend, this]

theorem paid_policy_other {f n fl k : Nat} (i : Info) (hi : i.status ≠ some f) {a : Prog}
    (ha : ∀ h, Paid up f (.run n fl k) 0 h (a h)) (h : Hw) :
    Paid up f (.run n fl k) 0 h (policyRun up i a h) := by
  unfold policyRun
  cases i.clear
  · exact (paid_clear_other _ hi h).seq0 ha
  · exact (ha h).seq0 (paid_clear_other _ hi)
  · exact ha h

/-- The flows of an interrupt: `c` is among the calls at most `d` times. -/
theorem paid_isr {f n fl k m : Nat} (hq : ∀ fl n σ, w.effect fl n σ f = σ f) (cs : List (Nat × Nat))
    (h : Hw) : Paid up f (.run n fl k) (if m = n then cs.count (fl, k) else 0) h (isr up w m cs h) := by
  induction cs generalizing h with
  | nil => simp [Paid, isr, skip, requests]
  | cons c cs ih =>
    rw [isr]
    have h1 : Paid up f (.run n fl k) (if m = n then (if c = (fl, k) then 1 else 0) else 0) h
        (flowStep up w m c h) := by
      have := (paid_tick (up := up) f n fl k h).seq (d' := if m = n then (if c = (fl, k) then 1 else 0) else 0)
        (b := fun h => (⟨w.effect c.1 c.2 h.σ, h.coming⟩, [.run m c.1 c.2])) (by
          simp only [Paid, requests, pend, hq, List.count_cons, List.count_nil, List.countP_cons,
            List.countP_nil, Act.sets]
          by_cases hm : m = n <;> by_cases hc : c = (fl, k)
          · subst hm hc; simp; omega
          · have : ¬ (c.1 = fl ∧ c.2 = k) := fun e => hc (Prod.ext e.1 e.2)
            simp [hm, hc, this]
          · simp [hm]
          · simp [hm])
      rw [Nat.zero_add] at this
      exact this
    have := h1.seq (ih (flowStep up w m c h).1)
    unfold Paid at this ⊢
    have hcnt : (if m = n then (c :: cs).count (fl, k) else 0) =
        (if m = n then (if c = (fl, k) then 1 else 0) else 0) +
          (if m = n then cs.count (fl, k) else 0) := by
      by_cases hm : m = n
      · simp only [hm, if_true, List.count_cons, beq_iff_eq]; omega
      · simp [hm]
    rw [hcnt]
    exact this

theorem paid_run {f fl k : Nat} {i₀ : Info} {fs₀ : List Nat} (hs : i₀.status = some f)
    (hcl : i₀.clear ≠ .dont) (hq : ∀ fl n σ, w.effect fl n σ f = σ f)
    (h1 : (isrCalls w fs₀).count (fl, k) ≤ 1) (x : Irq)
    (hx : ∀ y ∈ x.nodes, y.info.name = i₀.name ∨ y.info.status = some f → y = .element i₀ fs₀) (h : Hw) :
    Paid up f (.run i₀.name fl k) 0 h (run up w x h) := by
  induction x using Irq.rec (motive_2 := fun xs =>
    (∀ y ∈ nodesL xs, y.info.name = i₀.name ∨ y.info.status = some f → y = .element i₀ fs₀) →
      ∀ h, Paid up f (.run i₀.name fl k) 0 h (runL up w xs h)) generalizing h with
  | element i fs =>
    rw [run]
    split
    · by_cases he : Irq.element i fs = .element i₀ fs₀
      · cases he
        refine paid_when _ _ fun h' _ => paid_when _ _ fun h' hf => ?_
        have hset : h'.σ f = true := hf f hs
        have hcl1 : ∀ h'', h''.σ f = true → Paid up f (.run i₀.name fl k) 0 h'' (clear up i₀.status h'')
            ∧ pend f (clear up i₀.status h'').1 = 0 := by
          intro h'' hh
          rw [hs]
          unfold clear
          have ht := paid_tick (up := up) f i₀.name fl k h''
          constructor
          · unfold Paid at ht ⊢
            simp only [seq, requests, List.count_append, List.countP_append, pend, hh, if_true] at ht ⊢
            simp [Act.sets] at *
            omega
          · simp [seq, pend]
        have hisr := fun h => paid_isr (up := up) (w := w) (f := f) (n := i₀.name) (fl := fl) (k := k)
          (m := i₀.name) hq (isrCalls w fs₀) h
        simp only [if_true] at hisr
        unfold policyRun
        cases hc : i₀.clear with
        | first =>
          have ⟨hc1, hc2⟩ := hcl1 h' hset
          have h2 := hisr (clear up i₀.status h').1
          have h0 : (clear up i₀.status h').2.count (.run i₀.name fl k) = 0 := by
            rw [hs]; unfold clear tick
            simp only [seq]
            split <;> simp [List.count_append, count_raises]
          unfold Paid at *
          have hp : pend f h' = 1 := by simp [pend, hset]
          simp only [seq, requests, List.count_append, List.countP_append] at *
          omega
        | last =>
          have h2 := hisr h'
          have hk : (isr up w i₀.name (isrCalls w fs₀) h').1.σ f = true := by
            have := (leads_isr (up := up) (w := w) (f := 0) (n := 0) (fl := 0) (k := 0) [f] [] (by simp)
              (fun fl n σ g hg => by
                have : g = f := by simpa using hg
                rw [this, hq]) i₀.name (isrCalls w fs₀)).keeps h' (by simpa [AllSet] using hset)
            exact this f (by simp)
          have ⟨hc1, hc2⟩ := hcl1 _ hk
          have h0 : ∀ h'', (clear up i₀.status h'').2.count (.run i₀.name fl k) = 0 := by
            intro h''
            rw [hs]; unfold clear tick
            simp only [seq]
            split <;> simp [List.count_append, count_raises]
          have h0 := h0 (isr up w i₀.name (isrCalls w fs₀) h').1
          unfold Paid at *
          have hp : pend f h' = 1 := by simp [pend, hset]
          have hp2 : pend f (isr up w i₀.name (isrCalls w fs₀) h').1 = 1 := by simp [pend, hk]
          simp only [seq, requests, List.count_append, List.countP_append] at *
          omega
        | dont => exact absurd hc hcl
      · have hne : i.name ≠ i₀.name ∧ i.status ≠ some f := by
          constructor
          · intro e; exact he (hx _ (by simp [Irq.nodes]) (.inl e))
          · intro e; exact he (hx _ (by simp [Irq.nodes]) (.inr e))
        refine paid_when _ _ fun h' _ => paid_when _ _ fun h' _ => ?_
        refine paid_policy_other i hne.2 (fun h => ?_) h'
        have := paid_isr (up := up) (w := w) (f := f) (n := i₀.name) (fl := fl) (k := k)
          (m := i.name) hq (isrCalls w fs) h
        simpa [hne.1] using this
    · exact paid_skip f _ h
  | container i xs ih =>
    rw [run]
    split
    · have hne : i.status ≠ some f := by
        intro e
        have := hx (.container i xs) (by simp [Irq.nodes]) (.inr e)
        cases this
      refine paid_when _ _ fun h' _ => paid_when _ _ fun h' _ => ?_
      exact paid_policy_other i hne (ih (fun y hy => hx y (by simp [Irq.nodes, hy]))) h'
    · exact paid_skip f _ h
  | nil => rename_i h; rw [runL]; exact paid_skip f _ h
  | cons x xs h1 h2 =>
    rename_i hx h
    rw [runL]
    simp only [nodesL, List.mem_append] at hx
    exact (h1 (fun y hy => hx y (.inl hy)) h).seq0 (h2 fun y hy => hx y (.inr hy))

end Verif.Pending
