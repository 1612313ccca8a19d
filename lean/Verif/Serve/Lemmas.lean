import Verif.Serve.Spec
import Verif.Interrupt.Props
import Verif.Front.FlowProps
import Verif.Flow.CheckProps
/-! # Lemmas about firmwares -/
namespace Verif.Serve
open Verif.Interrupt

/-! ## What a configuration adds -/

theorem flowOf_added {s : System} (harr : ∀ l, (s.arrange l).Perm l) {n f : Nat}
    {out : List Flow.Leaf} (h : s.flowOf n f = some out) :
    ∃ fs, fs.Perm (s.added n f) ∧ Flow.flow s.picks fs = some out := by
  simp only [System.flowOf, Option.bind_eq_bind, Option.bind_eq_some_iff] at h
  obtain ⟨bs, hb, fs, hfs, hout⟩ := h
  refine ⟨fs, ?_, hout⟩
  obtain ⟨-, -, h4⟩ := Nexus.C51_once s.arrange harr (s.cfg n) bs hb
  have hm : (f, fs) ∈ bs := by
    simp only [Nexus.builder?, Option.map_eq_some_iff] at hfs
    obtain ⟨b, hb, rfl⟩ := hfs
    have := List.find?_some hb
    have hm := List.mem_of_find?_eq_some hb
    simp only [decide_eq_true_eq] at this
    rw [← this]
    exact hm
  obtain ⟨ws, h5, h6⟩ := h4 f fs hm
  rw [Front.mapM_some_map _ _
    (fun x => x.args.map fun g => (⟨g.whens ++ x.conds.map s.preds, g.expr⟩ : Flow.Frag))
    (fun x => Front.mapM_some_map _ _ _ fun g => Front.wrap_under s.preds x.conds g),
    Option.some.injEq] at h5
  rw [System.added, List.flatMap_def, h5]
  exact h6

theorem progAdded_perm {fs gs : List Flow.Frag} (h : fs.Perm gs) :
    (Flow.Spec.progAdded fs).Perm (Flow.Spec.progAdded gs) := h.flatMap_right _

theorem declared_perm {fs gs : List Flow.Frag} (h : fs.Perm gs) {a b : Nat}
    (hab : Relation.TransGen (Flow.Spec.ProgDeclared gs) a b) :
    Relation.TransGen (Flow.Spec.ProgDeclared fs) a b :=
  Relation.TransGen.mono (fun _ _ ⟨f, hf, hd⟩ => ⟨f, h.symm.subset hf, hd⟩) _ _ hab

/-- A flow is active exactly when something was added to it. -/
theorem flowActive_iff {s : System} (harr : ∀ l, (s.arrange l).Perm l) (hf : s.Flows) {n f : Nat}
    (h : (s.flowOf n f).isSome = true) :
    s.world.active n f = true ↔ Flow.Spec.progAdded (s.added n f) ≠ [] := by
  obtain ⟨out, ho⟩ := Option.isSome_iff_exists.mp h
  obtain ⟨fs, hp, hfl⟩ := flowOf_added harr ho
  have hfe : ∀ g ∈ fs, Flow.Spec.FlowExpr g.expr := fun g hg => hf n f g (hp.subset hg)
  have h1 := (Flow.C31_once s.picks fs out hfe hfl).1.length_eq
  have h2 := (progAdded_perm hp).length_eq
  simp only [List.length_map] at h1
  simp only [System.world, ho, Option.getD_some, decide_eq_true_eq]
  rw [h1, h2, List.length_pos_iff]

/-! ## Running a flow -/

theorem runFrom_congr {ρ ρ' : Nat → Nat → Bool} (ls : List Flow.Leaf) : ∀ k,
    (∀ j, k ≤ j → ρ j = ρ' j) → Flow.runFrom ρ k ls = Flow.runFrom ρ' k ls := by
  induction ls with
  | nil => intros; rfl
  | cons l ls ih =>
    intro k h
    rw [Flow.runFrom, Flow.runFrom, ih (k + 1) (fun j hj => h j (by omega)), h k (le_refl k)]

/-- A run of a flow is one in the sense of `Verif.Flow`, with the answers that the predicates give. -/
theorem runFlow_run (pred : Nat → St → Bool) (act : Flow.Leaf → St → St) (ls : List Flow.Leaf) :
    ∀ k σ, ∃ ρ : Nat → Nat → Bool,
      (runFlow pred act ls σ).2 = (Flow.runFrom ρ k ls).map (·.2) ∧
      ∀ p, (∀ l σ, pred p (act l σ) = pred p σ) → ∀ j, k ≤ j → j < k + ls.length → ρ j p = pred p σ := by
  induction ls with
  | nil => intro k σ; exact ⟨fun _ _ => false, rfl, fun _ _ j h1 h2 => absurd h2 (by simp; omega)⟩
  | cons l ls ih =>
    intro k σ
    have key : ∀ σ', (∀ p, (∀ l σ, pred p (act l σ) = pred p σ) → pred p σ' = pred p σ) →
        ∃ ρ : Nat → Nat → Bool, (runFlow pred act ls σ').2 = (Flow.runFrom ρ (k + 1) ls).map (·.2) ∧
          ρ k = (fun p => pred p σ) ∧
          ∀ p, (∀ l σ, pred p (act l σ) = pred p σ) → ∀ j, k ≤ j → j < k + (ls.length + 1) →
            ρ j p = pred p σ := by
      intro σ' hσ
      obtain ⟨ρ, h1, h2⟩ := ih (k + 1) σ'
      refine ⟨fun j => if j = k then fun p => pred p σ else ρ j, ?_, by simp, ?_⟩
      · rw [h1]
        congr 1
        apply runFrom_congr
        intro j hj
        rw [if_neg (by omega)]
      · intro p hp j hj hj'
        dsimp only
        split
        · rfl
        · next hne => rw [h2 p hp j (by omega) (by omega), hσ p hp]
    rw [runFlow]
    split
    · next hc =>
      obtain ⟨ρ, h1, h2, h3⟩ := key (act l σ) (fun p hp => hp l σ)
      refine ⟨ρ, ?_, by simpa [List.length_cons] using h3⟩
      rw [Flow.runFrom, h2, if_pos hc]
      dsimp only
      rw [h1]
      rfl
    · next hc =>
      obtain ⟨ρ, h1, h2, h3⟩ := key σ (fun _ _ => rfl)
      refine ⟨ρ, ?_, by simpa [List.length_cons] using h3⟩
      rw [Flow.runFrom, h2, if_neg hc, h1]
      rfl

theorem runFlow_keeps {pred : Nat → St → Bool} {act : Flow.Leaf → St → St} {g : Nat}
    (h : ∀ l σ, act l σ g = σ g) (ls : List Flow.Leaf) : ∀ σ, (runFlow pred act ls σ).1 g = σ g := by
  induction ls with
  | nil => intro σ; rfl
  | cons l ls ih =>
    intro σ
    rw [runFlow]
    split
    · exact (ih _).trans (h l σ)
    · exact ih σ

theorem runFlow_steady {pred : Nat → St → Bool} {act : Flow.Leaf → St → St} {p : Nat}
    (h : ∀ l σ, pred p (act l σ) = pred p σ) (ls : List Flow.Leaf) :
    ∀ σ, pred p (runFlow pred act ls σ).1 = pred p σ := by
  induction ls with
  | nil => intro σ; rfl
  | cons l ls ih =>
    intro σ
    rw [runFlow]
    split
    · exact (ih _).trans (h l σ)
    · exact ih σ

theorem tidy_world {s : System} {x : Irq} (h : s.Tidy x) : Interrupt.Tidy s.world x where
  names := h.names
  statuses := h.statuses
  apart := h.apart
  quiet f n σ g hg := runFlow_keeps (fun l σ => h.quiet n l σ g hg) _ σ

/-! ## The calls behind the events -/

theorem calls_append (s : System) (t u : List Ev) : ∀ σ,
    s.calls σ (t ++ u) =
      ((s.calls (s.calls σ t).1 u).1, (s.calls σ t).2 ++ (s.calls (s.calls σ t).1 u).2) := by
  induction t with
  | nil => intro σ; simp [System.calls]
  | cons e t ih =>
    intro σ
    cases e with
    | clear f => simp only [List.cons_append, System.calls]; exact ih _
    | run i f n => simp only [List.cons_append, System.calls, ih, List.append_assoc]

/-- Replaying the events of `a` gives the state that `a` gives. -/
def Replays (s : System) (a : St → St × List Ev) : Prop :=
  ∀ σ, (s.calls σ (a σ).2).1 = (a σ).1

theorem Replays.andThen {s : System} {a b : St → St × List Ev} (ha : Replays s a) (hb : Replays s b) :
    Replays s (Interrupt.andThen a b) := by
  intro σ
  simp only [Interrupt.andThen, calls_append]
  rw [ha σ, hb]

theorem replays_clear (s : System) (o : Option Nat) : Replays s (fun σ => clearField σ o) := by
  intro σ
  cases o <;> rfl

theorem replays_policy {s : System} {body : St → St × List Ev} (h : Replays s body) (i : Info) :
    Replays s (policyRun i body) := by
  rw [policyRun]
  cases i.clear
  · exact (replays_clear s _).andThen h
  · exact h.andThen (replays_clear s _)
  · exact h

theorem replays_isr (s : System) (name : Nat) (l : List (Nat × Nat)) :
    Replays s (isr s.world name l) := by
  induction l with
  | nil => intro σ; rfl
  | cons c l ih =>
    obtain ⟨f, n⟩ := c
    have h1 : Replays s (fun σ => (s.world.effect f n σ, [Ev.run name f n])) := fun σ => rfl
    exact fun σ => h1.andThen ih σ

mutual
theorem replays_run (s : System) : ∀ x : Irq, Replays s (Irq.run s.world x)
  | .element i fs => by
    intro σ
    rw [Irq.run]
    split
    · exact replays_policy (replays_isr s _ _) i σ
    · rfl
  | .container i xs => by
    intro σ
    rw [Irq.run]
    split
    · exact replays_policy (replays_runL s xs) i σ
    · rfl
theorem replays_runL (s : System) : ∀ xs : List Irq, Replays s (runL s.world xs)
  | [] => fun σ => rfl
  | x :: xs => by
    intro σ
    rw [runL]
    exact (replays_run s x).andThen (replays_runL s xs) σ
end

/-- Every call comes from an event. -/
theorem calls_mem {s : System} {c : Call} (t : List Ev) : ∀ σ, c ∈ (s.calls σ t).2 →
    Ev.run c.irq c.flow c.nexus ∈ t ∧ ∃ σ', c.leaf ∈ (s.call c.nexus c.flow σ').2 := by
  induction t with
  | nil => intro σ h; simp [System.calls] at h
  | cons e t ih =>
    intro σ h
    cases e with
    | clear f =>
      obtain ⟨h1, h2⟩ := ih _ h
      exact ⟨List.mem_cons_of_mem _ h1, h2⟩
    | run i f n =>
      simp only [System.calls, List.mem_append, List.mem_map] at h
      rcases h with ⟨l, hl, rfl⟩ | h
      · exact ⟨by simp, σ, hl⟩
      · obtain ⟨h1, h2⟩ := ih _ h
        exact ⟨List.mem_cons_of_mem _ h1, h2⟩

theorem through_none {i f n : Nat} {s : System} (t : List Ev) (h : Ev.run i f n ∉ t) (σ : St) :
    through i f n (s.calls σ t).2 = [] := by
  rw [through, List.filter_eq_nil_iff]
  intro c hc
  have := (calls_mem t σ hc).1
  simp only [decide_eq_true_eq]
  rintro ⟨rfl, rfl, rfl⟩
  exact h this

theorem through_append (i f n : Nat) (a b : List Call) :
    through i f n (a ++ b) = through i f n a ++ through i f n b := List.filter_append ..

/-- An event that occurs once makes one run of the flow, in some state. -/
theorem through_once {i f n : Nat} {s : System} {a b : List Ev} (ha : Ev.run i f n ∉ a)
    (hb : Ev.run i f n ∉ b) (σ : St) :
    through i f n (s.calls σ (a ++ Ev.run i f n :: b)).2 =
      ((s.call n f (s.calls σ a).1).2).map (⟨i, f, n, ·⟩) := by
  rw [calls_append, through_append, through_none a ha, List.nil_append]
  simp only [System.calls]
  rw [through_append, through_none b hb, List.append_nil, through, List.filter_eq_self]
  intro c hc
  obtain ⟨l, -, rfl⟩ := List.mem_map.mp hc
  simp

theorem own_calls (i f n j g m : Nat) (ls : List Flow.Leaf) :
    through j g m (ls.map fun l => (⟨i, f, n, l⟩ : Call)) =
      if j = i ∧ g = f ∧ m = n then ls.map fun l => (⟨i, f, n, l⟩ : Call) else [] := by
  split
  · next h =>
    obtain ⟨rfl, rfl, rfl⟩ := h
    rw [through, List.filter_eq_self]
    intro c hc
    obtain ⟨l, -, rfl⟩ := List.mem_map.mp hc
    simp
  · next h =>
    rw [through, List.filter_eq_nil_iff]
    intro c hc
    obtain ⟨l, -, rfl⟩ := List.mem_map.mp hc
    simp only [decide_eq_true_eq]
    rintro ⟨rfl, rfl, rfl⟩
    exact h ⟨rfl, rfl, rfl⟩

/-- The calls of one interrupt are those through its flows, in the order of its events. -/
theorem calls_in_order {s : System} {i : Nat} (t : List Ev) : ∀ (σ : St) (es : List (Nat × Nat)),
    es.Nodup → t.filter (Ev.isRunOf i) = es.map (fun e => Ev.run i e.1 e.2) →
    (s.calls σ t).2.filter (fun c => decide (c.irq = i)) =
      es.flatMap fun e => through i e.1 e.2 (s.calls σ t).2 := by
  induction t with
  | nil =>
    intro σ es _ he
    rw [List.filter_nil, eq_comm, List.map_eq_nil_iff] at he
    subst he
    rfl
  | cons e t ih =>
    intro σ es hn he
    cases e with
    | clear f =>
      rw [List.filter_cons_of_neg (by simp [Ev.isRunOf])] at he
      exact ih _ es hn he
    | run j f n =>
      simp only [System.calls, List.filter_append, through_append, own_calls]
      by_cases hj : j = i
      · subst hj
        rw [List.filter_cons_of_pos (by simp [Ev.isRunOf])] at he
        cases es with
        | nil => cases he
        | cons e es =>
          obtain ⟨f', n'⟩ := e
          simp only [List.map_cons, List.cons.injEq, Ev.run.injEq, true_and] at he
          obtain ⟨⟨rfl, rfl⟩, he⟩ := he
          rw [List.nodup_cons] at hn
          rw [ih _ es hn.2 he, List.flatMap_cons, if_pos ⟨rfl, rfl, rfl⟩, through_none t, List.append_nil]
          · congr 1
            · rw [List.filter_eq_self]
              intro c hc
              obtain ⟨l, -, rfl⟩ := List.mem_map.mp hc
              simp
            · apply List.flatMap_congr
              intro e hem
              rw [if_neg, List.nil_append]
              rintro ⟨-, h1, h2⟩
              apply hn.1
              rw [← h1, ← h2]
              exact hem
          · intro hm
            have : Ev.run j f n ∈ t.filter (Ev.isRunOf j) :=
              List.mem_filter.mpr ⟨hm, by simp [Ev.isRunOf]⟩
            rw [he] at this
            obtain ⟨e, hem, h⟩ := List.mem_map.mp this
            simp only [Ev.run.injEq, true_and] at h
            apply hn.1
            rw [← h.1, ← h.2]
            exact hem
      · rw [List.filter_cons_of_neg (by simpa [Ev.isRunOf] using hj)] at he
        rw [ih _ es hn he]
        have h0 : (List.map (fun x => (⟨j, f, n, x⟩ : Call)) (s.call n f σ).2).filter
            (fun c => decide (c.irq = i)) = [] := by
          rw [List.filter_eq_nil_iff]
          intro c hc
          obtain ⟨l, -, rfl⟩ := List.mem_map.mp hc
          simpa using hj
        rw [h0, List.nil_append]
        apply List.flatMap_congr
        intro e _
        rw [if_neg (fun h => hj h.1.symm), List.nil_append]

theorem calls_steady {s : System} {root : Irq} {p : Nat} (h : s.Steady root p) (t : List Ev) : ∀ σ,
    (∀ f, Ev.clear f ∈ t → f ∈ root.statuses) → s.pred p (s.calls σ t).1 = s.pred p σ := by
  induction t with
  | nil => intros; rfl
  | cons e t ih =>
    intro σ ht
    have ht' := fun f hf => ht f (List.mem_cons_of_mem _ hf)
    cases e with
    | clear f => exact (ih _ ht').trans (h.2 f (ht f (by simp)) σ)
    | run i f n => exact (ih _ ht').trans (runFlow_steady (fun l σ => h.1 n l σ) _ σ)

/-! ## Served and executed -/

theorem someActive_iff {s : System} (harr : ∀ l, (s.arrange l).Perm l) (hf : s.Flows)
    {fs : List Nat} (hc : ∀ f ∈ fs, ∀ n ∈ s.nexi, (s.flowOf n f).isSome = true) :
    SomeActive s.world fs ↔ s.HasWork fs := by
  constructor
  · rintro ⟨f, hfs, n, hn, h⟩
    exact ⟨f, hfs, n, hn, (flowActive_iff harr hf (hc f hfs n hn)).mp h⟩
  · rintro ⟨f, hfs, n, hn, h⟩
    exact ⟨f, hfs, n, hn, (flowActive_iff harr hf (hc f hfs n hn)).mpr h⟩

theorem Below.trans' {x y z : Irq} (h : Below x y) (h' : Below y z) : Below x z := by
  induction h' with
  | refl _ => exact h
  | sub hm _ ih => exact .sub hm (ih h)

theorem served_iff {s : System} (harr : ∀ l, (s.arrange l).Perm l) (hf : s.Flows) {root x : Irq}
    (hc : s.Compiles root) (σ : St) : Served s σ x root ↔ Executed s.world σ x root := by
  constructor
  · intro h
    induction h with
    | here h1 h2 h3 h4 =>
      exact .here h1 h2 h3 ((someActive_iff harr hf (hc _ _ h3)).mpr h4)
    | deeper h1 h2 h3 _ ih =>
      exact .deeper h1 h2 h3 (ih fun i fs hb => hc i fs (.sub h3 hb))
  · intro h
    induction h with
    | here h1 h2 h3 h4 =>
      exact .here h1 h2 h3 ((someActive_iff harr hf (hc _ _ h3)).mp h4)
    | deeper h1 h2 h3 _ ih =>
      exact .deeper h1 h2 h3 (ih fun i fs hb => hc i fs (.sub h3 hb))

end Verif.Serve
