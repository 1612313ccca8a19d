import Verif.Serve.Lemmas
import Verif.Flow.ExactProps
/-!
# C159: an interrupt runs what the components added to its flows

For the firmware as a whole: configurations, flows and interrupts together.
-/
namespace Verif.Serve
open Verif.Interrupt

/-- An executed element with each flow and nexus listed once calls each flow of each nexus once. -/
theorem event_once {s : System} {root : Irq} (ht : s.Tidy root) {σ : St} {i : Info} {fs : List Nat}
    (hx : Executed s.world σ (.element i fs) root) (hfs : fs.Nodup) (hn : s.nexi.Nodup) {f n : Nat}
    (hf : f ∈ fs) (hnn : n ∈ s.nexi) :
    ∃ a b, (Irq.run s.world root σ).2 = a ++ Ev.run i.name f n :: b ∧ Ev.run i.name f n ∉ a ∧
      Ev.run i.name f n ∉ b := by
  have h := C40_all (tidy_world ht) σ hx
  have hmem : Ev.run i.name f n ∈ (Irq.run s.world root σ).2.filter (Ev.isRunOf i.name) := by
    rw [h]
    exact List.mem_flatten.mpr ⟨_, List.mem_map.mpr ⟨f, hf, rfl⟩, List.mem_map.mpr ⟨n, hnn, rfl⟩⟩
  have hnd : ((Irq.run s.world root σ).2.filter (Ev.isRunOf i.name)).Nodup := by
    rw [h, List.nodup_flatten]
    constructor
    · intro l hl
      obtain ⟨f', -, rfl⟩ := List.mem_map.mp hl
      exact hn.map fun a b e => by cases e; rfl
    · rw [List.pairwise_map]
      refine hfs.imp ?_
      intro a b hab
      rw [List.disjoint_left]
      intro e h1 h2
      obtain ⟨_, -, rfl⟩ := List.mem_map.mp h1
      obtain ⟨_, -, e⟩ := List.mem_map.mp h2
      cases e
      exact hab rfl
  have hc := List.count_eq_one_of_mem hnd hmem
  have hr : Ev.isRunOf i.name (Ev.run i.name f n) = true := by simp [Ev.isRunOf]
  rw [List.count_filter hr] at hc
  obtain ⟨a, b, e⟩ := List.append_of_mem (List.mem_filter.mp hmem).1
  rw [e, List.count_append, List.count_cons_self] at hc
  exact ⟨a, b, e, List.count_eq_zero.mp (by omega), List.count_eq_zero.mp (by omega)⟩

/-- What one interrupt calls through one flow of one nexus is one run of the flow that the
configuration of the nexus describes; predicates that nothing changes answer as in the beginning. -/
theorem through_run {s : System} (harr : ∀ l, (s.arrange l).Perm l) {root : Irq} (ht : s.Tidy root)
    (hc : s.Compiles root) {σ : St} {i : Info} {fs : List Nat}
    (hx : Executed s.world σ (.element i fs) root) (hfs : fs.Nodup) (hn : s.nexi.Nodup) {f n : Nat}
    (hf : f ∈ fs) (hnn : n ∈ s.nexi) :
    ∃ gs out, ∃ ρ : Nat → Nat → Bool, gs.Perm (s.added n f) ∧ Flow.flow s.picks gs = some out ∧
      (through i.name f n (s.calls σ (Irq.run s.world root σ).2).2).map Call.leaf =
        (Flow.run ρ out).map (·.2) ∧
      ∀ p, s.Steady root p → ∀ j < out.length, ρ j p = s.pred p σ := by
  obtain ⟨out, ho⟩ := Option.isSome_iff_exists.mp (hc i fs hx.isBelow f hf n hnn)
  obtain ⟨gs, hp, hfl⟩ := flowOf_added harr ho
  obtain ⟨a, b, e, ha, hb⟩ := event_once ht hx hfs hn hf hnn
  obtain ⟨ρ, h1, h2⟩ := runFlow_run s.pred (s.act n) out 0 (s.calls σ a).1
  refine ⟨gs, out, ρ, hp, hfl, ?_, ?_⟩
  · rw [e, through_once ha hb, System.call, ho, Option.getD_some, h1, List.map_map]
    exact List.map_id' _
  · intro p hs j hj
    rw [h2 p (hs.1 n) j (Nat.zero_le j) (by omega), calls_steady hs]
    intro g hg
    have hg' : Ev.clear g ∈ (Irq.run s.world root σ).2 := by rw [e]; exact List.mem_append_left _ hg
    obtain ⟨y, hy, hys, -⟩ := C41_only (tidy_world ht) σ hg'
    exact List.mem_filterMap.mpr ⟨y, (mem_nodes root y).mpr hy.isBelow, hys⟩

/-- C159: an interrupt that is served calls every action that the configurations add to its flows,
exactly once for each flow and nexus, and calls nothing else through them, when the additions are under
no runtime condition. -/
theorem C159_once (s : System) (harr : ∀ l, (s.arrange l).Perm l) (hfl : s.Flows) (root : Irq)
    (ht : s.Tidy root) (hc : s.Compiles root) (σ : St) (i : Info) (fs : List Nat)
    (hx : Served s σ (.element i fs) root) (hfs : fs.Nodup) (hn : s.nexi.Nodup) (f n : Nat)
    (hf : f ∈ fs) (hnn : n ∈ s.nexi) (hw : ∀ g ∈ s.added n f, g.whens = []) :
    ((through i.name f n (s.calls σ (Irq.run s.world root σ).2).2).map
      fun c => (c.leaf.name, c.leaf.func)).Perm
        ((Flow.Spec.progAdded (s.added n f)).map fun a => (a.1, some a.2)) := by
  obtain ⟨gs, out, ρ, hp, hfo, h1, -⟩ :=
    through_run harr ht hc ((served_iff harr hfl hc σ).mp hx) hfs hn hf hnn
  have h2 := Flow.C31_run_all s.picks gs out (fun g hg => hfl n f g (hp.subset hg))
    (fun g hg => hw g (hp.subset hg)) hfo ρ
  have h3 : ((through i.name f n (s.calls σ (Irq.run s.world root σ).2).2).map
      fun c => (c.leaf.name, c.leaf.func)) = (Flow.run ρ out).map fun c => (c.2.name, c.2.func) := by
    have := congrArg (List.map fun l : Flow.Leaf => (l.name, l.func)) h1
    rw [List.map_map, List.map_map] at this
    exact this
  rw [h3]
  exact h2.trans ((progAdded_perm hp).map _)

/-- C159: and in the orders that the components declare, with or without runtime conditions. -/
theorem C159_order (s : System) (harr : ∀ l, (s.arrange l).Perm l) (hfl : s.Flows) (root : Irq)
    (ht : s.Tidy root) (hc : s.Compiles root) (σ : St) (i : Info) (fs : List Nat)
    (hx : Served s σ (.element i fs) root) (hfs : fs.Nodup) (hn : s.nexi.Nodup) (f n : Nat)
    (hf : f ∈ fs) (hnn : n ∈ s.nexi) (a b : Nat)
    (hab : Relation.TransGen (Flow.Spec.ProgDeclared (s.added n f)) a b)
    (ha : a ∈ (through i.name f n (s.calls σ (Irq.run s.world root σ).2).2).map (·.leaf.name)) :
    Flow.Spec.Precedes a b
      ((through i.name f n (s.calls σ (Irq.run s.world root σ).2).2).map (·.leaf.name)) := by
  obtain ⟨gs, out, ρ, hp, hfo, h1, -⟩ :=
    through_run harr ht hc ((served_iff harr hfl hc σ).mp hx) hfs hn hf hnn
  have h3 : ((through i.name f n (s.calls σ (Irq.run s.world root σ).2).2).map (·.leaf.name)) =
      (Flow.run ρ out).map (·.2.name) := by
    have := congrArg (List.map fun l : Flow.Leaf => l.name) h1
    rw [List.map_map, List.map_map] at this
    exact this
  rw [h3] at ha ⊢
  exact Flow.C30_run s.picks gs out (fun g hg => hfl n f g (hp.subset hg)) hfo ρ a b
    (declared_perm hp hab) ha

/-- C159: an interrupt that is served runs its flows one after the other, in the order in which they are
listed, each in one nexus after the other. -/
theorem C159_sequence (s : System) (harr : ∀ l, (s.arrange l).Perm l) (hfl : s.Flows) (root : Irq)
    (ht : s.Tidy root) (hc : s.Compiles root) (σ : St) (i : Info) (fs : List Nat)
    (hx : Served s σ (.element i fs) root) (hfs : fs.Nodup) (hn : s.nexi.Nodup) :
    (s.calls σ (Irq.run s.world root σ).2).2.filter (fun c => decide (c.irq = i.name)) =
      fs.flatMap fun f => s.nexi.flatMap fun n =>
        through i.name f n (s.calls σ (Irq.run s.world root σ).2).2 := by
  have h := C40_all (tidy_world ht) σ ((served_iff harr hfl hc σ).mp hx)
  have hnd : (fs.flatMap fun f => s.nexi.map fun n => (f, n)).Nodup := by
    rw [List.flatMap_def, List.nodup_flatten]
    constructor
    · intro l hl
      obtain ⟨f', -, rfl⟩ := List.mem_map.mp hl
      exact hn.map fun a b e => by cases e; rfl
    · rw [List.pairwise_map]
      refine hfs.imp ?_
      intro a b hab
      rw [List.disjoint_left]
      intro e h1 h2
      obtain ⟨_, -, rfl⟩ := List.mem_map.mp h1
      obtain ⟨_, -, e⟩ := List.mem_map.mp h2
      cases e
      exact hab rfl
  rw [calls_in_order _ σ _ hnd]
  · rw [List.flatMap_assoc]
    apply List.flatMap_congr
    intro f _
    rw [List.flatMap_map]
  · rw [h, List.flatMap_def, List.map_flatten, List.map_map]
    congr 1
    apply List.map_congr_left
    intro f _
    simp only [Function.comp, List.map_map]
    rfl

/-- C159: an action that is added with its own `*` under runtime conditions is called exactly when the
predicates of all these conditions hold, for predicates that neither actions nor the clearing of status
fields change. -/
theorem C159_conditions (s : System) (harr : ∀ l, (s.arrange l).Perm l) (hfl : s.Flows) (root : Irq)
    (ht : s.Tidy root) (hc : s.Compiles root) (σ : St) (i : Info) (fs : List Nat)
    (hx : Served s σ (.element i fs) root) (hfs : fs.Nodup) (hn : s.nexi.Nodup) (f n : Nat)
    (hf : f ∈ fs) (hnn : n ∈ s.nexi) (g : Flow.Frag) (hg : g ∈ s.added n f)
    (hs : Flow.Spec.NoStarredGroup g.expr) (a : Nat × Nat) (ha : a ∈ Flow.Spec.added g.expr)
    (hst : ∀ w ∈ g.whens, ∀ p ∈ w, s.Steady root p) :
    (∃ c ∈ through i.name f n (s.calls σ (Irq.run s.world root σ).2).2, c.leaf.name = a.1) ↔
      ∀ w ∈ g.whens, ∀ p ∈ w, s.pred p σ = true := by
  obtain ⟨gs, out, ρ, hp, hfo, h1, h2⟩ :=
    through_run harr ht hc ((served_iff harr hfl hc σ).mp hx) hfs hn hf hnn
  obtain ⟨k, hk, h3⟩ := Flow.C35_conditional_partial s.picks gs out
    (fun g hg => hfl n f g (hp.subset hg)) hfo g (hp.symm.subset hg) hs a ha
  have h4 : (∃ c ∈ through i.name f n (s.calls σ (Irq.run s.world root σ).2).2, c.leaf.name = a.1) ↔
      ∃ c ∈ Flow.run ρ out, c.2.name = a.1 := by
    have h5 : ∀ l : Flow.Leaf, (∃ c ∈ through i.name f n (s.calls σ (Irq.run s.world root σ).2).2,
        c.leaf = l) ↔ ∃ c ∈ Flow.run ρ out, c.2 = l := by
      intro l
      rw [← List.mem_map, ← List.mem_map, h1]
    constructor
    · rintro ⟨c, hcm, hcn⟩
      obtain ⟨d, hd, e⟩ := (h5 c.leaf).mp ⟨c, hcm, rfl⟩
      exact ⟨d, hd, by rw [e, hcn]⟩
    · rintro ⟨c, hcm, hcn⟩
      obtain ⟨d, hd, e⟩ := (h5 c.2).mpr ⟨c, hcm, rfl⟩
      exact ⟨d, hd, by rw [e, hcn]⟩
  rw [h4, h3 ρ]
  constructor
  · intro h w hw p hpw
    rw [← h2 p (hst w hw p hpw) k hk]
    exact h w hw p hpw
  · intro h w hw p hpw
    rw [h2 p (hst w hw p hpw) k hk]
    exact h w hw p hpw

/-- C159, for all actions: one that is added with its own `*` is called exactly when the predicates of
all conditions around it hold; one that is added by a `*` before a group is called in any case. -/
theorem C159_exact (s : System) (harr : ∀ l, (s.arrange l).Perm l) (hfl : s.Flows) (root : Irq)
    (ht : s.Tidy root) (hc : s.Compiles root) (σ : St) (i : Info) (fs : List Nat)
    (hx : Served s σ (.element i fs) root) (hfs : fs.Nodup) (hn : s.nexi.Nodup) (f n : Nat)
    (hf : f ∈ fs) (hnn : n ∈ s.nexi) (g : Flow.Frag) (hg : g ∈ s.added n f)
    (a : Nat × Nat × Bool) (ha : a ∈ Flow.Spec.addedHow g.expr)
    (hst : a.2.2 = true → ∀ w ∈ g.whens, ∀ p ∈ w, s.Steady root p) :
    (∃ c ∈ through i.name f n (s.calls σ (Irq.run s.world root σ).2).2,
        c.leaf.name = a.1 ∧ c.leaf.func = some a.2.1) ↔
      (a.2.2 = true → ∀ w ∈ g.whens, ∀ p ∈ w, s.pred p σ = true) := by
  obtain ⟨gs, out, ρ, hp, hfo, h1, h2⟩ :=
    through_run harr ht hc ((served_iff harr hfl hc σ).mp hx) hfs hn hf hnn
  obtain ⟨k, hk, h3⟩ := Flow.C35_exact s.picks gs out
    (fun g hg => hfl n f g (hp.subset hg)) hfo g (hp.symm.subset hg) a ha
  have h4 : (∃ c ∈ through i.name f n (s.calls σ (Irq.run s.world root σ).2).2,
        c.leaf.name = a.1 ∧ c.leaf.func = some a.2.1) ↔
      ∃ c ∈ Flow.run ρ out, c.2.name = a.1 ∧ c.2.func = some a.2.1 := by
    have h5 : ∀ l : Flow.Leaf, (∃ c ∈ through i.name f n (s.calls σ (Irq.run s.world root σ).2).2,
        c.leaf = l) ↔ ∃ c ∈ Flow.run ρ out, c.2 = l := by
      intro l
      rw [← List.mem_map, ← List.mem_map, h1]
    constructor
    · rintro ⟨c, hcm, hcn⟩
      obtain ⟨d, hd, e⟩ := (h5 c.leaf).mp ⟨c, hcm, rfl⟩
      exact ⟨d, hd, by rw [e]; exact hcn⟩
    · rintro ⟨c, hcm, hcn⟩
      obtain ⟨d, hd, e⟩ := (h5 c.2).mpr ⟨c, hcm, rfl⟩
      exact ⟨d, hd, by rw [e]; exact hcn⟩
  rw [h4, h3 ρ]
  constructor
  · intro h ho w hw p hpw
    rw [← h2 p (hst ho w hw p hpw) k hk]
    exact h ho w hw p hpw
  · intro h ho w hw p hpw
    rw [h2 p (hst ho w hw p hpw) k hk]
    exact h ho w hw p hpw

/-- C159: only interrupts that are served call anything, and only actions that the configurations add
to their flows. -/
theorem C159_only (s : System) (harr : ∀ l, (s.arrange l).Perm l) (hfl : s.Flows) (root : Irq)
    (ht : s.Tidy root) (hc : s.Compiles root) (σ : St) (c : Call)
    (h : c ∈ (s.calls σ (Irq.run s.world root σ).2).2) :
    ∃ i fs, Served s σ (.element i fs) root ∧ c.irq = i.name ∧ c.flow ∈ fs ∧ c.nexus ∈ s.nexi ∧
      ∃ a ∈ Flow.Spec.progAdded (s.added c.nexus c.flow),
        c.leaf.name = a.1 ∧ c.leaf.func = some a.2 := by
  obtain ⟨h1, σ', h2⟩ := calls_mem _ σ h
  obtain ⟨i, fs, hx, hi, hf, hn⟩ := C40_only (tidy_world ht) σ h1
  refine ⟨i, fs, (served_iff harr hfl hc σ).mpr hx, hi.symm, hf, hn, ?_⟩
  obtain ⟨out, ho⟩ := Option.isSome_iff_exists.mp (hc i fs hx.isBelow _ hf _ hn)
  obtain ⟨gs, hp, hfo⟩ := flowOf_added harr ho
  rw [System.call, ho, Option.getD_some] at h2
  obtain ⟨ρ, h3, -⟩ := runFlow_run s.pred (s.act c.nexus) out 0 σ'
  rw [h3] at h2
  have h4 : c.leaf ∈ out := (Flow.C31_run_subset out ρ).subset h2
  have h5 := (Flow.C31_once s.picks gs out (fun g hg => hfl _ _ g (hp.subset hg)) hfo).1
  have h6 := h5.subset (List.mem_map.mpr ⟨c.leaf, h4, rfl⟩)
  obtain ⟨a, ha, e⟩ := List.mem_map.mp h6
  simp only [Prod.mk.injEq] at e
  exact ⟨a, (progAdded_perm hp).subset ha, e.1.symm, e.2.symm⟩

/-- C159: an interrupt with no additions to the flows below it does nothing at all. -/
theorem C159_idle (s : System) (harr : ∀ l, (s.arrange l).Perm l) (hfl : s.Flows) (root : Irq)
    (hc : s.Compiles root) (h : ∀ i fs, Below (.element i fs) root → ¬ s.HasWork fs) (σ : St) :
    Irq.run s.world root σ = (σ, []) := by
  have hact : root.active s.world = false := by
    by_contra hne
    rw [Bool.not_eq_false] at hne
    obtain ⟨i, fs, hb, ha⟩ := (Interrupt.active_iff s.world root).mp hne
    exact h i fs hb ((someActive_iff harr hfl (hc i fs hb)).mp ha)
  cases root with
  | element i fs =>
    rw [Irq.active] at hact
    rw [Irq.run, hact]
    rfl
  | container i xs =>
    rw [Irq.active] at hact
    rw [Irq.run, hact]
    rfl

/-- C159: the state after the interrupt is that after the clearing of fields and the calls, one after
the other. -/
theorem C159_state (s : System) (root : Irq) (σ : St) :
    (s.calls σ (Irq.run s.world root σ).2).1 = (Irq.run s.world root σ).1 := replays_run s root σ

/-- C159: a flow leaves what its actions make of the state, one after the other. -/
theorem C159_effects (s : System) (n f : Nat) (σ : St) :
    (s.call n f σ).1 = (s.call n f σ).2.foldl (fun σ l => s.act n l σ) σ := by
  rw [System.call]
  generalize (s.flowOf n f).getD [] = ls
  induction ls generalizing σ with
  | nil => rfl
  | cons l ls ih =>
    rw [runFlow]
    split
    · exact ih _
    · exact ih σ

/-- C159: by number. -/
theorem C159_number (s : System) (impls : List (Nat × Irq)) (number : Nat) (σ : St) :
    (∀ x, (number, x) ∈ impls → (∀ y, (number, y) ∈ impls → y = x) →
      s.interrupt impls number σ =
        ((Irq.run s.world x σ).1, (s.calls σ (Irq.run s.world x σ).2).2)) ∧
    ((∀ x, (number, x) ∉ impls) → s.interrupt impls number σ = (σ, [])) := by
  obtain ⟨h1, h2⟩ := C40_manager s.world impls number σ
  constructor
  · intro x hx hu
    rw [System.interrupt, h1 x hx hu]
  · intro h
    rw [System.interrupt, h2 h]
    rfl

/-! ## A firmware

Nexus 0 has two components. One exports the flows 50 and 51 and adds `*a1 >> *a2` to 50; the other adds
`"a2"_ref >> *a3` to it, and under the runtime condition 4 the action a9 to 51. The interrupt 20 is
shared by the elements 21 (flow 50) and 22 (flow 51). Action a2 turns on bit 90, which the predicate of
the condition does not look at. -/

def exCfg : Nexus.Cfg Flow.Frag :=
  .components [
    .config [.exports [50, 51],
      .extend (.type 50) [⟨[], .seq (.star (.action 1 11)) (.star (.action 2 12))⟩]],
    .config [.extend (.type 50) [⟨[], .seq (.ref 2) (.star (.action 3 13))⟩],
      .runIf 4 [.extend (.type 51) [⟨[], .star (.action 9 19)⟩]]]]

def exSys : System where
  nexi := [0]
  cfg _ := exCfg
  preds c := [c]
  names _ := none
  arrange l := l
  picks _ := 0
  pred p σ := σ (100 + p)
  act _ l σ := if l.name = 2 then fun g => if g = 90 then true else σ g else σ

def exRoot : Irq :=
  .container { name := 20, enable := some 1 }
    [.element { name := 21, enable := some 2, status := some 3 } [50],
     .element { name := 22, enable := some 4, status := some 5 } [51]]

/-- All is enabled, both requests are pending. -/
def exOn : St := fun g => decide (g ≤ 5)

example : ((exSys.interrupt [(7, exRoot)] 7 exOn).2.map fun c => (c.irq, c.flow, c.leaf.name)) =
    [(21, 50, 1), (21, 50, 2), (21, 50, 3)] := by decide +kernel

example : ((exSys.interrupt [(7, exRoot)] 7 fun g => decide (g ≤ 5 ∨ g = 104)).2.map
    fun c => (c.irq, c.flow, c.leaf.name)) =
      [(21, 50, 1), (21, 50, 2), (21, 50, 3), (22, 51, 9)] := by decide +kernel

example : Flow.Spec.progAdded (exSys.added 0 50) = [(1, 11), (2, 12), (3, 13)] ∧
    (exSys.added 0 51).map (·.whens) = [[[4]]] := by decide +kernel

theorem exRoot_elements {i : Info} {fs : List Nat} (h : Below (.element i fs) exRoot) :
    i = { name := 21, enable := some 2, status := some 3 } ∧ fs = [50] ∨
      i = { name := 22, enable := some 4, status := some 5 } ∧ fs = [51] := by
  cases h with
  | sub hm hb =>
    simp only [List.mem_cons, List.not_mem_nil, or_false] at hm
    rcases hm with rfl | rfl <;> cases hb
    · exact .inl ⟨rfl, rfl⟩
    · exact .inr ⟨rfl, rfl⟩

theorem exSys_compiles : exSys.Compiles exRoot := by
  intro i fs hb f hf n hn
  have : n = 0 := by simpa [exSys] using hn
  subst this
  rcases exRoot_elements hb with ⟨-, rfl⟩ | ⟨-, rfl⟩ <;>
    · rw [List.mem_singleton] at hf
      subst hf
      decide +kernel

theorem exSys_tidy : exSys.Tidy exRoot where
  names := by decide
  statuses := by decide
  apart := by decide
  quiet n l σ g hg := by
    have : g ≠ 90 := by
      rintro rfl
      revert hg
      decide
    simp only [exSys]
    split
    · simp [this]
    · rfl

theorem exSys_flows : exSys.Flows := by
  intro n f g hg
  have hall : ∀ x ∈ Nexus.Spec.activeNodes exCfg, ∀ h ∈ x.args, Flow.Spec.FlowExpr h.expr := by
    simp [Nexus.Spec.activeNodes, Nexus.Spec.nodes, Nexus.Spec.nodesAll, exCfg,
      Nexus.Spec.Node.active, Flow.Spec.FlowExpr]
  simp only [System.added, List.mem_flatMap, List.mem_map] at hg
  obtain ⟨x, hx, h, hh, rfl⟩ := hg
  exact hall x (List.mem_filter.mp hx).1 h hh

/-- The hypotheses of C159 hold for it: the element 21 is served. -/
example : Served exSys exOn (.element { name := 21, enable := some 2, status := some 3 } [50]) exRoot := by
  refine .deeper ?_ ?_ (List.mem_cons_self ..) (.here (i := { name := 21, enable := some 2, status := some 3 }) (fs := [50]) ?_ ?_ (.refl _) ?_)
  · intro g hg; cases hg; rfl
  · intro g hg; cases hg
  · intro g hg; cases hg; rfl
  · intro g hg; cases hg; rfl
  · exact ⟨50, by simp, 0, by simp [exSys], by decide +kernel⟩

/-- So is the element 22, under a condition that is steady. -/
example : Served exSys exOn (.element { name := 22, enable := some 4, status := some 5 } [51]) exRoot ∧
    exSys.Steady exRoot 4 := by
  refine ⟨.deeper ?_ ?_ (List.mem_cons_of_mem _ (List.mem_cons_self ..)) (.here
    (i := { name := 22, enable := some 4, status := some 5 }) (fs := [51]) ?_ ?_ (.refl _) ?_), ?_, ?_⟩
  · intro g hg; cases hg; rfl
  · intro g hg; cases hg
  · intro g hg; cases hg; rfl
  · intro g hg; cases hg; rfl
  · exact ⟨51, by simp, 0, by simp [exSys], by decide +kernel⟩
  · intro n l σ
    simp only [exSys]
    split <;> simp
  · intro f hf σ
    have : (104 : Nat) ≠ f := by
      rintro rfl
      revert hf
      decide
    simp [exSys, this]

end Verif.Serve
