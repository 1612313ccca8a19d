import Verif.Pending.Props
import Verif.Interrupt.Props
/-!
# Exactly which requests the next run serves, for all status policies (C132)
-/
namespace Verif.Pending
open Verif.Interrupt

variable {up : Nat → List Nat} {w : World}

/-- What becomes of a status field: requests set it, clearing it makes it false, nothing else counts. -/
def level (up : Nat → List Nat) (g : Nat) (b : Bool) (t : List Act) : Bool :=
  t.foldl (fun b a => match a with
    | .raise f => b || (g == f || (up f).contains g)
    | .clear x => if x = g then false else b
    | .run _ _ _ => b) b

theorem level_append (g : Nat) (b : Bool) (t u : List Act) :
    level up g b (t ++ u) = level up g (level up g b t) u := by simp [level, List.foldl_append]

/-- The program changes the field as its events say. -/
def Tracks (up : Nat → List Nat) (g : Nat) (a : Prog) : Prop :=
  ∀ h, (a h).1.σ g = level up g (h.σ g) (a h).2

theorem Tracks.seq {g : Nat} {a b : Prog} (ha : Tracks up g a) (hb : Tracks up g b) :
    Tracks up g (seq a b) := by
  intro h
  simp only [Pending.seq, level_append, hb _, ha h]

theorem tracks_skip (g : Nat) : Tracks up g skip := fun _ => rfl

theorem level_raises (g : Nat) (b : Bool) (fs : List Nat) :
    level up g b (fs.map .raise) = (b || fs.any (fun f => g == f || (up f).contains g)) := by
  induction fs generalizing b with
  | nil => simp [level]
  | cons f fs ih =>
    rw [List.map_cons, List.any_cons, ← Bool.or_assoc, ← ih]
    rfl

theorem tracks_tick (g : Nat) : Tracks up g (tick up) := by
  intro h
  unfold tick
  split
  · rfl
  · exact (level_raises _ _ _).symm

theorem tracks_clear (g : Nat) (f : Option Nat) : Tracks up g (clear up f) := by
  cases f with
  | none => exact tracks_skip g
  | some x =>
    refine (tracks_tick g).seq fun h => ?_
    simp only [level, List.foldl_cons, List.foldl_nil]
    by_cases hx : x = g
    · simp [hx]
    · rw [if_neg (fun e => hx e.symm), if_neg hx]

theorem tracks_when {g : Nat} {a : Prog} (ha : Tracks up g a) (f : Option Nat) :
    Tracks up g (whenSet up f a) := by
  cases f with
  | none => exact ha
  | some x =>
    refine (tracks_tick g).seq fun h => ?_
    split
    · exact ha h
    · rfl

theorem tracks_policy {g : Nat} {a : Prog} (ha : Tracks up g a) (i : Info) :
    Tracks up g (policyRun up i a) := by
  unfold policyRun
  cases i.clear
  · exact (tracks_clear g _).seq ha
  · exact ha.seq (tracks_clear g _)
  · exact ha

theorem tracks_isr {g : Nat} (hq : ∀ fl n σ, w.effect fl n σ g = σ g) (name : Nat)
    (cs : List (Nat × Nat)) : Tracks up g (isr up w name cs) := by
  induction cs with
  | nil => exact tracks_skip g
  | cons c cs ih =>
    refine Tracks.seq ((tracks_tick g).seq fun h => ?_) ih
    simp [level, hq]

theorem tracks_run {g : Nat} (hq : ∀ fl n σ, w.effect fl n σ g = σ g) (x : Irq) :
    Tracks up g (run up w x) := by
  induction x using Irq.rec (motive_2 := fun xs => Tracks up g (runL up w xs)) with
  | element i fs =>
    rw [run]
    split
    · exact tracks_when (tracks_when (tracks_policy (tracks_isr hq _ _) _) _) _
    · exact tracks_skip g
  | container i xs ih =>
    rw [run]
    split
    · exact tracks_when (tracks_when (tracks_policy ih _) _) _
    · exact tracks_skip g
  | nil => rw [runL]; exact tracks_skip g
  | cons x xs ih1 ih2 => rw [runL]; exact ih1.seq ih2

theorem tracks_runs {g : Nat} (hq : ∀ fl n σ, w.effect fl n σ g = σ g) (x : Irq)
    (cs : List (List (List Nat))) (σ : Nat → Bool) :
    (runs up w x cs σ).1 g = level up g (σ g) (runs up w x cs σ).2 := by
  induction cs generalizing σ with
  | nil => rfl
  | cons c cs ih =>
    simp only [runs, ih, level_append]
    rw [tracks_tick g, tracks_run hq x]

/-- Only status fields of the tree are cleared. -/
def ClearsOnly (L : List Nat) (a : Prog) : Prop := ∀ h g, Act.clear g ∈ (a h).2 → g ∈ L

theorem ClearsOnly.seq {L : List Nat} {a b : Prog} (ha : ClearsOnly L a) (hb : ClearsOnly L b) :
    ClearsOnly L (seq a b) := by
  intro h g hg
  rcases List.mem_append.1 hg with hg | hg
  · exact ha _ _ hg
  · exact hb _ _ hg

theorem ClearsOnly.mono {L L' : List Nat} {a : Prog} (ha : ClearsOnly L a) (hl : ∀ g ∈ L, g ∈ L') :
    ClearsOnly L' a := fun h g hg => hl g (ha h g hg)

theorem clears_skip (L : List Nat) : ClearsOnly L skip := fun _ _ hg => by simp [skip] at hg

theorem clears_tick (L : List Nat) : ClearsOnly L (tick up) := by
  intro h g hg
  unfold tick at hg
  split at hg <;> simp at hg

theorem clears_clear (L : List Nat) (f : Option Nat) (hf : ∀ g, f = some g → g ∈ L) :
    ClearsOnly L (clear up f) := by
  cases f with
  | none => exact clears_skip L
  | some x =>
    refine (clears_tick L).seq fun h g hg => ?_
    rw [List.mem_singleton] at hg
    cases hg
    exact hf _ rfl

theorem clears_when {L : List Nat} {a : Prog} (ha : ClearsOnly L a) (f : Option Nat) :
    ClearsOnly L (whenSet up f a) := by
  cases f with
  | none => exact ha
  | some x =>
    refine (clears_tick L).seq fun h g hg => ?_
    split at hg
    · exact ha _ _ hg
    · simp at hg

theorem clears_policy {L : List Nat} {a : Prog} (ha : ClearsOnly L a) (i : Info)
    (hi : ∀ g, i.status = some g → g ∈ L) : ClearsOnly L (policyRun up i a) := by
  unfold policyRun
  cases i.clear
  · exact (clears_clear L _ hi).seq ha
  · exact ha.seq (clears_clear L _ hi)
  · exact ha

theorem clears_isr (L : List Nat) (name : Nat) (cs : List (Nat × Nat)) :
    ClearsOnly L (isr up w name cs) := by
  induction cs with
  | nil => exact clears_skip L
  | cons c cs ih =>
    refine ClearsOnly.seq ((clears_tick L).seq fun h g hg => ?_) ih
    simp at hg

theorem clears_run (x : Irq) : ClearsOnly x.statuses (run up w x) := by
  induction x using Irq.rec (motive_2 := fun xs =>
    ClearsOnly ((nodesL xs).filterMap (fun y => y.info.status)) (runL up w xs)) with
  | element i fs =>
    rw [run]
    split
    · refine clears_when (clears_when (clears_policy (clears_isr _ _ _) _ fun g hg => ?_) _) _
      simp [Irq.statuses, Irq.nodes, Irq.info, hg]
    · exact clears_skip _
  | container i xs ih =>
    rw [run]
    split
    · refine clears_when (clears_when (clears_policy (ih.mono fun g hg => ?_) _ fun g hg => ?_) _) _
      · rw [mem_statuses_container]; exact .inr hg
      · rw [mem_statuses_container]; exact .inl hg
    · exact clears_skip _
  | nil => rw [runL]; exact clears_skip _
  | cons x xs ih1 ih2 =>
    rw [runL]
    refine (ih1.mono fun g hg => ?_).seq (ih2.mono fun g hg => ?_)
    · rw [nodesL, List.filterMap_append]; exact List.mem_append.2 (.inl hg)
    · rw [nodesL, List.filterMap_append]; exact List.mem_append.2 (.inr hg)

theorem clears_runs (x : Irq) (cs : List (List (List Nat))) (σ : Nat → Bool) (g : Nat)
    (hg : Act.clear g ∈ (runs up w x cs σ).2) : g ∈ x.statuses := by
  induction cs generalizing σ with
  | nil => simp [runs] at hg
  | cons c cs ih =>
    simp only [runs, List.mem_append] at hg
    rcases hg with (hg | hg) | hg
    · exact clears_run x _ _ hg
    · exact clears_tick x.statuses _ _ hg
    · exact ih _ hg

/-- A field that is set stays set while it is not cleared. -/
theorem level_stays (g : Nat) (t : List Act) (ht : Act.clear g ∉ t) : level up g true t = true := by
  induction t with
  | nil => rfl
  | cons a t ih =>
    rw [List.mem_cons, not_or] at ht
    have := ih ht.2
    cases a with
    | raise f => simpa [level] using this
    | clear x =>
      have hx : x ≠ g := fun e => ht.1 (e ▸ rfl)
      simpa [level, hx] using this
    | run a b c => simpa [level] using this

theorem runs_enables {root : Irq} {i : Info} {fs : List Nat} {p : List Irq} {f : Nat}
    (S : Setting up w root (.element i fs) p f) (σ : Nat → Bool) (hen : AllSet σ (enablesOf p))
    (cs : List (List (List Nat))) : AllSet (runs up w root cs σ).1 (enablesOf p) := by
  intro g hg
  rw [tracks_runs (fun fl n σ => S.quiet fl n σ g (.inr hg)), hen g hg]
  exact level_stays g _ fun h => S.apart g hg (clears_runs root cs σ g h)

/-- C132 (partial): whatever the policies on the way are, a request is served at the latest in the
next run unless a status field on the way is cleared after it. Missing: requests that arrive before
such a clear, which are lost (`C132_violated`). -/
theorem C132_not_cleared_partial {root : Irq} {i : Info} {fs : List Nat} {p : List Irq} {f : Nat}
    (S : Setting up w root (.element i fs) p f) (ha : SomeActive w fs) (σ : Nat → Bool)
    (hen : AllSet σ (enablesOf p)) (cs : List (List (List Nat))) (next : List (List Nat)) {fl k : Nat}
    (hfl : fl ∈ fs) (hk : k ∈ w.nexi) (before after : List Act)
    (ht : (runs up w root cs σ).2 = before ++ .raise f :: after)
    (hc : ∀ g ∈ statusesOf p, Act.clear g ∉ after) :
    Act.run i.name fl k ∈ (run up w root ⟨(runs up w root cs σ).1, next⟩).2 := by
  refine C130_pending S ha _ (runs_enables S σ hen cs) (fun g hg => ?_) hfl hk
  change (runs up w root cs σ).1 g = true
  rw [tracks_runs (fun fl n σ => S.quiet fl n σ g (.inl hg)), ht, level_append]
  have : level up g (level up g (σ g) before) (.raise f :: after) = level up g true after := by
    rw [show Act.raise f :: after = [.raise f] ++ after from rfl, level_append]
    congr 1
    simp only [level, List.foldl_cons, List.foldl_nil, Bool.or_eq_true, beq_iff_eq, List.contains_iff_mem]
    exact .inr (S.wired g hg)
  rw [this]
  exact level_stays g after (hc g hg)

theorem Chain.isBelow {e x : Irq} {p : List Irq} (h : Chain e x p) : Below e x := by
  induction h with
  | here he => exact .refl _
  | under _ ih => exact .sub (List.mem_append.2 (.inr (List.mem_cons_self ..))) ih

/-- If an element is executed, the status fields on the way to it are set. -/
theorem chain_reads {σ : Nat → Bool} {e x : Irq} {p : List Irq} (h : Chain e x p)
    (hn : x.names.Nodup) (hx : Executed w σ e x) : AllSet σ (statusesOf p) := by
  induction h with
  | here he =>
    subst he
    intro g hg
    simp only [statusesOf, List.filterMap_cons, Irq.info, List.filterMap_nil] at hg
    cases hx with
    | here h1 h2 h3 h4 =>
      refine h2 g ?_
      rename_i i fs _ _
      cases hs : i.status with
      | none => simp [hs] at hg
      | some s => simp [hs] at hg; subst hg; simpa [Irq.info] using hs
  | under hch ih =>
    rename_i i a b x p
    have hbel := hch.isBelow
    have hne : ∀ (j : Info) (ys : List Irq), e ≠ .container j ys := by
      intro j ys
      clear ih hx hn hbel
      induction hch with
      | here he => subst he; exact fun h => by cases h
      | under _ ih => exact ih
    cases hx with
    | here h1 h2 h3 h4 => exact absurd rfl (hne _ _)
    | deeper h1 h2 hy hex =>
      rename_i y
      have hparts : (Irq.container i (a ++ x :: b)).names =
          i.name :: ((nodesL a).map (fun y => y.info.name) ++ (x.names ++
            (nodesL b).map (fun y => y.info.name))) := by
        simp [Irq.names, Irq.nodes, Irq.info, nodesL_append, nodesL]
      rw [hparts, List.nodup_cons, List.nodup_append, List.nodup_append] at hn
      obtain ⟨_, _, ⟨hnx, _, hxb⟩, hab⟩ := hn
      have hex' : e.info.name ∈ x.names := List.mem_map.2 ⟨e, (mem_nodes x e).2 hbel, rfl⟩
      have hey : Below e y := hex.isBelow
      have hyx : y = x := by
        rcases List.mem_append.1 hy with hy | hy
        · exact absurd rfl (hab _ (List.mem_map.2 ⟨e, (mem_nodesL a e).2 ⟨y, hy, hey⟩, rfl⟩) _
            (List.mem_append.2 (.inl hex')))
        · rcases List.mem_cons.1 hy with hy | hy
          · exact hy
          · exact absurd rfl (hxb _ hex' _ (List.mem_map.2 ⟨e, (mem_nodesL b e).2 ⟨y, hy, hey⟩, rfl⟩))
      subst hyx
      intro g hg
      simp only [statusesOf, List.filterMap_cons, Irq.info] at hg
      cases hs : i.status with
      | none => rw [hs] at hg; exact ih hnx hex g hg
      | some s =>
        rw [hs] at hg
        rcases List.mem_cons.1 hg with rfl | hg
        · exact h2 _ hs
        · exact ih hnx hex g hg

/-- C132 exactly, whatever the policies are: after any number of runs with any requests, the next run
(without further requests) calls a flow of the element if and only if on each status field on the
way to it the last thing that happened is that a request set it (or it was set from the start and
not cleared). -/
theorem C132_exact {root : Irq} {i : Info} {fs : List Nat} {p : List Irq} {f : Nat}
    (S : Setting up w root (.element i fs) p f) (ht : Tidy w root) (ha : SomeActive w fs)
    (σ : Nat → Bool) (hen : AllSet σ (enablesOf p)) (cs : List (List (List Nat))) {fl k : Nat}
    (hfl : fl ∈ fs) (hk : k ∈ w.nexi) :
    Act.run i.name fl k ∈ (run up w root ⟨(runs up w root cs σ).1, []⟩).2 ↔
      ∀ g ∈ statusesOf p, level up g (σ g) (runs up w root cs σ).2 = true := by
  have hlev : (∀ g ∈ statusesOf p, level up g (σ g) (runs up w root cs σ).2 = true) ↔
      AllSet (runs up w root cs σ).1 (statusesOf p) := by
    refine forall_congr' fun g => forall_congr' fun hg => ?_
    rw [tracks_runs (fun fl n σ => S.quiet fl n σ g (.inl hg))]
  rw [hlev]
  constructor
  · intro h
    rw [run_quiet] at h
    obtain ⟨e, he, heq⟩ := List.mem_map.1 h
    cases e with
    | clear g => simp [ofEv] at heq
    | run n f' k' =>
      simp only [ofEv, Act.run.injEq] at heq
      obtain ⟨rfl, rfl, rfl⟩ := heq
      obtain ⟨j, gs, hex, hn, _⟩ := C40_only ht _ he
      have hb := S.chain.isBelow
      have : Irq.element j gs = .element i fs :=
        inj_of_nodup_map ht.names ((mem_nodes _ _).2 hex.isBelow) ((mem_nodes _ _).2 hb) hn
      rw [this] at hex
      exact chain_reads S.chain ht.names hex
  · intro h
    exact C130_pending S ha _ (runs_enables S σ hen cs) h hfl hk

/-- With `clear_status_last`: a request while the flows run is cleared, one after the clear is served
by the next run. -/
example : Tidy exW (exLeaf .last) ∧
    level exUp 1 true (runs exUp exW (exLeaf .last) [[[], [], [1]]] (only [1])).2 = false ∧
    level exUp 1 true (runs exUp exW (exLeaf .last) [[[], [], [], [1]]] (only [1])).2 = true ∧
    (runs exUp exW (exLeaf .last) [[[], [], [], [1]]] (only [1])).2 =
      [.run 7 5 0, .clear 1] ++ .raise 1 :: [] := by
  refine ⟨⟨by decide, by decide, by decide, by intros; rfl⟩, ?_, ?_, ?_⟩ <;> decide +kernel

end Verif.Pending
