import Verif.Pending.Lemmas
/-!
# Properties of interrupt requests: C130, C131, C132, C133
-/
namespace Verif.Pending
open Verif.Interrupt

variable {up : Nat → List Nat} {w : World}

/-- Without requests, `run` is the one of `Verif.Interrupt`. -/
theorem run_quiet (x : Irq) (σ : Nat → Bool) :
    run up w x ⟨σ, []⟩ = (⟨(Irq.run w x σ).1, []⟩, (Irq.run w x σ).2.map ofEv) := same_run x σ

theorem mem_isrCalls {fs : List Nat} {fl k : Nat} :
    (fl, k) ∈ isrCalls w fs ↔ fl ∈ fs ∧ k ∈ w.nexi := by
  simp only [isrCalls, List.mem_flatten, List.mem_map]
  constructor
  · rintro ⟨l, ⟨g, hg, rfl⟩, hl⟩
    obtain ⟨n, hn, he⟩ := List.mem_map.1 hl
    cases he
    exact ⟨hg, hn⟩
  · rintro ⟨h1, h2⟩
    exact ⟨_, ⟨fl, h1, rfl⟩, List.mem_map.2 ⟨k, h2, rfl⟩⟩

theorem active_of {i : Info} {fs : List Nat} (h : SomeActive w fs) :
    (Irq.element i fs).active w = true := by
  obtain ⟨f, hf, n, hn, ha⟩ := h
  rw [Irq.active, List.any_eq_true]
  exact ⟨f, hf, by simp only [World.flowActive, List.any_eq_true]; exact ⟨n, hn, ha⟩⟩

/-- C130: when an interrupt runs while the request of an element below it is pending, on the whole
way and enabled, all flows of the element are called, whatever the policies are and whatever further
requests arrive at whatever time. -/
theorem C130_pending {root : Irq} {i : Info} {fs : List Nat} {p : List Irq} {f : Nat}
    (S : Setting up w root (.element i fs) p f) (ha : SomeActive w fs) (h : Hw)
    (hen : AllSet h.σ (enablesOf p)) (hst : AllSet h.σ (statusesOf p)) {fl k : Nat}
    (hfl : fl ∈ fs) (hk : k ∈ w.nexi) : Act.run i.name fl k ∈ (run up w root h).2 := by
  refine reach_chain (enablesOf p) (active_of ha) (mem_isrCalls.2 ⟨hfl, hk⟩) S.chain S.quiet
    (fun _ hg => hg) S.unique (fun g hg he => S.apart g he hg) h ?_
  intro g hg
  rcases List.mem_append.1 hg with hg | hg
  · exact hen g hg
  · exact hst g hg

/-- The invariant between runs. -/
theorem runs_keep {root : Irq} {i : Info} {fs : List Nat} {p : List Irq} {f : Nat}
    (S : Setting up w root (.element i fs) p f) (ha : SomeActive w fs)
    (hpol : ∀ y ∈ p, y.info.clear ≠ .last) {fl k : Nat} (hfl : fl ∈ fs) (hk : k ∈ w.nexi)
    (cs : List (List (List Nat))) (σ : Nat → Bool) (b : Bool)
    (hP : AllSet σ (enablesOf p) ∧ (b = true → AllSet σ (statusesOf p))) :
    AllSet (runs up w root cs σ).1 (enablesOf p) ∧
      (owed f (.run i.name fl k) b (runs up w root cs σ).2 = true →
        AllSet (runs up w root cs σ).1 (statusesOf p)) := by
  induction cs generalizing σ b with
  | nil => exact hP
  | cons c cs ih =>
    simp only [runs, owed_append]
    have h1 := leads_chain (up := up) (w := w) (enablesOf p) (statusesOf p) S.wired
      S.quiet (active_of ha) (mem_isrCalls.2 ⟨hfl, hk⟩) S.chain hpol
      (fun _ hg => hg) (fun _ hg => hg) S.unique (fun g hg he => S.apart g he hg)
      (fun _ _ hg => hg) ⟨σ, c⟩ b hP
    have h2 := leads_tick (up := up) (f := f) (.run i.name fl k) (enablesOf p) (statusesOf p) S.wired
      ⟨(run up w root ⟨σ, c⟩).1.σ, [(run up w root ⟨σ, c⟩).1.coming.flatten]⟩ _ h1
    exact ih _ _ h2

/-- C131: no request is lost if no interrupt on the way has `clear_status_last`. However requests
arrive while an interrupt runs, any number of times: when it runs again, every flow of the
requested element has been called after the request. -/
theorem C131_not_lost {root : Irq} {i : Info} {fs : List Nat} {p : List Irq} {f : Nat}
    (S : Setting up w root (.element i fs) p f) (ha : SomeActive w fs)
    (hpol : ∀ y ∈ p, y.info.clear ≠ .last) (σ : Nat → Bool) (hen : AllSet σ (enablesOf p))
    (cs : List (List (List Nat))) (next : List (List Nat)) {fl k : Nat} (hfl : fl ∈ fs)
    (hk : k ∈ w.nexi) (before after : List Act)
    (ht : (runs up w root cs σ).2 = before ++ .raise f :: after) :
    Act.run i.name fl k ∈ after ++ (run up w root ⟨(runs up w root cs σ).1, next⟩).2 := by
  by_cases hc : Act.run i.name fl k ∈ after
  · exact List.mem_append.2 (.inl hc)
  · have h := runs_keep S ha hpol hfl hk cs σ false ⟨hen, by simp⟩
    refine List.mem_append.2 (.inr (C130_pending S ha _ h.1 (h.2 ?_) hfl hk))
    rw [ht]
    exact owed_of_split (by simp) _ _ _ hc

theorem isrCalls_once {fs : List Nat} (hfs : fs.Nodup) (hnx : w.nexi.Nodup) (fl k : Nat) :
    (isrCalls w fs).count (fl, k) ≤ 1 := by
  have hmap : ∀ (l : List Nat) (f : Nat), (l.map (fun n => (f, n))).count (fl, k) =
      if f = fl then l.count k else 0 := by
    intro l f
    induction l with
    | nil => simp
    | cons n l ih =>
      rw [List.map_cons, List.count_cons, ih]
      by_cases hf : f = fl
      · simp [hf, List.count_cons]
      · simp [hf]
  induction fs with
  | nil => simp [isrCalls]
  | cons f fs ih =>
    rw [List.nodup_cons] at hfs
    have h2 := ih hfs.2
    have hk := List.nodup_iff_count.1 hnx k
    have : (isrCalls w (f :: fs)).count (fl, k) =
        (if f = fl then w.nexi.count k else 0) + (isrCalls w fs).count (fl, k) := by
      simp only [isrCalls, List.map_cons, List.flatten_cons, List.count_append, hmap]
    rw [this]
    by_cases hf : f = fl
    · have h0 : (isrCalls w fs).count (fl, k) = 0 := by
        rw [List.count_eq_zero, mem_isrCalls]
        rintro ⟨h, _⟩
        exact hfs.1 (hf ▸ h)
      rw [if_pos hf, h0]
      omega
    · rw [if_neg hf]
      omega

/-- C133: no flow is called more often than there were requests: with `clear_status_first` or
`clear_status_last` the calls of a flow of an element are at most the requests that set its status
field, and one more if it was set at the beginning. -/
theorem C133_not_more {root : Irq} {i : Info} {fs : List Nat} {f : Nat} (hs : i.status = some f)
    (hc : i.clear ≠ .dont) (hq : ∀ fl n σ, w.effect fl n σ f = σ f)
    (hx : ∀ y ∈ root.nodes, y.info.name = i.name ∨ y.info.status = some f → y = .element i fs)
    (hfs : fs.Nodup) (hnx : w.nexi.Nodup) (cs : List (List (List Nat))) (σ : Nat → Bool) (fl k : Nat) :
    (runs up w root cs σ).2.count (.run i.name fl k) ≤
      (if σ f = true then 1 else 0) + requests up f (runs up w root cs σ).2 := by
  have h1 := isrCalls_once hfs hnx fl k
  have : ∀ σ, (runs up w root cs σ).2.count (.run i.name fl k) +
      pend f ⟨(runs up w root cs σ).1, []⟩ ≤
      pend f ⟨σ, []⟩ + requests up f (runs up w root cs σ).2 := by
    induction cs with
    | nil => intro σ; simp [runs, requests]
    | cons c cs ih =>
      intro σ
      have hr := paid_run (up := up) (w := w) hs hc hq h1 root hx ⟨σ, c⟩
      have ht := paid_tick (up := up) f i.name fl k
        ⟨(run up w root ⟨σ, c⟩).1.σ, [(run up w root ⟨σ, c⟩).1.coming.flatten]⟩
      have hi := ih (tick up ⟨(run up w root ⟨σ, c⟩).1.σ,
        [(run up w root ⟨σ, c⟩).1.coming.flatten]⟩).1.σ
      have e : ∀ h : Hw, pend f h = pend f ⟨h.σ, []⟩ := fun _ => rfl
      rw [Paid, e, e ⟨σ, c⟩] at hr
      rw [Paid, e, e ⟨_, [_]⟩] at ht
      simp only [runs, requests, List.count_append, List.countP_append, Nat.add_zero] at hr ht hi ⊢
      omega
  have := this σ
  simp only [pend] at this
  omega

/-! ## `clear_status_last` -/

/-- With its status field clear an interrupt does nothing. -/
theorem run_off {x : Irq} {f : Nat} (he : x.info.enable = none) (hs : x.info.status = some f)
    {σ : Nat → Bool} (h : σ f = false) : run up w x ⟨σ, []⟩ = (⟨σ, []⟩, []) := by
  cases x <;> simp only [Irq.info] at he hs <;> simp only [run, he, hs, whenSet] <;>
    split <;> simp [seq, tick, h, skip]

/-- Without requests it does nothing any more. -/
theorem runs_off {x : Irq} {f : Nat} (he : x.info.enable = none) (hs : x.info.status = some f)
    {σ : Nat → Bool} (h : σ f = false) (n : Nat) : (runs up w x (List.replicate n []) σ).2 = [] := by
  induction n with
  | zero => rfl
  | succ n ih =>
    rw [List.replicate_succ]
    simp only [runs, run_off he hs h, List.flatten_nil, List.nil_append]
    have : tick up ⟨σ, [[]]⟩ = (⟨σ, []⟩, []) := by simp [tick]
    rw [this]
    exact ih

/-- One flow, number 5, in one nexus. -/
def exW : World := ⟨[0], fun _ _ => true, fun _ _ σ => σ⟩

/-- An element with status field 1. -/
def exLeaf (c : Clear) : Irq := .element { name := 7, status := some 1, clear := c } [5]

/-- Another element, with status field 2. -/
def exOther : Irq := .element { name := 8, status := some 2 } [6]

/-- Both below a shared interrupt with status field 10. -/
def exShared (c : Clear) : Irq :=
  .container { name := 9, status := some 10, clear := c } [exLeaf .first, exOther]

/-- Requests of the elements reach the shared interrupt. -/
def exUp : Nat → List Nat := fun f => if f = 1 ∨ f = 2 then [10] else []

/-- Only the fields of the list are set. -/
def only (l : List Nat) : Nat → Bool := fun g => l.contains g

theorem exLeaf_setting (c : Clear) : Setting exUp exW (exLeaf c) (exLeaf c) [exLeaf c] 1 where
  chain := .here (i := { name := 7, status := some 1, clear := c }) (fs := [5]) rfl
  status := rfl
  unique := by cases c <;> decide
  apart := by cases c <;> decide
  quiet := by intros; rfl
  wired := by cases c <;> decide

theorem exShared_setting (c : Clear) :
    Setting exUp exW (exShared c) (exLeaf .first) [exShared c, exLeaf .first] 1 where
  chain := .under (a := []) (b := [exOther])
    (.here (i := { name := 7, status := some 1, clear := .first }) (fs := [5]) rfl)
  status := rfl
  unique := by cases c <;> decide +kernel
  apart := by cases c <;> decide +kernel
  quiet := by intros; rfl
  wired := by cases c <;> decide +kernel

/-- C132 is violated: with `clear_status_last` a request that arrives while the flows run is cleared
with the one before it, and is never served. -/
theorem C132_violated : ∃ (up : Nat → List Nat) (w : World) (root : Irq) (i : Info) (fs : List Nat)
    (p : List Irq) (f fl k : Nat) (σ : Nat → Bool) (c : List (List Nat)) (before after : List Act),
    Setting up w root (.element i fs) p f ∧ SomeActive w fs ∧ fl ∈ fs ∧ k ∈ w.nexi ∧
    AllSet σ (enablesOf p) ∧ (runs up w root [c] σ).2 = before ++ .raise f :: after ∧
    ∀ n, Act.run i.name fl k ∉ after ++
      (runs up w root (List.replicate n []) (runs up w root [c] σ).1).2 := by
  refine ⟨exUp, exW, exLeaf .last, { name := 7, status := some 1, clear := .last }, [5],
    [exLeaf .last], 1, 5, 0, only [1], [[], [], [1]], [.run 7 5 0], [.clear 1],
    exLeaf_setting .last, ⟨5, by decide, 0, by decide, rfl⟩, by decide, by decide,
    by simp [AllSet, enablesOf, exLeaf, Irq.info], by decide +kernel, fun n => ?_⟩
  rw [runs_off (f := 1) rfl rfl (by decide +kernel)]
  simp

/-- C132 is violated at a shared interrupt too: a request for an element that has been looked at
already, and whose shared interrupt has `clear_status_last`, leaves the status field of the element
set but that of the shared interrupt cleared, so that the element is not looked at again. -/
theorem C132_violated_shared : ∃ (up : Nat → List Nat) (w : World) (root : Irq) (i : Info)
    (fs : List Nat) (p : List Irq) (f fl k : Nat) (σ : Nat → Bool) (c : List (List Nat))
    (before after : List Act),
    Setting up w root (.element i fs) p f ∧ i.clear = .first ∧ SomeActive w fs ∧ fl ∈ fs ∧ k ∈ w.nexi ∧
    AllSet σ (enablesOf p) ∧ (runs up w root [c] σ).2 = before ++ .raise f :: after ∧
    (runs up w root [c] σ).1 f = true ∧
    ∀ n, Act.run i.name fl k ∉ after ++
      (runs up w root (List.replicate n []) (runs up w root [c] σ).1).2 := by
  refine ⟨exUp, exW, exShared .last, { name := 7, status := some 1, clear := .first }, [5],
    [exShared .last, exLeaf .first], 1, 5, 0, only [2, 10], [[], [], [], [], [1]], [.clear 2],
    [.run 8 6 0, .clear 10],
    exShared_setting .last, rfl, ⟨5, by decide, 0, by decide, rfl⟩, by decide, by decide,
    by simp [AllSet, enablesOf, exLeaf, exShared, Irq.info], by decide +kernel, by decide +kernel, fun n => ?_⟩
  rw [runs_off (f := 10) rfl rfl (by decide +kernel)]
  simp

/-- C132 (partial): with `clear_status_last` a request is served that is pending when the interrupt
begins to run. Missing: requests that arrive while it runs (`C132_violated`,
`C132_violated_shared`). -/
theorem C132_pending_partial {root : Irq} {i : Info} {fs : List Nat} {p : List Irq} {f : Nat}
    (S : Setting up w root (.element i fs) p f) (ha : SomeActive w fs) (h : Hw)
    (hen : AllSet h.σ (enablesOf p)) (hst : AllSet h.σ (statusesOf p)) {fl k : Nat}
    (hfl : fl ∈ fs) (hk : k ∈ w.nexi) : Act.run i.name fl k ∈ (run up w root h).2 :=
  C130_pending S ha h hen hst hfl hk

/-! ## Examples -/

/-- C131: the same requests with `clear_status_first`: the second request is served by the second
run. -/
example : Act.run 7 5 0 ∈ ([.run 7 5 0] : List Act) ++ (run exUp exW (exLeaf .first)
      ⟨(runs exUp exW (exLeaf .first) [[[], [], [1]]] (only [1])).1, []⟩).2 :=
  C131_not_lost (i := { name := 7, status := some 1 }) (fs := [5]) (exLeaf_setting .first)
    ⟨5, by decide, 0, by decide, rfl⟩ (by decide) (only [1])
    (by simp [AllSet, enablesOf, exLeaf, Irq.info]) [[[], [], [1]]] [] (by decide) (by decide) [.clear 1]
    [.run 7 5 0] (by decide +kernel)

example : (runs exUp exW (exLeaf .first) [[[], [], [], [1]], []] (only [1])).2 =
    [.clear 1, .run 7 5 0, .raise 1, .clear 1, .run 7 5 0] := by decide +kernel

/-- C131 at the shared interrupt, with `clear_status_first`: the request arrives after the element was
looked at. -/
example : Act.run 7 5 0 ∈ ([.run 8 6 0] : List Act) ++ (run exUp exW (exShared .first)
      ⟨(runs exUp exW (exShared .first) [[[], [], [], [], [], [1]]] (only [2, 10])).1, []⟩).2 :=
  C131_not_lost (i := { name := 7, status := some 1 }) (fs := [5]) (exShared_setting .first)
    ⟨5, by decide, 0, by decide, rfl⟩ (by decide +kernel) (only [2, 10])
    (by simp [AllSet, enablesOf, exLeaf, exShared, Irq.info]) [[[], [], [], [], [], [1]]] []
    (by decide) (by decide) [.clear 10, .clear 2] [.run 8 6 0] (by decide +kernel)

/-- C130 -/
example : Act.run 7 5 0 ∈ (run exUp exW (exShared .last) ⟨only [1, 10], [[2], [1], [], [2]]⟩).2 :=
  C130_pending (i := { name := 7, status := some 1 }) (fs := [5]) (exShared_setting .last)
    ⟨5, by decide, 0, by decide, rfl⟩ _ (by simp [AllSet, enablesOf, exLeaf, exShared, Irq.info])
    (by simp [AllSet, statusesOf, exLeaf, exShared, Irq.info, only]) (by decide) (by decide)

/-- C133: four requests, two of which arrive together. -/
example : (runs exUp exW (exLeaf .first) [[[1]], [[1, 1]], [[1]]] (only [])).2.count (.run 7 5 0) ≤ 4 :=
  C133_not_more (root := exLeaf .first) (i := { name := 7, status := some 1 }) (fs := [5]) (w := exW)
    (up := exUp) (f := 1) rfl (by decide) (fun _ _ _ => rfl) (by simp [exLeaf, Irq.nodes]) (by decide)
    (by decide) [[[1]], [[1, 1]], [[1]]] (only []) 5 0

example : (runs exUp exW (exLeaf .first) [[[1]], [[1, 1]], [[1]]] (only [])).2.count (.run 7 5 0) = 3 := by
  decide +kernel

end Verif.Pending
