import Mathlib.Data.List.Induction
import Verif.Conc.Lemmas
import Verif.Interrupt.Props
/-!
# Properties of concurrent calls
-/
namespace Verif.Conc
open Verif.Interrupt

section
variable {w : Nat} {H : Hal w} {root : List Irq}

/-- The start: the controller is in state `d`, nothing has been seen yet, the programs are given. -/
def begin (d : Ctl w) (prog : Nat → List Api) : St Api (Sys w) (Loc w) :=
  St.initial (fun _ => ⟨d, []⟩) prog

theorem todo_sub {ι σ L : Type} {P : Lang ι σ L} (s : St ι σ L) (sched : List Nat) (t : Nat) (c : ι)
    (h : c ∈ callsOf t (s.order P sched) ∨ c ∈ ((s.run P sched).thr t).todo) :
    c ∈ (s.thr t).todo := by
  rw [← program_order (P := P) s sched t]
  exact List.mem_append.2 h

/-- The call in progress is one that has begun. -/
theorem cur_begun {ι σ L : Type} {P : Lang ι σ L} {s : St ι σ L} (hs : ∀ t, (s.thr t).cur = none)
    (sched : List Nat) : ∀ {t : Nat} {r : Running ι σ L}, ((s.run P sched).thr t).cur = some r →
    (t, r.call) ∈ s.order P sched := by
  induction sched using List.reverseRecOn with
  | nil => intro t r hr; rw [St.run, List.foldl_nil, hs t] at hr; cases hr
  | append_singleton l u ih =>
    intro t r hr
    rw [order_snoc, List.mem_append]
    rw [run_snoc] at hr
    have D := did P (s.run P l) u
    revert D hr
    generalize (s.run P l).begins P u = o
    generalize (s.run P l).turn P u = s'
    intro hr D
    cases D with
    | wait h => exact .inl (ih hr)
    | begin c cs hc htd hk =>
      by_cases h : t = u
      · subst h
        simp only [upd, if_true, Option.some.injEq] at hr
        subst hr
        exact .inr (by simp)
      · simp only [upd, h, if_false] at hr
        exact .inl (ih hr)
    | micro c l f fs hc =>
      by_cases h : t = u
      · subst h
        simp only [upd, if_true, Option.some.injEq] at hr
        subst hr
        exact .inl (ih (r := ⟨c, l, f :: fs⟩) hc)
      · simp only [upd, h, if_false] at hr
        exact .inl (ih hr)
    | finish c l hc =>
      by_cases h : t = u
      · subst h
        simp [upd] at hr
      · simp only [upd, h, if_false] at hr
        exact .inl (ih hr)

theorem mem_callsOf {ι : Type} {o : List (Nat × ι)} {t : Nat} {c : ι} (h : (t, c) ∈ o) :
    c ∈ callsOf t o := by
  simp only [callsOf, List.mem_map, List.mem_filter]
  exact ⟨(t, c), ⟨h, by simp⟩, rfl⟩

/-- If no thread ever has a call that does not take the mutex, calls are exclusive. -/
theorem exclusive_locked {ι σ L : Type} {P : Lang ι σ L} {mem : Nat → σ} {prog : Nat → List ι}
    (hp : ∀ t, ∀ c ∈ prog t, P.locked c = true) (sched : List Nat) (k : Nat) :
    ((St.initial mem prog : St ι σ L).run P sched).Exclusive P k := by
  apply exclusive_of (lockInv_run (lockInv_initial mem prog) sched)
  intro t r hr _ hl
  have := cur_begun (P := P) (s := St.initial mem prog) (fun _ => rfl) sched hr
  have := todo_sub (P := P) (St.initial mem prog) sched t r.call (.inl (mem_callsOf this))
  rw [hp t _ this] at hl
  cases hl

/-- C123, what holds: however many threads make calls, including `reset`, in whatever interleaving of
their steps, provided no other call is in progress while a `reset` is: whenever nobody is inside a
call, the controller is as if the calls had been made one after the other, in the order in which they
began, which keeps the order of every thread. -/
theorem C123_serial_partial (d : Ctl w) (prog : Nat → List Api) (sched : List Nat)
    (hc : ∀ n, ((begin d prog).run (controller H root) (sched.take n)).Careful (controller H root) 0)
    (hidle : ((begin d prog).run (controller H root) sched).Idle (controller H root) 0) :
    (((begin d prog).run (controller H root) sched).mem 0) =
      ((((begin d prog).order (controller H root) sched).map Prod.snd).foldl (Api.run H root)
        ⟨d, []⟩) ∧
    ∀ t, callsOf t ((begin d prog).order (controller H root) sched) ++
      (((begin d prog).run (controller H root) sched).thr t).todo = prog t := by
  refine ⟨?_, fun t => program_order (begin d prog) sched t⟩
  rw [← controller_serial]
  exact (memInv_run 0 (fun _ => rfl) sched fun n =>
    exclusive_of (lockInv_run (lockInv_initial _ _) _) (hc n)).idle hidle

/-- C122: the same for all calls but `reset`, without condition. -/
theorem C122_serial (d : Ctl w) (prog : Nat → List Api) (hp : ∀ t, Api.op .reset ∉ prog t)
    (sched : List Nat)
    (hidle : ((begin d prog).run (controller H root) sched).Idle (controller H root) 0) :
    (((begin d prog).run (controller H root) sched).mem 0) =
      ((((begin d prog).order (controller H root) sched).map Prod.snd).foldl (Api.run H root)
        ⟨d, []⟩) ∧
    ∀ t, callsOf t ((begin d prog).order (controller H root) sched) ++
      (((begin d prog).run (controller H root) sched).thr t).todo = prog t := by
  refine ⟨?_, fun t => program_order (begin d prog) sched t⟩
  rw [← controller_serial]
  refine (memInv_run 0 (fun _ => rfl) sched fun n => exclusive_locked ?_ _ 0).idle hidle
  intro t c hc
  cases c with
  | op o =>
    cases o with
    | reset => exact absurd hc (hp t)
    | _ => rfl
  | _ => rfl

/-- C122: calls that are over before others begin come before them in the order. -/
theorem C122_realtime (d : Ctl w) (prog : Nat → List Api) (sched later : List Nat) :
    ∃ o, (begin d prog).order (controller H root) (sched ++ later) =
      (begin d prog).order (controller H root) sched ++ o := ⟨_, order_append _ _ _⟩

/-- When everything is over, the order has exactly the programs of the threads. -/
theorem C122_all (d : Ctl w) (prog : Nat → List Api) (hp : ∀ t, Api.op .reset ∉ prog t)
    (sched : List Nat) (hd : ((begin d prog).run (controller H root) sched).Done) :
    ∃ o : List (Nat × Api), (∀ t, callsOf t o = prog t) ∧
      ((begin d prog).run (controller H root) sched).mem 0 =
        (o.map Prod.snd).foldl (Api.run H root) ⟨d, []⟩ := by
  have hidle : ((begin d prog).run (controller H root) sched).Idle (controller H root) 0 := by
    rintro t ⟨r, hr, _⟩
    rw [(hd t).1] at hr; cases hr
  obtain ⟨h1, h2⟩ := C122_serial d prog hp sched hidle
  refine ⟨_, fun t => ?_, h1⟩
  have := h2 t
  rwa [(hd t).2, List.append_nil] at this

theorem foldl_ops (cs : List Api) (hi : ∀ a r f, Api.init a r f ∉ cs) (s : Sys w) :
    (cs.foldl (Api.run H root) s).ctl = runOps H root s.ctl (opsOf cs) := by
  induction cs generalizing s with
  | nil => rfl
  | cons c cs ih =>
    rw [List.foldl_cons, ih (fun a r f h => hi a r f (by simp [h]))]
    cases c with
    | op o => rfl
    | init a r f => exact absurd (by simp) (hi a r f)
    | read n f => rfl

theorem mem_opsOf {cs : List Api} {o : Op} : o ∈ opsOf cs ↔ Api.op o ∈ cs := by
  induction cs with
  | nil => simp [opsOf]
  | cons c cs ih => cases c <;> simp [opsOf, ih]

theorem order_ops (d : Ctl w) (prog : Nat → List Api) (sched : List Nat) {c : Api}
    (h : c ∈ ((begin d prog).order (controller H root) sched).map Prod.snd) : ∃ t, c ∈ prog t := by
  obtain ⟨p, hp, rfl⟩ := List.mem_map.1 h
  exact ⟨p.1, todo_sub (P := controller H root) (begin d prog) sched p.1 p.2
    (.inl (mem_callsOf hp))⟩

/-- C122 with C44: the hardware registers have what the controller remembers whenever nobody is
inside a call. -/
theorem C122_synced (d : Ctl w) (hs : Synced H root d) (prog : Nat → List Api)
    (hp : ∀ t, Api.op .reset ∉ prog t) (hi : ∀ t a r f, Api.init a r f ∉ prog t) (sched : List Nat)
    (hidle : ((begin d prog).run (controller H root) sched).Idle (controller H root) 0) :
    Synced H root (((begin d prog).run (controller H root) sched).mem 0).ctl := by
  rw [(C122_serial d prog hp sched hidle).1, foldl_ops]
  · exact C44_histories H root _ _ hs
  · intro a r f h
    obtain ⟨t, ht⟩ := order_ops d prog sched h
    exact hi t a r f ht

/-- C122 with C43: the enable bits match the enabled things whenever nobody is inside a call, for
operations that keep this one after the other. -/
theorem C122_matches (hw : WellFormed H root) (d : Ctl w) (hs : Synced H root d)
    (hm : Matches H root d) (prog : Nat → List Api) (hp : ∀ t, Api.op .reset ∉ prog t)
    (hi : ∀ t a r f, Api.init a r f ∉ prog t) (hsafe : ∀ t o, Api.op o ∈ prog t → o.Safe root)
    (sched : List Nat)
    (hidle : ((begin d prog).run (controller H root) sched).Idle (controller H root) 0) :
    Matches H root (((begin d prog).run (controller H root) sched).mem 0).ctl := by
  rw [(C122_serial d prog hp sched hidle).1, foldl_ops]
  · refine C43_histories_partial hw _ (fun o ho => ?_) _ hs hm
    obtain ⟨t, ht⟩ := order_ops d prog sched (mem_opsOf.1 ho)
    exact hsafe t o ht
  · intro a r f h
    obtain ⟨t, ht⟩ := order_ops d prog sched h
    exact hi t a r f ht

/-- C122 with C42: a bit of a register that has changed belongs to an interrupt that one of the calls
is about. -/
theorem C122_only_owned (hw : WellFormed H root) (d : Ctl w) (hs : Synced H root d)
    (prog : Nat → List Api) (hp : ∀ t, Api.op .reset ∉ prog t)
    (hi : ∀ t a r f, Api.init a r f ∉ prog t) (sched : List Nat)
    (hidle : ((begin d prog).run (controller H root) sched).Idle (controller H root) 0) (r i : Nat)
    (h : ((((begin d prog).run (controller H root) sched).mem 0).ctl.hw r).getLsbD i ≠
      (d.hw r).getLsbD i) :
    ∃ t op, Api.op op ∈ prog t ∧ ∃ x, InTree root x ∧ op.About root x ∧ OwnsBit H x r i := by
  rw [(C122_serial d prog hp sched hidle).1, foldl_ops] at h
  · obtain ⟨o, ho, hx⟩ := C42_histories hw _ d hs r i h
    obtain ⟨t, ht⟩ := order_ops d prog sched (mem_opsOf.1 ho)
    exact ⟨t, o, ht, hx⟩
  · intro a r f h
    obtain ⟨t, ht⟩ := order_ops d prog sched h
    exact hi t a r f ht

/-! ### Reading enable fields -/

/-- Only reading adds to what is seen. -/
theorem seen_step {c : Api} (hc : ∀ n f, c ≠ .read n f) {g : Micro (Sys w) (Loc w)}
    (hg : g ∈ Api.body H root c) (p : Loc w × Sys w) : (g p).2.seen = p.2.seen := by
  have hput : ∀ b ts, g ∈ (List.map (putSteps (w := w) root b) ts).flatten →
      (g p).2.seen = p.2.seen := by
    intro b ts h
    obtain ⟨l, hl, hgl⟩ := List.mem_flatten.1 h
    obtain ⟨t, _, rfl⟩ := List.mem_map.1 hl
    unfold putSteps at hgl
    split at hgl
    · simp only [List.mem_cons, List.not_mem_nil, or_false] at hgl
      rcases hgl with rfl | rfl <;> rfl
    · split at hgl
      · simp only [List.mem_cons, List.not_mem_nil, or_false] at hgl
        rcases hgl with rfl | rfl <;> rfl
      · split at hgl
        · simp only [List.mem_cons, List.not_mem_nil, or_false] at hgl
          rcases hgl with rfl | rfl <;> rfl
        · simp at hgl
  have hupd : ∀ b irqs, g ∈ updateSteps H b irqs → (g p).2.seen = p.2.seen := by
    intro b irqs h
    obtain ⟨l, hl, hgl⟩ := List.mem_flatten.1 h
    obtain ⟨t, _, rfl⟩ := List.mem_map.1 hl
    simp only [regSteps, writeSteps, List.mem_append, List.mem_cons, List.not_mem_nil, or_false,
      List.mem_map] at hgl
    rcases hgl with (((rfl | ⟨x, _, rfl⟩) | rfl) | rfl | rfl | rfl | rfl) <;> rfl
  cases c with
  | read n f => exact absurd rfl (hc n f)
  | op o =>
    cases o with
    | items b q ts =>
      rcases List.mem_append.1 hg with h | h
      · exact hput b ts h
      · exact hupd _ _ h
    | names b ns =>
      rcases List.mem_append.1 hg with h | h
      · exact hput b ns h
      · exact hupd _ _ h
    | refreshTop => exact hupd _ _ hg
    | refreshAll => exact hupd _ _ hg
    | reset =>
      rcases List.mem_append.1 hg with h | h
      · simp only [List.mem_cons, List.not_mem_nil, or_false] at h
        rcases h with rfl | rfl | rfl <;> rfl
      · exact hupd _ _ h
  | init a r f =>
    simp only [Api.body, List.mem_append] at hg
    rcases hg with ((h | h) | h) | h
    · simp only [List.mem_cons, List.not_mem_nil, or_false] at h
      rcases h with rfl | rfl | rfl <;> rfl
    · obtain ⟨x, _, rfl⟩ := List.mem_map.1 h
      rfl
    · obtain ⟨l, hl, hgl⟩ := List.mem_flatten.1 h
      obtain ⟨t, _, rfl⟩ := List.mem_map.1 hl
      obtain ⟨x, _, rfl⟩ := List.mem_map.1 hgl
      rfl
    · exact hupd _ _ h

theorem seen_steps {c : Api} (hc : ∀ n f, c ≠ .read n f) (gs : List (Micro (Sys w) (Loc w)))
    (hg : ∀ g ∈ gs, g ∈ Api.body H root c) (p : Loc w × Sys w) :
    (gs.foldl (fun p f => f p) p).2.seen = p.2.seen := by
  induction gs generalizing p with
  | nil => rfl
  | cons g gs ih =>
    rw [List.foldl_cons, ih (fun g h => hg g (by simp [h])), seen_step hc (hg g (by simp))]

theorem seen_grows (cs : List Api) (s : Sys w) (x : Nat × Bool) (h : x ∈ s.seen) :
    x ∈ (cs.foldl (Api.run H root) s).seen := by
  induction cs generalizing s with
  | nil => exact h
  | cons c cs ih =>
    apply ih
    cases c with
    | op o => exact h
    | init a r f => exact h
    | read n f => simp [Api.run, h]

theorem seen_from (cs : List (Nat × Api)) (s : Sys w) (x : Nat × Bool)
    (h : x ∈ ((cs.map Prod.snd).foldl (Api.run H root) s).seen) :
    x ∈ s.seen ∨ ∃ o1 t f o2, cs = o1 ++ (t, Api.read x.1 f) :: o2 ∧
      x.2 = (((o1.map Prod.snd).foldl (Api.run H root) s).ctl.hw (H.reg f) &&& H.mask f != 0) := by
  induction cs generalizing s with
  | nil => exact .inl h
  | cons c cs ih =>
    obtain ⟨t, c⟩ := c
    rw [List.map_cons, List.foldl_cons] at h
    rcases ih _ h with h' | ⟨o1, u, f, o2, e1, e2⟩
    · cases c with
      | op o => exact .inl h'
      | init a r f => exact .inl h'
      | read n f =>
        simp only [Api.run, List.mem_append, List.mem_singleton] at h'
        rcases h' with h' | h'
        · exact .inl h'
        · subst h'
          exact .inr ⟨[], t, f, cs, rfl, rfl⟩
    · exact .inr ⟨(t, c) :: o1, u, f, o2, by rw [e1]; rfl, e2⟩

/-- C124: whatever an interrupt handler finds in an enable field while others call the controller is
what the field was between two whole calls: after all calls that came before in the order, with
nothing of a later one. At any time, in every interleaving. -/
theorem C124_reads (d : Ctl w) (prog : Nat → List Api) (hp : ∀ t, Api.op .reset ∉ prog t)
    (sched : List Nat) (who : Nat) (b : Bool)
    (h : (who, b) ∈ (((begin d prog).run (controller H root) sched).mem 0).seen) :
    ∃ o1 t f o2, (begin d prog).order (controller H root) sched = o1 ++ (t, .read who f) :: o2 ∧
      b = (((o1.map Prod.snd).foldl (Api.run H root) ⟨d, []⟩).ctl.hw (H.reg f) &&& H.mask f != 0) := by
  have hlock : ∀ t, ∀ c ∈ prog t, (controller H root).locked c = true := by
    intro t c hc
    cases c with
    | op o =>
      cases o with
      | reset => exact absurd hc (hp t)
      | _ => rfl
    | _ => rfl
  have M := memInv_run (P := controller H root) (s := begin d prog) 0 (fun _ => rfl) sched
    fun n => exclusive_locked hlock _ 0
  have fin : (who, b) ∈ ((((begin d prog).order (controller H root) sched).map Prod.snd).foldl
      (Api.run H root) ⟨d, []⟩).seen := by
    by_cases hi : ((begin d prog).run (controller H root) sched).Idle (controller H root) 0
    · have := M.idle hi
      rw [controller_serial] at this
      rw [this] at h
      exact h
    · obtain ⟨t, ht⟩ := not_forall.1 hi
      obtain ⟨r, hr, hk⟩ := not_not.1 ht
      obtain ⟨o1, o2, done, e1, e2, e3, e4⟩ := M.busy t r hr hk
      rw [controller_serial] at e4
      rw [e1, List.map_append, List.foldl_append, List.map_cons, List.foldl_cons]
      apply seen_grows
      have e5 := congrArg Prod.snd e4
      rw [← show _ = (((begin d prog).run (controller H root) sched).mem 0) from e5] at h
      by_cases hc : ∀ n f, r.call ≠ .read n f
      · rw [seen_steps (H := H) (root := root) hc done (fun g hg => by
          show g ∈ (controller H root).body r.call
          rw [e3]; simp [hg])] at h
        cases hcall : r.call with
        | op o => exact h
        | init a q f => exact h
        | read n f => exact absurd hcall (hc n f)
      · obtain ⟨n, hn⟩ := not_forall.1 hc
        obtain ⟨f, hf⟩ := not_forall.1 hn
        have hf := not_not.1 hf
        rw [hf] at e3 h ⊢
        cases done with
        | nil => simp only [Api.run, List.mem_append]; exact .inl h
        | cons g gs =>
          have e3' : Api.body H root (.read n f) = (g :: gs) ++ r.left := e3
          simp only [Api.body, List.cons_append, List.cons.injEq] at e3'
          obtain ⟨hg, hgs⟩ := e3'
          have : gs = [] := by
            cases gs with
            | nil => rfl
            | cons a as => cases hgs
          subst this
          rw [← hg] at h
          exact h
  rcases seen_from _ _ _ fin with h | h
  · simp at h
  · exact h

end

/-! ### Waiting -/

/-- C125: calls never block each other for good. Whatever part of the programs has been run, as long
as something is left to do some thread can go on. -/
theorem C125_no_deadlock {w : Nat} (H : Hal w) (root : List Irq) (d : Ctl w)
    (prog : Nat → List Api) (sched : List Nat)
    (hd : ¬ ((begin d prog).run (controller H root) sched).Done) :
    ∃ t, (((begin d prog).run (controller H root) sched).step (controller H root) t).isSome :=
  let ⟨t, _, h⟩ := progress (lockInv_run (lockInv_initial _ _) sched) hd
  ⟨t, h⟩

/-- C125: all calls of finitely many threads are over after finitely many rounds in which every
thread gets a turn, as many as there are steps. -/
theorem C125_finish {w : Nat} (H : Hal w) (root : List Irq) (d : Ctl w) (prog : Nat → List Api)
    (n : Nat) (hn : ∀ t, n ≤ t → prog t = []) (rounds : List (List Nat))
    (hr : ∀ r ∈ rounds, ∀ t, t < n → t ∈ r)
    (hlen : (((List.range n).map prog).flatten.map (fun c => (Api.body H root c).length + 2)).sum ≤
      rounds.length) :
    ((begin d prog).run (controller H root) rounds.flatten).Done := by
  refine rounds_done (lockInv_initial _ _) (n := n) (fun t ht => ⟨rfl, hn t ht⟩) rounds hr ?_
  refine Nat.le_trans (Nat.le_of_eq ?_) hlen
  rw [St.total]
  generalize List.range n = l
  induction l with
  | nil => rfl
  | cons a l ih =>
    rw [List.map_cons, List.sum_cons, ih, List.map_cons, List.flatten_cons, List.map_append,
      List.sum_append]
    congr 1
    show 0 + _ = _
    rw [Nat.zero_add]
    rfl

/-! ### `reset` -/

/-- The one interrupt is on after initialisation. -/
def started : Ctl 8 := init exHal exOne [] (fun _ => true) (fun _ => true) blank

/-- Thread 0 resets, thread 1 enables the interrupt and its flow. -/
def resetProg : Nat → List Api
  | 0 => [.op .reset]
  | 1 => [.op (.names true [0]), .op (.items true true [5])]
  | _ => []

theorem inTree_one {x : Irq} (h : InTree exOne x) :
    x = .element { name := 0, enable := some 0 } [5] := by
  obtain ⟨y, hy, hb⟩ := h
  rw [exOne, List.mem_singleton] at hy
  subst hy
  cases hb; rfl

theorem wf_one : WellFormed exHal exOne := by
  constructor
  · intro x y hx hy _
    rw [inTree_one hx, inTree_one hy]
  · intro x y hx hy
    rw [inTree_one hx, inTree_one hy]
    simp [Irq.info, Irq.flows]
  · intro x y r i hx hy _ _
    rw [inTree_one hx, inTree_one hy]

theorem started_synced : Synced exHal exOne started :=
  C44_init_partial _ _ _ _ _ _ (blank_onlySet _)

theorem started_matches : Matches exHal exOne started :=
  C43_init_partial wf_one _ _ _ (blank_onlySet _)

theorem reset_safe (t : Nat) (o : Op) (h : Api.op o ∈ resetProg t) : o.Safe exOne := by
  match t with
  | 0 =>
    simp only [resetProg, List.mem_singleton, Api.op.injEq] at h
    subst h; trivial
  | 1 =>
    simp only [resetProg, List.mem_cons, List.not_mem_nil, or_false, Api.op.injEq] at h
    rcases h with rfl | rfl
    · intro n hn
      rw [List.mem_singleton] at hn
      subst hn
      refine ⟨⟨by decide +kernel, by decide +kernel⟩, fun x y hx hy hn => ?_⟩
      rw [inTree_one hx]; simp [Irq.info]
    · refine ⟨rfl, fun t ht => ?_⟩
      rw [List.mem_singleton] at ht
      subst ht
      refine ⟨by decide +kernel, fun x y hx hy ht => ?_⟩
      rw [inTree_one hx] at hy ⊢
      cases hy; exact .inl rfl
  | n + 2 => simp [resetProg] at h

/-- Thread 0 gets 7 turns, so that `reset` has computed the new register value; then thread 1 makes
its calls; then thread 0 goes on. -/
def resetSched : List Nat := List.replicate 7 0 ++ List.replicate 30 1 ++ List.replicate 8 0

theorem others_idle (n : Nat) : ∀ (l : List Nat), (∀ x ∈ l, x < 2) → ∀ s : St Api (Sys 8) (Loc 8),
    ((s.run (controller exHal exOne) l).thr (n + 2)) = s.thr (n + 2) := by
  intro l
  induction l with
  | nil => intro _ s; rfl
  | cons a l ih =>
    intro hl s
    show ((s.turn _ a).run _ l).thr (n + 2) = _
    rw [ih (fun x hx => hl x (by simp [hx]))]
    exact (turn_work s a).1 _ (by have := hl a (by simp); omega)

theorem reset_done : ((begin started resetProg).run (controller exHal exOne) resetSched).Done := by
  intro t
  match t with
  | 0 => exact ⟨Option.isNone_iff_eq_none.1 (by decide +kernel), List.isEmpty_iff.1 (by decide +kernel)⟩
  | 1 => exact ⟨Option.isNone_iff_eq_none.1 (by decide +kernel), List.isEmpty_iff.1 (by decide +kernel)⟩
  | n + 2 =>
    rw [others_idle n _ (by decide)]
    exact ⟨rfl, rfl⟩

/-- C123 is violated: `reset` is not inside the critical section. With another thread that enables the
interrupt and its flow at the same time, all calls end with the interrupt enabled in the controller
and disabled in the hardware. No order of the three calls gives this. -/
theorem C123_violated_reset : ∃ (prog : Nat → List Api) (sched : List Nat),
    ((begin started prog).run (controller exHal exOne) sched).Done ∧
    ¬ Matches exHal exOne (((begin started prog).run (controller exHal exOne) sched).mem 0).ctl ∧
    ∀ o : List (Nat × Api), (∀ t, callsOf t o = prog t) →
      (((begin started prog).run (controller exHal exOne) sched).mem 0).ctl ≠
        ((o.map Prod.snd).foldl (Api.run exHal exOne) ⟨started, []⟩).ctl := by
  have hno : ¬ Matches exHal exOne
      (((begin started resetProg).run (controller exHal exOne) resetSched).mem 0).ctl := by
    intro h
    have hx := h _ ⟨_, List.mem_singleton.2 rfl, .refl _⟩ 0 0 ⟨0, rfl, rfl, by decide⟩
    have hb := hx.2 (.element (f := 5) (by decide +kernel) (by simp) (by simp) (by decide +kernel))
    revert hb
    decide +kernel
  refine ⟨resetProg, resetSched, reset_done, hno, fun o ho e => hno ?_⟩
  have hmem : ∀ c ∈ o.map Prod.snd, ∃ t, c ∈ resetProg t := by
    intro c hc
    obtain ⟨p, hp, rfl⟩ := List.mem_map.1 hc
    exact ⟨p.1, by rw [← ho p.1]; exact mem_callsOf hp⟩
  rw [e, foldl_ops]
  · refine C43_histories_partial wf_one _ (fun q hq => ?_) _ started_synced started_matches
    obtain ⟨t, ht⟩ := hmem _ (mem_opsOf.1 hq)
    exact reset_safe t q ht
  · intro a r f h
    obtain ⟨t, ht⟩ := hmem _ h
    match t with
    | 0 => simp [resetProg] at ht
    | 1 => simp [resetProg] at ht
    | n + 2 => simp [resetProg] at ht

/-- Thread 0 is stopped just before the hardware is written. -/
def lateSched : List Nat := List.replicate 10 0 ++ List.replicate 30 1 ++ List.replicate 5 0

/-- The state that remains. -/
def late : Ctl 8 := (((begin started resetProg).run (controller exHal exOne) lateSched).mem 0).ctl

/-- Still off, although enabled. -/
def StaysOff (d : Ctl 8) : Prop :=
  d.hw 0 = 0 ∧ d.shadow 0 = 1 ∧ d.en.flow 5 = true ∧ d.en.name 0 = true

theorem staysOff_step {d : Ctl 8} (h : StaysOff d) :
    StaysOff ((Op.items true true [5]).run exHal exOne d) := by
  obtain ⟨h1, h2, h3, h4⟩ := h
  have hr : regsOf exHal (affected exOne true [5]) = [0] := by decide +kernel
  have hi : inReg exHal (affected exOne true [5]) 0 =
    [.element { name := 0, enable := some 0 } [5]] := by rfl
  have hput : d.en.put exOne true 5 = { d.en with flow := setOne d.en.flow 5 true } := by rfl
  have hv : valueOf exHal { d.en with flow := setOne d.en.flow 5 true }
      [.element { name := 0, enable := some 0 } [5]] = 1 := by
    simp only [valueOf, List.foldl_cons, List.foldl_nil, isOn, List.all_nil, List.any_cons, setOne,
      h4, if_true, Bool.true_or, Bool.and_self, Bool.and_true]
    decide +kernel
  have hm : (1 &&& ~~~(maskOf exHal [.element { name := 0, enable := some 0 } [5]])) ||| 1 =
    (1 : BitVec 8) := by decide +kernel
  simp only [StaysOff, Op.run, List.foldl_cons, List.foldl_nil, Interrupt.update, hr, updateReg, hi,
    writeReg, hput, h2, hv, hm, if_true]
  refine ⟨by rw [h1]; decide, trivial, by simp [setOne], h4⟩

theorem late_again (k : Nat) :
    StaysOff (runOps exHal exOne late (List.replicate k (.items true true [5]))) := by
  induction k with
  | zero => exact ⟨by decide +kernel, by decide +kernel, by decide +kernel, by decide +kernel⟩
  | succ k ih =>
    rw [List.replicate_succ', runOps, List.foldl_append]
    exact staysOff_step ih

/-- C123 is violated lastingly: the hardware can be left different from what the controller
remembers, and then enabling the flow again, however often, does not enable the interrupt. -/
theorem C123_violated_lasting : ∃ (prog : Nat → List Api) (sched : List Nat) (d : Ctl 8),
    d = (((begin started prog).run (controller exHal exOne) sched).mem 0).ctl ∧
    (∀ t, t < 2 → (((begin started prog).run (controller exHal exOne) sched).thr t).cur.isNone ∧
      (((begin started prog).run (controller exHal exOne) sched).thr t).todo.isEmpty) ∧
    ¬ Synced exHal exOne d ∧
    ∀ k, ¬ Matches exHal exOne (runOps exHal exOne d (List.replicate k (.items true true [5]))) := by
  refine ⟨resetProg, lateSched, late, rfl, ?_, ?_, ?_⟩
  · decide +kernel
  · intro h
    have := h _ 0 ⟨_, List.mem_singleton.2 rfl, .refl _⟩ rfl
    revert this
    decide +kernel
  · intro k h
    obtain ⟨h1, h2, h3, h4⟩ := late_again k
    have hx := h _ ⟨_, List.mem_singleton.2 rfl, .refl _⟩ 0 0 ⟨0, rfl, rfl, by decide⟩
    have hb := hx.2 (.element (f := 5) h4 (by simp) (by simp) h3)
    rw [h1] at hb
    revert hb
    decide

/-! ### Cases -/

/-- Three threads: two make calls, one reads. -/
def exProg : Nat → List Api
  | 0 => [.op (.items false true [5]), .op (.items true true [5])]
  | 1 => [.op (.names false [0]), .op .refreshAll]
  | 2 => [.read 7 0, .read 7 0]
  | _ => []

/-- Turns in an irregular order. -/
def exSched : List Nat := [2, 0, 2, 1, 2, 0, 0, 1, 0, 2, 0, 0, 1, 0, 0, 2, 0] ++
  (List.replicate 12 [0, 1, 2, 1]).flatten ++ (List.replicate 20 [0, 1]).flatten

/-- C122: all calls are over; the order of the calls mixes the threads. -/
example : (((begin started exProg).order (controller exHal exOne) exSched).map Prod.fst) =
    [2, 0, 1, 2, 1, 0] := by decide +kernel
example : ∀ t, t < 3 → (((begin started exProg).run (controller exHal exOne) exSched).thr t).todo.isEmpty ∧
    (((begin started exProg).run (controller exHal exOne) exSched).thr t).cur.isNone := by
  decide +kernel
example : ∀ t, Api.op .reset ∉ exProg t := by
  intro t
  match t with
  | 0 | 1 | 2 => simp [exProg]
  | n + 3 => simp [exProg]

/-- C124: the field is read twice, before and after it is switched off. -/
example : (((begin started exProg).run (controller exHal exOne) exSched).mem 0).seen =
    [(7, true), (7, false)] := by decide +kernel

theorem careful_two {s : St Api (Sys 8) (Loc 8)} (h2 : ∀ t, 2 ≤ t → (s.thr t).cur = none)
    (hb : ¬ ((s.thr 0).cur.isSome ∧ (s.thr 1).cur.isSome)) :
    s.Careful (controller exHal exOne) 0 := by
  rintro t r hr _ _ u ⟨q, hq, _⟩
  match t, u with
  | 0, 0 => rfl
  | 1, 1 => rfl
  | 0, 1 => exact absurd ⟨by rw [hr]; rfl, by rw [hq]; rfl⟩ hb
  | 1, 0 => exact absurd ⟨by rw [hq]; rfl, by rw [hr]; rfl⟩ hb
  | n + 2, _ => rw [h2 _ (by omega)] at hr; cases hr
  | _, n + 2 => rw [h2 _ (by omega)] at hq; cases hq

/-- C123: two threads, one of which resets; nothing happens meanwhile. The hypothesis of the theorem
is met. -/
def calmSched : List Nat := List.replicate 11 1 ++ List.replicate 12 0 ++ List.replicate 11 1

example (n : Nat) : ((begin started resetProg).run (controller exHal exOne)
    (calmSched.take n)).Careful (controller exHal exOne) 0 := by
  apply careful_two
  · intro t ht
    obtain ⟨m, rfl⟩ : ∃ m, t = m + 2 := ⟨t - 2, by omega⟩
    rw [others_idle m _ (fun x hx =>
      (show ∀ x ∈ calmSched, x < 2 by decide) x (List.mem_of_mem_take hx))]
    rfl
  · have key : ∀ m, m < 35 → ¬ ((((begin started resetProg).run (controller exHal exOne)
        (calmSched.take m)).thr 0).cur.isSome ∧ (((begin started resetProg).run
        (controller exHal exOne) (calmSched.take m)).thr 1).cur.isSome) := by decide +kernel
    by_cases hn : n < 35
    · exact key n hn
    · rw [List.take_of_length_le (by simp [calmSched]; omega)]
      have := key 34 (by omega)
      rwa [List.take_of_length_le (by simp [calmSched])] at this
example : (((begin started resetProg).order (controller exHal exOne) calmSched).map Prod.fst) =
    [1, 0, 1] := by decide +kernel

/-- C125: a bound for the three threads. -/
example : (((List.range 3).map exProg).flatten.map
    (fun c => (Api.body exHal exOne c).length + 2)).sum = 48 := by decide +kernel

end Verif.Conc
