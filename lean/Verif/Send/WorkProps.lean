import Verif.Send.Props

/-!
# C160: no thread loses its work

The theorems of `Props.lean` speak about the starts that took place. Here: all actions of all threads
take place, in order, and each action as often as something caused it.
-/
namespace Verif.Send
open Spec

/-- The actions among the things to do. -/
def acts : List Item → List Act
  | [] => []
  | .act a :: l => a :: acts l
  | _ :: l => acts l

theorem acts_append (a b : List Item) : acts (a ++ b) = acts a ++ acts b := by
  induction a with
  | nil => rfl
  | cons x l ih => cases x <;> simp [acts, ih]

theorem acts_map (l : List Act) : acts (l.map .act) = l := by
  induction l with
  | nil => rfl
  | cons x l ih => simp [acts, ih]

theorem acts_resumes (l : List (Nat × Nat)) (vs : List Val) :
    acts (l.map fun w => Item.resume w.1 w.2 vs) = [] := by
  induction l with
  | nil => rfl
  | cons x l ih => simp [acts, ih]

theorem answers_due (P : Prog) (m : Nat) : P.answers m = due P (.handled m) := by
  simp only [Prog.answers, due, Handler.C66_registration_order_partial, Handler.expected,
    List.flatMap_map]

/-- One step: what was to be done first is in the log, what it causes is to be done next. -/
theorem perform_form (P : Prog) (s : State) (t : Nat) (x : Item) (rest : List Item) :
    ∃ new e, (s.perform P t x rest).log = s.log ++ [e] ∧
      (∀ u, (s.perform P t x rest).todo u = if u = t then new ++ rest else s.todo u) ∧
      acts new = due P e ∧ acts [x] = (ofAct e).toList := by
  cases x with
  | act a =>
    cases a with
    | start r => exact ⟨[.call s.next r], _, rfl, fun u => rfl, rfl, rfl⟩
    | trigger n vs => exact ⟨_, _, rfl, fun u => rfl, acts_resumes _ _, rfl⟩
    | handle m => exact ⟨_, _, rfl, fun u => rfl, (acts_map _).trans (answers_due P m), rfl⟩
    | other n => exact ⟨[], _, rfl, fun u => rfl, rfl, rfl⟩
  | call i r => exact ⟨_, _, rfl, fun u => rfl, acts_map _, rfl⟩
  | resume i r vs => exact ⟨_, _, rfl, fun u => rfl, acts_map _, rfl⟩

/-! ## in order -/

/-- Of the program of thread `t` the part `xs` took place, in order, and the rest is what it has to do
last. -/
def InOrder (threads : Nat → List Act) (t : Nat) (s : State) : Prop :=
  ∃ (xs ys : List Act) (evs : List Ev) (new : List Item), threads t = xs ++ ys ∧ s.todo t = new ++ ys.map .act ∧
    evs.Sublist s.log ∧ evs.map ofAct = xs.map some

theorem InOrder.step {P : Prog} {threads : Nat → List Act} {t : Nat} {s : State}
    (h : InOrder threads t s) (u : Nat) : InOrder threads t (s.step P u) := by
  obtain ⟨xs, ys, evs, new, h1, h2, h3, h4⟩ := h
  unfold State.step
  split
  · exact ⟨xs, ys, evs, new, h1, h2, h3, h4⟩
  · next x rest hx =>
    obtain ⟨more, e, hl, ht, -, hx'⟩ := perform_form P s u x rest
    have hsub : evs.Sublist (s.perform P u x rest).log := by
      rw [hl]
      exact h3.trans (List.sublist_append_left _ _)
    by_cases hut : t = u
    · subst hut
      rw [hx] at h2
      cases new with
      | nil =>
        cases ys with
        | nil => cases h2
        | cons a ys =>
          simp only [List.nil_append, List.map_cons, List.cons.injEq] at h2
          obtain ⟨rfl, rfl⟩ := h2
          refine ⟨xs ++ [a], ys, evs ++ [e], more, by simp [h1], by rw [ht, if_pos rfl], ?_, ?_⟩
          · rw [hl]
            exact h3.append (List.Sublist.refl _)
          · have : ofAct e = some a := by
              cases ho : ofAct e with
              | none => rw [ho] at hx'; cases hx'
              | some b =>
                rw [ho] at hx'
                simp only [acts, Option.toList_some, List.cons.injEq, and_true] at hx'
                rw [hx']
            simp [h4, this]
      | cons y new =>
        simp only [List.cons_append, List.cons.injEq] at h2
        obtain ⟨rfl, rfl⟩ := h2
        exact ⟨xs, ys, evs, more ++ new, h1, by rw [ht, if_pos rfl, List.append_assoc], hsub, h4⟩
    · exact ⟨xs, ys, evs, new, h1, by rw [ht, if_neg hut, h2], hsub, h4⟩

theorem InOrder.run {P : Prog} {threads : Nat → List Act} {t : Nat} (schedule : List Nat) {s : State}
    (h : InOrder threads t s) : InOrder threads t (Send.run P s schedule) := by
  unfold Send.run
  induction schedule generalizing s with
  | nil => exact h
  | cons u us ih => exact ih (h.step u)

variable (P : Prog) (threads : Nat → List Act) (schedule : List Nat)

/-- C160: when all threads have done what they had to do, all actions of each thread took place, in the
order of its program. So each start that a thread makes is one of the starts of the other theorems. -/
theorem C160_performed (hq : Quiet (run P (State.init threads) schedule)) (t : Nat) :
    ∃ evs : List Ev, evs.Sublist (run P (State.init threads) schedule).log ∧
      evs.map ofAct = (threads t).map some := by
  have h0 : InOrder threads t (State.init threads) := ⟨[], threads t, [], [], rfl, rfl, by simp, rfl⟩
  obtain ⟨xs, ys, evs, new, h1, h2, h3, h4⟩ := h0.run (P := P) schedule
  rw [hq t] at h2
  have hy : ys = [] := by
    have := (List.append_eq_nil_iff.mp h2.symm).2
    simpa using this
  subst hy
  exact ⟨evs, h3, by rw [h4, h1, List.append_nil]⟩

/-! ## as often as caused -/

/-- How often the first `N` threads have still to do `a`. -/
def pendingCount (N : Nat) (a : Act) (todo : Nat → List Item) : Nat :=
  ((List.range N).map fun t => (acts (todo t)).count a).sum

theorem pendingCount_change {N t : Nat} (a : Act) {f g : Nat → List Item} (ht : t < N)
    (hg : ∀ u, u ≠ t → g u = f u) :
    pendingCount N a g + (acts (f t)).count a = pendingCount N a f + (acts (g t)).count a := by
  induction N with
  | zero => omega
  | succ N ih =>
    simp only [pendingCount, List.range_succ, List.map_append, List.map_cons, List.map_nil,
      List.sum_append, List.sum_cons, List.sum_nil] at ih ⊢
    by_cases h : t = N
    · subst h
      have : (List.range t).map (fun u => (acts (g u)).count a) =
          (List.range t).map (fun u => (acts (f u)).count a) :=
        List.map_congr_left fun u hu => by rw [hg u (by have := List.mem_range.mp hu; omega)]
      rw [this]
      omega
    · have := ih (by omega)
      rw [hg N (fun e => h e.symm)]
      omega

/-- Everything that was to be done is done or still to be done, as often as it was caused. -/
def Balance (N : Nat) (s : State) : Prop :=
  (∀ t, N ≤ t → s.todo t = []) ∧
  ∀ a, (s.log.filterMap ofAct).count a + pendingCount N a s.todo =
    ((List.range N).flatMap threads).count a + (s.log.flatMap (due P)).count a

theorem balance_init (N : Nat) (hN : ∀ t, N ≤ t → threads t = []) :
    Balance P threads N (State.init threads) := by
  refine ⟨fun t ht => by simp [State.init, hN t ht], fun a => ?_⟩
  simp only [State.init, pendingCount, acts_map, List.filterMap_nil, List.flatMap_nil, List.count_nil,
    Nat.zero_add, Nat.add_zero]
  clear hN
  induction N with
  | zero => rfl
  | succ N ih => simp [List.range_succ, List.flatMap_append, ih]

theorem Balance.step {N : Nat} {s : State} (h : Balance P threads N s) (t : Nat) :
    Balance P threads N (s.step P t) := by
  unfold State.step
  split
  · exact h
  · next x rest hx =>
    obtain ⟨new, e, hl, htodo, hnew, hx'⟩ := perform_form P s t x rest
    have htN : t < N := by
      by_contra hn
      rw [h.1 t (by omega)] at hx
      cases hx
    refine ⟨fun u hu => by rw [htodo, if_neg (by omega)]; exact h.1 u hu, fun a => ?_⟩
    have hc := pendingCount_change (f := s.todo) (g := (s.perform P t x rest).todo) a htN
      (fun u hu => by rw [htodo, if_neg hu])
    rw [htodo t, if_pos rfl, hx, acts_append, hnew, ← List.singleton_append, acts_append, hx',
      List.count_append, List.count_append] at hc
    have hb := h.2 a
    rw [hl, List.filterMap_append, List.flatMap_append, List.count_append, List.count_append]
    have h1 : [e].filterMap ofAct = (ofAct e).toList := by cases ho : ofAct e <;> simp [ho]
    have h2 : [e].flatMap (due P) = due P e := by simp
    rw [h1, h2]
    omega

/-- C160: when all is done, each action took place exactly as often as it is in the programs of the
threads, in bodies of functions that were called, and in what the accepting callbacks of a message that
was handed over do. Nothing is lost or done twice. -/
theorem C160_work (hq : Quiet (run P (State.init threads) schedule)) (N : Nat)
    (hN : ∀ t, N ≤ t → threads t = []) (a : Act) :
    ((run P (State.init threads) schedule).log.filterMap ofAct).count a =
      ((List.range N).flatMap threads).count a +
        ((run P (State.init threads) schedule).log.flatMap (due P)).count a := by
  have key : ∀ (sch : List Nat) (s : State), Balance P threads N s →
      Balance P threads N (Send.run P s sch) := by
    intro sch
    induction sch with
    | nil => exact fun s h => h
    | cons u us ih => exact fun s h => ih _ (h.step P threads u)
  have hb := (key schedule _ (balance_init P threads N hN)).2 a
  have hz : pendingCount N a (run P (State.init threads) schedule).todo = 0 := by
    simp only [pendingCount]
    have : ∀ t, (acts ((run P (State.init threads) schedule).todo t)).count a = 0 := fun t => by
      rw [hq t]; rfl
    simp [this]
  rw [hz] at hb
  exact hb

/-- Non-vacuity: two threads that both have work; all of it is done, the trigger of the callback as often
as the two requests cause it. -/
example :
    let th : Nat → List Act := fun t => if t = 0 then [.start 0, .other 1] else if t = 1 then [.start 0] else []
    let s := run exProg (State.init th) ([0, 1, 1, 0] ++ List.replicate 20 0 ++ List.replicate 20 1)
    s.todo 0 = [] ∧ s.todo 1 = [] ∧ (∀ t, 2 ≤ t → th t = []) ∧
      (s.log.filterMap ofAct).count (.trigger 5 [⟨1, 42⟩]) = 2 ∧
      (s.log.filterMap ofAct).count (.other 1) = 1 ∧ (s.log.filterMap ofAct).count (.start 0) = 2 := by
  refine ⟨by decide +kernel, by decide +kernel, ?_, by decide +kernel, by decide +kernel,
    by decide +kernel⟩
  intro t ht
  simp only
  rw [if_neg (by omega), if_neg (by omega)]

end Verif.Send
