import Mathlib.Tactic.ByContra
import Verif.Send.Lemmas
import Verif.Handler.Props

/-!
# C160, C161: requests and responses

For all programs, any number of threads and interrupts, and all interleavings.
-/
namespace Verif.Send
open Spec

/-! ## Starts have different numbers -/

theorem started_range_step (P : Prog) (s : State) (t : Nat)
    (h : (started s.log).map (·.1) = List.range s.next) :
    (started (s.step P t).log).map (·.1) = List.range (s.step P t).next := by
  unfold State.step
  split
  · exact h
  · next x rest hx =>
    cases x with
    | act a =>
      cases a with
      | start r =>
        simp only [State.perform, started_append, List.map_append, List.range_succ, h]
        rfl
      | _ => simpa [State.perform, started_append, started, State.set] using h
    | _ => simpa [State.perform, started_append, started, State.set] using h

theorem started_range (P : Prog) (threads : Nat → List Act) (schedule : List Nat) :
    (started (run P (State.init threads) schedule).log).map (·.1) =
      List.range (run P (State.init threads) schedule).next := by
  have : ∀ s : State, (started s.log).map (·.1) = List.range s.next →
      (started (run P s schedule).log).map (·.1) = List.range (run P s schedule).next := by
    unfold run
    induction schedule with
    | nil => exact fun s h => h
    | cons t ts ih => exact fun s h => ih _ (started_range_step P s t h)
  exact this _ rfl

/-- Each step writes at most one event. -/
theorem step_log (P : Prog) (s : State) (t : Nat) :
    (s.step P t).log = s.log ∨ ∃ e, (s.step P t).log = s.log ++ [e] := by
  unfold State.step
  split
  · exact Or.inl rfl
  · next x rest hx =>
    right
    cases x with
    | act a => cases a <;> exact ⟨_, rfl⟩
    | _ => exact ⟨_, rfl⟩

/-- Every beginning of what happened is what happened in a shorter run. -/
theorem prefix_run (P : Prog) (schedule : List Nat) (s : State) (pre post : List Ev)
    (h : (run P s schedule).log = s.log ++ pre ++ post) : ∃ sch, (run P s sch).log = s.log ++ pre := by
  induction schedule generalizing s pre with
  | nil =>
    have : pre = [] := by
      have h' : s.log = s.log ++ (pre ++ post) := by rw [← List.append_assoc]; exact h
      have := List.self_eq_append_right.mp h'
      exact (List.append_eq_nil_iff.mp this).1
    subst this
    exact ⟨[], by simp [run]⟩
  | cons t ts ih =>
    change (run P (s.step P t) ts).log = _ at h
    rcases step_log P s t with he | ⟨e, he⟩
    · rw [← he] at h
      obtain ⟨sch, hs⟩ := ih _ _ h
      exact ⟨t :: sch, by rw [← he]; exact hs⟩
    · cases pre with
      | nil => exact ⟨[], by simp [run]⟩
      | cons a pre =>
        have hgrow : ∀ (l : List Nat) (s : State), ∃ x, (run P s l).log = s.log ++ x := by
          intro l
          induction l with
          | nil => exact fun s => ⟨[], by simp [run]⟩
          | cons t l ih =>
            intro s
            obtain ⟨x, hx⟩ := ih (s.step P t)
            rcases step_log P s t with he | ⟨e, he⟩
            · exact ⟨x, by change (run P (s.step P t) l).log = _; rw [hx, he]⟩
            · exact ⟨e :: x, by change (run P (s.step P t) l).log = _; rw [hx, he]; simp⟩
        obtain ⟨x, hx⟩ := hgrow ts (s.step P t)
        have hae : a = e := by
          rw [h, he] at hx
          simp only [List.append_assoc, List.append_cancel_left_eq, List.cons_append, List.nil_append,
            List.cons.injEq] at hx
          exact hx.1
        subst hae
        have h' : (run P (s.step P t) ts).log = (s.step P t).log ++ pre ++ post := by
          rw [h, he]
          simp
        obtain ⟨sch, hs⟩ := ih _ _ h'
        exact ⟨t :: sch, by change (run P (s.step P t) sch).log = _; rw [hs, he]; simp⟩

/-! ## C160 -/

variable (P : Prog) (threads : Nat → List Act) (schedule : List Nat)

/-- C160: starts have different numbers, so that what follows speaks about single starts; a sender may
be started again. -/
theorem C160_starts : ((started (run P (State.init threads) schedule).log).map (·.1)).Nodup := by
  rw [started_range]
  exact List.nodup_range

/-- C160: at every moment the receiving function was called at most once for each start, with the
arguments of the first run of its trigger after the start, and then the bound values; the request
function at most once, with the values given to `send`. -/
theorem C160_once (i r : Nat) (h : (i, r) ∈ started (run P (State.init threads) schedule).log) :
    (receipts i (run P (State.init threads) schedule).log = [] ∨
      ∃ vs, firstRun (P.requests r) (after i (run P (State.init threads) schedule).log) = some vs ∧
        receipts i (run P (State.init threads) schedule).log =
          [((P.requests r).receive, vs ++ (P.requests r).bound)]) ∧
    (calls i (run P (State.init threads) schedule).log = [] ∨
      calls i (run P (State.init threads) schedule).log = [((P.requests r).request, (P.requests r).sent)]) := by
  have hi := inv_always P threads schedule
  constructor
  · rcases hi.receiving _ h with ⟨-, -, h3, -⟩ | ⟨_, _, -, -, h3, -, -⟩ | ⟨vs, -, h2, h3, -⟩
    · exact Or.inl h3
    · exact Or.inl h3
    · exact Or.inr ⟨vs, h2, h3⟩
  · rcases hi.calling _ h with ⟨_, h1, -, -⟩ | ⟨h1, -⟩
    · exact Or.inl h1
    · exact Or.inr h1

/-- C160: when all threads have done what they had to do, the request function of each start was called
once, and the receiving function once if its trigger was run after the start and else not. -/
theorem C160_complete (hq : Quiet (run P (State.init threads) schedule)) (i r : Nat)
    (h : (i, r) ∈ started (run P (State.init threads) schedule).log) :
    calls i (run P (State.init threads) schedule).log = [((P.requests r).request, (P.requests r).sent)] ∧
    receipts i (run P (State.init threads) schedule).log =
      ((firstRun (P.requests r) (after i (run P (State.init threads) schedule).log)).map fun vs =>
        ((P.requests r).receive, vs ++ (P.requests r).bound)).toList := by
  have hi := inv_always P threads schedule
  constructor
  · rcases hi.calling _ h with ⟨t, -, h2, -⟩ | ⟨h1, -⟩
    · rw [hq t] at h2
      cases h2
    · exact h1
  · rcases hi.receiving _ h with ⟨-, h2, h3, -⟩ | ⟨t, _, -, -, -, h4, -⟩ | ⟨vs, -, h2, h3, -⟩
    · rw [h3, h2]
      rfl
    · rw [hq t] at h4
      cases h4
    · rw [h3, h2]
      rfl

theorem not_started {i : Nat} (h : i ∉ (started (run P (State.init threads) schedule).log).map (·.1)) :
    receipts i (run P (State.init threads) schedule).log = [] ∧
      calls i (run P (State.init threads) schedule).log = [] := by
  rw [started_range, List.mem_range, Nat.not_lt] at h
  obtain ⟨h1, h2, -⟩ := (inv_always P threads schedule).unborn i h
  exact ⟨h1, h2⟩

/-- C160: the sender waits before its request function is called, and before its receiving function
is. -/
theorem C160_waits_first (pre post : List Ev) (e : Ev) (i : Nat)
    (h : (run P (State.init threads) schedule).log = pre ++ e :: post)
    (he : (∃ f vs, e = .called f i vs) ∨ ∃ g vs, e = .received g i vs) :
    ∃ r, Ev.waits i r ∈ pre := by
  obtain ⟨sch, hs⟩ := prefix_run P schedule (State.init threads) (pre ++ [e]) post (by
    rw [h]
    simp [State.init])
  have hl : (run P (State.init threads) sch).log = pre ++ [e] := hs
  have hmem : i ∈ (started (pre ++ [e])).map (·.1) := by
    rw [← hl]
    by_contra hno
    obtain ⟨h1, h2⟩ := not_started P threads sch hno
    rw [hl] at h1 h2
    rcases he with ⟨f, vs, rfl⟩ | ⟨g, vs, rfl⟩
    · simp [calls_append, calls] at h2
    · simp [receipts_append, receipts] at h1
  have hst : started (pre ++ [e]) = started pre := by
    rw [started_append]
    rcases he with ⟨f, vs, rfl⟩ | ⟨g, vs, rfl⟩ <;> simp [started]
  rw [hst] at hmem
  obtain ⟨⟨j, r⟩, hw, rfl⟩ := List.mem_map.mp hmem
  refine ⟨r, ?_⟩
  clear h hs hl hst hmem
  induction pre with
  | nil => cases hw
  | cons a pre ih =>
    cases a with
    | waits j' r' =>
      rcases List.mem_cons.mp hw with h | h
      · cases h
        exact List.mem_cons_self
      · exact List.mem_cons_of_mem _ (ih h)
    | _ => exact List.mem_cons_of_mem _ (ih hw)

theorem waits_started {l : List Ev} {i r : Nat} (h : Ev.waits i r ∈ l) : (i, r) ∈ started l := by
  induction l with
  | nil => cases h
  | cons a l ih =>
    rcases List.mem_cons.mp h with rfl | h'
    · exact List.mem_cons_self
    · cases a with
      | waits j r' => exact List.mem_cons_of_mem _ (ih h')
      | _ => exact ih h'

theorem firstRun_of_mem {q : Request} {l : List Ev} {n : Nat} {vs : List Val} (h : Ev.ran n vs ∈ l)
    (hn : q.name = n) (ht : q.types = vs.map (·.ty)) : ∃ vs', firstRun q l = some vs' := by
  induction l with
  | nil => cases h
  | cons a l ih =>
    rcases List.mem_cons.mp h with rfl | h'
    · exact ⟨vs, by rw [firstRun, if_pos ⟨hn, ht⟩]⟩
    · cases a with
      | ran n' ws =>
        rw [firstRun]
        split
        · exact ⟨ws, rfl⟩
        · exact ih h'
      | _ => exact ih h'

/-- What happened because of the request of a start happened after the start. -/
theorem request_caused (hq : Quiet (run P (State.init threads) schedule)) (i r : Nat)
    (h : (i, r) ∈ started (run P (State.init threads) schedule).log) :
    ∃ pre post, (run P (State.init threads) schedule).log =
        pre ++ .called (P.requests r).request i (P.requests r).sent :: post ∧
      after i (run P (State.init threads) schedule).log =
        after i pre ++ .called (P.requests r).request i (P.requests r).sent :: post ∧
      ∀ a ∈ P.body (P.requests r).request (P.requests r).sent, Done a post := by
  have hc := (C160_complete P threads schedule hq i r h).1
  have hmem : Ev.called (P.requests r).request i (P.requests r).sent ∈
      (run P (State.init threads) schedule).log := by
    have : ∀ l : List Ev, calls i l = [((P.requests r).request, (P.requests r).sent)] →
        Ev.called (P.requests r).request i (P.requests r).sent ∈ l := by
      intro l
      induction l with
      | nil => intro h; cases h
      | cons a l ih =>
        intro h
        cases a with
        | called f j vs =>
          rw [calls] at h
          split at h
          · next hj =>
            subst hj
            simp only [List.cons.injEq, Prod.mk.injEq] at h
            rw [h.1.1, h.1.2]
            exact List.mem_cons_self
          · exact List.mem_cons_of_mem _ (ih h)
        | _ => exact List.mem_cons_of_mem _ (ih h)
    exact this _ hc
  obtain ⟨pre, post, hl⟩ := List.append_of_mem hmem
  obtain ⟨r', hr'⟩ := C160_waits_first P threads schedule pre post _ i hl (Or.inl ⟨_, _, rfl⟩)
  refine ⟨pre, post, hl, ?_, ?_⟩
  · rw [hl, after_append _ (List.mem_map.mpr ⟨_, waits_started hr', rfl⟩)]
  · intro a ha
    rcases (inv_always P threads schedule).causes pre _ post hl (.act a) (List.mem_map_of_mem ha) with
      ⟨t, ht⟩ | hd
    · rw [hq t] at ht
      cases ht
    · exact hd

/-- C160: a response that comes while the request function runs is not lost: if it runs the trigger
itself, the receiving function is called. -/
theorem C160_direct (hq : Quiet (run P (State.init threads) schedule)) (i r n : Nat) (vs : List Val)
    (h : (i, r) ∈ started (run P (State.init threads) schedule).log)
    (ha : .trigger n vs ∈ P.body (P.requests r).request (P.requests r).sent)
    (hn : (P.requests r).name = n) (ht : (P.requests r).types = vs.map (·.ty)) :
    ∃ ws, receipts i (run P (State.init threads) schedule).log =
      [((P.requests r).receive, ws ++ (P.requests r).bound)] := by
  obtain ⟨pre, post, hl, haft, hdone⟩ := request_caused P threads schedule hq i r h
  have hran : Ev.ran n vs ∈ after i (run P (State.init threads) schedule).log := by
    rw [haft]
    exact List.mem_append_right _ (List.mem_cons_of_mem _ (hdone _ ha))
  obtain ⟨ws, hws⟩ := firstRun_of_mem hran hn ht
  refine ⟨ws, ?_⟩
  rw [(C160_complete P threads schedule hq i r h).2, hws]
  rfl

/-- C160: the same through a service: if the request function hands over a message that the matcher of
a callback accepts, and that callback runs the trigger, the receiving function is called. -/
theorem C160_service (hq : Quiet (run P (State.init threads) schedule)) (i r m n : Nat) (vs : List Val)
    (h : (i, r) ∈ started (run P (State.init threads) schedule).log)
    (ha : .handle m ∈ P.body (P.requests r).request (P.requests r).sent)
    (c : Handler.Callback) (hc : c ∈ P.callbacks)
    (hm : Match.eval Match.revalLeaf c.matcher (P.messages m) = true)
    (hr : .trigger n vs ∈ P.react c.id m)
    (hn : (P.requests r).name = n) (ht : (P.requests r).types = vs.map (·.ty)) :
    ∃ ws, receipts i (run P (State.init threads) schedule).log =
      [((P.requests r).receive, ws ++ (P.requests r).bound)] := by
  obtain ⟨pre, post, hl, haft, hdone⟩ := request_caused P threads schedule hq i r h
  have hh : Ev.handled m ∈ post := hdone _ ha
  obtain ⟨p2, q2, rfl⟩ := List.append_of_mem hh
  have hcalled : c.id ∈ (Handler.handle P.callbacks (P.messages m)).called := by
    rw [Handler.handle, ((Handler.C23_exactly_the_matching P.callbacks P.callbacks (List.Perm.refl _)
      (P.messages m)).1).mem_iff]
    exact List.mem_map.mpr ⟨c, List.mem_filter.mpr ⟨hc, hm⟩, rfl⟩
  have hin : Act.trigger n vs ∈ P.answers m := List.mem_flatMap.mpr ⟨_, hcalled, hr⟩
  have hl2 : (run P (State.init threads) schedule).log =
      (pre ++ .called (P.requests r).request i (P.requests r).sent :: p2) ++ .handled m :: q2 := by
    rw [hl]
    simp
  have hran : Ev.ran n vs ∈ q2 := by
    rcases (inv_always P threads schedule).causes _ _ q2 hl2 (.act (.trigger n vs))
      (List.mem_map_of_mem hin) with ⟨t, ht⟩ | hd
    · rw [hq t] at ht
      cases ht
    · exact hd
  have hran' : Ev.ran n vs ∈ after i (run P (State.init threads) schedule).log := by
    rw [haft]
    exact List.mem_append_right _ (List.mem_cons_of_mem _ (List.mem_append_right _
      (List.mem_cons_of_mem _ hran)))
  obtain ⟨ws, hws⟩ := firstRun_of_mem hran' hn ht
  refine ⟨ws, ?_⟩
  rw [(C160_complete P threads schedule hq i r h).2, hws]
  rfl

/-- The program of the second test in `test/msg/send.cpp`, started twice, with another trigger of the
same name and no arguments in between. -/
def exProg : Prog where
  requests := fun _ => ⟨5, [1], 10, [⟨0, 128⟩], 20, [⟨0, 17⟩]⟩
  body := fun f _ => if f = 10 then [.handle 0] else [.other f]
  callbacks := [⟨3, .leaf (.rel .eq ⟨0, ⟨8, false⟩⟩ 128)⟩]
  messages := fun _ => ⟨fun _ => 128, fun _ => false⟩
  react := fun _ _ => [.trigger 5 [], .trigger 5 [⟨1, 42⟩]]

/-- Non-vacuity: both starts get the response, with the bound value after it; all is done. -/
example :
    let s := run exProg (State.init fun t => if t = 0 then [.start 0, .start 0] else []) (List.replicate 20 0)
    started s.log = [(0, 0), (1, 0)] ∧ receipts 0 s.log = [(20, [⟨1, 42⟩, ⟨0, 17⟩])] ∧
      receipts 1 s.log = [(20, [⟨1, 42⟩, ⟨0, 17⟩])] ∧ calls 0 s.log = [(10, [⟨0, 128⟩])] ∧ s.todo 0 = [] := by
  decide +kernel

/-- Non-vacuity: two threads, of which the second runs the trigger before and after the start: only the
second run counts. -/
example :
    let P : Prog := { exProg with body := fun _ _ => [] }
    let s := run P (State.init fun t => if t = 0 then [.start 0] else if t = 1 then
      [.trigger 5 [⟨1, 1⟩], .trigger 5 [⟨1, 2⟩], .trigger 5 [⟨1, 3⟩]] else []) [1, 0, 1, 1, 1, 0]
    receipts 0 s.log = [(20, [⟨1, 2⟩, ⟨0, 17⟩])] ∧ calls 0 s.log = [(10, [⟨0, 128⟩])] ∧ s.todo 0 = [] ∧
      s.todo 1 = [] := by
  decide +kernel

/-! ## C161 -/

/-- C161 (partial): without received values `then_receive<Name>(send(f, as...), g, bs...)` is
`send(f, as...) | then_receive<Name>(g, bs...)`. Missing: received values, for which it is false. -/
theorem C161_same_partial (name f g : Nat) (as bs : List Val) :
    thenReceiveCall name [] (.action f as) (.function g) bs =
      pipe (.action f as) (thenReceivePipe name [] (.function g) bs) ∧
    thenReceiveCall name [] (.action f as) (.function g) bs =
      some (.sender ⟨name, [], f, as, g, bs⟩) := ⟨rfl, rfl⟩

/-- C161 is violated for all received values: the form with three arguments compiles, but gives no
sender, and nothing can be made one of it. -/
theorem C161_violated (name f g : Nat) (types : List Nat) (as bs : List Val) (h : types ≠ []) :
    ∃ p, thenReceiveCall name types (.action f as) (.function g) bs = some p ∧
      (∀ q, p ≠ .sender q) ∧ (∀ a, pipe a p = none) ∧
      pipe (.action f as) (thenReceivePipe name types (.function g) bs) =
        some (.sender ⟨name, types, f, as, g, bs⟩) := by
  cases types with
  | nil => exact absurd rfl h
  | cons t ts =>
    refine ⟨_, rfl, fun q hq => (by cases hq), fun a => ?_, rfl⟩
    cases a <;> rfl

/-- C161, exactly: the two forms are the same when there are no received values, and only then. -/
theorem C161_exact (name f g : Nat) (types : List Nat) (as bs : List Val) :
    thenReceiveCall name types (.action f as) (.function g) bs =
      pipe (.action f as) (thenReceivePipe name types (.function g) bs) ↔ types = [] := by
  constructor
  · intro h
    by_contra hne
    obtain ⟨p, h1, h2, _, h3⟩ := C161_violated name f g types as bs hne
    rw [h1, h3] at h
    exact h2 _ (Option.some.inj h)
  · rintro rfl
    exact (C161_same_partial name f g as bs).1

example : thenReceiveCall 1 [] (.action 2 []) (.function 3) [] =
    pipe (.action 2 []) (thenReceivePipe 1 [] (.function 3) []) := (C161_exact 1 2 3 [] [] []).2 rfl

end Verif.Send
