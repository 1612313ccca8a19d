import Verif.Send.Spec
import Mathlib.Data.List.Nodup
import Mathlib.Tactic.ByContra

/-! # Lemmas on requests and responses: the invariant of the machine -/
namespace Verif.Send
open Spec

theorem started_append (a b : List Ev) : started (a ++ b) = started a ++ started b := by
  induction a with
  | nil => rfl
  | cons e a ih => cases e <;> simp [started, ih]

theorem receipts_append (i : Nat) (a b : List Ev) : receipts i (a ++ b) = receipts i a ++ receipts i b := by
  induction a with
  | nil => rfl
  | cons e a ih =>
    cases e with
    | received g j vs =>
      simp only [List.cons_append, receipts, ih]
      split <;> simp
    | _ => simp [receipts, ih]

theorem calls_append (i : Nat) (a b : List Ev) : calls i (a ++ b) = calls i a ++ calls i b := by
  induction a with
  | nil => rfl
  | cons e a ih =>
    cases e with
    | called g j vs =>
      simp only [List.cons_append, calls, ih]
      split <;> simp
    | _ => simp [calls, ih]

theorem firstRun_append (q : Request) (a b : List Ev) :
    firstRun q (a ++ b) = (firstRun q a).or (firstRun q b) := by
  induction a with
  | nil => rfl
  | cons e a ih =>
    cases e with
    | ran n vs =>
      simp only [List.cons_append, firstRun, ih]
      split <;> simp
    | _ => simp [firstRun, ih]

theorem after_append {i : Nat} {a : List Ev} (b : List Ev) (h : i ∈ (started a).map (·.1)) :
    after i (a ++ b) = after i a ++ b := by
  induction a with
  | nil => cases h
  | cons e a ih =>
    cases e with
    | waits j r =>
      simp only [List.cons_append, after]
      split
      · rfl
      · next hne =>
        apply ih
        simp only [started, List.map_cons, List.mem_cons] at h
        exact h.resolve_left fun h => hne h.symm
    | _ => exact ih h

theorem after_new {i r : Nat} {a : List Ev} (h : i ∉ (started a).map (·.1)) :
    after i (a ++ [.waits i r]) = [] := by
  induction a with
  | nil => simp [after]
  | cons e a ih =>
    cases e with
    | waits j r' =>
      simp only [started, List.map_cons, List.mem_cons, not_or] at h
      simp only [List.cons_append, after]
      rw [if_neg fun hji => h.1 hji.symm]
      exact ih h.2
    | _ => exact ih h

/-- Calls of the receiving function for start `i` that are still to be done. -/
def resumes (i : Nat) : List Item → List (Nat × List Val)
  | [] => []
  | .resume j r vs :: l => if j = i then (r, vs) :: resumes i l else resumes i l
  | _ :: l => resumes i l

/-- Calls of the request function for start `i` that are still to be done. -/
def pendingCalls (i : Nat) : List Item → List Nat
  | [] => []
  | .call j r :: l => if j = i then r :: pendingCalls i l else pendingCalls i l
  | _ :: l => pendingCalls i l

theorem resumes_append (i : Nat) (a b : List Item) : resumes i (a ++ b) = resumes i a ++ resumes i b := by
  induction a with
  | nil => rfl
  | cons e a ih =>
    cases e with
    | resume j r vs =>
      simp only [List.cons_append, resumes, ih]
      split <;> simp
    | _ => simp [resumes, ih]

theorem pendingCalls_append (i : Nat) (a b : List Item) :
    pendingCalls i (a ++ b) = pendingCalls i a ++ pendingCalls i b := by
  induction a with
  | nil => rfl
  | cons e a ih =>
    cases e with
    | call j r =>
      simp only [List.cons_append, pendingCalls, ih]
      split <;> simp
    | _ => simp [pendingCalls, ih]

theorem resumes_acts (i : Nat) (l : List Act) : resumes i (l.map .act) = [] := by
  induction l with
  | nil => rfl
  | cons a l ih => exact ih

theorem pendingCalls_acts (i : Nat) (l : List Act) : pendingCalls i (l.map .act) = [] := by
  induction l with
  | nil => rfl
  | cons a l ih => exact ih

theorem pendingCalls_ready (i : Nat) (vs : List Val) (l : List (Nat × Nat)) :
    pendingCalls i (l.map fun w => .resume w.1 w.2 vs) = [] := by
  induction l with
  | nil => rfl
  | cons a l ih => exact ih

theorem resumes_ready_none {i : Nat} (vs : List Val) {l : List (Nat × Nat)} (h : i ∉ l.map (·.1)) :
    resumes i (l.map fun w => .resume w.1 w.2 vs) = [] := by
  induction l with
  | nil => rfl
  | cons a l ih =>
    simp only [List.map_cons, List.mem_cons, not_or] at h
    simp only [List.map_cons, resumes]
    rw [if_neg fun e => h.1 e.symm]
    exact ih h.2

theorem resumes_ready_some {i r : Nat} (vs : List Val) {l : List (Nat × Nat)} (hd : (l.map (·.1)).Nodup)
    (h : (i, r) ∈ l) : resumes i (l.map fun w => .resume w.1 w.2 vs) = [(r, vs)] := by
  induction l with
  | nil => cases h
  | cons a l ih =>
    simp only [List.map_cons, List.nodup_cons] at hd
    simp only [List.map_cons, resumes]
    rcases List.mem_cons.mp h with rfl | h
    · rw [if_pos rfl, resumes_ready_none vs hd.1]
    · rw [if_neg, ih hd.2 h]
      rintro rfl
      exact hd.1 (List.mem_map.mpr ⟨_, h, rfl⟩)

/-- Where a started sender is with its response. -/
inductive Receiving (P : Prog) (s : State) (i r : Nat) : Prop
  | waiting (h1 : (i, r) ∈ s.waiting) (h2 : firstRun (P.requests r) (after i s.log) = none)
      (h3 : receipts i s.log = []) (h4 : ∀ t, resumes i (s.todo t) = [])
  | resuming (t : Nat) (vs : List Val) (h1 : i ∉ s.waiting.map (·.1))
      (h2 : firstRun (P.requests r) (after i s.log) = some vs)
      (h3 : receipts i s.log = []) (h4 : resumes i (s.todo t) = [(r, vs)])
      (h5 : ∀ u, u ≠ t → resumes i (s.todo u) = [])
  | done (vs : List Val) (h1 : i ∉ s.waiting.map (·.1))
      (h2 : firstRun (P.requests r) (after i s.log) = some vs)
      (h3 : receipts i s.log = [((P.requests r).receive, vs ++ (P.requests r).bound)])
      (h4 : ∀ t, resumes i (s.todo t) = [])

/-- Where a started sender is with its request. -/
inductive Calling (P : Prog) (s : State) (i r : Nat) : Prop
  | ahead (t : Nat) (h1 : calls i s.log = []) (h2 : pendingCalls i (s.todo t) = [r])
      (h3 : ∀ u, u ≠ t → pendingCalls i (s.todo u) = [])
  | done (h1 : calls i s.log = [((P.requests r).request, (P.requests r).sent)])
      (h2 : ∀ t, pendingCalls i (s.todo t) = [])

/-- What is still to be done because of something that happened. -/
def children (P : Prog) : Ev → List Item
  | .waits i r => [.call i r]
  | .called f _ vs => (P.body f vs).map .act
  | .handled m => (P.answers m).map .act
  | .received g _ vs => (P.body g vs).map .act
  | .ran _ _ => []
  | .other _ => []

/-- It was done. -/
def DoneItem (P : Prog) : Item → List Ev → Prop
  | .act a, l => Done a l
  | .call i r, l => Ev.called (P.requests r).request i (P.requests r).sent ∈ l
  | .resume _ _ _, _ => False

/-- The invariant. -/
structure Inv (P : Prog) (s : State) : Prop where
  fresh : ∀ w ∈ started s.log, w.1 < s.next
  nodup : ((started s.log).map (·.1)).Nodup
  known : ∀ w ∈ s.waiting, w ∈ started s.log
  nodupW : (s.waiting.map (·.1)).Nodup
  unborn : ∀ i, s.next ≤ i → receipts i s.log = [] ∧ calls i s.log = [] ∧
    ∀ t, resumes i (s.todo t) = [] ∧ pendingCalls i (s.todo t) = []
  receiving : ∀ w ∈ started s.log, Receiving P s w.1 w.2
  calling : ∀ w ∈ started s.log, Calling P s w.1 w.2
  causes : ∀ pre e post, s.log = pre ++ e :: post → ∀ x ∈ children P e,
    (∃ t, x ∈ s.todo t) ∨ DoneItem P x post

theorem Inv.init (P : Prog) (threads : Nat → List Act) : Inv P (State.init threads) where
  fresh := by simp [State.init, started]
  nodup := by simp [State.init, started]
  known := by simp [State.init]
  nodupW := by simp [State.init]
  unborn := fun i _ => ⟨rfl, rfl, fun t => ⟨resumes_acts i _, pendingCalls_acts i _⟩⟩
  receiving := by simp [State.init, started]
  calling := by simp [State.init, started]
  causes := by intro pre e post h; simp [State.init] at h

theorem DoneItem.mono {P : Prog} {x : Item} {a b : List Ev} (h : DoneItem P x a) : DoneItem P x (a ++ b) := by
  cases x with
  | act x =>
    cases x with
    | start r =>
      obtain ⟨i, h⟩ := h
      exact ⟨i, List.mem_append_left _ h⟩
    | trigger n vs => exact List.mem_append_left _ h
    | handle m => exact List.mem_append_left _ h
    | other n => exact List.mem_append_left _ h
  | call i r => exact List.mem_append_left _ h
  | resume i r vs => exact h

/-- The causes, when `x` is done, seen as `e`, and its consequences are to be done. -/
theorem causes_step {P : Prog} {s s' : State} (hi : Inv P s) {t : Nat} {x : Item} {rest new : List Item} {e : Ev}
    (hx : s.todo t = x :: rest) (hlog : s'.log = s.log ++ [e])
    (htodo : ∀ u, s'.todo u = if u = t then new ++ rest else s.todo u)
    (hdid : (∃ i r vs, x = .resume i r vs) ∨ DoneItem P x [e]) (hnew : ∀ y ∈ children P e, y ∈ new) :
    ∀ pre e' post, s'.log = pre ++ e' :: post → ∀ y ∈ children P e',
      (∃ t, y ∈ s'.todo t) ∨ DoneItem P y post := by
  intro pre e' post h y hy
  rw [hlog] at h
  rcases List.append_eq_append_iff.mp h with ⟨a, h1, h2⟩ | ⟨a, h1, h2⟩
  · -- e' is the new event
    cases a with
    | nil =>
      simp only [List.nil_append] at h2
      cases h2
      left
      refine ⟨t, ?_⟩
      rw [htodo, if_pos rfl]
      exact List.mem_append_left _ (hnew y hy)
    | cons b a => simp at h2
  · cases a with
    | nil =>
      simp only [List.nil_append] at h2
      cases h2
      left
      refine ⟨t, ?_⟩
      rw [htodo, if_pos rfl]
      exact List.mem_append_left _ (hnew y hy)
    | cons b a =>
      simp only [List.cons_append, List.cons.injEq] at h2
      obtain ⟨rfl, rfl⟩ := h2
      rcases hi.causes pre e' a h1 y hy with ⟨u, hu⟩ | hd
      · by_cases hut : u = t
        · subst hut
          rw [hx] at hu
          rcases List.mem_cons.mp hu with rfl | hu
          · rcases hdid with ⟨i, r, vs, rfl⟩ | hdid
            · cases e' <;> simp [children] at hy
            · right
              cases y with
              | act x =>
                cases x with
                | start r =>
                  obtain ⟨i, h⟩ := hdid
                  exact ⟨i, List.mem_append_right _ h⟩
                | trigger n vs => exact List.mem_append_right _ hdid
                | handle m => exact List.mem_append_right _ hdid
                | other n => exact List.mem_append_right _ hdid
              | call i r => exact List.mem_append_right _ hdid
              | resume i r vs => exact hdid.elim
          · left
            refine ⟨u, ?_⟩
            rw [htodo, if_pos rfl]
            exact List.mem_append_right _ hu
        · left
          refine ⟨u, ?_⟩
          rw [htodo, if_neg hut]
          exact hu
      · exact Or.inr hd.mono

/-- Nothing that matters for start `i` changes. -/
theorem Receiving.keep {P : Prog} {s s' : State} {i r : Nat} (h : Receiving P s i r)
    (hw : (i, r) ∈ s.waiting → (i, r) ∈ s'.waiting) (hn : i ∉ s.waiting.map (·.1) → i ∉ s'.waiting.map (·.1))
    (hf : firstRun (P.requests r) (after i s'.log) = firstRun (P.requests r) (after i s.log))
    (hr : receipts i s'.log = receipts i s.log) (ht : ∀ t, resumes i (s'.todo t) = resumes i (s.todo t)) :
    Receiving P s' i r := by
  rcases h with ⟨h1, h2, h3, h4⟩ | ⟨t, vs, h1, h2, h3, h4, h5⟩ | ⟨vs, h1, h2, h3, h4⟩
  · exact .waiting (hw h1) (hf.trans h2) (hr.trans h3) fun t => (ht t).trans (h4 t)
  · exact .resuming t vs (hn h1) (hf.trans h2) (hr.trans h3) ((ht t).trans h4)
      fun u hu => (ht u).trans (h5 u hu)
  · exact .done vs (hn h1) (hf.trans h2) (hr.trans h3) fun t => (ht t).trans (h4 t)

theorem Calling.keep {P : Prog} {s s' : State} {i r : Nat} (h : Calling P s i r)
    (hc : calls i s'.log = calls i s.log)
    (ht : ∀ t, pendingCalls i (s'.todo t) = pendingCalls i (s.todo t)) : Calling P s' i r := by
  rcases h with ⟨t, h1, h2, h3⟩ | ⟨h1, h2⟩
  · exact .ahead t (hc.trans h1) ((ht t).trans h2) fun u hu => (ht u).trans (h3 u hu)
  · exact .done (hc.trans h1) fun t => (ht t).trans (h2 t)

theorem Inv.mem_fst {P : Prog} {s : State} (hi : Inv P s) {w : Nat × Nat} (hw : w ∈ started s.log) :
    w.1 ∈ (started s.log).map (·.1) := List.mem_map_of_mem hw

/-- What a thread has to do for start `i`, when it replaces `x` by things without that. -/
theorem todo_same {α : Type} {f : List Item → List α} {s : State} {t : Nat} {x : Item}
    {rest new : List Item} (hx : s.todo t = x :: rest) (hsame : f (new ++ rest) = f (x :: rest)) (u : Nat) :
    f (if u = t then new ++ rest else s.todo u) = f (s.todo u) := by
  split
  · next h => rw [h, hx, hsame]
  · rfl

/-- Steps that neither start, run a trigger nor resume: anything else, and calls. -/
theorem Inv.simple {P : Prog} {s s' : State} (hi : Inv P s) {t : Nat} {x : Item} {rest : List Item}
    {new : List Act} {e : Ev} (hx : s.todo t = x :: rest) (hlog : s'.log = s.log ++ [e])
    (htodo : ∀ u, s'.todo u = if u = t then new.map .act ++ rest else s.todo u)
    (hw : s'.waiting = s.waiting) (hn : s'.next = s.next)
    (hres : ∀ i, resumes i (x :: rest) = resumes i rest)
    (he : started [e] = []) (hrun : ∀ q, firstRun q [e] = none) (hrec : ∀ i, receipts i [e] = [])
    (hcall : ∀ w ∈ started s.log, Calling P s' w.1 w.2)
    (hunb : ∀ i, s.next ≤ i → calls i [e] = [] ∧ pendingCalls i (x :: rest) = pendingCalls i rest)
    (hdid : DoneItem P x [e]) (hnew : ∀ y ∈ children P e, y ∈ new.map Item.act) : Inv P s' := by
  have hst : started s'.log = started s.log := by rw [hlog, started_append, he, List.append_nil]
  have hres' : ∀ i u, resumes i (s'.todo u) = resumes i (s.todo u) := by
    intro i u
    rw [htodo]
    exact todo_same (f := resumes i) hx (by rw [resumes_append, resumes_acts, hres]; rfl) u
  refine ⟨?_, ?_, ?_, ?_, ?_, ?_, ?_, ?_⟩
  · rw [hst, hn]; exact hi.fresh
  · rw [hst]; exact hi.nodup
  · rw [hst, hw]; exact hi.known
  · rw [hw]; exact hi.nodupW
  · intro i h
    rw [hn] at h
    obtain ⟨h1, h2, h3⟩ := hi.unborn i h
    obtain ⟨h4, h5⟩ := hunb i h
    refine ⟨by rw [hlog, receipts_append, h1, hrec]; rfl, by rw [hlog, calls_append, h2, h4]; rfl, fun u => ?_⟩
    refine ⟨(hres' i u).trans (h3 u).1, ?_⟩
    rw [htodo]
    rw [todo_same (f := pendingCalls i) hx (by rw [pendingCalls_append, pendingCalls_acts, h5]; rfl) u]
    exact (h3 u).2
  · rw [hst]
    intro w hw'
    refine (hi.receiving w hw').keep (by rw [hw]; exact id) (by rw [hw]; exact id) ?_ ?_ (hres' w.1)
    · rw [hlog, after_append _ (hi.mem_fst hw'), firstRun_append, hrun, Option.or_none]
    · rw [hlog, receipts_append, hrec, List.append_nil]
  · rw [hst]; exact hcall
  · exact causes_step hi hx hlog htodo (Or.inr hdid) hnew

theorem Inv.perform_other {P : Prog} {s : State} (hi : Inv P s) {t n : Nat} {rest : List Item}
    (hx : s.todo t = .act (.other n) :: rest) : Inv P (s.perform P t (.act (.other n)) rest) := by
  refine hi.simple (new := []) (e := .other n) hx rfl (fun u => rfl) rfl rfl (fun i => rfl) rfl (fun q => rfl)
    (fun i => rfl) ?_ (fun i _ => ⟨rfl, rfl⟩) (by simp [DoneItem, Done]) (by simp [children])
  intro w hw
  refine (hi.calling w hw).keep ?_ ?_
  · simp [State.perform, calls_append, calls]
  · intro u
    exact todo_same (f := pendingCalls w.1) (new := []) hx rfl u

theorem Inv.perform_handle {P : Prog} {s : State} (hi : Inv P s) {t m : Nat} {rest : List Item}
    (hx : s.todo t = .act (.handle m) :: rest) : Inv P (s.perform P t (.act (.handle m)) rest) := by
  refine hi.simple (new := P.answers m) (e := .handled m) hx rfl (fun u => rfl) rfl rfl (fun i => rfl) rfl
    (fun q => rfl) (fun i => rfl) ?_ (fun i _ => ⟨rfl, rfl⟩) (by simp [DoneItem, Done]) (fun y hy => hy)
  intro w hw
  refine (hi.calling w hw).keep ?_ ?_
  · simp [State.perform, calls_append, calls]
  · intro u
    exact todo_same (f := pendingCalls w.1) (new := (P.answers m).map .act) hx
      (by rw [pendingCalls_append, pendingCalls_acts]; rfl) u

theorem Inv.pending_known {P : Prog} {s : State} (hi : Inv P s) {t i r : Nat} {rest : List Item}
    (hx : s.todo t = .call i r :: rest) : i < s.next := by
  apply Nat.lt_of_not_le
  intro h
  have := ((hi.unborn i h).2.2 t).2
  rw [hx, pendingCalls, if_pos rfl] at this
  cases this

theorem Inv.perform_call {P : Prog} {s : State} (hi : Inv P s) {t i r : Nat} {rest : List Item}
    (hx : s.todo t = .call i r :: rest) : Inv P (s.perform P t (.call i r) rest) := by
  have hlt := hi.pending_known hx
  refine hi.simple (new := P.body (P.requests r).request (P.requests r).sent)
    (e := .called (P.requests r).request i (P.requests r).sent) hx rfl (fun u => rfl) rfl rfl
    (fun i => rfl) rfl (fun q => rfl) (fun i => rfl) ?_ ?_ (by simp [DoneItem]) (fun y hy => hy)
  · intro w hw
    by_cases hwi : w.1 = i
    · rcases hi.calling w hw with ⟨t', h1, h2, h3⟩ | ⟨h1, h2⟩
      · have htt : t = t' := by
          by_contra hne
          have := h3 t hne
          rw [hx, pendingCalls, if_pos hwi.symm] at this
          cases this
        subst htt
        rw [hx, pendingCalls, if_pos hwi.symm, List.cons.injEq] at h2
        obtain ⟨hr, h2⟩ := h2
        refine .done ?_ ?_
        · rw [← hwi, hr] at *
          simp [State.perform, calls_append, calls, h1]
        · intro u
          simp only [State.perform, State.set]
          split
          · rw [pendingCalls_append, pendingCalls_acts, h2]
            rfl
          · next hne => exact h3 u hne
      · have := h2 t
        rw [hx, pendingCalls, if_pos hwi.symm] at this
        cases this
    · refine (hi.calling w hw).keep ?_ ?_
      · simp only [State.perform, calls_append, calls]
        rw [if_neg fun h => hwi h.symm, List.append_nil]
      · intro u
        exact todo_same (f := pendingCalls w.1) (new := (P.body (P.requests r).request (P.requests r).sent).map .act) hx
          (by rw [pendingCalls_append, pendingCalls_acts, pendingCalls, if_neg fun h => hwi h.symm]; rfl) u
  · intro j hj
    have hne : i ≠ j := by omega
    exact ⟨by rw [calls, if_neg hne]; rfl, by rw [pendingCalls, if_neg hne]⟩

theorem Inv.perform_resume {P : Prog} {s : State} (hi : Inv P s) {t i r : Nat} {vs : List Val}
    {rest : List Item} (hx : s.todo t = .resume i r vs :: rest) :
    Inv P (s.perform P t (.resume i r vs) rest) := by
  have hlt : i < s.next := by
    apply Nat.lt_of_not_le
    intro h
    have := ((hi.unborn i h).2.2 t).1
    rw [hx, resumes, if_pos rfl] at this
    cases this
  have hlog : (s.perform P t (.resume i r vs) rest).log = s.log ++
      [.received (P.requests r).receive i (vs ++ (P.requests r).bound)] := rfl
  have htodo : ∀ u, (s.perform P t (.resume i r vs) rest).todo u = if u = t then
      (P.body (P.requests r).receive (vs ++ (P.requests r).bound)).map .act ++ rest else s.todo u :=
    fun u => rfl
  have hst : started (s.perform P t (.resume i r vs) rest).log = started s.log := by
    rw [hlog, started_append]
    simp [started]
  have hpend : ∀ j u, pendingCalls j ((s.perform P t (.resume i r vs) rest).todo u) = pendingCalls j (s.todo u) := by
    intro j u
    exact todo_same (f := pendingCalls j)
      (new := (P.body (P.requests r).receive (vs ++ (P.requests r).bound)).map .act) hx
      (by rw [pendingCalls_append, pendingCalls_acts]; rfl) u
  have hres : ∀ j u, j ≠ i → resumes j ((s.perform P t (.resume i r vs) rest).todo u) = resumes j (s.todo u) := by
    intro j u hj
    exact todo_same (f := resumes j)
      (new := (P.body (P.requests r).receive (vs ++ (P.requests r).bound)).map .act) hx
      (by rw [resumes_append, resumes_acts, resumes, if_neg fun h => hj h.symm]; rfl) u
  refine ⟨?_, ?_, ?_, ?_, ?_, ?_, ?_, ?_⟩
  · rw [hst]; exact hi.fresh
  · rw [hst]; exact hi.nodup
  · rw [hst]; exact hi.known
  · exact hi.nodupW
  · intro j hj
    have hj : s.next ≤ j := hj
    have hne : j ≠ i := by omega
    obtain ⟨h1, h2, h3⟩ := hi.unborn j hj
    refine ⟨?_, ?_, fun u => ⟨(hres j u hne).trans (h3 u).1, (hpend j u).trans (h3 u).2⟩⟩
    · rw [hlog, receipts_append, h1, receipts, if_neg fun h => hne h.symm]
      rfl
    · rw [hlog, calls_append, h2]
      rfl
  · rw [hst]
    intro w hw
    have hfr : firstRun (P.requests w.2) (after w.1 (s.perform P t (.resume i r vs) rest).log) =
        firstRun (P.requests w.2) (after w.1 s.log) := by
      rw [hlog, after_append _ (hi.mem_fst hw), firstRun_append]
      simp [firstRun]
    by_cases hwi : w.1 = i
    · rcases hi.receiving w hw with ⟨h1, h2, h3, h4⟩ | ⟨t', vs', h1, h2, h3, h4, h5⟩ | ⟨vs', h1, h2, h3, h4⟩
      · have := h4 t
        rw [hx, resumes, if_pos hwi.symm] at this
        cases this
      · have htt : t = t' := by
          by_contra hne
          have := h5 t hne
          rw [hx, resumes, if_pos hwi.symm] at this
          cases this
        subst htt
        rw [hx, resumes, if_pos hwi.symm, List.cons.injEq, Prod.mk.injEq] at h4
        obtain ⟨⟨hr, hv⟩, h4⟩ := h4
        subst hv
        refine .done vs h1 (hfr.trans h2) ?_ ?_
        · rw [hlog, receipts_append, h3, receipts, if_pos hwi.symm, hr]
          rfl
        · intro u
          rw [htodo]
          split
          · rw [resumes_append, resumes_acts, h4]
            rfl
          · next hne => exact h5 u hne
      · have := h4 t
        rw [hx, resumes, if_pos hwi.symm] at this
        cases this
    · refine (hi.receiving w hw).keep id id hfr ?_ fun u => hres w.1 u hwi
      rw [hlog, receipts_append, receipts, if_neg fun h => hwi h.symm]
      simp [receipts]
  · rw [hst]
    intro w hw
    refine (hi.calling w hw).keep ?_ (hpend w.1)
    rw [hlog, calls_append]
    simp [calls]
  · exact causes_step hi hx hlog htodo (Or.inl ⟨i, r, vs, rfl⟩) fun y hy => hy

theorem Inv.perform_trigger {P : Prog} {s : State} (hi : Inv P s) {t n : Nat} {vs : List Val}
    {rest : List Item} (hx : s.todo t = .act (.trigger n vs) :: rest) :
    Inv P (s.perform P t (.act (.trigger n vs)) rest) := by
  have hlog : (s.perform P t (.act (.trigger n vs)) rest).log = s.log ++ [.ran n vs] := rfl
  have hwait : (s.perform P t (.act (.trigger n vs)) rest).waiting =
      s.waiting.filter (fun w => !(P.requests w.2).on n vs) := rfl
  have htodo : ∀ u, (s.perform P t (.act (.trigger n vs)) rest).todo u = if u = t then
      (s.waiting.filter fun w => (P.requests w.2).on n vs).map (fun w => .resume w.1 w.2 vs) ++ rest
      else s.todo u := fun u => rfl
  generalize hs' : s.perform P t (.act (.trigger n vs)) rest = s' at hlog hwait htodo ⊢
  have hnext : s'.next = s.next := by rw [← hs']; rfl
  have hst : started s'.log = started s.log := by
    rw [hlog, started_append]
    simp [started]
  have hpend : ∀ j u, pendingCalls j (s'.todo u) = pendingCalls j (s.todo u) := by
    intro j u
    rw [htodo]
    exact todo_same (f := pendingCalls j) hx (by rw [pendingCalls_append, pendingCalls_ready]; rfl) u
  have hsub : ∀ j, j ∉ s.waiting.map (·.1) →
      j ∉ (s.waiting.filter fun w => (P.requests w.2).on n vs).map (·.1) := by
    intro j hj hm
    obtain ⟨w, hw, rfl⟩ := List.mem_map.mp hm
    exact hj (List.mem_map_of_mem (List.mem_filter.mp hw).1)
  have hres : ∀ j u, j ∉ (s.waiting.filter fun w => (P.requests w.2).on n vs).map (·.1) →
      resumes j (s'.todo u) = resumes j (s.todo u) := by
    intro j u hj
    rw [htodo]
    exact todo_same (f := resumes j) hx (by rw [resumes_append, resumes_ready_none vs hj]; rfl) u
  have hnw : ∀ j, j ∉ s.waiting.map (·.1) → j ∉ s'.waiting.map (·.1) := by
    intro j hj hm
    rw [hwait] at hm
    obtain ⟨w, hw, rfl⟩ := List.mem_map.mp hm
    exact hj (List.mem_map_of_mem (List.mem_filter.mp hw).1)
  have hrec : ∀ j, receipts j s'.log = receipts j s.log := by
    intro j
    rw [hlog, receipts_append]
    simp [receipts]
  have hcal : ∀ j, calls j s'.log = calls j s.log := by
    intro j
    rw [hlog, calls_append]
    simp [calls]
  refine ⟨?_, ?_, ?_, ?_, ?_, ?_, ?_, ?_⟩
  · rw [hst, hnext]; exact hi.fresh
  · rw [hst]; exact hi.nodup
  · rw [hst, hwait]
    exact fun w hw => hi.known w (List.mem_filter.mp hw).1
  · rw [hwait]
    exact hi.nodupW.sublist (List.filter_sublist.map _)
  · intro j hj
    rw [hnext] at hj
    obtain ⟨h1, h2, h3⟩ := hi.unborn j hj
    have hjw : j ∉ s.waiting.map (·.1) := by
      intro hm
      obtain ⟨w, hw, rfl⟩ := List.mem_map.mp hm
      have := hi.fresh w (hi.known w hw)
      omega
    exact ⟨(hrec j).trans h1, (hcal j).trans h2,
      fun u => ⟨(hres j u (hsub j hjw)).trans (h3 u).1, (hpend j u).trans (h3 u).2⟩⟩
  · rw [hst]
    intro w hw
    have hfr : firstRun (P.requests w.2) (after w.1 s'.log) =
        (firstRun (P.requests w.2) (after w.1 s.log)).or
          (if (P.requests w.2).name = n ∧ (P.requests w.2).types = vs.map (·.ty) then some vs else none) := by
      rw [hlog, after_append _ (hi.mem_fst hw), firstRun_append]
      rfl
    rcases hi.receiving w hw with ⟨h1, h2, h3, h4⟩ | ⟨t', vs', h1, h2, h3, h4, h5⟩ | ⟨vs', h1, h2, h3, h4⟩
    · by_cases hon : (P.requests w.2).on n vs = true
      · have hready : w ∈ s.waiting.filter fun w => (P.requests w.2).on n vs := List.mem_filter.mpr ⟨h1, hon⟩
        have hd : ((s.waiting.filter fun w => (P.requests w.2).on n vs).map (·.1)).Nodup :=
          hi.nodupW.sublist (List.filter_sublist.map _)
        refine .resuming t vs ?_ ?_ ((hrec _).trans h3) ?_ ?_
        · intro hm
          rw [hwait] at hm
          obtain ⟨w', hw', he⟩ := List.mem_map.mp hm
          obtain ⟨hw', hno⟩ := List.mem_filter.mp hw'
          have : w' = w := List.inj_on_of_nodup_map hi.nodupW hw' h1 he
          rw [this, hon] at hno
          cases hno
        · rw [hfr, h2, Option.none_or, if_pos (of_decide_eq_true hon)]
        · rw [htodo, if_pos rfl, resumes_append, resumes_ready_some (r := w.2) vs hd hready]
          have := h4 t
          rw [hx] at this
          rw [show resumes w.1 rest = [] from this]
          rfl
        · intro u hu
          rw [htodo, if_neg hu]
          exact h4 u
      · have hoff : (P.requests w.2).on n vs = false := by simpa using hon
        have hnr : w.1 ∉ (s.waiting.filter fun w => (P.requests w.2).on n vs).map (·.1) := by
          intro hm
          obtain ⟨w', hw', he⟩ := List.mem_map.mp hm
          obtain ⟨hw', hyes⟩ := List.mem_filter.mp hw'
          have : w' = w := List.inj_on_of_nodup_map hi.nodupW hw' h1 he
          rw [this, hoff] at hyes
          cases hyes
        refine .waiting ?_ ?_ ((hrec _).trans h3) fun u => (hres _ u hnr).trans (h4 u)
        · rw [hwait]
          exact List.mem_filter.mpr ⟨h1, by simp [hoff]⟩
        · rw [hfr, h2, if_neg (of_decide_eq_false hoff)]
          rfl
    · refine .resuming t' vs' (hnw _ h1) (by rw [hfr, h2]; rfl) ((hrec _).trans h3)
        ((hres _ t' (hsub _ h1)).trans h4) fun u hu => (hres _ u (hsub _ h1)).trans (h5 u hu)
    · exact .done vs' (hnw _ h1) (by rw [hfr, h2]; rfl) ((hrec _).trans h3)
        fun u => (hres _ u (hsub _ h1)).trans (h4 u)
  · rw [hst]
    exact fun w hw => (hi.calling w hw).keep (hcal _) (hpend w.1)
  · exact causes_step hi hx hlog htodo (Or.inr (by simp [DoneItem, Done])) (by simp [children])

theorem Inv.perform_start {P : Prog} {s : State} (hi : Inv P s) {t r : Nat}
    {rest : List Item} (hx : s.todo t = .act (.start r) :: rest) :
    Inv P (s.perform P t (.act (.start r)) rest) := by
  have hlog : (s.perform P t (.act (.start r)) rest).log = s.log ++ [.waits s.next r] := rfl
  have hwait : (s.perform P t (.act (.start r)) rest).waiting = s.waiting ++ [(s.next, r)] := rfl
  have hnext : (s.perform P t (.act (.start r)) rest).next = s.next + 1 := rfl
  have htodo : ∀ u, (s.perform P t (.act (.start r)) rest).todo u = if u = t then
      [.call s.next r] ++ rest else s.todo u := fun u => rfl
  generalize hs' : s.perform P t (.act (.start r)) rest = s' at hlog hwait htodo hnext ⊢
  have hst : started s'.log = started s.log ++ [(s.next, r)] := by
    rw [hlog, started_append]
    rfl
  have hnew : s.next ∉ (started s.log).map (·.1) := by
    intro hm
    obtain ⟨w, hw, he⟩ := List.mem_map.mp hm
    have := hi.fresh w hw
    omega
  have hnewW : s.next ∉ s.waiting.map (·.1) := by
    intro hm
    obtain ⟨w, hw, he⟩ := List.mem_map.mp hm
    have := hi.fresh w (hi.known w hw)
    omega
  have hres : ∀ j u, resumes j (s'.todo u) = resumes j (s.todo u) := by
    intro j u
    rw [htodo]
    exact todo_same (f := resumes j) hx rfl u
  have hpend : ∀ j u, j ≠ s.next → pendingCalls j (s'.todo u) = pendingCalls j (s.todo u) := by
    intro j u hj
    rw [htodo]
    exact todo_same (f := pendingCalls j) hx (by
      rw [pendingCalls_append, pendingCalls, if_neg fun h => hj h.symm]
      rfl) u
  have hrec : ∀ j, receipts j s'.log = receipts j s.log := by
    intro j
    rw [hlog, receipts_append]
    simp [receipts]
  have hcal : ∀ j, calls j s'.log = calls j s.log := by
    intro j
    rw [hlog, calls_append]
    simp [calls]
  obtain ⟨hb1, hb2, hb3⟩ := hi.unborn s.next (Nat.le_refl _)
  refine ⟨?_, ?_, ?_, ?_, ?_, ?_, ?_, ?_⟩
  · rw [hst, hnext]
    intro w hw
    rcases List.mem_append.mp hw with hw | hw
    · have := hi.fresh w hw
      omega
    · rw [List.mem_singleton] at hw
      subst hw
      simp
  · rw [hst, List.map_append, List.nodup_append]
    refine ⟨hi.nodup, by simp, ?_⟩
    intro a ha b hb
    simp only [List.map_cons, List.map_nil, List.mem_singleton] at hb
    subst hb
    rintro rfl
    exact hnew ha
  · rw [hst, hwait]
    intro w hw
    rcases List.mem_append.mp hw with hw | hw
    · exact List.mem_append_left _ (hi.known w hw)
    · exact List.mem_append_right _ hw
  · rw [hwait, List.map_append, List.nodup_append]
    refine ⟨hi.nodupW, by simp, ?_⟩
    intro a ha b hb
    simp only [List.map_cons, List.map_nil, List.mem_singleton] at hb
    subst hb
    rintro rfl
    exact hnewW ha
  · intro j hj
    rw [hnext] at hj
    obtain ⟨h1, h2, h3⟩ := hi.unborn j (by omega)
    exact ⟨(hrec j).trans h1, (hcal j).trans h2,
      fun u => ⟨(hres j u).trans (h3 u).1, (hpend j u (by omega)).trans (h3 u).2⟩⟩
  · rw [hst]
    intro w hw
    rcases List.mem_append.mp hw with hw | hw
    · have hlt := hi.fresh w hw
      refine (hi.receiving w hw).keep ?_ ?_ ?_ (hrec _) (hres _)
      · rw [hwait]
        exact List.mem_append_left _
      · intro h hm
        rw [hwait, List.map_append, List.mem_append] at hm
        rcases hm with hm | hm
        · exact h hm
        · simp only [List.map_cons, List.map_nil, List.mem_singleton] at hm
          omega
      · rw [hlog, after_append _ (hi.mem_fst hw), firstRun_append]
        simp [firstRun]
    · rw [List.mem_singleton] at hw
      subst hw
      refine .waiting ?_ ?_ ((hrec _).trans hb1) fun u => (hres _ u).trans (hb3 u).1
      · rw [hwait]
        exact List.mem_append_right _ (List.mem_singleton.mpr rfl)
      · rw [hlog, after_new hnew]
        rfl
  · rw [hst]
    intro w hw
    rcases List.mem_append.mp hw with hw | hw
    · have hlt := hi.fresh w hw
      exact (hi.calling w hw).keep (hcal _) fun u => hpend _ u (by omega)
    · rw [List.mem_singleton] at hw
      subst hw
      refine .ahead t ((hcal _).trans hb2) ?_ ?_
      · rw [htodo, if_pos rfl]
        have := (hb3 t).2
        rw [hx] at this
        rw [pendingCalls_append, pendingCalls, if_pos rfl, show pendingCalls s.next rest = [] from this]
        rfl
      · intro u hu
        rw [htodo, if_neg hu]
        exact (hb3 u).2
  · exact causes_step hi hx hlog htodo (Or.inr (by simp [DoneItem, Done])) (by simp [children])

theorem Inv.step {P : Prog} {s : State} (hi : Inv P s) (t : Nat) : Inv P (s.step P t) := by
  unfold State.step
  split
  · exact hi
  · next x rest hx =>
    cases x with
    | act a =>
      cases a with
      | start r => exact hi.perform_start hx
      | trigger n vs => exact hi.perform_trigger hx
      | handle m => exact hi.perform_handle hx
      | other n => exact hi.perform_other hx
    | call i r => exact hi.perform_call hx
    | resume i r vs => exact hi.perform_resume hx

theorem Inv.run {P : Prog} {s : State} (hi : Inv P s) (schedule : List Nat) :
    Inv P (Send.run P s schedule) := by
  unfold Send.run
  induction schedule generalizing s with
  | nil => exact hi
  | cons t ts ih => exact ih (hi.step t)

/-- The invariant holds always. -/
theorem inv_always (P : Prog) (threads : Nat → List Act) (schedule : List Nat) :
    Inv P (Send.run P (State.init threads) schedule) := (Inv.init P threads).run schedule

end Verif.Send
