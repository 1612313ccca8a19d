import Verif.Seq.Spec
/-!
# Properties C36–C39, C63, C64: the sequencer
-/
namespace Verif.Seq

/-! ## The invariant -/

theorem complete_append (tr : List Event) (e : Event) (i : Nat) :
    complete (tr ++ [e]) i = e.effect i (complete tr i) := by simp [complete]

/-- The step that a call in direction `d` is about. -/
def target (d : Dir) (n : Nat) : Nat :=
  match d with
  | .forward => n
  | .backward => n - 1

/-- Every answer in the trace is what the step functions answer. -/
def Honest (o : Oracle) (tr : List Event) : Prop :=
  ∀ p e s, tr = p ++ e :: s → e.done = o p e.dir e.idx

/-- What holds whenever control may be inside `go`: bounds, prefix, history. -/
structure Core (N : Nat) (o : Oracle) (s : State) : Prop where
  bound : s.next ≤ N
  pref : PrefixDone s.trace s.next
  turn : AllInTurn N s.trace
  retry : Retries s.trace
  honest : Honest o s.trace

/-- What holds between calls. -/
structure Inv (N : Nat) (o : Oracle) (s : State) : Prop extends Core N o s where
  unfinished : s.prevDone = false → ∃ p e, s.trace = p ++ [e] ∧ e.done = false ∧
    e.dir = s.prevDir ∧ (match s.prevDir with
      | .forward => e.idx = s.next ∧ s.next < N
      | .backward => e.idx + 1 = s.next)
  finished : s.prevDone = true → ∀ p e, s.trace = p ++ [e] → e.done = true

/-- The last call was done, or it was the call `(d, i)`. -/
def LastOk (tr : List Event) (d : Dir) (i : Nat) : Prop :=
  ∀ p e, tr = p ++ [e] → e.done = false → e.dir = d ∧ e.idx = i

theorem core_extend {N : Nat} {o : Oracle} {s : State} (c : Core N o s) (e : Event)
    (ht : InTurn N s.trace e) (hl : LastOk s.trace e.dir e.idx)
    (ha : e.done = o s.trace e.dir e.idx) :
    AllInTurn N (s.trace ++ [e]) ∧ Retries (s.trace ++ [e]) ∧ Honest o (s.trace ++ [e]) := by
  refine ⟨?_, ?_, ?_⟩
  · intro p x t h
    rcases List.eq_nil_or_concat t with rfl | ⟨t', y, rfl⟩
    · obtain ⟨h1, h2⟩ := List.append_inj' h rfl
      cases h2; subst h1; exact ht
    · rw [List.concat_eq_append, ← List.cons_append, ← List.append_assoc] at h
      obtain ⟨h1, h2⟩ := List.append_inj' h rfl
      exact c.turn p x t' h1
  · intro p x y t h hx
    rcases List.eq_nil_or_concat t with rfl | ⟨t', z, rfl⟩
    · have h' : s.trace ++ [e] = (p ++ [x]) ++ [y] := by simp [h]
      obtain ⟨h1, h2⟩ := List.append_inj' h' rfl
      cases h2
      have := hl p x h1 hx
      exact ⟨this.1.symm, this.2.symm⟩
    · rw [List.concat_eq_append, ← List.cons_append, ← List.cons_append, ← List.append_assoc] at h
      obtain ⟨h1, h2⟩ := List.append_inj' h rfl
      exact c.retry p x y t' h1 hx
  · intro p x t h
    rcases List.eq_nil_or_concat t with rfl | ⟨t', y, rfl⟩
    · obtain ⟨h1, h2⟩ := List.append_inj' h rfl
      cases h2; subst h1; exact ha
    · rw [List.concat_eq_append, ← List.cons_append, ← List.append_assoc] at h
      obtain ⟨h1, h2⟩ := List.append_inj' h rfl
      exact c.honest p x t' h1

/-- One step of the sequencer in direction `d` when it can continue. -/
theorem step_spec {N : Nat} (o : Oracle) (d : Dir) {s : State} (c : Core N o s)
    (hc : canContinue N d s = true)
    (hl : LastOk s.trace d (target d s.next)) :
    ∃ s' e, step N o d s = some (s', e.done) ∧ Core N o s' ∧ s'.trace = s.trace ++ [e] ∧
      e.dir = d ∧ s'.prevDone = s.prevDone ∧ s'.prevDir = s.prevDir ∧
      (match d with
        | .forward => e.idx = s.next ∧ s'.next = if e.done then s.next + 1 else s.next
        | .backward => e.idx = s.next - 1 ∧ s'.next = if e.done then s.next - 1 else s.next) := by
  cases d with
  | forward =>
    have hlt : s.next < N := by simpa [canContinue] using hc
    let e : Event := ⟨.forward, s.next, o s.trace .forward s.next⟩
    have ht : InTurn N s.trace e := ⟨s.next, c.bound, c.pref, .inl ⟨rfl, rfl, hlt⟩⟩
    obtain ⟨k1, k2, k3⟩ := core_extend c e ht hl rfl
    cases ha : o s.trace .forward s.next with
    | true =>
      refine ⟨⟨s.next + 1, s.prevDone, s.prevDir, s.trace ++ [e]⟩, e, ?_, ⟨?_, ?_, k1, k2, k3⟩, rfl, rfl,
        rfl, rfl, rfl, ?_⟩
      · simp [step, stepForward, call, hlt, ha, e]
      · exact hlt
      · intro i
        have := c.pref i
        simp only [complete_append, Event.effect, e, ha]
        by_cases hi : s.next = i
        · simp [hi]
        · simp only [true_and, if_neg hi, this]
          omega
      · simp [e, ha]
    | false =>
      refine ⟨⟨s.next, s.prevDone, s.prevDir, s.trace ++ [e]⟩, e, ?_, ⟨?_, ?_, k1, k2, k3⟩, rfl, rfl,
        rfl, rfl, rfl, ?_⟩
      · simp [step, stepForward, call, hlt, ha, e]
      · exact c.bound
      · intro i
        simpa [complete_append, Event.effect, e, ha] using c.pref i
      · simp [e, ha]
  | backward =>
    have hlt : 0 < s.next := by simpa [canContinue] using hc
    have hb := c.bound
    let e : Event := ⟨.backward, s.next - 1, o s.trace .backward (s.next - 1)⟩
    have ht : InTurn N s.trace e := ⟨s.next, c.bound, c.pref, .inr ⟨rfl, by simp [e]; omega⟩⟩
    obtain ⟨k1, k2, k3⟩ := core_extend c e ht hl rfl
    have h0 : s.next ≠ 0 := by omega
    have hN : s.next - 1 < N := by omega
    cases ha : o s.trace .backward (s.next - 1) with
    | true =>
      refine ⟨⟨s.next - 1, s.prevDone, s.prevDir, s.trace ++ [e]⟩, e, ?_, ⟨?_, ?_, k1, k2, k3⟩, rfl, rfl,
        rfl, rfl, rfl, ?_⟩
      · simp [step, stepBackward, call, h0, hN, ha, e]
      · simp; omega
      · intro i
        have := c.pref i
        simp only [complete_append, Event.effect, e, ha]
        by_cases hi : s.next - 1 = i
        · simp [hi]
        · simp only [true_and, if_neg hi, this]
          omega
      · simp [e, ha]
    | false =>
      refine ⟨⟨s.next, s.prevDone, s.prevDir, s.trace ++ [e]⟩, e, ?_, ⟨?_, ?_, k1, k2, k3⟩, rfl, rfl,
        rfl, rfl, rfl, ?_⟩
      · simp [step, stepBackward, call, h0, hN, ha, e]
      · exact c.bound
      · intro i
        simpa [complete_append, Event.effect, e, ha] using c.pref i
      · simp [e, ha]

/-- What a run of calls in one direction looks like: all in that direction; all done, or all done
but the last. -/
def Advance (d : Dir) (es : List Event) (a : Bool) : Prop :=
  (∀ e ∈ es, e.dir = d) ∧
  match a with
  | true => ∀ e ∈ es, e.done = true
  | false => ∃ p e, es = p ++ [e] ∧ e.done = false ∧ ∀ x ∈ p, x.done = true

/-- How far there is still to go. -/
def rest (N : Nat) (d : Dir) (s : State) : Nat :=
  match d with
  | .forward => N - s.next
  | .backward => s.next

theorem loop_spec {N : Nat} (o : Oracle) (d : Dir) (fuel : Nat) (s : State) (c : Core N o s)
    (hd : s.prevDir = d) (hf : rest N d s < fuel)
    (hl : LastOk s.trace d (target d s.next))
    (hl' : canContinue N d s = false → ∀ p e, s.trace = p ++ [e] → e.done = true) :
    ∃ s' a es, loop N o d fuel s = some (s', a) ∧ Inv N o s' ∧ s'.trace = s.trace ++ es ∧
      Advance d es a ∧ s'.prevDir = d ∧ s'.prevDone = a ∧
      (a = true → canContinue N d s' = false) := by
  induction fuel generalizing s with
  | zero => omega
  | succ fuel ih =>
    by_cases hc : canContinue N d s = true
    · obtain ⟨s1, e, h1, c1, ht, hed, hp1, hp2, hnext⟩ := step_spec o d c hc hl
      simp only [loop, hc, if_true, h1, Option.bind_eq_bind, Option.bind_some]
      cases he : e.done with
      | true =>
        have hlast : ∀ p x, s1.trace = p ++ [x] → x.done = true := by
          intro p x hx
          rw [ht] at hx
          obtain ⟨_, h2⟩ := List.append_inj' hx rfl
          cases h2; exact he
        have hr : rest N d s1 < fuel := by
          cases d with
          | forward =>
            have : s.next < N := by simpa [canContinue] using hc
            simp only [rest, he, if_true] at hf hnext ⊢
            obtain ⟨_, hn⟩ := hnext
            rw [hn]
            have h3 := Nat.sub_succ_lt_self N s.next this
            exact Nat.lt_of_lt_of_le h3 (Nat.le_of_lt_succ hf)
          | backward =>
            have : 0 < s.next := by simpa [canContinue] using hc
            simp only [rest, he, if_true] at hf hnext ⊢
            obtain ⟨_, hn⟩ := hnext
            rw [hn]; omega
        obtain ⟨s2, a, es, g1, g2, g3, g4, g5, g6, g7⟩ := ih s1 c1 (hp2.trans hd) hr
          (fun p x hx hdone => by rw [hlast p x hx] at hdone; cases hdone) (fun _ => hlast)
        refine ⟨s2, a, e :: es, by simpa using g1, g2, by rw [g3, ht]; simp, ⟨?_, ?_⟩, g5, g6, g7⟩
        · intro x hx
          rcases List.mem_cons.1 hx with rfl | hx
          · exact hed
          · exact g4.1 x hx
        · have := g4.2
          cases a with
          | true =>
            intro x hx
            rcases List.mem_cons.1 hx with rfl | hx
            · exact he
            · exact this x hx
          | false =>
            obtain ⟨p, x, rfl, h1, h2⟩ := this
            refine ⟨e :: p, x, rfl, h1, fun y hy => ?_⟩
            rcases List.mem_cons.1 hy with rfl | hy
            · exact he
            · exact h2 y hy
      | false =>
        refine ⟨{ s1 with prevDone := false }, false, [e], by simp, ?_, ht, ⟨by simp [hed], ?_⟩,
          hp2.trans hd, rfl, by simp⟩
        · refine ⟨⟨c1.bound, c1.pref, c1.turn, c1.retry, c1.honest⟩, fun _ => ⟨s.trace, e, ht, he, ?_, ?_⟩, ?_⟩
          · simp [hed, hp2, hd]
          · simp only [hp2, hd]
            cases d with
            | forward =>
              simp only [he, Bool.false_eq_true, if_false] at hnext
              refine ⟨by rw [hnext.1, hnext.2], ?_⟩
              rw [hnext.2]; simpa [canContinue] using hc
            | backward =>
              simp only [he, Bool.false_eq_true, if_false] at hnext
              have : 0 < s.next := by simpa [canContinue] using hc
              simp only [hnext.1, hnext.2]; omega
          · simp
        · exact ⟨[], e, rfl, he, by simp⟩
    · have hc' : canContinue N d s = false := by simpa using hc
      refine ⟨{ s with prevDone := true }, true, [], by simp [loop, hc'], ?_, by simp,
        ⟨by simp, by simp⟩, hd, rfl, fun _ => by cases d <;> simpa [canContinue] using hc'⟩
      exact ⟨⟨c.bound, c.pref, c.turn, c.retry, c.honest⟩, by simp, fun _ => hl' hc'⟩

theorem go_spec {N : Nat} (o : Oracle) (d : Dir) (s : State) (h : Inv N o s) :
    ∃ s' a pre es, go N o d s = some (s', a) ∧ Inv N o s' ∧ s'.trace = s.trace ++ (pre ++ es) ∧
      (pre = [] ∨ ∃ e, pre = [e] ∧ e.dir = d.opposite ∧ s.prevDone = false ∧
        s.prevDir = d.opposite ∧ (e.done = false → es = [] ∧ a = false)) ∧
      (pre = [] → s.prevDone = true ∨ s.prevDir = d) ∧
      ((∃ e, pre = [e] ∧ e.done = false) ∨ Advance d es a) ∧
      (a = true → canContinue N d s' = false) := by
  have hrest : ∀ s' : State, s'.next ≤ N → rest N d s' < N + 1 := by
    intro s' hs'; cases d <;> simp only [rest] <;> omega
  by_cases hcond : s.prevDir = d.opposite ∧ s.prevDone = false
  · obtain ⟨hpd, hpn⟩ := hcond
    obtain ⟨p, e0, ht0, he0, hd0, hidx⟩ := h.unfinished hpn
    have hc : canContinue N d.opposite s = true := by
      cases d with
      | forward =>
        simp only [Dir.opposite] at hpd
        rw [hpd] at hidx
        simp only at hidx
        simp only [Dir.opposite, canContinue, decide_eq_true_eq]; omega
      | backward =>
        simp only [Dir.opposite] at hpd
        rw [hpd] at hidx
        simp only [Dir.opposite, canContinue, decide_eq_true_eq]; exact hidx.2
    have hl : LastOk s.trace d.opposite
        (target d.opposite s.next) := by
      intro q x hx hxd
      rw [ht0] at hx
      obtain ⟨_, h2⟩ := List.append_inj' hx rfl
      cases h2
      refine ⟨hd0.trans hpd, ?_⟩
      rw [hpd] at hidx
      cases d with
      | forward => simp only [Dir.opposite, target] at hidx ⊢; omega
      | backward => simp only [Dir.opposite] at hidx ⊢; exact hidx.1
    obtain ⟨s1, e, h1, c1, ht, hed, hp1, hp2, hnext⟩ := step_spec o d.opposite h.toCore hc hl
    simp only [go, hpd, hpn, and_self, if_true, h1, Option.bind_eq_bind, Option.bind_some]
    cases he : e.done with
    | true =>
      have hlast : ∀ p x, s1.trace = p ++ [x] → x.done = true := by
        intro p x hx
        rw [ht] at hx
        obtain ⟨_, h2⟩ := List.append_inj' hx rfl
        cases h2; exact he
      obtain ⟨s2, a, es, g1, g2, g3, g4, g5, g6, g7⟩ := loop_spec o d (N + 1)
        { s1 with prevDir := d } ⟨c1.bound, c1.pref, c1.turn, c1.retry, c1.honest⟩ rfl (hrest _ c1.bound)
        (fun p x hx hdone => by rw [hlast p x hx] at hdone; cases hdone) (fun _ => hlast)
      refine ⟨s2, a, [e], es, by simpa using g1, g2, by rw [g3]; simp [ht],
        .inr ⟨e, rfl, hed, trivial, trivial, by simp [he]⟩, by simp, .inr g4, g7⟩
    | false =>
      refine ⟨s1, false, [e], [], by simp, ?_, by simp [ht],
        .inr ⟨e, rfl, hed, trivial, trivial, fun _ => ⟨rfl, rfl⟩⟩, by simp,
        .inl ⟨e, rfl, he⟩, by simp⟩
      refine ⟨c1, fun _ => ⟨s.trace, e, ht, he, by rw [hed, hp2, hpd], ?_⟩, ?_⟩
      · rw [hp2, hpd]
        cases d with
        | forward =>
          simp only [Dir.opposite, he, Bool.false_eq_true, if_false] at hnext ⊢
          simp only [Dir.opposite, canContinue, decide_eq_true_eq] at hc
          omega
        | backward =>
          simp only [Dir.opposite, he, Bool.false_eq_true, if_false] at hnext ⊢
          simp only [Dir.opposite, canContinue, decide_eq_true_eq] at hc
          exact ⟨by rw [hnext.1, hnext.2], by rw [hnext.2]; exact hc⟩
      · intro ht; rw [hp1, hpn] at ht; cases ht
  · have hsame : s.prevDone = false → s.prevDir = d := by
      intro hpn
      have hne : s.prevDir ≠ d.opposite := fun h => hcond ⟨h, hpn⟩
      cases hs : s.prevDir <;> cases d <;> simp_all [Dir.opposite]
    have hl : LastOk s.trace d (target d s.next) := by
      intro p x hx hxd
      by_cases hpn : s.prevDone = true
      · have := h.finished hpn p x hx
        rw [this] at hxd; cases hxd
      · have hpn : s.prevDone = false := by simpa using hpn
        have hpd : s.prevDir = d := hsame hpn
        obtain ⟨q, e0, ht0, he0, hd0, hidx⟩ := h.unfinished hpn
        rw [ht0] at hx
        obtain ⟨_, h2⟩ := List.append_inj' hx rfl
        cases h2
        refine ⟨hd0.trans hpd, ?_⟩
        rw [hpd] at hidx
        cases d with
        | forward => exact hidx.1
        | backward => simp only [target] at hidx ⊢; omega
    have hl' : canContinue N d s = false → ∀ p e, s.trace = p ++ [e] → e.done = true := by
      intro hc p e he
      by_cases hpn : s.prevDone = true
      · exact h.finished hpn p e he
      · have hpn : s.prevDone = false := by simpa using hpn
        have hpd : s.prevDir = d := hsame hpn
        obtain ⟨q, e0, ht0, he0, hd0, hidx⟩ := h.unfinished hpn
        rw [hpd] at hidx
        exfalso
        cases d with
        | forward =>
          have := hidx.2
          simp [canContinue] at hc; omega
        | backward =>
          simp [canContinue] at hc; simp only at hidx; omega
    obtain ⟨s2, a, es, g1, g2, g3, g4, g5, g6, g7⟩ := loop_spec o d (N + 1)
      { s with prevDir := d } ⟨h.bound, h.pref, h.turn, h.retry, h.honest⟩ rfl (hrest _ h.bound) hl
      (by intro hc; exact hl' (by cases d <;> simpa [canContinue] using hc))
    refine ⟨s2, a, [], es, by rw [go, if_neg hcond]; exact g1, g2, by rw [g3]; simp, .inl rfl,
      fun _ => ?_, .inr g4, g7⟩
    cases hp : s.prevDone with
    | true => exact .inl rfl
    | false => exact .inr (hsame hp)

theorem inv_init (N : Nat) (o : Oracle) : Inv N o {} := by
  refine ⟨⟨Nat.zero_le _, ?_, ?_, ?_, ?_⟩, by simp, ?_⟩
  · intro i; simp [complete]
  · intro p e s h; simp at h
  · intro p e e' s h; simp at h
  · intro p e s h; simp at h
  · intro _ p e h; simp at h

theorem run_inv {N : Nat} (o : Oracle) (ds : List Dir) (s : State) (h : Inv N o s) :
    ∃ s', run N o ds s = some s' ∧ Inv N o s' := by
  induction ds generalizing s with
  | nil => exact ⟨s, rfl, h⟩
  | cons d ds ih =>
    obtain ⟨s1, a, _, _, h1, h2, _⟩ := go_spec o d s h
    obtain ⟨s2, k1, k2⟩ := ih s1 h2
    exact ⟨s2, by simp [run, h1, k1], k2⟩

/-! ## Properties -/

/-- C39: no history of calls, whatever the steps answer, accesses the step arrays outside their
bounds, and every call ends. -/
theorem C39_in_bounds (N : Nat) (o : Oracle) (ds : List Dir) : (run N o ds {}).isSome := by
  obtain ⟨s, h, _⟩ := run_inv o ds {} (inv_init N o)
  simp [h]

/-- C36: after any history the completed steps are a prefix, and every step call ever made came in
turn: forward on the first incomplete step or backward on the last complete one. -/
theorem C36_prefix (N : Nat) (o : Oracle) (ds : List Dir) :
    ∃ s, run N o ds {} = some s ∧ AllInTurn N s.trace ∧ ∃ k ≤ N, PrefixDone s.trace k := by
  obtain ⟨s, h, hi⟩ := run_inv o ds {} (inv_init N o)
  exact ⟨s, h, hi.turn, s.next, hi.bound, hi.pref⟩

/-- C37: a step that answered `NOT_DONE` is called again in the same direction before any other step
call is made. -/
theorem C37_finish_before_reversing (N : Nat) (o : Oracle) (ds : List Dir) :
    ∃ s, run N o ds {} = some s ∧ Retries s.trace := by
  obtain ⟨s, h, hi⟩ := run_inv o ds {} (inv_init N o)
  exact ⟨s, h, hi.retry⟩

/-- C38: whatever happened before, a call that answers `DONE` leaves all steps (none, for backward)
complete and met no `NOT_DONE`; a call that answers `NOT_DONE` does so right after the first step
call that answered `NOT_DONE`. -/
theorem C38_done_all_the_way (N : Nat) (o : Oracle) (ds : List Dir) (d : Dir) :
    ∃ s s' a es, run N o ds {} = some s ∧ go N o d s = some (s', a) ∧
      s'.trace = s.trace ++ es ∧
      (a = true → (∀ e ∈ es, e.done = true) ∧
        match d with
        | .forward => PrefixDone s'.trace N
        | .backward => PrefixDone s'.trace 0) ∧
      (a = false → ∃ p e, es = p ++ [e] ∧ e.done = false ∧ ∀ x ∈ p, x.done = true) := by
  obtain ⟨s, h, hi⟩ := run_inv o ds {} (inv_init N o)
  obtain ⟨s', a, pre, es, h1, h2, h3, h4, _, h5, h6⟩ := go_spec o d s hi
  refine ⟨s, s', a, pre ++ es, h, h1, h3, fun ha => ⟨?_, ?_⟩, fun ha => ?_⟩
  · subst ha
    have hpre : ∀ e ∈ pre, e.done = true := by
      rcases h4 with rfl | ⟨e, rfl, _, _, _, hx⟩
      · simp
      · simp only [List.mem_singleton, forall_eq]
        cases he : e.done with
        | true => rfl
        | false => exact absurd (hx he).2 (by simp)
    rcases h5 with ⟨e, rfl, he⟩ | h5
    · have := hpre e (by simp); rw [he] at this; cases this
    · intro e he
      rcases List.mem_append.1 he with he | he
      · exact hpre e he
      · exact h5.2 e he
  · have := h6 ha
    have hb := h2.bound
    cases d with
    | forward =>
      simp only [canContinue, decide_eq_false_iff_not] at this
      have he : s'.next = N := by omega
      have := h2.pref; rw [he] at this; exact this
    | backward =>
      simp only [canContinue, decide_eq_false_iff_not] at this
      have he : s'.next = 0 := by omega
      have := h2.pref; rw [he] at this; exact this
  · subst ha
    rcases h4 with rfl | ⟨e, rfl, _, _, _, hx⟩
    · rcases h5 with ⟨e, h, _⟩ | h5
      · cases h
      · simpa using h5.2
    · cases he : e.done with
      | false =>
        obtain ⟨rfl, _⟩ := hx he
        exact ⟨[], e, rfl, he, by simp⟩
      | true =>
        rcases h5 with ⟨e', h, he'⟩ | h5
        · cases h; rw [he] at he'; cases he'
        · obtain ⟨p, x, rfl, k1, k2⟩ := h5.2
          refine ⟨e :: p, x, rfl, k1, fun y hy => ?_⟩
          rcases List.mem_cons.1 hy with rfl | hy
          · exact he
          · exact k2 y hy

/-- C63: a call moves only in the requested direction, but for at most one call that finishes a
step left unfinished in the other direction. -/
theorem C63_direction (N : Nat) (o : Oracle) (ds : List Dir) (d : Dir) :
    ∃ s s' a pre es, run N o ds {} = some s ∧ go N o d s = some (s', a) ∧
      s'.trace = s.trace ++ (pre ++ es) ∧ (∀ e ∈ es, e.dir = d) ∧
      (pre = [] ∨ ∃ p e0 e, s.trace = p ++ [e0] ∧ e0.done = false ∧ pre = [e] ∧
        e.dir = d.opposite ∧ e0.dir = d.opposite ∧ e.idx = e0.idx) := by
  obtain ⟨s, h, hi⟩ := run_inv o ds {} (inv_init N o)
  obtain ⟨s', a, pre, es, h1, h2, h3, h4, _, h5, h6⟩ := go_spec o d s hi
  refine ⟨s, s', a, pre, es, h, h1, h3, ?_, ?_⟩
  · rcases h5 with ⟨e, rfl, he⟩ | h5
    · rcases h4 with h | ⟨e', h, _, _, _, hx⟩
      · cases h
      · cases h; rw [(hx he).1]; simp
    · exact h5.1
  · rcases h4 with rfl | ⟨e, rfl, hd, hpn, hpd, _⟩
    · exact .inl rfl
    · obtain ⟨p, e0, ht0, he0, hd0, _⟩ := hi.unfinished hpn
      refine .inr ⟨p, e0, e, ht0, he0, rfl, hd, hd0.trans hpd, ?_⟩
      have := h2.retry p e0 e es (by rw [h3, ht0]; simp) he0
      exact this.2

/-- C64: if from some moment on every step answers `DONE`, one call goes all the way. -/
theorem C64_progress (N : Nat) (o : Oracle) (ds : List Dir) (d : Dir) :
    ∃ s, run N o ds {} = some s ∧
      ((∀ es d' i, o (s.trace ++ es) d' i = true) → ∃ s', go N o d s = some (s', true)) := by
  obtain ⟨s, h, hi⟩ := run_inv o ds {} (inv_init N o)
  obtain ⟨s₂, s', a, es, k, h1, h2, _, h4⟩ := C38_done_all_the_way N o ds d
  rw [h] at k
  cases k
  obtain ⟨s'', a', _, _, g1, g2, _⟩ := go_spec o d s hi
  rw [h1] at g1
  cases g1
  refine ⟨s, h, fun ho => ⟨s', ?_⟩⟩
  cases a with
  | true => exact h1
  | false =>
    exfalso
    obtain ⟨p, e, rfl, he, _⟩ := h4 rfl
    have := g2.honest (s.trace ++ p) e [] (by rw [h2]; simp)
    rw [he, ho] at this; cases this

/-- Three steps; the second forward and the third backward step answer `NOT_DONE` once. -/
def exOracle : Oracle := fun tr d i =>
  if d = .forward ∧ i = 1 then decide ((tr.filter (fun e => e.dir == .forward && e.idx == 1)).length ≥ 1)
  else if d = .backward ∧ i = 0 then
    decide ((tr.filter (fun e => e.dir == .backward && e.idx == 0)).length ≥ 1)
  else true

example : (run 3 exOracle [.forward, .backward, .forward] {}).map (·.trace) = some
    [⟨.forward, 0, true⟩, ⟨.forward, 1, false⟩, ⟨.forward, 1, true⟩, ⟨.backward, 1, true⟩,
     ⟨.backward, 0, false⟩, ⟨.backward, 0, true⟩, ⟨.forward, 0, true⟩, ⟨.forward, 1, true⟩,
     ⟨.forward, 2, true⟩] := by decide +kernel

end Verif.Seq
