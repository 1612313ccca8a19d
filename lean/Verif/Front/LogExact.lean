import Verif.Front.LogProps
import Mathlib.Data.List.Induction
/-! # What destinations get, without conditions -/
namespace Verif.Front
open Spec

variable {S : Type}

/-- **C103** (part) What destinations and writers send, whatever they do: each record is answered as if it were the
first one, and the state of the destination is never changed. -/
theorem C103_binary_exact (c : Fixed) (f : Option Nat) (xs : List Exec) (s s' : Sys S)
    (h : s.run c xs = some s') (b : Binary S) (hb : s.loggers f = .binary b) :
    ∃ b', s'.loggers f = .binary b' ∧ b'.dests.length = b.dests.length ∧
      (∀ (i : Nat) d, b.dests[i]? = some d → ∃ d', b'.dests[i]? = some d' ∧ d'.state = d.state ∧
        d'.sent = d.sent ++ (recordsFor c f none xs).flatMap fun r => (d.call d.state r).2) ∧
      ∀ w, (b'.writers w).state = (b.writers w).state ∧ (b'.writers w).sent =
        (b.writers w).sent ++ (recordsFor c f (some w) xs).flatMap fun r => ((b.writers w).call (b.writers w).state r).2 := by
  refine ⟨_, run_binary xs h hb, by simp, ?_, fun w => ⟨rfl, rfl⟩⟩
  intro i d hi
  exact ⟨d.after (recordsFor c f none xs), by rw [List.getElem?_map, hi]; rfl, rfl, rfl⟩

/-- The state of an object that was called with these records. -/
def stateAfter (call : S → List Nat → S × List Nat) (s : S) : List (List Nat) → S
  | [] => s
  | r :: rs => stateAfter call (call s r).1 rs

theorem feed_append (call : S → List Nat → S × List Nat) (as bs : List (List Nat)) : ∀ s,
    feed call s (as ++ bs) = feed call s as ++ feed call (stateAfter call s as) bs := by
  induction as with
  | nil => intro s; rfl
  | cons a as ih => intro s; rw [List.cons_append, feed, ih, feed, stateAfter, List.append_assoc]

/-- **C103** (part) The destinations that send what they should for all sequences of records are exactly those whose
answer is the same after any records. -/
theorem C103_stateless_exact (call : S → List Nat → S × List Nat) (s : S) :
    (∀ rs, (rs.flatMap fun r => (call s r).2) = feed call s rs) ↔
      ∀ rs r, (call (stateAfter call s rs) r).2 = (call s r).2 := by
  constructor
  · intro h rs r
    have h1 := h (rs ++ [r])
    rw [List.flatMap_append, feed_append, h rs] at h1
    have h2 := List.append_cancel_left h1
    simpa [feed] using h2.symm
  · intro h rs
    induction rs using List.reverseRecOn with
    | nil => rfl
    | append_singleton rs r ih =>
      rw [List.flatMap_append, feed_append, ih, feed, feed, h]
      simp

/-- The numbering destination is not one of them; one that forwards is. -/
example : ¬ ∀ rs r, (numbering.call (stateAfter numbering.call numbering.state rs) r).2 =
    (numbering.call numbering.state r).2 := fun h => absurd (h [[1]] [2]) (by decide)
example : ∀ rs r, ((forward []).call (stateAfter (forward []).call (forward []).state rs) r).2 =
    ((forward []).call (forward []).state r).2 := fun _ _ => rfl

theorem step_pointer {c : Fixed} {s s' : Sys S} {x : Exec} (h : s.step c x = some s') {f : Option Nat}
    {ds : List Sink} (hd : s.loggers f = .text ds) :
    ∃ ds', s'.loggers f = .text ds' ∧ ∀ (i : Nat) b, ds[i]? = some (Sink.pointer b) →
      (saidTo c f x = [] ∧ ds'[i]? = some (Sink.pointer b)) ∨
      ∃ t, ds'[i]? = some (Sink.pointer ('\n' :: t)) := by
  rcases step_plain h f (by intro e t; rw [hd]; rfl) with ⟨h1, h2⟩ | ⟨m, y, h1, h2, h3⟩
  · exact ⟨ds, by rw [h2, hd], fun i b hi => .inl ⟨h1, hi⟩⟩
  · rw [hd, Logger.log, textLog, Option.map_map, Option.map_eq_some_iff] at h3
    obtain ⟨ps, hp, h4⟩ := h3
    refine ⟨_, h4.symm, ?_⟩
    intro i b hi
    rw [textParts] at hp
    simp only [bind, Option.bind_eq_some_iff, pure, Option.some.injEq] at hp
    obtain ⟨l, hl, lt, hlt, rfl⟩ := hp
    rw [List.getElem?_map, hi]
    exact .inr ⟨_, rfl⟩

/-- **C103** (part) A buffer that a pointer is given for begins with a line break after any run with a message: no line
is in it. -/
theorem C103_pointer_lost (c : Fixed) (f : Option Nat) (xs : List Exec) (s s' : Sys S)
    (h : s.run c xs = some s') (ds : List Sink) (hd : s.loggers f = .text ds) (i : Nat) (b : Str)
    (hi : ds[i]? = some (.pointer b)) (hx : xs.flatMap (saidTo c f) ≠ []) :
    ∃ ds' t, s'.loggers f = .text ds' ∧ ds'[i]? = some (.pointer ('\n' :: t)) := by
  have key : ∀ (xs : List Exec) (s s' : Sys S) (ds : List Sink) (b : Str), s.run c xs = some s' →
      s.loggers f = .text ds → ds[i]? = some (.pointer b) →
      ∃ ds' b', s'.loggers f = .text ds' ∧ ds'[i]? = some (.pointer b') ∧
        ((xs.flatMap (saidTo c f) ≠ [] ∨ ∃ t, b = '\n' :: t) → ∃ t, b' = '\n' :: t) := by
    intro xs
    induction xs with
    | nil =>
      intro s s' ds b h hd hi
      cases h
      exact ⟨ds, b, hd, hi, fun h => h.elim (fun h => (h rfl).elim) id⟩
    | cons x xs ih =>
      intro s s' ds b h hd hi
      obtain ⟨t, h1, h2⟩ := run_cons h
      obtain ⟨ds1, e1, g1⟩ := step_pointer h1 hd
      rcases g1 i b hi with ⟨g, g2⟩ | ⟨u, g2⟩
      · obtain ⟨ds2, b2, e2, g3, g4⟩ := ih t s' ds1 b h2 e1 g2
        refine ⟨ds2, b2, e2, g3, fun h => g4 ?_⟩
        rwa [List.flatMap_cons, g, List.nil_append] at h
      · obtain ⟨ds2, b2, e2, g3, g4⟩ := ih t s' ds1 _ h2 e1 g2
        exact ⟨ds2, b2, e2, g3, fun _ => g4 (.inr ⟨u, rfl⟩)⟩
  obtain ⟨ds', b', h1, h2, h3⟩ := key xs s s' ds b h hd hi
  obtain ⟨t, rfl⟩ := h3 (.inl hx)
  exact ⟨ds', t, h1, h2⟩

/-- A run with a pointer and a message. -/
example : ∃ s', (⟨fun _ => .text [.pointer "....".toList], []⟩ : Sys Unit).run exFixed
      [exExec [.level 4] (.log ⟨"a".toList, []⟩) [] 1] = some s' ∧
    [exExec [.level 4] (.log ⟨"a".toList, []⟩) [] 1].flatMap (saidTo exFixed none) ≠ [] := by
  have h : ((⟨fun _ => .text [.pointer "....".toList], []⟩ : Sys Unit).run exFixed
      [exExec [.level 4] (.log ⟨"a".toList, []⟩) [] 1]).isSome := by decide +kernel
  obtain ⟨s', hs⟩ := Option.isSome_iff_exists.mp h
  exact ⟨s', hs, by decide +kernel⟩

end Verif.Front
