import Verif.Seq.Model
/-!
# What the sequencer should do, in terms of the step calls that happened
-/
namespace Verif.Seq

/-- Effect of one call on whether step `i` counts as forward-complete. -/
def Event.effect (e : Event) (i : Nat) (b : Bool) : Bool :=
  if e.done = true ∧ e.idx = i then decide (e.dir = .forward) else b

/-- Step `i` is forward-complete after the calls `tr`: its forward function answered `DONE` and its
backward function has not done so since. -/
def complete (tr : List Event) (i : Nat) : Bool := tr.foldl (fun b e => e.effect i b) false

/-- Exactly the first `k` steps are forward-complete. -/
def PrefixDone (tr : List Event) (k : Nat) : Prop := ∀ i, complete tr i = true ↔ i < k

/-- The call `e` made after the calls `tr` is the next forward or the last backward step. -/
def InTurn (N : Nat) (tr : List Event) (e : Event) : Prop :=
  ∃ k ≤ N, PrefixDone tr k ∧
    ((e.dir = .forward ∧ e.idx = k ∧ k < N) ∨ (e.dir = .backward ∧ e.idx + 1 = k))

/-- Every call in the history came in turn. -/
def AllInTurn (N : Nat) (tr : List Event) : Prop :=
  ∀ p e s, tr = p ++ e :: s → InTurn N p e

/-- Every call that was not done is followed, if by anything, by the same call. -/
def Retries (tr : List Event) : Prop :=
  ∀ p e e' s, tr = p ++ e :: e' :: s → e.done = false → e'.dir = e.dir ∧ e'.idx = e.idx

end Verif.Seq
