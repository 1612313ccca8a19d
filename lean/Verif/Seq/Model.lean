/-!
# Model of the sequencer (`/repo/include/seq/impl.hpp`)

Step functions are arbitrary: what a step answers may depend on everything that happened before. The
model records every call of a step function in a trace, and an oracle gives the answer of the next
call from the trace so far. `none` is an access outside the step arrays, or a loop that did not end
within the given number of rounds.

Left out: logging; step functions that call the sequencer again.
-/
namespace Verif.Seq

/-- `direction`: `seq/impl.hpp` 15. -/
inductive Dir where
  | forward
  | backward
deriving DecidableEq, Repr

/-- `opposite`: 74-81. -/
def Dir.opposite : Dir → Dir
  | .forward => .backward
  | .backward => .forward

/-- One call of a step function: which array, which index, and whether it answered `DONE`. -/
structure Event where
  dir : Dir
  idx : Nat
  done : Bool
deriving DecidableEq, Repr

/-- What step functions answer: given the calls so far and the function called. -/
abbrev Oracle := List Event → Dir → Nat → Bool

/-- The data members 19-24, and the trace of calls. -/
structure State where
  next : Nat := 0
  prevDone : Bool := true
  prevDir : Dir := .backward
  trace : List Event := []
deriving DecidableEq, Repr

/-- Calls the step function `i` of one array of `N` elements. -/
def call (N : Nat) (o : Oracle) (s : State) (d : Dir) (i : Nat) : Option (State × Bool) :=
  if i < N then
    let a := o s.trace d i
    some ({ s with trace := s.trace ++ [⟨d, i, a⟩] }, a)
  else none

/-- `step_forward`: 41-47. -/
def stepForward (N : Nat) (o : Oracle) (s : State) : Option (State × Bool) := do
  let (s, a) ← call N o s .forward s.next
  if a then some ({ s with next := s.next + 1 }, true) else some (s, false)

/-- `step_backward`: 49-55. The index `next_step - 1` wraps for zero, which is outside the array. -/
def stepBackward (N : Nat) (o : Oracle) (s : State) : Option (State × Bool) := do
  if s.next = 0 then none
  else
    let (s, a) ← call N o s .backward (s.next - 1)
    if a then some ({ s with next := s.next - 1 }, true) else some (s, false)

/-- `step`: 57-63. -/
def step (N : Nat) (o : Oracle) (d : Dir) (s : State) : Option (State × Bool) :=
  match d with
  | .forward => stepForward N o s
  | .backward => stepBackward N o s

/-- `can_continue`: 65-72. -/
def canContinue (N : Nat) (d : Dir) (s : State) : Bool :=
  match d with
  | .forward => decide (s.next < N)
  | .backward => decide (s.next > 0)

/-- The loop of `go` and what follows it: 95-103, at most `fuel` rounds. -/
def loop (N : Nat) (o : Oracle) (d : Dir) : Nat → State → Option (State × Bool)
  | 0, _ => none
  | fuel + 1, s =>
    if canContinue N d s then do
      let (s, a) ← step N o d s
      if a then loop N o d fuel s else some ({ s with prevDone := false }, false)
    else some ({ s with prevDone := true }, true)

/-- `go`: 83-104. The answer is `true` for `DONE`. -/
def go (N : Nat) (o : Oracle) (d : Dir) (s : State) : Option (State × Bool) :=
  if s.prevDir = d.opposite ∧ s.prevDone = false then do
    let (s, a) ← step N o d.opposite s
    if a then loop N o d (N + 1) { s with prevDir := d } else some (s, false)
  else loop N o d (N + 1) { s with prevDir := d }

/-- A history of calls of `forward()` and `backward()`, 107-108, with the answer of the last. -/
def run (N : Nat) (o : Oracle) : List Dir → State → Option State
  | [], s => some s
  | d :: ds, s => do
    let (s, _) ← go N o d s
    run N o ds s

end Verif.Seq
