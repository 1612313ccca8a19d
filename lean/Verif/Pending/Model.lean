import Verif.Interrupt.Model
/-!
# Model of interrupt requests that arrive while interrupts run

`Verif.Interrupt.Model` runs an interrupt in a world that only the flows change. Here the hardware goes
on working: between any two accesses of `run` to the hardware, and between any two flows, it may raise
requests. A request sets the status field of an interrupt and those of the interrupts it is wired to
(usually the shared interrupts above it).

Sources: `run` in `/repo/include/interrupt/impl.hpp`, the policies in
`/repo/include/interrupt/policies.hpp`, `isr` in `/repo/include/interrupt/config.hpp`.

Left out: as in `Verif.Interrupt.Model`; requests in the middle of `Hal::read` or `Hal::clear` (one
access each: clearing does not touch other fields); interrupts of another priority that run in between.
-/
namespace Verif.Pending
open Verif.Interrupt

/-- What happens, in order. -/
inductive Act where
  | raise (f : Nat)
  | clear (f : Nat)
  | run (irq flow nexus : Nat)
deriving DecidableEq, Repr

/-- The fields, and the requests that the hardware is going to raise before each of the next steps. -/
structure Hw where
  σ : Nat → Bool
  coming : List (List Nat)

/-- A piece of the program: what it does to the hardware, and what happens. -/
abbrev Prog := Hw → Hw × List Act

/-- One after the other. -/
def seq (a b : Prog) : Prog := fun h =>
  ((b (a h).1).1, (a h).2 ++ (b (a h).1).2)

/-- Nothing. -/
def skip : Prog := fun h => (h, [])

/-- The hardware raises the requests of the next step; `up f` are the other fields that a request of
`f` sets. -/
def tick (up : Nat → List Nat) : Prog := fun h =>
  match h.coming with
  | [] => (h, [])
  | fs :: rest => (⟨fun g => h.σ g || fs.any (fun f => g == f || (up f).contains g), rest⟩,
      fs.map .raise)

section
variable (up : Nat → List Nat) (w : World)

/-- `if (read_field<Field>()) then`: `interrupt/impl.hpp` 12-26, 69-70, 97-98. Reading `no_field_t` is
no access. -/
def whenSet (f : Option Nat) (then_ : Prog) : Prog :=
  match f with
  | none => then_
  | some g => seq (tick up) (fun h => if h.σ g then then_ h else (h, []))

/-- `clear_field`: 28-43. -/
def clear (f : Option Nat) : Prog :=
  match f with
  | none => skip
  | some g => seq (tick up) (fun h => (⟨fun x => if x = g then false else h.σ x, h.coming⟩, [.clear g]))

/-- `status_policy_t::run`: `interrupt/policies.hpp` 22-55. -/
def policyRun (i : Info) (body : Prog) : Prog :=
  match i.clear with
  | .first => seq (clear up i.status) body
  | .last => seq body (clear up i.status)
  | .dont => body

/-- One flow in one nexus. -/
def flowStep (name : Nat) (c : Nat × Nat) : Prog :=
  seq (tick up) (fun h => (⟨w.effect c.1 c.2 h.σ, h.coming⟩, [.run name c.1 c.2]))

/-- `isr`: `interrupt/config.hpp` 102-105, 117-119. -/
def isr (name : Nat) : List (Nat × Nat) → Prog
  | [] => skip
  | c :: cs => seq (flowStep up w name c) (isr name cs)

mutual
/-- `run`: `interrupt/impl.hpp` 63-76, 91-104. -/
def run : Irq → Prog
  | .element i fs =>
    if fs.any w.flowActive then
      whenSet up i.enable (whenSet up i.status
        (policyRun up i (isr up w i.name (isrCalls w fs))))
    else skip
  | .container i xs =>
    if activeL w xs then
      whenSet up i.enable (whenSet up i.status (policyRun up i (runL xs)))
    else skip
/-- `(Subs::run(), ...)`: 101. -/
def runL : List Irq → Prog
  | [] => skip
  | x :: xs => seq (run x) (runL xs)
end

/-- The interrupt runs once for each list of coming requests; what is left of one list is raised before
the next run begins. -/
def runs (x : Irq) : List (List (List Nat)) → (Nat → Bool) → (Nat → Bool) × List Act
  | [], σ => (σ, [])
  | c :: cs, σ =>
    let r := run up w x ⟨σ, c⟩
    let l := tick up ⟨r.1.σ, [r.1.coming.flatten]⟩
    let q := runs x cs l.1.σ
    (q.1, r.2 ++ l.2 ++ q.2)

end
end Verif.Pending
