import Verif.Interrupt.Model
import Verif.Front.Model
/-!
# Model of a firmware: interrupts that run the flows of configured components

Puts together `Verif.Interrupt` (`interrupt::manager<Config, Hal, Nexi...>`), `Verif.Nexus` (the
configurations) and `Verif.Flow` (building and running flows). What `Verif.Interrupt` takes as given,
which flows are active and what running them does, is here computed from the configurations.

The state is a function from numbers to bits: the fields of interrupts and everything else that
actions change and predicates look at. Left out: what `Verif.Interrupt`, `Verif.Nexus` and
`Verif.Flow` leave out; actions that are interrupted.
-/
namespace Verif.Serve
open Verif.Interrupt

/-- Fields and other memory. -/
abbrev St := Nat → Bool

/-- The nexus types given to the manager (`interrupt/manager.hpp` 86-88) with their configurations, and
what is outside of the library: predicates of runtime conditions, actions (of a nexus), and the orders
that the containers give. -/
structure System where
  nexi : List Nat
  cfg : Nat → Nexus.Cfg Flow.Frag
  preds : Nat → List Nat
  names : Nat → Option Nat
  arrange : List (Nexus.Ext Flow.Frag) → List (Nexus.Ext Flow.Frag)
  picks : Nat → Nat
  pred : Nat → St → Bool
  act : Nat → Flow.Leaf → St → St

/-- `Nexus::service_v<Flow>`: `nexus/nexus.hpp` 25-28, `flow/graph_builder.hpp` 246-280. `none`: the
configuration, the service or the flow does not compile (`nexus_for`, `interrupt/concepts.hpp` 75-79). -/
def System.flowOf (s : System) (n f : Nat) : Option (List Flow.Leaf) := do
  let bs ← Nexus.builders (Front.underCondition s.preds) s.names s.arrange (s.cfg n)
  let fs ← Nexus.builder? bs f
  Flow.flow s.picks fs

/-- Running the list of functions: `flow/func_list.hpp` 21-35, 42-52. Each predicate is asked when its
node is reached. Gives the state afterwards and the actions called. -/
def runFlow (pred : Nat → St → Bool) (act : Flow.Leaf → St → St) :
    List Flow.Leaf → St → St × List Flow.Leaf
  | [], σ => (σ, [])
  | l :: ls, σ =>
    if l.cond.all (pred · σ) then
      let r := runFlow pred act ls (act l σ)
      (r.1, l :: r.2)
    else runFlow pred act ls σ

/-- `Nexus::service<Flow>()`: `nexus/nexus.hpp` 30-32. -/
def System.call (s : System) (n f : Nat) (σ : St) : St × List Flow.Leaf :=
  runFlow s.pred (s.act n) ((s.flowOf n f).getD []) σ

/-- What the interrupts see of the configurations: `active` is `sizeof...(FuncPtrs) > 0`
(`flow/func_list.hpp` 39, `flow/graph_builder.hpp` 288). -/
def System.world (s : System) : World where
  nexi := s.nexi
  active n f := decide (0 < ((s.flowOf n f).getD []).length)
  effect f n σ := (s.call n f σ).1

/-- An action called by a flow of a nexus that an interrupt runs. -/
structure Call where
  irq : Nat
  flow : Nat
  nexus : Nat
  leaf : Flow.Leaf
deriving DecidableEq, Repr

/-- The actions behind the events of `Verif.Interrupt.Irq.run`, with the states in which they are
called. -/
def System.calls (s : System) : St → List Ev → St × List Call
  | σ, [] => (σ, [])
  | σ, .clear f :: t => s.calls (fun g => if g = f then false else σ g) t
  | σ, .run i f n :: t =>
    let r := s.call n f σ
    let q := s.calls r.1 t
    (q.1, r.2.map (⟨i, f, n, ·⟩) ++ q.2)

/-- `manager::run<Number>()`: `interrupt/manager.hpp` 64-71; the state afterwards, and the actions that
were called. -/
def System.interrupt (s : System) (impls : List (Nat × Irq)) (number : Nat) (σ : St) :
    St × List Call :=
  let r := managerRun s.world impls number σ
  (r.1, (s.calls σ r.2).2)

end Verif.Serve
