import Verif.Serve.Model
import Verif.Interrupt.Spec
import Verif.Nexus.Spec
import Verif.Flow.Spec
/-!
# What an interrupt should run
-/
namespace Verif.Serve
open Verif.Interrupt

/-- What the configuration of nexus `n` adds to the flow `f`: the fragments of all extensions of it
that count, with the runtime conditions around them. -/
def System.added (s : System) (n f : Nat) : List Flow.Frag :=
  ((Nexus.Spec.activeNodes (s.cfg n)).filter fun x =>
    Nexus.locate s.names (s.cfg n).exported x.target = some f).flatMap fun x =>
      x.args.map fun g => ⟨g.whens ++ x.conds.map s.preds, g.expr⟩

/-- The firmware compiles: every flow of an interrupt is a flow of every nexus. -/
def System.Compiles (s : System) (root : Irq) : Prop :=
  ∀ i fs, Below (.element i fs) root → ∀ f ∈ fs, ∀ n ∈ s.nexi, (s.flowOf n f).isSome = true

/-- The flows of interrupts are written with actions, not with sequencer steps. -/
def System.Flows (s : System) : Prop := ∀ n f, ∀ g ∈ s.added n f, Flow.Spec.FlowExpr g.expr

/-- Names and status fields are each used once, no status field is an enable field, and no action
changes a field of the interrupts. -/
structure System.Tidy (s : System) (x : Irq) : Prop where
  names : x.names.Nodup
  statuses : x.statuses.Nodup
  apart : ∀ f ∈ x.statuses, f ∉ x.enables
  quiet : ∀ n l σ g, g ∈ x.statuses ∨ g ∈ x.enables → s.act n l σ g = σ g

/-- The configuration of some nexus adds an action to one of the flows. -/
def System.HasWork (s : System) (fs : List Nat) : Prop :=
  ∃ f ∈ fs, ∃ n ∈ s.nexi, Flow.Spec.progAdded (s.added n f) ≠ []

/-- The interrupt `x` is served when `root` is: from `root` down to `x` every enable and status field
reads true, and something was added to a flow of `x` or of an interrupt below it. -/
inductive Served (s : System) (σ : St) : Irq → Irq → Prop where
  | here {x : Irq} {i : Info} {fs : List Nat} : Reads σ x.info.enable → Reads σ x.info.status →
      Below (.element i fs) x → s.HasWork fs → Served s σ x x
  | deeper {i : Info} {xs : List Irq} {y x : Irq} : Reads σ i.enable → Reads σ i.status → y ∈ xs →
      Served s σ x y → Served s σ x (.container i xs)

/-- The calls that one interrupt makes through a flow of a nexus. -/
def through (i f n : Nat) (cs : List Call) : List Call :=
  cs.filter fun c => decide (c.irq = i ∧ c.flow = f ∧ c.nexus = n)

/-- The predicate is not changed by actions or by clearing status fields. -/
def System.Steady (s : System) (root : Irq) (p : Nat) : Prop :=
  (∀ n l σ, s.pred p (s.act n l σ) = s.pred p σ) ∧
    ∀ f ∈ root.statuses, ∀ σ, s.pred p (fun g => if g = f then false else σ g) = s.pred p σ

end Verif.Serve
