import Verif.Control.Model
import Verif.Interrupt.Spec
/-!
# What turning things off and on should do
-/
namespace Verif.Control
open Verif.Interrupt

/-- Nothing of the interrupt itself is turned off: its name and its resources are on, and, if it has
flows of its own, so is one of them. -/
structure Allowed (c : Enables) (x : Irq) : Prop where
  name : c.name x.info.name = true
  resources : ∀ r ∈ x.info.resources, c.res r = true
  flow : ∀ i fs, x = .element i fs → ∃ f ∈ fs, c.flow f = true

/-- The enable bits of the interrupt are set only if nothing of it is turned off. -/
def Obeys {w : Nat} (H : Hal w) (d : Ctl w) (x : Irq) : Prop :=
  ∀ r i, OwnsBit H x r i → (d.hw r).getLsbD i = true → Allowed d.en x

/-- `Hal::read` of an enable field is true when all its bits are set, and false when none is. -/
def ReadsFields {w : Nat} (fw : Firmware w) : Prop :=
  ∀ x f, InTree fw.root x → x.info.enable = some f → ∀ v : BitVec w,
    ((∀ i, (fw.H.mask f).getLsbD i = true → v.getLsbD i = true) → fw.read f v = true) ∧
    ((∀ i, (fw.H.mask f).getLsbD i = true → v.getLsbD i = false) → fw.read f v = false)

/-- All calls of the controller in the history, from flows or from outside, are of this kind. -/
def Uses {w : Nat} (fw : Firmware w) (P : Op → Prop) (ss : List Step) : Prop :=
  (∀ f n m o, Cmd.op o ∈ fw.work f n m → P o) ∧ ∀ o, Step.cmd (.op o) ∈ ss → P o

/-- The listed interrupts lead from `x`, the first, up to a top-level interrupt, the last. -/
inductive Leads {w : Nat} (root : List Irq) : List (Irq × Mach w) → Irq → Prop where
  | top {x : Irq} {m : Mach w} : x ∈ root → Leads root [(x, m)] x
  | sub {i : Info} {xs : List Irq} {p : List (Irq × Mach w)} {x : Irq} {m : Mach w} :
      Leads root p (.container i xs) → x ∈ xs → Leads root ((x, m) :: p) x

/-- The operation turns something of the interrupt itself on or off, or refreshes or resets all. -/
def Touches (x : Irq) : Op → Prop
  | .items _ _ ts => ∃ t ∈ ts, t ∈ x.info.resources ∨ t ∈ x.flows
  | .names _ ns => x.info.name ∈ ns
  | .refreshTop => False
  | .refreshAll => True
  | .reset => True

/-- The flows of the interrupts call no controller and change no status field of the interrupts. -/
def Quiet {w : Nat} (fw : Firmware w) : Prop :=
  ∀ f n m, ∀ c ∈ fw.work f n m, ∃ g b, c = .put g b ∧
    ∀ x, InTree fw.root x → x.info.status ≠ some g

/-- `x` is to be served when `root` is run: from `root` down to `x` nothing is turned off and every
request is there; `x` has an enabled flow, and some of its flows has actions. -/
inductive Due (act : World) (c : Enables) (st : Nat → Bool) : Irq → Irq → Prop where
  | here {i : Info} {fs : List Nat} : Allowed c (.element i fs) → Reads st i.status →
      SomeActive act fs → Due act c st (.element i fs) (.element i fs)
  | deeper {i : Info} {xs : List Irq} {x y : Irq} : Allowed c (.container i xs) → Reads st i.status →
      y ∈ xs → Due act c st x y → Due act c st x (.container i xs)

/-- The act is a call of a flow for the interrupt of that name. -/
def Act.forName {w : Nat} (n : Nat) : Act w → Option (Nat × Nat)
  | .call ((x, _) :: _) f k => if x.info.name = n then some (f, k) else none
  | _ => none

end Verif.Control
