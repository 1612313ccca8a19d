import Verif.Interrupt.Model
/-!
# What interrupts should do
-/
namespace Verif.Interrupt

/-- All interrupts of a tree, with itself. -/
inductive Below : Irq → Irq → Prop where
  | refl (x : Irq) : Below x x
  | sub {i : Info} {xs : List Irq} {y x : Irq} : y ∈ xs → Below x y → Below x (.container i xs)

/-- The field reads true, or there is no field. -/
def Reads (σ : Nat → Bool) (f : Option Nat) : Prop := ∀ g, f = some g → σ g = true

/-- Some nexus has some of the flows active. -/
def SomeActive (w : World) (fs : List Nat) : Prop := ∃ f ∈ fs, ∃ n ∈ w.nexi, w.active n f = true

/-- `x` is executed when `root` runs with field contents `σ`: from `root` down to `x` every enable
and status field reads true, and `x` has an active flow below it (or its own). -/
inductive Executed (w : World) (σ : Nat → Bool) : Irq → Irq → Prop where
  | here {x : Irq} {i : Info} {fs : List Nat} : Reads σ x.info.enable → Reads σ x.info.status →
      Below (.element i fs) x → SomeActive w fs → Executed w σ x x
  | deeper {i : Info} {xs : List Irq} {y x : Irq} : Reads σ i.enable → Reads σ i.status → y ∈ xs →
      Executed w σ x y → Executed w σ x (.container i xs)

mutual
/-- All interrupts of a tree. -/
def Irq.nodes : Irq → List Irq
  | .element i fs => [.element i fs]
  | .container i xs => .container i xs :: nodesL xs
/-- All interrupts of a list of trees. -/
def nodesL : List Irq → List Irq
  | [] => []
  | x :: xs => x.nodes ++ nodesL xs
end

/-- The names in a tree. -/
def Irq.names (x : Irq) : List Nat := x.nodes.map (fun y => y.info.name)
/-- The status fields in a tree. -/
def Irq.statuses (x : Irq) : List Nat := x.nodes.filterMap (fun y => y.info.status)
/-- The enable fields in a tree. -/
def Irq.enables (x : Irq) : List Nat := x.nodes.filterMap (fun y => y.info.enable)

/-- Names and status fields are each used once, no status field is an enable field, and running
flows does not change the fields of the tree. -/
structure Tidy (w : World) (x : Irq) : Prop where
  names : x.names.Nodup
  statuses : x.statuses.Nodup
  apart : ∀ s ∈ x.statuses, s ∉ x.enables
  quiet : ∀ f n σ g, g ∈ x.statuses ∨ g ∈ x.enables → w.effect f n σ g = σ g

/-- The event is about the interrupt `y` or one below it. -/
def Owned (y : Irq) : Ev → Prop
  | .clear s => s ∈ y.statuses
  | .run n _ _ => n ∈ y.names

/-- The event is a call of a flow for the interrupt of that name. -/
def Ev.isRunOf (n : Nat) : Ev → Bool
  | .run m _ _ => m == n
  | .clear _ => false

/-- The interrupt should be enabled: it and its resources are enabled, and so is one of its flows or
one of its sub-interrupts. -/
inductive On (c : Enables) : Irq → Prop where
  | element {i : Info} {fs : List Nat} {f : Nat} : c.name i.name = true →
      (∀ r ∈ i.resources, c.res r = true) → f ∈ fs → c.flow f = true → On c (.element i fs)
  | container {i : Info} {xs : List Irq} {y : Irq} : c.name i.name = true →
      (∀ r ∈ i.resources, c.res r = true) → y ∈ xs → On c y → On c (.container i xs)

/-- An interrupt of the configuration. -/
def InTree (root : List Irq) (x : Irq) : Prop := ∃ y ∈ root, Below x y

/-- Bit `i` of register `r` is (part of) the enable field of `x`. -/
def OwnsBit {w : Nat} (H : Hal w) (x : Irq) (r i : Nat) : Prop :=
  ∃ f, x.info.enable = some f ∧ H.reg f = r ∧ (H.mask f).getLsbD i = true

/-- The flow or resource `t` belongs to `x` or, with propagation, to something below `x`. -/
def Concerns (propagate : Bool) (t : Nat) (x : Irq) : Prop :=
  ∃ y, (if propagate then Below y x else y = x) ∧ (t ∈ y.info.resources ∨ t ∈ y.flows)

/-- The operation is about the interrupt. -/
def Op.About (root : List Irq) (x : Irq) : Op → Prop
  | .items _ p ts => ∃ t ∈ ts, Concerns p t x
  | .names _ ns => x.info.name ∈ ns
  | .refreshTop => x ∈ root
  | .refreshAll => True
  | .reset => True

/-- Names are used once and are neither resources nor flows, no resource is a flow, and two
interrupts have no enable bit in common. -/
structure WellFormed {w : Nat} (H : Hal w) (root : List Irq) : Prop where
  names : ∀ x y, InTree root x → InTree root y → x.info.name = y.info.name → x = y
  kinds : ∀ x y, InTree root x → InTree root y →
    x.info.name ∉ y.info.resources ∧ x.info.name ∉ y.flows ∧ ∀ t ∈ x.flows, t ∉ y.info.resources
  bits : ∀ x y r i, InTree root x → InTree root y → OwnsBit H x r i → OwnsBit H y r i → x = y

/-- The hardware registers with enable fields have what the controller remembers. -/
def Synced {w : Nat} (H : Hal w) (root : List Irq) (d : Ctl w) : Prop :=
  ∀ x f, InTree root x → x.info.enable = some f → d.hw (H.reg f) = d.shadow (H.reg f)

/-- The enable bits set in the hardware are those of the listed interrupts, nothing else is set in
the registers of the configuration. -/
def OnlySet {w : Nat} (H : Hal w) (root xs : List Irq) (d : Ctl w) : Prop :=
  ∀ x f, InTree root x → x.info.enable = some f → ∀ i,
    ((d.hw (H.reg f)).getLsbD i = true ↔ ∃ y ∈ xs, OwnsBit H y (H.reg f) i)

/-- The enable bits of `x` are set if it should be enabled and clear otherwise. -/
def BitsRight {w : Nat} (H : Hal w) (d : Ctl w) (x : Irq) : Prop :=
  ∀ r i, OwnsBit H x r i → ((d.hw r).getLsbD i = true ↔ On d.en x)

/-- The hardware enables match the enabled things, for the whole configuration. -/
def Matches {w : Nat} (H : Hal w) (root : List Irq) (d : Ctl w) : Prop :=
  ∀ x, InTree root x → BitsRight H d x

/-- No resource `t` is more than one level below another interrupt. -/
def Near (root : List Irq) (t : Nat) : Prop :=
  ∀ x y, InTree root x → Below y x → t ∈ y.info.resources → y = x ∨ y ∈ x.subs

end Verif.Interrupt
