/-!
# Model of interrupt handling (`/repo/include/interrupt/`)

Fields, registers, flows, resources and interrupt names are numbers. `Irq.element` is `irq` or
`sub_irq`, `Irq.container` is `shared_irq` or `shared_sub_irq`. A field `none` is `no_field_t`.

Left out: interrupt numbers' priorities and `Hal::init`, `irq_init`; critical sections (every
operation is one atomic step; `Verif.Conc.Model` has the steps); the printed configuration; unknown items, which are a
compile error or are ignored.
-/
namespace Verif.Interrupt

/-- The three status policies: `interrupt/policies.hpp` 22-55. -/
inductive Clear where
  | first
  | last
  | dont
deriving DecidableEq, Repr

/-- What all interrupts have: `policy_config` and control configuration, `interrupt/config.hpp`
26-82. A top-level interrupt has no status field (36). -/
structure Info where
  name : Nat
  enable : Option Nat := none
  status : Option Nat := none
  clear : Clear := .first
  resources : List Nat := []
deriving DecidableEq, Repr

/-- `element_irq` 135-150, `container_irq` 164-188. -/
inductive Irq where
  | element (i : Info) (flows : List Nat)
  | container (i : Info) (subs : List Irq)

/-- Members inherited from the control and policy configuration. -/
def Irq.info : Irq → Info
  | .element i _ => i
  | .container i _ => i

/-- `flows_t`: 110, and none for containers 124. -/
def Irq.flows : Irq → List Nat
  | .element _ fs => fs
  | .container _ _ => []

/-- `children`: 85. -/
def Irq.subs : Irq → List Irq
  | .element _ _ => []
  | .container _ xs => xs

mutual
/-- `descendants`: 86-89. -/
def Irq.descendants : Irq → List Irq
  | .element _ _ => []
  | .container _ xs => xs ++ descendantsL xs
/-- The descendants of a list of children, concatenated. -/
def descendantsL : List Irq → List Irq
  | [] => []
  | x :: xs => x.descendants ++ descendantsL xs
end

/-- `descendants` of the root: 86-89, 129-133. -/
def rootDescendants (root : List Irq) : List Irq := root ++ descendantsL root

mutual
/-- `all_flows_t`: 111, 171-173. Duplicates are not removed. -/
def Irq.allFlows : Irq → List Nat
  | .element _ fs => fs
  | .container _ xs => allFlowsL xs
/-- All flows of a list of interrupts. -/
def allFlowsL : List Irq → List Nat
  | [] => []
  | x :: xs => x.allFlows ++ allFlowsL xs
end

/-- `all_resources_t`: 80-81. -/
def Irq.allResources (x : Irq) : List Nat :=
  x.info.resources ++ (x.subs.map (fun s => s.info.resources)).flatten

/-! ## Running -/

/-- What running an interrupt does to the outside: clears a status field, or calls a flow (of the
named interrupt) of a nexus. -/
inductive Ev where
  | clear (f : Nat)
  | run (irq flow nexus : Nat)
deriving DecidableEq, Repr

/-- Which flows are active in which nexus, and what running a flow does to the fields. -/
structure World where
  nexi : List Nat
  active : Nat → Nat → Bool
  effect : Nat → Nat → (Nat → Bool) → (Nat → Bool)

/-- `one_active`: 97-100. -/
def World.flowActive (w : World) (f : Nat) : Bool := w.nexi.any (fun n => w.active n f)

mutual
/-- `active`: 112-113 and `interrupt/impl.hpp` 53; containers `interrupt/impl.hpp` 82. -/
def Irq.active (w : World) : Irq → Bool
  | .element _ fs => fs.any w.flowActive
  | .container _ xs => activeL w xs
/-- Some of the sub-interrupts is active. -/
def activeL (w : World) : List Irq → Bool
  | [] => false
  | x :: xs => x.active w || activeL w xs
end

/-- `read_field`: `interrupt/impl.hpp` 12-26. -/
def readField (σ : Nat → Bool) : Option Nat → Bool
  | some f => σ f
  | none => true

/-- `clear_field`: 28-39, after which the field reads false. -/
def clearField (σ : Nat → Bool) : Option Nat → (Nat → Bool) × List Ev
  | some f => (fun g => if g = f then false else σ g, [.clear f])
  | none => (σ, [])

/-- The condition 69-70, 97-98. -/
def Info.ready (i : Info) (σ : Nat → Bool) : Bool := readField σ i.enable && readField σ i.status

/-- Runs one thing after the other. -/
def andThen (a b : (Nat → Bool) → (Nat → Bool) × List Ev) (σ : Nat → Bool) :
    (Nat → Bool) × List Ev :=
  let (σ1, t1) := a σ
  let (σ2, t2) := b σ1
  (σ2, t1 ++ t2)

/-- `status_policy_t::run`: `interrupt/policies.hpp` 22-55. -/
def policyRun (i : Info) (body : (Nat → Bool) → (Nat → Bool) × List Ev) :
    (Nat → Bool) → (Nat → Bool) × List Ev :=
  match i.clear with
  | .first => andThen (fun σ => clearField σ i.status) body
  | .last => andThen body (fun σ => clearField σ i.status)
  | .dont => body

/-- `one_isr` and `isr`: `interrupt/config.hpp` 102-105, 117-119: for each flow every nexus. -/
def isr (w : World) (name : Nat) : List (Nat × Nat) → (Nat → Bool) → (Nat → Bool) × List Ev
  | [], σ => (σ, [])
  | (f, n) :: rest, σ => andThen (fun σ => (w.effect f n σ, [.run name f n])) (isr w name rest) σ

/-- The calls that `isr` makes: all nexuses for the first flow, then for the second. -/
def isrCalls (w : World) (fs : List Nat) : List (Nat × Nat) :=
  (fs.map (fun f => w.nexi.map (fun n => (f, n)))).flatten

mutual
/-- `run`: `interrupt/impl.hpp` 63-76 for elements, 91-104 for containers. -/
def Irq.run (w : World) : Irq → (Nat → Bool) → (Nat → Bool) × List Ev
  | .element i fs, σ =>
    if fs.any w.flowActive && i.ready σ then policyRun i (isr w i.name (isrCalls w fs)) σ
    else (σ, [])
  | .container i xs, σ =>
    if activeL w xs && i.ready σ then policyRun i (runL w xs) σ else (σ, [])
/-- `(Subs::run(), ...)`: 101. -/
def runL (w : World) : List Irq → (Nat → Bool) → (Nat → Bool) × List Ev
  | [], σ => (σ, [])
  | x :: xs, σ => andThen (Irq.run w x) (runL w xs) σ
end

/-- `manager::run<Number>`: `interrupt/manager.hpp` 64-71. -/
def managerRun (w : World) (impls : List (Nat × Irq)) (number : Nat) (σ : Nat → Bool) :
    (Nat → Bool) × List Ev :=
  match impls.find? (·.1 == number) with
  | some x => Irq.run w x.2 σ
  | none => (σ, [])

/-! ## Dynamic controller -/

/-- Register and mask of an enable field: `Hal::get_register`, `Hal::mask`. -/
structure Hal (w : Nat) where
  reg : Nat → Nat
  mask : Nat → BitVec w

/-- The three sets of enabled things: `interrupt/dynamic_controller.hpp` 257-264. -/
structure Enables where
  res : Nat → Bool
  flow : Nat → Bool
  name : Nat → Bool

mutual
/-- `dynamic_enable_policy::is_on`: `interrupt/policies.hpp` 82-118. -/
def isOn (c : Enables) : Irq → Bool
  | .element i fs => c.name i.name && i.resources.all c.res && fs.any c.flow
  | .container i xs => c.name i.name && i.resources.all c.res && anyOn c xs
/-- `stdx::any_of` over the children: 108-114. -/
def anyOn (c : Enables) : List Irq → Bool
  | [] => false
  | x :: xs => isOn c x || anyOn c xs
end

/-- Controller state: the enables, the shadow values 299-300, and the hardware registers. -/
structure Ctl (w : Nat) where
  en : Enables
  shadow : Nat → BitVec w
  hw : Nat → BitVec w

/-- `collect_t<Root, get_resources_t>`, `…get_flows_t`, `…get_name_list_t`: 257-263. -/
def resourcesOf (root : List Irq) : List Nat :=
  ((rootDescendants root).map (fun x => x.info.resources)).flatten
/-- See `resourcesOf`. -/
def flowsOf (root : List Irq) : List Nat := ((rootDescendants root).map Irq.flows).flatten
/-- See `resourcesOf`. -/
def namesOf (root : List Irq) : List Nat := (rootDescendants root).map (fun x => x.info.name)

/-- Sets one element of a set. -/
def setOne (s : Nat → Bool) (t : Nat) (b : Bool) : Nat → Bool := fun x => if x = t then b else s x

/-- `enable_one` and `disable_one`: 267-291. Things that are unknown change nothing. -/
def Enables.put (root : List Irq) (b : Bool) (c : Enables) (t : Nat) : Enables :=
  if t ∈ resourcesOf root then { c with res := setOne c.res t b }
  else if t ∈ flowsOf root then { c with flow := setOne c.flow t b }
  else if t ∈ namesOf root then { c with name := setOne c.name t b }
  else c

/-- The names of the interrupts listed for `t` in `resource_map_t` and `flow_map_t`: 79-112, with
(173-182) or without (185-194) propagation. The maps only have the known resources and flows. -/
def affectedNames (root : List Irq) (propagate : Bool) (t : Nat) : List Nat :=
  (if t ∈ resourcesOf root then
    ((rootDescendants root).filter (fun x => decide (t ∈
      if propagate then x.allResources else x.info.resources))).map (fun x => x.info.name)
   else []) ++
  (if t ∈ flowsOf root then
    ((rootDescendants root).filter (fun x => decide (t ∈
      if propagate then x.allFlows else x.flows))).map (fun x => x.info.name)
   else [])

/-- `compute_affected_irqs`: 303-325. -/
def affected (root : List Irq) (propagate : Bool) (ts : List Nat) : List Irq :=
  (rootDescendants root).filter (fun x =>
    decide (x.info.name ∈ (ts.map (affectedNames root propagate)).flatten))

/-- The interrupts of the list whose enable field is in the register `r`: `gather_by`, 359-361. -/
def inReg {w : Nat} (H : Hal w) (irqs : List Irq) (r : Nat) : List Irq :=
  irqs.filter (fun x => decide (x.info.enable.map H.reg = some r))

/-- `mask_for`: 328-331; nothing for `no_field_t`. -/
def maskFor {w : Nat} (H : Hal w) (x : Irq) : BitVec w :=
  match x.info.enable with
  | some f => H.mask f
  | none => 0

/-- The mask 370-371 of the interrupts in one register. -/
def maskOf {w : Nat} (H : Hal w) (irqs : List Irq) : BitVec w :=
  irqs.foldl (fun m x => m ||| maskFor H x) 0

/-- The value 373-375, `compute_register` 334-340. -/
def valueOf {w : Nat} (H : Hal w) (c : Enables) (irqs : List Irq) : BitVec w :=
  irqs.foldl (fun v x => if isOn c x then v ||| maskFor H x else v) 0

/-- `force_write` 342-346 and `write_if_changed` 348-353, for one register. -/
def writeReg {w : Nat} (force : Bool) (d : Ctl w) (r : Nat) (new : BitVec w) : Ctl w :=
  { d with
    shadow := fun x => if x = r then new else d.shadow x
    hw := fun x => if x = r then (if force || new != d.shadow r then new else d.hw x) else d.hw x }

/-- The body of the loop in `update`: 364-381. -/
def updateReg {w : Nat} (H : Hal w) (force : Bool) (irqs : List Irq) (d : Ctl w) (r : Nat) : Ctl w :=
  let is := inReg H irqs r
  writeReg force d r ((d.shadow r &&& ~~~(maskOf H is)) ||| valueOf H d.en is)

/-- First occurrences. -/
def uniq : List Nat → List Nat
  | [] => []
  | x :: xs => x :: (uniq xs).filter (· != x)

/-- The registers that occur: the groups of `gather_by`, without `no_register_t`. -/
def regsOf {w : Nat} (H : Hal w) (irqs : List Irq) : List Nat :=
  uniq (irqs.filterMap (fun x => x.info.enable.map H.reg))

/-- `update`: 356-383. -/
def update {w : Nat} (H : Hal w) (force : Bool) (irqs : List Irq) (d : Ctl w) : Ctl w :=
  (regsOf H irqs).foldl (updateReg H force irqs) d

/-- An operation of the controller. -/
inductive Op where
  /-- `enable<Ts...>` / `disable<Ts...>`: 478-502 -/
  | items (b : Bool) (propagate : Bool) (ts : List Nat)
  /-- `enable<IrqNames...>` / `disable<IrqNames...>`: 503-530 -/
  | names (b : Bool) (ns : List Nat)
  /-- `refresh_top_level_enables`: 473-474 -/
  | refreshTop
  /-- `refresh_all_enables`: 475-476 -/
  | refreshAll
  /-- `reset`: 439-448 -/
  | reset

/-- The effect of an operation. -/
def Op.run {w : Nat} (H : Hal w) (root : List Irq) (d : Ctl w) : Op → Ctl w
  | .items b p ts =>
    update H false (affected root p ts) { d with en := ts.foldl (Enables.put root b) d.en }
  | .names b ns =>
    update H false ((ns.map (fun n => (rootDescendants root).filter
      (fun x => x.info.name == n))).flatten) { d with en := ns.foldl (Enables.put root b) d.en }
  | .refreshTop => update H true root d
  | .refreshAll => update H true (rootDescendants root) d
  | .reset =>
    update H true (rootDescendants root)
      { d with en := ⟨fun _ => false, fun _ => false, fun _ => false⟩ }

/-- `init`: 450-471 with `reset_internal_state` 395-414 and `set_internal_state` 417-432. `already`
are the interrupts enabled before, `res` and `flows` what the policy makes active. -/
def init {w : Nat} (H : Hal w) (root already : List Irq) (res flows : Nat → Bool) (d : Ctl w) :
    Ctl w :=
  let ds := rootDescendants root
  let d1 : Ctl w :=
    { d with
      en := ⟨res, flows, fun _ => true⟩
      shadow := fun r => if r ∈ regsOf H ds then 0 else d.shadow r }
  let d2 : Ctl w :=
    { d1 with shadow := fun r =>
        if r ∈ regsOf H already then d1.shadow r ||| maskOf H (inReg H already r) else d1.shadow r }
  update H false (ds.filter (fun x => decide (x.info.name ∉ already.map (fun y => y.info.name)))) d2

/-- `manager::init_top_level` (`interrupt/manager.hpp` 42-44) for interrupts that have an enable field:
`Hal::irq_init<active, …>` is taken to set the enable bit if and only if the interrupt is active. -/
def initTop {w : Nat} (H : Hal w) (world : World) (root : List Irq) (d : Ctl w) : Ctl w :=
  { d with hw := fun r => d.hw r ||| maskOf H (inReg H (root.filter (Irq.active world)) r) }

/-- `manager::init` with a policy that does not enable top-level interrupts dynamically, which is the
default: `interrupt/manager.hpp` 34-57. -/
def managerInit {w : Nat} (H : Hal w) (world : World) (root : List Irq) (res flows : Nat → Bool)
    (d : Ctl w) : Ctl w :=
  init H root root res flows (initTop H world root d)

/-- A history of operations. -/
def runOps {w : Nat} (H : Hal w) (root : List Irq) (d : Ctl w) (ops : List Op) : Ctl w :=
  ops.foldl (Op.run H root) d

end Verif.Interrupt
