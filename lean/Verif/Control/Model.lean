import Verif.Interrupt.Model
/-!
# Model of a firmware that turns interrupts on and off while it runs

`Verif.Interrupt.Model` has `run` for fields that are bits of their own, and the dynamic controller by
itself. Here both work on one machine: `run` reads enable fields from the registers that the controller
writes, and flows may call the controller themselves, in the middle of a run.

Sources: `/repo/include/interrupt/impl.hpp`, `config.hpp`, `policies.hpp`, `manager.hpp`,
`dynamic_controller.hpp`; `/repo/docs/interrupts.adoc` "Dynamic interrupt control".

Left out: as in `Verif.Interrupt.Model`. Status fields are bits of their own, in other registers than
the enable fields. A flow does what it does one command after the other and is not interrupted
(`Verif.Conc` has calls at the same time).
-/
namespace Verif.Control
open Verif.Interrupt

/-- What the code of flows, the code outside of interrupts and the hardware do: a call of the dynamic
controller, or a change of a status field or of other memory. -/
inductive Cmd where
  | op (o : Op)
  | put (f : Nat) (b : Bool)

/-- The controller with the registers of the enable fields, and all other fields and memory. -/
structure Mach (w : Nat) where
  ctl : Ctl w
  mem : Nat → Bool

/-- `interrupt::manager<Config, Hal, Nexi...>` (`interrupt/manager.hpp` 86-88) and what is outside of the
library: which flows have actions, what a flow of a nexus does when it is called, and what `Hal::read`
makes of the register of an enable field (`interrupt/impl.hpp` 14). -/
structure Firmware (w : Nat) where
  H : Hal w
  impls : List (Nat × Irq)
  nexi : List Nat
  active : Nat → Nat → Bool
  read : Nat → BitVec w → Bool
  work : Nat → Nat → Mach w → List Cmd

section
variable {w : Nat} (fw : Firmware w)

/-- The top-level interrupts: `root<...>`, `interrupt/config.hpp` 129-133. -/
def Firmware.root : List Irq := fw.impls.map (·.2)

/-- What is known of flows when the firmware is compiled. -/
def Firmware.world : World := ⟨fw.nexi, fw.active, fun _ _ σ => σ⟩

/-- One command. -/
def Firmware.does (m : Mach w) : Cmd → Mach w
  | .op o => { m with ctl := o.run fw.H fw.root m.ctl }
  | .put f b => { m with mem := fun g => if g = f then b else m.mem g }

/-- What running interrupts does: a flow is called, for an interrupt reached through the listed ones
(innermost first), each with the machine at the time when its fields were read; a status field is
cleared. -/
inductive Act (w : Nat) where
  | call (path : List (Irq × Mach w)) (flow nexus : Nat)
  | clear (f : Nat)

/-- A piece of the program. -/
abbrev Prog (w : Nat) := Mach w → Mach w × List (Act w)

/-- One after the other. -/
def seq (a b : Prog w) : Prog w := fun m => ((b (a m).1).1, (a m).2 ++ (b (a m).1).2)

/-- `read_field` of an enable field: `interrupt/impl.hpp` 12-26. -/
def Firmware.readEnable (m : Mach w) : Option Nat → Bool
  | some f => fw.read f (m.ctl.hw (fw.H.reg f))
  | none => true

/-- `read_field` of a status field: 12-26. -/
def readStatus (m : Mach w) : Option Nat → Bool
  | some f => m.mem f
  | none => true

/-- `clear_field`: 28-43, after which the field reads false. -/
def clearStatus : Option Nat → Prog w
  | some f => fun m => ({ m with mem := fun g => if g = f then false else m.mem g }, [.clear f])
  | none => fun m => (m, [])

/-- `status_policy_t::run`: `interrupt/policies.hpp` 22-55. -/
def policyRun (i : Info) (body : Prog w) : Prog w :=
  match i.clear with
  | .first => seq (clearStatus i.status) body
  | .last => seq body (clearStatus i.status)
  | .dont => body

/-- `one_isr` and `isr`: `interrupt/config.hpp` 102-105, 117-119. -/
def Firmware.isr (path : List (Irq × Mach w)) : List (Nat × Nat) → Prog w
  | [], m => (m, [])
  | (f, n) :: rest, m =>
    seq (fun m => ((fw.work f n m).foldl fw.does m, [.call path f n])) (Firmware.isr path rest) m

mutual
/-- `run`: `interrupt/impl.hpp` 63-76 for elements, 91-104 for containers. -/
def Firmware.run (path : List (Irq × Mach w)) : Irq → Prog w
  | .element i fs, m =>
    if fs.any fw.world.flowActive && (fw.readEnable m i.enable && readStatus m i.status) then
      policyRun i (fw.isr ((.element i fs, m) :: path) (isrCalls fw.world fs)) m
    else (m, [])
  | .container i xs, m =>
    if activeL fw.world xs && (fw.readEnable m i.enable && readStatus m i.status) then
      policyRun i (Firmware.runL ((.container i xs, m) :: path) xs) m
    else (m, [])
/-- `(Subs::run(), ...)`: 101. -/
def Firmware.runL (path : List (Irq × Mach w)) : List Irq → Prog w
  | [], m => (m, [])
  | x :: xs, m => seq (Firmware.run path x) (Firmware.runL path xs) m
end

/-- `manager::run<Number>`: `interrupt/manager.hpp` 64-71. -/
def Firmware.runNumber (number : Nat) : Prog w := fun m =>
  match fw.impls.find? (·.1 == number) with
  | some x => fw.run [] x.2 m
  | none => (m, [])

/-- What happens next: a command of code outside of interrupts or of the hardware, or an interrupt. -/
inductive Step where
  | cmd (c : Cmd)
  | run (number : Nat)

/-- One step. -/
def Firmware.step : Step → Prog w
  | .cmd c => fun m => (fw.does m c, [])
  | .run n => fw.runNumber n

/-- A history. -/
def Firmware.runs : List Step → Prog w
  | [] => fun m => (m, [])
  | s :: ss => seq (fw.step s) (Firmware.runs ss)

end
end Verif.Control
