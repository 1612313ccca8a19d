import Verif.Bench.Model
/-!
# Model of the texts that describe interrupts

`config()` of interrupts and of the manager gives the declaration as a text.

Types are given by what the texts depend on: whether they have a `name`, and the text that the
compiler has for them (`stdx::type_as_string`, environment). `stdx::ct_format` replaces `{}` by the
arguments, numbers in decimal; `tuple.join` puts the parts together (environment).
-/
namespace Verif.Dump

abbrev Text := List Char

/-- A field, the policies, or a flow: a type with `name` (`flow::service<"name">` has one) or without. -/
inductive Ty where
  | named (name : Text)
  | plain (text : Text)
  deriving DecidableEq, Repr

/-- Interrupts as they are declared: `interrupt/config.hpp` 152-162, 190-202. -/
inductive Irq (T : Type) where
  | irq (name : Text) (number priority : Nat) (enable policies : T) (flows : List T)
  | subIrq (name : Text) (enable status policies : T) (flows : List T)
  | sharedIrq (name : Text) (number priority : Nat) (enable policies : T) (subs : List (Irq T))
  | sharedSubIrq (name : Text) (enable status policies : T) (subs : List (Irq T))

/-- `config_string1` for types without `config()`: `interrupt/concepts.hpp` 87-94. -/
def Ty.text : Ty → Text
  | .named n => n
  | .plain t => t

/-- `tuple.join(""_ctst, … lhs + ", "_ctst + rhs)`: `concepts.hpp` 99-100. -/
def join : List Text → Text
  | [] => []
  | t :: ts => ts.foldl (fun l r => l ++ [',', ' '] ++ r) t

/-- `mcu_control_config::config`: `config.hpp` 38-45. -/
def mcuConfig (type name : Text) (number priority : Nat) (parts : List Text) : Text :=
  "interrupt::".toList ++ type ++ ['<', '"'] ++ name ++ ['"', ',', ' '] ++ Bench.digits 10 number ++
    ['_', 'i', 'r', 'q', ',', ' '] ++ Bench.digits 10 priority ++ [',', ' '] ++ join parts ++ ['>']

/-- `field_control_config::config`: 56-63. -/
def fieldConfig (type name : Text) (parts : List Text) : Text :=
  "interrupt::".toList ++ type ++ ['<', '"'] ++ name ++ ['"', ',', ' '] ++ join parts ++ ['>']

mutual
/-- `config()` of an interrupt: 146-148, 184-186. -/
def Irq.config : Irq Ty → Text
  | .irq n num pr e p fs => mcuConfig "irq".toList n num pr ([e.text, p.text] ++ fs.map Ty.text)
  | .subIrq n e s p fs => fieldConfig "sub_irq".toList n ([e.text, s.text, p.text] ++ fs.map Ty.text)
  | .sharedIrq n num pr e p subs =>
    mcuConfig "shared_irq".toList n num pr ([e.text, p.text] ++ configs subs)
  | .sharedSubIrq n e s p subs =>
    fieldConfig "shared_sub_irq".toList n ([e.text, s.text, p.text] ++ configs subs)
/-- `config()` of each. -/
def configs : List (Irq Ty) → List Text
  | [] => []
  | x :: xs => x.config :: configs xs
end

/-- `manager::config`: `interrupt/manager.hpp` 59-62. The interrupts in the manager inherit `config()`
from their declarations (`impl.hpp` 51, 80). -/
def managerConfig (irqs : List (Irq Ty)) : Text :=
  "interrupt::root<".toList ++ join (configs irqs) ++ ['>']

end Verif.Dump
