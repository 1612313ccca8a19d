import Verif.Dump.Model
/-!
# What the texts should tell
-/
namespace Verif.Dump

mutual
/-- The interrupts with other names for types. -/
def Irq.map {T U : Type} (f : T → U) : Irq T → Irq U
  | .irq n num pr e p fs => .irq n num pr (f e) (f p) (fs.map f)
  | .subIrq n e s p fs => .subIrq n (f e) (f s) (f p) (fs.map f)
  | .sharedIrq n num pr e p subs => .sharedIrq n num pr (f e) (f p) (mapAll f subs)
  | .sharedSubIrq n e s p subs => .sharedSubIrq n (f e) (f s) (f p) (mapAll f subs)
def mapAll {T U : Type} (f : T → U) : List (Irq T) → List (Irq U)
  | [] => []
  | x :: xs => x.map f :: mapAll f xs
end

mutual
/-- The names of the interrupts. -/
def Irq.names {T : Type} : Irq T → List Text
  | .irq n _ _ _ _ _ => [n]
  | .subIrq n _ _ _ _ => [n]
  | .sharedIrq n _ _ _ _ subs => n :: namesOf subs
  | .sharedSubIrq n _ _ _ subs => n :: namesOf subs
def namesOf {T : Type} : List (Irq T) → List Text
  | [] => []
  | x :: xs => x.names ++ namesOf xs
end

mutual
/-- The types that are written. -/
def Irq.types {T : Type} : Irq T → List T
  | .irq _ _ _ e p fs => e :: p :: fs
  | .subIrq _ e s p fs => e :: s :: p :: fs
  | .sharedIrq _ _ _ e p subs => e :: p :: typesOf subs
  | .sharedSubIrq _ e s p subs => e :: s :: p :: typesOf subs
def typesOf {T : Type} : List (Irq T) → List T
  | [] => []
  | x :: xs => x.types ++ typesOf xs
end

/-- How a type is to be written: by its name if it has one. -/
def shown : Ty → Text
  | .named n => n
  | .plain t => t

/-- A template with arguments, as it is written: `kind<a, b>`. -/
def template (kind : Text) (args : List Text) : Text :=
  kind ++ ['<'] ++ List.intercalate [',', ' '] args ++ ['>']

/-- A name in quotes. -/
def literal (n : Text) : Text := ['"'] ++ n ++ ['"']

mutual
/-- The declaration of an interrupt: its kind with its arguments in the order of the parameters. -/
def Irq.declared : Irq Text → Text
  | .irq n num pr e p fs => template "interrupt::irq".toList
      ([literal n, Nat.toDigits 10 num ++ "_irq".toList, Nat.toDigits 10 pr, e, p] ++ fs)
  | .subIrq n e s p fs => template "interrupt::sub_irq".toList ([literal n, e, s, p] ++ fs)
  | .sharedIrq n num pr e p subs => template "interrupt::shared_irq".toList
      ([literal n, Nat.toDigits 10 num ++ "_irq".toList, Nat.toDigits 10 pr, e, p] ++ declaredAll subs)
  | .sharedSubIrq n e s p subs =>
    template "interrupt::shared_sub_irq".toList ([literal n, e, s, p] ++ declaredAll subs)
def declaredAll : List (Irq Text) → List Text
  | [] => []
  | x :: xs => x.declared :: declaredAll xs
end

/-- Brackets. -/
def isOpen (c : Char) : Bool := c == '<' || c == '(' || c == '[' || c == '{'
def isClose (c : Char) : Bool := c == '>' || c == ')' || c == ']' || c == '}'

/-- A text stands for one argument of a template: outside of quotes and of brackets there is no comma
and no closing bracket, and all brackets and quotes that are opened are closed. `d` brackets are open;
`q`: a quote is open. -/
def oneArgument (d : Nat) (q : Bool) : Text → Bool
  | [] => d == 0 && !q
  | c :: t =>
    if q then oneArgument d (c != '"') t
    else if c == '"' then oneArgument d true t
    else if isOpen c then oneArgument (d + 1) false t
    else if isClose c then (0 < d : Bool) && oneArgument (d - 1) false t
    else (c != ',' || (0 < d : Bool)) && oneArgument d false t

/-- Texts of types are texts of arguments, names of interrupts have no quotes. -/
def Clear (xs : List (Irq Ty)) : Prop :=
  (∀ t ∈ typesOf xs, oneArgument 0 false (shown t) = true) ∧ ∀ n ∈ namesOf xs, '"' ∉ n

end Verif.Dump
