import Verif.Flow.Model
import Verif.Handler.Model

/-!
# Model of configurations, services and callbacks

`/repo/include/nexus/**`. Types of services, names, functions, predicates of runtime conditions are
numbers. The constant `config` of a component is written where the component is listed.

`none` means that the program does not compile, unless said otherwise.

Outside `/repo`: `stdx::tuple_cat`, `transform`, `fold_right` (from the right: the last element is
combined with the initial value first) and `gather_by` (puts extensions of one service in one group). The
order that `gather_by` leaves inside of a group is a parameter (`arrange`).

Left out: builders other than lists of arguments, the injection of the nexus type into callables.
-/
namespace Verif.Nexus
open Verif.Match

/-- What an extension names: a service type or a name (`nexus/extend.hpp` 17-25). -/
inductive Target where
  | type (s : Nat)
  | name (n : Nat)
deriving DecidableEq, Repr

/-- `type_extend` and `name_extend`: `nexus/detail/extend.hpp` 9-34. -/
structure Ext (A : Type) where
  target : Target
  args : List A
deriving DecidableEq, Repr

/-- Configurations: `cib::config` (`nexus/detail/config_details.hpp` 17-34), `cib::components`
(`components.hpp` 10-20), `cib::exports` (`exports.hpp` 15-25), `cib::extend`, and parts under a compile
time condition (`constexpr_conditional.hpp` 13-51; `ps` are the values of its predicates) or under a
runtime condition (`runtime_conditional.hpp` 18-66; `cib::runtime_condition` makes one predicate,
`conditionals.hpp` 17-21). -/
inductive Cfg (A : Type) where
  | config (cs : List (Cfg A))
  | components (cs : List (Cfg A))
  | exports (ss : List Nat)
  | extend (t : Target) (args : List A)
  | constIf (ps : List Bool) (cs : List (Cfg A))
  | runIf (c : Nat) (cs : List (Cfg A))

/-- The transformation of one extension in `runtime_conditional::extends_tuple`
(`runtime_conditional.hpp` 25-42): `typename E::service_type` does not exist in a `name_extend`. `mk` is
`make_runtime_conditional(Cond{}, Arg{})`. -/
def condExt {A : Type} (mk : Nat → A → Option A) (c : Nat) (e : Ext A) : Option (Ext A) :=
  match e.target with
  | .name _ => none
  | .type s => (e.args.mapM (mk c)).map fun as => ⟨.type s, as⟩

mutual

/-- `extends_tuple`: `config_item.hpp` 8-10, `config_details.hpp` 23-27, `components.hpp` 12-14,
`exports.hpp` 16-19, `extend.hpp` 16-19 and 29-32, `constexpr_conditional.hpp` 20-26,
`runtime_conditional.hpp` 25-42. -/
def Cfg.extends {A : Type} (mk : Nat → A → Option A) : Cfg A → Option (List (Ext A))
  | .config cs => extendsAll mk cs
  | .components cs => extendsAll mk cs
  | .exports ss => some (ss.map fun s => ⟨.type s, []⟩)
  | .extend t as => some [⟨t, as⟩]
  | .constIf ps cs => if ps.all id then extendsAll mk cs else some []
  | .runIf c cs => do (← extendsAll mk cs).mapM (condExt mk c)

/-- `tuple_cat(configs.extends_tuple()...)`. -/
def extendsAll {A : Type} (mk : Nat → A → Option A) : List (Cfg A) → Option (List (Ext A))
  | [] => some []
  | c :: cs => do
    let a ← c.extends mk
    let b ← extendsAll mk cs
    return a ++ b

end

mutual

/-- `get_exports`: `config_item.hpp` 12-14, `config_details.hpp` 29-32, `components.hpp` 16-19,
`exports.hpp` 21-24, `constexpr_conditional.hpp` 28-33, `runtime_conditional.hpp` 44-47. -/
def Cfg.exported {A : Type} : Cfg A → List Nat
  | .config cs => exportedAll cs
  | .components cs => exportedAll cs
  | .exports ss => ss
  | .extend _ _ => []
  | .constIf ps cs => if ps.all id then exportedAll cs else []
  | .runIf _ cs => exportedAll cs

/-- `mp_append<...>`. -/
def exportedAll {A : Type} : List (Cfg A) → List Nat
  | [] => []
  | c :: cs => c.exported ++ exportedAll cs

end

/-- `locate_service`: `nexus/detail/nexus_details.hpp` 27-66. `names s` is `T::name` of the service, if
it has one. -/
def locate (names : Nat → Option Nat) (ex : List Nat) : Target → Option Nat
  | .type s => if s ∈ ex then some s else none
  | .name n => ex.find? fun s => names s = some n

/-- The services of the extensions. -/
def keyed {A : Type} (names : Nat → Option Nat) (ex : List Nat) (es : List (Ext A)) :
    Option (List (Nat × Ext A)) :=
  es.mapM fun e => (locate names ex e.target).map fun s => (s, e)

/-- Keeps the first of equal numbers. -/
def firsts : List Nat → List Nat
  | [] => []
  | a :: as => a :: (firsts as).filter (· ≠ a)

/-- `stdx::gather_by`: `nexus_details.hpp` 96-98. -/
def gather {A : Type} (arrange : List (Ext A) → List (Ext A)) (ks : List (Nat × Ext A)) :
    List (Nat × List (Ext A)) :=
  (firsts (ks.map (·.1))).map fun s => (s, arrange ((ks.filter fun k => k.1 = s).map (·.2)))

/-- `extensions.fold_right(initial_builder, …add(args...))`: 85-91. A builder is the list of what was
added, in the order in which it was added (`callback.hpp` 18-26, `flow/builder.hpp` 22-29,
`msg/handler_builder.hpp` 15-21). -/
def addAll {A : Type} (es : List (Ext A)) : List A := es.foldr (fun e b => b ++ e.args) []

/-- `initialized_builders`: 78-98. -/
def builders {A : Type} (mk : Nat → A → Option A) (names : Nat → Option Nat)
    (arrange : List (Ext A) → List (Ext A)) (c : Cfg A) : Option (List (Nat × List A)) := do
  let es ← c.extends mk
  let ks ← keyed names c.exported es
  return (gather arrange ks).map fun g => (g.1, addAll g.2)

/-- `initialized<Config, Tag>::value`: 100-103. -/
def builder? {A : Type} (bs : List (Nat × List A)) (s : Nat) : Option (List A) :=
  (bs.find? fun b => b.1 = s).map (·.2)

/-! ## Services at run time -/

/-- The variables `cib::service<T>` and `cib::invoke_service<Name>` (`nexus/service.hpp` 71-90); `none` is
the function that panics. -/
structure Vars (A : Type) where
  service : Nat → Option (List A)
  byName : Nat → Option (List A)

/-- Before `init`. -/
def Vars.start (A : Type) : Vars A := ⟨fun _ => none, fun _ => none⟩

/-- `nexus::service<Name>()`: `nexus/nexus.hpp` 34-45. -/
def serviceByName {A : Type} (names : Nat → Option Nat) (ex : List Nat) (bs : List (Nat × List A))
    (n : Nat) : Option (List A) := do builder? bs (← locate names ex (.name n))

/-- `init_interface` for one service: `nexus/nexus.hpp` 48-57. -/
def initOne {A : Type} (names : Nat → Option Nat) (ex : List Nat) (bs : List (Nat × List A))
    (v : Vars A) (s : Nat) : Vars A :=
  let v : Vars A := { v with service := fun t => if t = s then builder? bs s else v.service t }
  match names s with
  | none => v
  | some n => { v with byName := fun m => if m = n then serviceByName names ex bs n else v.byName m }

/-- `nexus::init`: `nexus/nexus.hpp` 47-63. -/
def init {A : Type} (names : Nat → Option Nat) (ex : List Nat) (bs : List (Nat × List A))
    (v : Vars A) : Vars A :=
  (bs.map (·.1)).foldl (initOne names ex bs) v

/-! ## Callback services -/

/-- A function added to a callback service. `effect` is what it does to the arguments that it takes by
reference. -/
structure Fn (V : Type) where
  id : Nat
  effect : V → V

/-- `builder::run` with copyable arguments: `nexus/callback.hpp` 36-41. Each function gets the local
variables `args`. -/
def runLoop {V : Type} : List (Fn V) → V → List (Nat × V)
  | [], _ => []
  | f :: fs, v => (f.id, v) :: runLoop fs (f.effect v)

/-- `builder::run`: `nexus/callback.hpp` 33-51; `copyable` is `is_copy_constructible_v` of all arguments. -/
def runCallbacks {V : Type} (copyable : Bool) (fs : List (Fn V)) (v : V) : Option (List (Nat × V)) :=
  if copyable then some (runLoop fs v)
  else if fs.length ≤ 1 then some (runLoop fs v)
  else none

/-! ## Arguments of extensions -/

/-- Arguments: functions for callback services, fragments of flows, message callbacks
(`msg/callback.hpp` 22-72). `callable` of a message callback is `none` for a null function pointer;
`stateless` says that the type of the callable has only one value (a lambda without captures). -/
inductive Arg where
  | func (f : Nat)
  | frag (e : Flow.Sub)
  | cb (stateless : Bool) (callable : Option Nat) (matcher : M RLeaf)
deriving DecidableEq, Repr

/-- `Arg{}`: value-initialised. -/
def Arg.init : Arg → Arg
  | .func f => .func f
  | .frag e => .frag e.init
  | .cb st f m => .cb st (if st then f else none) m

/-- `make_runtime_conditional(Cond{}, Arg{})` (`runtime_conditional.hpp` 28-33): deleted for other types
(13-16); `flow/step.hpp` 83-93, `flow/dsl/par.hpp` 68-79, `flow/dsl/seq.hpp` 73-85;
`msg/callback.hpp` 104-119. -/
def mkCond (c : Nat) (a : Arg) : Option Arg :=
  match a.init with
  | .func _ => none
  | .frag e => (e.conditional [c]).map .frag
  | .cb st f m => some (.cb st f (Handler.makeConditional c ⟨0, m⟩).matcher)

/-- `callback::handle`: `msg/callback.hpp` 30-46. The result is the function called, if any; `none` is
the call through a null pointer (undefined behaviour). -/
def handleCb (callable : Option Nat) (m : M RLeaf) (e : Msg) : Option (List Nat) :=
  if eval revalLeaf m e then callable.map fun f => [f] else some []

end Verif.Nexus
