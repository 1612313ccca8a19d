import Verif.Flow.Model
import Verif.Log.Model
import Verif.Nexus.Model

/-!
# Model of log statements, environments, loggers and the logs of flows

`/repo/include/log/*.hpp`, `/repo/include/log_fmt/logger.hpp`,
`/repo/include/log_binary/catalog/encoder.hpp`, `/repo/include/flow/{log,func_list}.hpp` and
`/repo/include/cib/top.hpp`.

Outside `/repo`: `stdx::env` (an environment that is extended or appended to is asked first for what was
added last), `stdx::ct_format` (a log statement here is the format string that is left after formatting
at compile time, with the types of the arguments that are left), `fmt` (the text of a statement is a
parameter), `stdx::panic` (a run goes on after it if the list of executions does), the catalog and module
functions (the numbers of Catalog are parameters).

Left out: declarations in classes (a member function sees those that stand after it), `CIB_LOG_ENV` at
global scope (does not compile), the file name and the line (no logger uses them).
-/
namespace Verif.Front
open Verif.Log

/-- Text. -/
abbrev Str := List Char

/-! ## Environments -/

/-- One entry of an environment. Flavors are types: `none` is `default_flavor_t`. A unit is a function
(`log/unit.hpp`); it is given by its number. `writer` is `get_writer` (`catalog/writer.hpp`). -/
inductive Setting where
  | level (l : Nat)
  | module (m : Str)
  | flavor (f : Option Nat)
  | unit (u : Nat)
  | writer (w : Nat)
  | other (key value : Nat)
deriving DecidableEq, Repr

/-- An environment, what was added last first. -/
abbrev Env := List Setting

/-- `get_level`: `log/level.hpp` 18-25. It has no default: `none` does not compile. -/
def getLevel (e : Env) : Option Nat := e.findSome? fun s => match s with | .level l => some l | _ => none

/-- `get_module`: `log/module.hpp` 10-23. -/
def getModule (e : Env) : Str :=
  (e.findSome? fun s => match s with | .module m => some m | _ => none).getD "default".toList

/-- `get_flavor`: `log/flavor.hpp` 8-22. -/
def getFlavor (e : Env) : Option Nat :=
  (e.findSome? fun s => match s with | .flavor f => some f | _ => none).getD none

/-- `get_unit`: `log/unit.hpp` 8-22; `none` is the function that returns 0. -/
def getUnit (e : Env) : Option Nat := e.findSome? fun s => match s with | .unit u => some u | _ => none

/-- `stdx::query<Env>(get_writer, w)`: `encoder.hpp` 106; `none` is `w`. -/
def getWriter (e : Env) : Option Nat := e.findSome? fun s => match s with | .writer w => some w | _ => none

/-! ## Log statements and where they stand -/

/-- A format string and the types of its arguments. -/
structure Msg where
  fmt : Str
  args : List CType
deriving DecidableEq, Repr

/-- The macros: `CIB_LOG`, `CIB_LOG_WITH_LEVEL` (with `CIB_TRACE` and so on), `CIB_FATAL`, `CIB_ASSERT`,
`CIB_LOG_V`: `log/log.hpp` 73-92, 139-149, 169-172. -/
inductive Call where
  | log (m : Msg)
  | atLevel (l : Nat) (m : Msg)
  | fatal (m : Msg)
  | assert (expr : Str) (args : List CType)
  | version (f : Option Nat)
deriving DecidableEq, Repr

/-- Code, as far as it matters: declarations (`CIB_LOG_ENV`, `CIB_LOG_MODULE`, `CIB_APPEND_LOG_ENV`), log
statements, blocks (also functions and namespaces), and `CIB_WITH_LOG_ENV` before a block:
`log/env.hpp` 10-38. -/
inductive Code where
  | done
  | env (ss : List Setting) (rest : Code)
  | call (c : Call) (rest : Code)
  | block (body rest : Code)
  | withEnv (ss : List Setting) (body rest : Code)

/-- `stdx::num_fmt_specifiers`: the number of braces that open a field; two braces stand for one that
does not. -/
def specs : Str → Nat
  | '{' :: '{' :: s => specs s
  | '{' :: s => specs s + 1
  | _ :: s => specs s
  | [] => 0

/-- The text of a failed assertion: `log/log.hpp` 149. -/
def assertText (expr : Str) : Str := "Assertion failure: ".toList ++ expr

/-- What has to hold for a statement to compile: `CIB_LOG` needs a level, a fatal error an argument for
every field of its text (`std::make_index_sequence<sz - N>`, `log/log.hpp` 108-121). -/
def Call.compiles (e : Env) : Call → Bool
  | .log _ => (getLevel e).isSome
  | .fatal m => specs m.fmt ≤ m.args.length
  | .assert expr args => specs (assertText expr) ≤ args.length
  | _ => true

/-- The log statements of some code with the environment (`cib_log_env_t`) that each sees. A second
declaration in one block does not compile (it is a `typedef` with another type), nor does one directly in
the block after `CIB_WITH_LOG_ENV` (the name is declared in the condition of the `if`). -/
def sites (declared : Bool) (e : Env) : Code → Option (List (Env × Call))
  | .done => some []
  | .env ss rest => if declared then none else sites true (ss ++ e) rest
  | .call c rest => if c.compiles e then (sites declared e rest).map ((e, c) :: ·) else none
  | .block body rest => do return (← sites false e body) ++ (← sites declared e rest)
  | .withEnv ss body rest => do return (← sites true (ss ++ e) body) ++ (← sites declared e rest)

/-! ## Entries -/

/-- What goes to a logger: `logging::log<Env>` (`log/log.hpp` 55-59) with a format string and the values
of the arguments. `unit` is what the unit function of the environment gives, `time` are the microseconds
since the start. -/
structure Entry where
  env : Env
  fmt : Str
  args : List (CType × Int)
  unit : Nat
  time : Nat
deriving DecidableEq, Repr

/-! ## The text logger -/

/-- `level_text`: `log_fmt/logger.hpp` 24-25, 37-45. -/
def levelText (l : Nat) : Option Str :=
  ["MAX".toList, "FATAL".toList, "ERROR".toList, "WARN".toList, "INFO".toList, "USER1".toList,
    "USER2".toList, "TRACE".toList][l]?

/-- `{:>8}`. -/
def rightAlign (n : Nat) (s : Str) : Str := List.replicate (n - s.length) ' ' ++ s

/-- What is written for an entry, in three parts: `log_fmt/logger.hpp` 60-73. `format` is
`fmt::format`. `none`: the level has no text (does not compile). -/
def textParts (format : Str → List (CType × Int) → Str) (x : Entry) : Option (List Str) := do
  let l ← levelText (← getLevel x.env)
  return [rightAlign 8 (Nat.repr x.time).toList ++ "us ".toList ++ l ++ " [".toList ++ getModule x.env ++
    "]: ".toList, format x.fmt x.args, ['\n']]

/-- A destination of text: an output iterator that appends what it is given (`std::back_inserter`,
`std::ostream_iterator`), or a pointer into a buffer. -/
inductive Sink where
  | append (s : Str)
  | pointer (buffer : Str)
deriving DecidableEq, Repr

/-- `fmt::format_to(out, …)` and `*out = …`: the iterator that they return is dropped, so a pointer stays
where it is (`log_fmt/logger.hpp` 62-73). -/
def Sink.write (d : Sink) (part : Str) : Sink :=
  match d with
  | .append s => .append (s ++ part)
  | .pointer b => .pointer (part ++ b.drop part.length)

/-- `fmt::log_handler::log` for all destinations: `log_fmt/logger.hpp` 52-76. -/
def textLog (format : Str → List (CType × Int) → Str) (ds : List Sink) (x : Entry) : Option (List Sink) :=
  (textParts format x).map fun ps => ds.map fun d => ps.foldl Sink.write d

/-! ## The binary logger -/

/-- A destination of the binary logger: an object with a state; called with a record it changes its
state and sends something on (numbers are bytes); `sent` is all it has sent. -/
structure Dest (S : Type) where
  state : S
  call : S → List Nat → S × List Nat
  sent : List Nat

/-- `log_writer::operator()` on a copy of the writer: `encoder.hpp` 84-91 with 106 and 129,
`auto writer = …`. What is sent is sent; the state that the destination has then is the one of the copy,
which is thrown away. -/
def Dest.write {S : Type} (d : Dest S) (r : List Nat) : Dest S :=
  { d with sent := d.sent ++ (d.call d.state r).2 }

/-- A binary logger: its destinations, and the writers that environments can name. -/
structure Binary (S : Type) where
  dests : List (Dest S)
  writers : Nat → Dest S

/-- `writer(detail::to_span(pkt))`: `encoder.hpp` 106, 129; all destinations in order, or the writer of the
environment in their place. -/
def Binary.write {S : Type} (b : Binary S) (e : Env) (r : List Nat) : Binary S :=
  match getWriter e with
  | none => { b with dests := b.dests.map fun d => d.write r }
  | some w => { b with writers := fun v => if v = w then (b.writers v).write r else b.writers v }

/-- What stays the same in a program: `fmt::format`, the functions `catalog` and `module`, and
`version::config<>`. -/
structure Fixed where
  format : Str → List (CType × Int) → Str
  ids : Str → List CType → Nat
  mods : Str → Nat
  buildId : Nat
  versionString : Str

/-- The statement for the record: `encoder.hpp` 103-127. -/
def toStmt (c : Fixed) (x : Entry) : Option Stmt :=
  (getLevel x.env).map fun l => ⟨l, c.ids x.fmt (x.args.map (·.1)), c.mods (getModule x.env), x.unit, x.args⟩

/-- `log_handler::log_msg`: `encoder.hpp` 103-130. -/
def binaryLog {S : Type} (c : Fixed) (b : Binary S) (x : Entry) : Option (Binary S) := do
  let s ← toStmt c x
  let r ← record s
  return b.write x.env r

/-- `log_handler::log_version`: `encoder.hpp` 132-141. -/
def binaryVersion {S : Type} (c : Fixed) (b : Binary S) (e : Env) : Option (Binary S) :=
  (versionRecord c.buildId (c.versionString.map Char.toNat)).map fun r => b.write e r

/-! ## Loggers -/

/-- The member `log_version` of a logger of the user: none, with the parameters that the documentation
gives (`docs/logging.adoc` 394: version and text), or with the environment before them, as
`log/log.hpp` 155-160 calls it. -/
inductive VersionFn where
  | none
  | documented
  | withEnv
deriving DecidableEq, Repr

/-- A call of a logger of the user. -/
inductive Seen where
  | log (x : Entry)
  | version (env : Env) (buildId : Nat) (text : Str)
deriving DecidableEq, Repr

/-- Loggers: that of `null::config` (`log/log.hpp` 33-43), text, binary, and one of the user with the calls
that it got. -/
inductive Logger (S : Type) where
  | null
  | text (ds : List Sink)
  | binary (b : Binary S)
  | custom (v : VersionFn) (seen : List Seen)

/-- `cfg.logger.log<Env>(…)`. `none` does not compile. -/
def Logger.log {S : Type} (c : Fixed) (l : Logger S) (x : Entry) : Option (Logger S) :=
  match l with
  | .null => some .null
  | .text ds => (textLog c.format ds x).map .text
  | .binary b => (binaryLog c b x).map .binary
  | .custom v seen => some (.custom v (seen ++ [.log x]))

/-- `ct_format<"Version: {} ({})">`: `log/log.hpp` 162-165. -/
def versionText (c : Fixed) : Str :=
  "Version: ".toList ++ (Nat.repr c.buildId).toList ++ " (".toList ++ c.versionString ++ ")".toList

/-- `log_version`: `log/log.hpp` 152-167. A logger without the function logs a text in a new environment:
`CIB_LOG_ENV` extends the global `cib_log_env_t`, which is empty. -/
def Logger.version {S : Type} (c : Fixed) (l : Logger S) (e : Env) (time : Nat) : Option (Logger S) :=
  match l with
  | .binary b => (binaryVersion c b e).map .binary
  | .custom .withEnv seen => some (.custom .withEnv (seen ++ [.version e c.buildId c.versionString]))
  | l => l.log c ⟨[.level 0], versionText c, [], 0, time⟩

/-! ## Running log statements -/

/-- One execution of a statement: the values of the arguments, the values that the unit functions have
now, whether the asserted expression holds, and the time. -/
structure Exec where
  env : Env
  call : Call
  vals : List Int
  units : Nat → Nat
  holds : Bool
  time : Nat

/-- A call of `stdx::panic`, with what the loggers had got by then. -/
structure Panic (S : Type) where
  fmt : Str
  args : List (CType × Int)
  extra : List (CType × Int)
  loggers : Option Nat → Logger S

/-- The loggers of the flavors (`logging::config<…>`), and the panics. -/
structure Sys (S : Type) where
  loggers : Option Nat → Logger S
  panics : List (Panic S)

/-- `get_unit(Env{})()`: `encoder.hpp` 118. -/
def Exec.unit (x : Exec) (e : Env) : Nat := match getUnit e with | some u => x.units u | none => 0

/-- `get_config` and `log`: `log/log.hpp` 45-59. -/
def Sys.log {S : Type} (c : Fixed) (s : Sys S) (x : Entry) : Option (Sys S) :=
  ((s.loggers (getFlavor x.env)).log c x).map fun l =>
    { s with loggers := fun f => if f = getFlavor x.env then l else s.loggers f }

/-- `logging::panic` for `CIB_FATAL`: `log/log.hpp` 94-142. All arguments are values at run time (those
known at compile time would go into the text). -/
def Sys.fatal {S : Type} (c : Fixed) (s : Sys S) (x : Exec) (fmt : Str) (args : List (CType × Int)) :
    Option (Sys S) := do
  let e := .level 1 :: x.env
  let n := specs fmt
  let s ← s.log c ⟨e, fmt, args.take n, x.unit e, x.time⟩
  return { s with panics := s.panics ++ [⟨fmt, args.take n, args.drop n, s.loggers⟩] }

/-- One execution. -/
def Sys.step {S : Type} (c : Fixed) (s : Sys S) (x : Exec) : Option (Sys S) :=
  match x.call with
  | .log m => s.log c ⟨x.env, m.fmt, m.args.zip x.vals, x.unit x.env, x.time⟩
  | .atLevel l m =>
    s.log c ⟨.level l :: x.env, m.fmt, m.args.zip x.vals, x.unit (.level l :: x.env), x.time⟩
  | .fatal m => s.fatal c x m.fmt (m.args.zip x.vals)
  | .assert expr args => if x.holds then some s else s.fatal c x (assertText expr) (args.zip x.vals)
  | .version f =>
    let e := .flavor f :: x.env
    ((s.loggers (getFlavor e)).version c e x.time).map fun l =>
      { s with loggers := fun g => if g = getFlavor e then l else s.loggers g }

/-- A run. -/
def Sys.run {S : Type} (c : Fixed) (s : Sys S) : List Exec → Option (Sys S)
  | [] => some s
  | x :: xs => do (← s.step c x).run c xs

/-! ## Logs of flows -/

/-- `default_log_env`: `flow/log.hpp` 17-18. -/
def defaultLogEnv : Env := [.level 7]

/-- `get_log_env<T, Fallback>`: `flow/log.hpp` 26-41; `logEnv` is the variable template `log_env`
(19-20). Environments are compared as types. -/
def getLogEnv (logEnv : Str → Env) (name fallback : Str) : Env :=
  if logEnv name = defaultLogEnv then
    if fallback = "default".toList then logEnv fallback
    else if logEnv fallback = defaultLogEnv then logEnv "default".toList
    else logEnv fallback
  else logEnv name

/-- What happens when a flow runs. -/
inductive Event where
  | log (env : Env) (text : Str)
  | act (k : Nat) (l : Flow.Leaf)
deriving DecidableEq, Repr

/-- A flow service: its name, whether its log policy logs (`flow/log.hpp` 43-57), the texts of the names of
nodes, and which functions are those of milestones (`flow/step.hpp` 44-66). -/
structure Service where
  name : Str
  logs : Bool
  text : Nat → Str
  milestone : Nat → Bool

/-- `log_policy_t<Name>`: `flow/log.hpp` 55-57. -/
def defaultPolicy (name : Str) : Bool := !name.isEmpty

/-- A line of a flow: `LogPolicy::log<Env>`, `flow/log.hpp` 43-53. -/
def Service.line (s : Service) (env : Env) (text : Str) : List Event := if s.logs then [.log env text] else []

/-- `ct_type`: `flow/step.hpp` 51-66. -/
def Service.kind (s : Service) (l : Flow.Leaf) : Str :=
  if (l.func.map s.milestone).getD false then "milestone".toList else "action".toList

/-- `run_func` of the nodes: `flow/func_list.hpp` 21-36. -/
def flowNodes (logEnv : Str → Env) (s : Service) (ρ : Nat → Nat → Bool) : Nat → List Flow.Leaf → List Event
  | _, [] => []
  | k, l :: ls =>
    (if l.cond.all (ρ k) then
      s.line (getLogEnv logEnv (s.text l.name) s.name)
        ("flow.".toList ++ s.kind l ++ "(".toList ++ s.text l.name ++ ")".toList) ++ [.act k l]
     else []) ++ flowNodes logEnv s ρ (k + 1) ls

/-- `inlined_func_list::operator()`: `flow/func_list.hpp` 38-54. -/
def flowRun (logEnv : Str → Env) (s : Service) (ρ : Nat → Nat → Bool) (out : List Flow.Leaf) : List Event :=
  let env := getLogEnv logEnv s.name "default".toList
  s.line env ("flow.start(".toList ++ s.name ++ ")".toList) ++ flowNodes logEnv s ρ 0 out ++
    s.line env ("flow.end(".toList ++ s.name ++ ")".toList)

/-- The executions of log statements in a run of a flow: a line is logged as by `CIB_LOG`
(`flow/log.hpp` 48-53); `inner` are the log statements that the calls execute themselves. -/
def flowExecs (time : Nat → Nat) (units : Nat → Nat) (inner : Nat → Flow.Leaf → List Exec) :
    Nat → List Event → List Exec
  | _, [] => []
  | n, .log e t :: es => ⟨e, .log ⟨t, []⟩, [], units, false, time n⟩ :: flowExecs time units inner (n + 1) es
  | n, .act k l :: es => inner k l ++ flowExecs time units inner (n + 1) es

/-! ## `cib::top` -/

/-- The services of `cib::top`: `cib/top.hpp` 13-36. -/
def earlyInit : Nat := 0
def runtimeInit : Nat := 1
def runtimeStart : Nat := 2
def mainLoop : Nat := 3

/-- The configuration of `cib::top<ProjectConfig>`: `cib/top.hpp` 43-47. -/
def topConfig {A : Type} (project : Nexus.Cfg A) : Nexus.Cfg A :=
  .config [.exports [earlyInit, runtimeInit, runtimeStart, mainLoop], .components [project]]

/-- A fragment of a flow under a runtime condition with these predicates
(`nexus/detail/runtime_conditional.hpp` 25-42). -/
def underCondition (preds : Nat → List Nat) (c : Nat) (f : Flow.Frag) : Option Flow.Frag :=
  some ⟨f.whens ++ [preds c], f.expr⟩

/-- What the main program does: it runs a flow, or logs a text with `CIB_INFO`. -/
inductive Step where
  | flow (s : Nat) (es : List Event)
  | info (text : Str)
deriving DecidableEq, Repr

/-- `flow::run<Tag>()` (`flow/run.hpp`) of a service of `cib::top`: they have no name, `flow::service<>`.
`none`: the service was not initialised (a panic), or the flow does not compile. -/
def runTop (logEnv : Str → Env) (text : Nat → Str) (milestone : Nat → Bool) (picks : Nat → Nat)
    (v : Nexus.Vars Flow.Frag) (s : Nat) (ρ : Nat → Nat → Bool) : Option Step := do
  let fs ← v.service s
  let out ← Flow.flow picks fs
  return .flow s (flowRun logEnv ⟨[], defaultPolicy [], text, milestone⟩ ρ out)

/-- `cib::top::main` with `n` rounds of the endless loop: `cib/top.hpp` 55-69. `ρ i` is what the predicates
answer in the `i`-th run of a flow. -/
def topMain (logEnv : Str → Env) (text : Nat → Str) (milestone : Nat → Bool) (picks : Nat → Nat)
    (names : Nat → Option Nat) (project : Nexus.Cfg Flow.Frag) (bs : List (Nat × List Flow.Frag))
    (ρ : Nat → Nat → Nat → Bool) (n : Nat) : Option (List Step) := do
  let v := Nexus.init names (topConfig project).exported bs (.start Flow.Frag)
  let run := runTop logEnv text milestone picks v
  let a ← run earlyInit (ρ 0)
  let b ← run runtimeInit (ρ 1)
  let c ← run runtimeStart (ρ 2)
  let loop ← (List.range n).mapM fun i => run mainLoop (ρ (3 + i))
  return [a, .info "cib::top::init() - RuntimeInit".toList, b,
    .info "cib::top::init() - RuntimeStart".toList, c] ++ loop

end Verif.Front
