import Verif.Receive.Model
import Verif.Front.Model

/-!
# Model of descriptions, and of what services log

`describe` and `describe_match` of matchers (`/repo/include/match/{bin_op,not,constant,predicate}.hpp`,
`/repo/include/msg/field_matchers.hpp`), `describe` of messages (`/repo/include/msg/message.hpp`,
`/repo/include/msg/field.hpp`), and the log lines of message services
(`/repo/include/msg/{callback,handler,handler_interface}.hpp`,
`/repo/include/msg/detail/{indexed_builder_common,indexed_handler_common}.hpp`).

Texts are as a reader of the log sees them: `stdx::ct_format` puts what is known at compile time into the
text and leaves the values of fields as arguments; here they are in the text too. `{:x}` prints a negative
number as a minus sign and its absolute value.

Left out: fields that are not integers (their values are printed by their own formatters), custom
matchers, extra callback arguments. Braces in names would be taken for fields of a format string; names
have none. As in `Verif.Receive`, the operands of `|` in `handler::handle` are evaluated from left to right.
-/
namespace Verif.Explain
open Verif.Match Verif.Message Verif.Receive

/-- Text. -/
abbrev Str := List Char

/-! ## Descriptions of matchers -/

/-- `{:x}`. -/
def hex (v : Int) : Str := (if v < 0 then ['-'] else []) ++ Nat.toDigits 16 v.natAbs

/-- `detail::to_string<RelOp>`: `msg/field_matchers.hpp` 117-132. -/
def opText : RelOp → Str
  | .lt => "<".toList
  | .le => "<=".toList
  | .gt => ">".toList
  | .ge => ">=".toList
  | .eq => "==".toList
  | .ne => "!=".toList

/-- `stdx::is_specialization_of_v<M, and_t>`. -/
def isAnd {α : Type} : M α → Bool
  | .and _ _ => true
  | _ => false

/-- `stdx::is_specialization_of_v<M, or_t>`. -/
def isOr {α : Type} : M α → Bool
  | .or _ _ => true
  | _ => false

/-- An operand in `bin_op_t::form_description`: `match/bin_op.hpp` 36-42. -/
def operand (same : Bool) (s : Str) : Str := if same then s else "(".toList ++ s ++ ")".toList

/-- `describe`, given that of single terms: `match/bin_op.hpp` 24-26, 34-46; `match/not.hpp` 28-30;
`match/constant.hpp` 21-24, 42-45. -/
def describe {α : Type} (text : α → Str) : M α → Str
  | .always => "true".toList
  | .never => "false".toList
  | .leaf a => text a
  | .not m => "not (".toList ++ describe text m ++ ")".toList
  | .and l r => operand (isAnd l) (describe text l) ++ " and ".toList ++ operand (isAnd r) (describe text r)
  | .or l r => operand (isOr l) (describe text l) ++ " or ".toList ++ operand (isOr r) (describe text r)

/-- `describe_match`: `match/bin_op.hpp` 28-31, 34-46; `match/not.hpp` 32-34; `match/constant.hpp` 25-27,
46-48. Every term is asked, also those that the evaluation of the matcher does not come to. -/
def describeMatch {α : Type} (text : α → Option Str) : M α → Option Str
  | .always => some "true".toList
  | .never => some "false".toList
  | .leaf a => text a
  | .not m => (describeMatch text m).map fun s => "not (".toList ++ s ++ ")".toList
  | .and l r => (describeMatch text l).bind fun a => (describeMatch text r).map fun b =>
      operand (isAnd l) a ++ " and ".toList ++ operand (isAnd r) b
  | .or l r => (describeMatch text l).bind fun a => (describeMatch text r).map fun b =>
      operand (isOr l) a ++ " or ".toList ++ operand (isOr r) b

/-- Texts of a program: names of fields (`Field::name`), of predicates (the argument `Name` of
`match::predicate`, `<predicate>` when none is given; for runtime conditions the name of the condition), of
callbacks; and the log environments (`Msg::env_t`) of the messages of callbacks. -/
structure Names where
  field : Nat → Str
  cond : Nat → Str
  callback : Nat → Str
  env : Nat → Front.Env

/-- The name of the field of a comparison. -/
def fieldName (N : Numbering) (nm : Names) (g : Field) : Str :=
  ((N.fieldOf g.name).map fun f => nm.field f.name).getD []

/-- `rel_matcher_t::describe` (`msg/field_matchers.hpp` 153-163), `pred_matcher_t::describe` (353-355),
`predicate_t::describe` (`match/predicate.hpp` 25-27). -/
def termText (N : Numbering) (nm : Names) : RLeaf → Str
  | .rel op g v => fieldName N nm g ++ " ".toList ++ opText op ++ " 0x".toList ++ hex v
  | .pred i => match N.predOf i with
    | some (.field f _) => "<predicate>(".toList ++ nm.field f.name ++ ")".toList
    | some (.cond k) => nm.cond k
    | none => []

/-- `rel_matcher_t::describe_match` (`msg/field_matchers.hpp` 165-176), `pred_matcher_t::describe_match`
(357-366), `predicate_t::describe_match` (`match/predicate.hpp` 29-31). -/
def termMatch (N : Numbering) (nm : Names) (W : Nat) (d : Data W) : RLeaf → Option Str
  | .rel op g v => (N.fieldOf g.name).bind fun f => (extractField N W d f).map fun x =>
      nm.field f.name ++ " (0x".toList ++ hex x ++ ") ".toList ++ opText op ++ " 0x".toList ++ hex v
  | .pred i => match N.predOf i with
    | some (.field f _) => (extractField N W d f).map fun x =>
      "<predicate>(".toList ++ nm.field f.name ++ "(0x".toList ++ hex x ++ "))".toList
    | some (.cond k) => some (nm.cond k)
    | none => none

/-! ## What services log -/

/-- What happens in a service: a log line with its environment, or the call of a callable. -/
inductive Event where
  | log (env : Front.Env) (text : Str)
  | call (id : Nat)
deriving DecidableEq, Repr

/-- The line before the call: `msg/callback.hpp` 37-40. -/
def matchedText (name because extra : Str) : Str :=
  "Incoming message matched [".toList ++ name ++ "], because [".toList ++ because ++ "]".toList ++ extra ++
    ", executing callback".toList

/-- `callback::handle`: `msg/callback.hpp` 30-46. The level is `INFO` unless the environment of the message
has another one. -/
def handleOne (N : Numbering) (env : Env) (nm : Names) (W : Nat) (d : Data W) (extra : Str)
    (c : Handler.Callback) : Option (List Event × Bool) :=
  (evalM N env W d c.matcher).map fun b =>
    if b then ([.log (nm.env c.id ++ [.level 4])
      (matchedText (nm.callback c.id) (describe (termText N nm) c.matcher) extra), .call c.id], true)
    else ([], false)

/-- `callback::log_mismatch`: `msg/callback.hpp` 48-60. -/
def mismatchOne (N : Numbering) (nm : Names) (W : Nat) (d : Data W) (c : Handler.Callback) : Option Event :=
  (describeMatch (termMatch N nm W d) c.matcher).map fun s =>
    .log (nm.env c.id ++ [.level 4]) ("    ".toList ++ nm.callback c.id ++ " - F:(".toList ++ s ++ ")".toList)

/-- The error: `msg/handler.hpp` 34-36. -/
def errorText (n : Nat) (stop : Char) : Str :=
  "None of the registered callbacks (".toList ++ Nat.toDigits 10 n ++ ") claimed this message".toList ++ [stop]

/-- `handler::handle`: `msg/handler.hpp` 25-40. -/
def handle (N : Numbering) (env : Env) (nm : Names) (W : Nat) (d : Data W) (cbs : List Handler.Callback) :
    Option (List Event × Bool) :=
  if cbs.all fun c => compiles N d c.matcher then do
    let rs ← cbs.mapM (handleOne N env nm W d [])
    let es := rs.flatMap (·.1)
    if rs.any (·.2) then return (es, true)
    let ms ← cbs.mapM (mismatchOne N nm W d)
    return (es ++ .log [.level 2] (errorText cbs.length ':') :: ms, false)
  else none

/-- `matcher_str` in `invoke_callback`: `indexed_builder_common.hpp` 161-163. -/
def collapsedText (orig : Str) : Str := " (collapsed by index from [".toList ++ orig ++ "])".toList

/-- `invoke_callback`: `indexed_builder_common.hpp` 146-166. -/
def invokeOne (N : Numbering) (env : Env) (nm : Names) (W : Nat) (idx : List MField) (d : Data W)
    (t : Handler.Callback) : Option (List Event × Bool) :=
  handleOne N env nm W d (collapsedText (describe (termText N nm) t.matcher))
    ⟨t.id, Handler.removeTerms (idx.map (toField N)) t.matcher⟩

/-- `indexed_handler::handle`: `indexed_handler_common.hpp` 49-64. The number in the error is that of the
entries of the table. -/
def handleIndexed (N : Numbering) (env : Env) (nm : Names) (W : Nat) (idx : List MField) (d : Data W)
    (cbs : List Handler.Callback) : Option (List Event × Bool) :=
  let ts := Handler.build cbs
  if ts.all fun t => compiles N d (Handler.removeTerms (idx.map (toField N)) t.matcher) then do
    let ixs ← idx.mapM fun f => (value N W f d.storage).map fun x => (toField N f, x)
    let rs ← ((ts.zipIdx.filter fun p => candidatesOf ixs ts p.2).map (·.1)).mapM
      (invokeOne N env nm W idx d)
    let es := rs.flatMap (·.1)
    if rs.any (·.2) then return (es, true)
    return (es ++ [.log [.level 2] (errorText ts.length '.')], false)
  else none

/-- A message service: before `cib::nexus::init` (`uninitialized_handler_t`, `handler_interface.hpp` 30-44),
then a plain or an indexed one. -/
inductive Service where
  | uninitialized (msgName : Str)
  | plain (cbs : List Handler.Callback)
  | indexed (idx : List MField) (cbs : List Handler.Callback)

/-- What one `handle` of a service does: events and the returned value, or a panic with its text. -/
inductive Result where
  | done (es : List Event) (handled : Bool)
  | panic (text : Str)
deriving DecidableEq, Repr

/-- `cib::service<S>->handle(msg)`. The panic: `handler_interface.hpp` 35-42. -/
def Service.handle (N : Numbering) (env : Env) (nm : Names) (W : Nat) (d : Data W) : Service → Option Result
  | .uninitialized n => some (.panic ("Attempting to handle msg (".toList ++ n ++
      ") before service is initialized".toList))
  | .plain cbs => (Explain.handle N env nm W d cbs).map fun r => .done r.1 r.2
  | .indexed idx cbs => (handleIndexed N env nm W idx d cbs).map fun r => .done r.1 r.2

/-- The executions of log statements for some events; `inner` are those of the callables. -/
def execs (time : Nat → Nat) (units : Nat → Nat) (inner : Nat → List Front.Exec) :
    Nat → List Event → List Front.Exec
  | _, [] => []
  | n, .log e t :: es => ⟨e, .log ⟨t, []⟩, [], units, false, time n⟩ :: execs time units inner (n + 1) es
  | n, .call i :: es => inner i ++ execs time units inner (n + 1) es

/-! ## Descriptions of messages -/

/-- `Field::describe`: `msg/field.hpp` 466-468. -/
def describeField (nm : Names) (f : MField) (v : Int) : Str :=
  nm.field f.name ++ ": 0x".toList ++ hex v

/-- `join` with a comma. -/
def joinComma : List Str → Str
  | [] => []
  | [s] => s
  | s :: ss => s ++ ", ".toList ++ joinComma ss

/-- `msg_access::describe`: `msg/message.hpp` 260-275. -/
def describeMsg (N : Numbering) (nm : Names) (name : Str) (W : Nat) (fs : List MField)
    (r : List (BitVec W)) : Option Str :=
  (fs.mapM fun f => (value N W f r).map (describeField nm f)).map fun ds =>
    name ++ "(".toList ++ joinComma ds ++ ")".toList

end Verif.Explain
