import Verif.Front.Model
import Verif.Log.Spec
import Verif.Flow.Spec
import Verif.Nexus.Spec

/-! # What logging should do for the code that logs -/
namespace Verif.Front.Spec
open Verif.Front

/-! ## Scopes -/

/-- Code as it is written: declarations, log statements and braces. -/
inductive Tok where
  | decl (ss : List Setting)
  | call (c : Call)
  | open
  | close

/-- The text of some code; what `CIB_WITH_LOG_ENV` declares belongs to the block after it. -/
def toks : Code → List Tok
  | .done => []
  | .env ss rest => .decl ss :: toks rest
  | .call c rest => .call c :: toks rest
  | .block body rest => .open :: (toks body ++ .close :: toks rest)
  | .withEnv ss body rest => .open :: .decl ss :: (toks body ++ .close :: toks rest)

/-- The declarations that can be seen from a place, the nearest first: reading the text before it backwards,
those that do not stand in a block that was closed. The number counts the closed blocks that the reading is
in. -/
def visible : Nat → List Tok → List (List Setting)
  | _, [] => []
  | 0, .decl ss :: t => ss :: visible 0 t
  | n + 1, .decl _ :: t => visible (n + 1) t
  | n, .close :: t => visible (n + 1) t
  | 0, .open :: t => visible 0 t
  | n + 1, .open :: t => visible n t
  | n, .call _ :: t => visible n t

/-- There is a declaration in the block that the place is in, before it. -/
def sameBlock : Nat → List Tok → Bool
  | _, [] => false
  | 0, .decl _ :: _ => true
  | n + 1, .decl _ :: t => sameBlock (n + 1) t
  | n, .close :: t => sameBlock (n + 1) t
  | 0, .open :: _ => false
  | n + 1, .open :: t => sameBlock n t
  | n, .call _ :: t => sameBlock n t

/-- The log statements of a text with what each of them sees. -/
def callsFrom (before : List Tok) : List Tok → List (List (List Setting) × Call)
  | [] => []
  | .call c :: t => (visible 0 before, c) :: callsFrom (.call c :: before) t
  | x :: t => callsFrom (x :: before) t

/-! ## Questions to environments -/

def level? : Setting → Option Nat
  | .level l => some l
  | _ => none

def module? : Setting → Option Str
  | .module m => some m
  | _ => none

def flavor? : Setting → Option (Option Nat)
  | .flavor f => some f
  | _ => none

def unit? : Setting → Option Nat
  | .unit u => some u
  | _ => none

def writer? : Setting → Option Nat
  | .writer w => some w
  | _ => none

/-- The first answer. -/
def ask {α : Type} (q : Setting → Option α) (e : Env) : Option α := (e.filterMap q).head?

/-- The nearest of the declarations that answer the question gives this answer. -/
def Nearest {α : Type} (q : Setting → Option α) (ds : List (List Setting)) (a : α) : Prop :=
  ∃ p d r, ds = p ++ d :: r ∧ (∀ d' ∈ p, ∀ s ∈ d', q s = none) ∧ ask q d = some a

/-! ## Messages -/

/-- What a statement says. -/
structure Said where
  level : Option Nat
  module : Str
  unit : Nat
  writer : Option Nat
  fmt : Str
  args : List (Log.CType × Int)
  time : Nat

/-- A message with the settings of an environment. -/
def saidIn (x : Exec) (level : Option Nat) (fmt : Str) (args : List (Log.CType × Int)) : Said :=
  ⟨level, (ask module? x.env).getD "default".toList, ((ask unit? x.env).map x.units).getD 0,
    ask writer? x.env, fmt, args, x.time⟩

/-- The message of an execution of a statement, if it has one. A fatal error has level 1, its message the
arguments that its text has fields for. -/
def said (x : Exec) : Option Said :=
  match x.call with
  | .log m => some (saidIn x (ask level? x.env) m.fmt (m.args.zip x.vals))
  | .atLevel l m => some (saidIn x (some l) m.fmt (m.args.zip x.vals))
  | .fatal m => some (saidIn x (some 1) m.fmt ((m.args.zip x.vals).take (specs m.fmt)))
  | .assert e args =>
    if x.holds then none
    else some (saidIn x (some 1) ("Assertion failure: ".toList ++ e)
      ((args.zip x.vals).take (specs ("Assertion failure: ".toList ++ e))))
  | .version _ => none

/-- The flavor of a statement. -/
def flavorOf (x : Exec) : Option Nat :=
  match x.call with
  | .version f => f
  | _ => (ask flavor? x.env).getD none

/-- It is a request for the version. -/
def isVersion (x : Exec) : Bool :=
  match x.call with
  | .version _ => true
  | _ => false

/-- The version as a text. -/
def saidVersion (c : Fixed) (x : Exec) : Said :=
  ⟨some 0, "default".toList, 0, none,
    "Version: ".toList ++ (Nat.repr c.buildId).toList ++ " (".toList ++ c.versionString ++ ")".toList, [], x.time⟩

/-- What an execution says to a logger that has no function for versions. -/
def saidTo (c : Fixed) (f : Option Nat) (x : Exec) : List Said :=
  if flavorOf x = f then (if isVersion x then [saidVersion c x] else (said x).toList) else []

/-- What an execution tells a logger of the user: a message, or (`none`) the version, when the logger has the
function for it. -/
def toldTo (c : Fixed) (v : VersionFn) (f : Option Nat) (x : Exec) : List (Option Said) :=
  if flavorOf x = f ∧ isVersion x = true ∧ v = .withEnv then [none] else (saidTo c f x).map some

/-- The call of a logger fits what it should be told; a message is asked for by the questions to its
environment. -/
def Heard (c : Fixed) : Seen → Option Said → Prop
  | .log y, some m => ask level? y.env = m.level ∧ (ask module? y.env).getD "default".toList = m.module ∧
      y.unit = m.unit ∧ ask writer? y.env = m.writer ∧ y.fmt = m.fmt ∧ y.args = m.args ∧ y.time = m.time
  | .version _ b t, none => b = c.buildId ∧ t = c.versionString
  | _, _ => False

/-! ## Text -/

def levelName : Option Nat → Str
  | some 0 => "MAX".toList
  | some 1 => "FATAL".toList
  | some 2 => "ERROR".toList
  | some 3 => "WARN".toList
  | some 4 => "INFO".toList
  | some 5 => "USER1".toList
  | some 6 => "USER2".toList
  | some 7 => "TRACE".toList
  | _ => []

/-- The line for a message. -/
def line (c : Fixed) (m : Said) : Str :=
  let t := (Nat.repr m.time).toList
  List.replicate (8 - t.length) ' ' ++ t ++ "us ".toList ++ levelName m.level ++ " [".toList ++ m.module ++
    "]: ".toList ++ c.format m.fmt m.args ++ "\n".toList

/-- A line that was read: time, level, module, text. -/
structure Line where
  time : Nat
  level : Str
  module : Str
  text : Str
deriving DecidableEq, Repr

/-- Reading a line, without the line break. -/
def readLine (s : Str) : Option Line :=
  let s := s.dropWhile (· = ' ')
  let time := s.takeWhile (· ≠ 'u')
  let s := s.drop (time.length + 3)
  let level := s.takeWhile (· ≠ ' ')
  let s := s.drop (level.length + 2)
  let module := s.takeWhile (· ≠ ']')
  let s := s.drop module.length
  if "]: ".toList.isPrefixOf s then some ⟨Nat.ofDigitChars 10 time 0, level, module, s.drop 3⟩ else none

/-- The text cut at line breaks: the lines that were ended, and the rest. -/
def cut : Str → List Str × Str
  | [] => ([], [])
  | '\n' :: s => let r := cut s; ([] :: r.1, r.2)
  | a :: s =>
    match cut s with
    | ([], r) => ([], a :: r)
    | (l :: ls, r) => ((a :: l) :: ls, r)

/-- Reading a log: all lines, when there is nothing after the last line break. -/
def readLog (s : Str) : Option (List Line) := if (cut s).2 = [] then (cut s).1.mapM readLine else none

/-- What a reader should see of a message. -/
def lineOf (c : Fixed) (m : Said) : Line :=
  ⟨m.time, levelName m.level, m.module, c.format m.fmt m.args⟩

/-! ## Records -/

/-- The statement that a message is for the binary log. -/
def stmtOf (c : Fixed) (m : Said) : Log.Stmt :=
  ⟨m.level.getD 0, c.ids m.fmt (m.args.map (·.1)), c.mods m.module, m.unit, m.args⟩

/-- The records of an execution for a flavor, with the writers that environments name. -/
def recordsTo (c : Fixed) (f : Option Nat) (x : Exec) : List (Option Nat × Option (List Nat)) :=
  if flavorOf x = f then
    if isVersion x then [(ask writer? x.env, Log.versionRecord c.buildId (c.versionString.map Char.toNat))]
    else (said x).toList.map fun m => (m.writer, Log.record (stmtOf c m))
  else []

/-- What an object sends that is called with one record after the other. -/
def feed {S : Type} (call : S → List Nat → S × List Nat) : S → List (List Nat) → List Nat
  | _, [] => []
  | s, r :: rs => (call s r).2 ++ feed call (call s r).1 rs

/-- The records for a writer (`none`: the destinations of the logger). -/
def recordsFor (c : Fixed) (f w : Option Nat) (xs : List Exec) : List (List Nat) :=
  (xs.flatMap (recordsTo c f)).filterMap fun r => if r.1 = w then r.2 else none

/-! ## Texts of fatal errors -/

/-- A part of a format string: some text without braces, a brace, or a field. -/
inductive Piece where
  | text (s : Str)
  | openBrace
  | closeBrace
  | field (spec : Str)

def Piece.render : Piece → Str
  | .text s => s
  | .openBrace => ['{', '{']
  | .closeBrace => ['}', '}']
  | .field s => '{' :: s ++ ['}']

def Piece.Ok : Piece → Prop
  | .text s => '{' ∉ s ∧ '}' ∉ s
  | .field s => '{' ∉ s ∧ '}' ∉ s
  | _ => True

def Piece.isField : Piece → Bool
  | .field _ => true
  | _ => false

/-! ## Flows -/

/-- The environment of a log line of a flow, given those that were specialised: that of the node, else
that of the flow, else that of `default`, else the level `TRACE`. -/
def chosen (specialised : Str → Option Env) (names : List Str) : Env :=
  ((names ++ ["default".toList]).findSome? specialised).getD [.level 7]

/-- The environments as the program sees them. -/
def withDefault (specialised : Str → Option Env) (name : Str) : Env := (specialised name).getD [.level 7]

/-- The line before the call of a node. -/
def nodeText (s : Service) (l : Flow.Leaf) : Str :=
  match l.func with
  | some f => if s.milestone f then "flow.milestone(".toList ++ s.text l.name ++ ")".toList
    else "flow.action(".toList ++ s.text l.name ++ ")".toList
  | none => "flow.action(".toList ++ s.text l.name ++ ")".toList

/-- The lines of a run in which these nodes are called. -/
def flowTexts (s : Service) (calls : List (Nat × Flow.Leaf)) : List Str :=
  ["flow.start(".toList ++ s.name ++ ")".toList] ++ calls.map (fun k => nodeText s k.2) ++
    ["flow.end(".toList ++ s.name ++ ")".toList]

/-- The calls in what happened. -/
def acts (es : List Event) : List (Nat × Flow.Leaf) :=
  es.filterMap fun e => match e with | .act k l => some (k, l) | .log _ _ => none

/-- The texts in what happened. -/
def texts (es : List Event) : List Str :=
  es.filterMap fun e => match e with | .act _ _ => none | .log _ t => some t

end Verif.Front.Spec
