import Verif.Handler.Model

/-!
# Model of requests and responses (`/repo/include/msg/send.hpp`)

`send(f, as...) | then_receive<Name, Types...>(g, bs...)` makes a sender. Starting it waits for the
trigger `Name` with arguments of `Types`, and then calls `f(as...)`; when the trigger is run with
arguments `vs`, `g(vs..., bs...)` is called.

Outside `/repo`: the library `async`. Of it the model takes: `incite_on` (line 40) first puts the sender
into the list of those that wait for the trigger, then calls the function (the first test of
`test/msg/send.cpp` relies on it); `run_triggers<Name>(vs...)` takes all senders out of the list that
belongs to `Name` and the types of `vs`, at once, and then goes on with each of them in the order in
which they came; the list is changed in critical sections, so changes by threads and interrupts come one
after the other.

Names, types, values and functions are numbers. What functions do is a list of actions for each, given
by the program (`Prog`).
-/
namespace Verif.Send
open Verif

/-- A value with its type. -/
structure Val where
  ty : Nat
  val : Nat
deriving DecidableEq, Repr

/-- What functions of the program do, as far as requests are concerned: start a sender, run a trigger,
hand a message to a service, or anything else. -/
inductive Act where
  | start (r : Nat)
  | trigger (name : Nat) (args : List Val)
  | handle (m : Nat)
  | other (n : Nat)
deriving DecidableEq, Repr

/-- A sender: `send(f, as...)` (48-54), and the name, types, function and bound values of
`then_receive` (56-63). -/
structure Request where
  name : Nat
  types : List Nat
  request : Nat
  sent : List Val
  receive : Nat
  bound : List Val
deriving DecidableEq, Repr

/-- A program: its senders, what its functions do when called with values, the callbacks of the service,
its messages, and what the function of a callback does with a message. -/
structure Prog where
  requests : Nat → Request
  body : Nat → List Val → List Act
  callbacks : List Handler.Callback
  messages : Nat → Match.Msg
  react : Nat → Nat → List Act

/-- What a thread has still to do: an action, the call of the request function of a sender that was
started as number `i`, or the call of its receiving function. -/
inductive Item where
  | act (a : Act)
  | call (i r : Nat)
  | resume (i r : Nat) (args : List Val)
deriving DecidableEq, Repr

/-- What happened. -/
inductive Ev where
  | waits (i r : Nat)
  | called (f : Nat) (i : Nat) (args : List Val)
  | ran (name : Nat) (args : List Val)
  | handled (m : Nat)
  | received (g : Nat) (i : Nat) (args : List Val)
  | other (n : Nat)
deriving DecidableEq, Repr

/-- The senders that wait, as the number of their start and the sender; what each thread has still to
do; the next number; what happened. -/
structure State where
  waiting : List (Nat × Nat)
  todo : Nat → List Item
  next : Nat
  log : List Ev

/-- The sender waits for this trigger: `trigger_scheduler<Name, Args...>` (40). -/
def Request.on (q : Request) (name : Nat) (args : List Val) : Bool :=
  decide (q.name = name ∧ q.types = args.map (·.ty))

/-- What a call of `handle` does: the functions of the callbacks it calls, one after the other
(`msg/service.hpp`, `msg/handler.hpp` 25-51). -/
def Prog.answers (P : Prog) (m : Nat) : List Act :=
  (Handler.handle P.callbacks (P.messages m)).called.flatMap fun c => P.react c m

/-- The thread `t` goes on with `l`. -/
def State.set (s : State) (t : Nat) (l : List Item) : State :=
  { s with todo := fun u => if u = t then l else s.todo u }

/-- One thing is done. `start`: line 40, waiting first; `call`: lines 50-53, the function gets the values
of `send` (the lambda is not mutable, so that `std::move(as)` copies and the next start has them again);
`resume`: lines 60-62, the received arguments and then the bound ones. -/
def State.perform (P : Prog) (s : State) (t : Nat) (x : Item) (rest : List Item) : State :=
  match x with
  | .act (.start r) =>
    { (s.set t (.call s.next r :: rest)) with
      waiting := s.waiting ++ [(s.next, r)], next := s.next + 1, log := s.log ++ [.waits s.next r] }
  | .act (.trigger n vs) =>
    let ready := s.waiting.filter fun w => (P.requests w.2).on n vs
    { (s.set t (ready.map (fun w => .resume w.1 w.2 vs) ++ rest)) with
      waiting := s.waiting.filter (fun w => !(P.requests w.2).on n vs), log := s.log ++ [.ran n vs] }
  | .act (.handle m) =>
    { (s.set t ((P.answers m).map .act ++ rest)) with log := s.log ++ [.handled m] }
  | .act (.other n) => { (s.set t rest) with log := s.log ++ [.other n] }
  | .call i r =>
    let q := P.requests r
    { (s.set t ((P.body q.request q.sent).map .act ++ rest)) with
      log := s.log ++ [.called q.request i q.sent] }
  | .resume i r vs =>
    let q := P.requests r
    { (s.set t ((P.body q.receive (vs ++ q.bound)).map .act ++ rest)) with
      log := s.log ++ [.received q.receive i (vs ++ q.bound)] }

/-- Thread `t` does the next thing it has to do. -/
def State.step (P : Prog) (s : State) (t : Nat) : State :=
  match s.todo t with
  | [] => s
  | x :: rest => s.perform P t x rest

/-- The threads run as the schedule says. -/
def run (P : Prog) (s : State) (schedule : List Nat) : State := schedule.foldl (State.step P) s

/-- The beginning: nothing waits, each thread has the actions of its program. -/
def State.init (threads : Nat → List Act) : State := ⟨[], fun t => (threads t).map .act, 0, []⟩

/-! ## The form of `then_receive` with three arguments -/

/-- An argument of a call, as far as the two overloads look at it. -/
inductive Arg where
  | action (f : Nat) (as : List Val)
  | function (g : Nat)
deriving DecidableEq, Repr

/-- What `then_receive` returns: something to put a send action into, whose function is called with the
received and the bound values, or a sender. -/
inductive Form where
  | pipe (name : Nat) (types : List Nat) (function : Arg) (bound : List Val)
  | sender (q : Request)
deriving DecidableEq, Repr

/-- `a | p`: the hidden `operator|` (36-42). Without a function to call in the end, `async::then` does
not compile. -/
def pipe (a : Arg) (p : Form) : Option Form :=
  match a, p with
  | .action f as, .pipe n ts (.function g) bs => some (.sender ⟨n, ts, f, as, g, bs⟩)
  | _, _ => none

/-- The overload for functions: lines 56-63. -/
def thenReceivePipe (name : Nat) (types : List Nat) (f : Arg) (bound : List Val) : Form :=
  .pipe name types f bound

/-- `then_receive<name, types...>(a, f, bs...)`. With types in the angle brackets the second overload
(65-71) is not viable: the first of them is taken for the type of the send action, and the types of
received values are none (`types` here are types of values). So the first overload takes the send action
for the function and `f` as its first bound value; it compiles, as `f` and the bound values are only
kept. Without types the second overload is more specialised. The first bound value is left out in the
model. -/
def thenReceiveCall (name : Nat) (types : List Nat) (a f : Arg) (bound : List Val) : Option Form :=
  match types, a with
  | [], .action _ _ => pipe a (thenReceivePipe name [] f bound)
  | _, _ => some (thenReceivePipe name types a bound)

end Verif.Send
