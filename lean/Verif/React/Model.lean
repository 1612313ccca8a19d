import Verif.Handler.Model
/-!
# Model of services whose callbacks change what conditions read

In `Verif.Handler.Model` a message and the answers of predicates stay the same while a service handles
the message. Here they are read from the state of the program, and callbacks change this state:
predicates and runtime conditions read it at the time they are asked, and a callback may hand messages
to services, set variables, or write into the memory of the message that is being handled.

Sources: `/repo/include/msg/callback.hpp`, `handler.hpp`, `indexed_handler.hpp`,
`detail/indexed_handler_common.hpp`, `detail/indexed_builder_common.hpp`.

Left out: as in `Verif.Handler.Model`; callbacks that do not return.
-/
namespace Verif.React
open Verif.Match Verif.Handler

/-- The program around the services: what predicates and runtime conditions answer, what is in the
fields of the message, and what the callables do. -/
structure Program (σ : Type) where
  pred : Nat → σ → Bool
  val : σ → Field → Int
  act : Nat → σ → σ

variable {σ : Type}

/-- What a matcher reads at a state. -/
def Program.msg (P : Program σ) (s : σ) : Msg := ⟨P.val s, fun p => P.pred p s⟩

/-- While a message is handled: the state, the callables called so far, and whether there are some. -/
structure Running (σ : Type) where
  state : σ
  called : List Nat
  handled : Bool

/-- `callback::handle` as one operand: `msg/callback.hpp` 30-46. The matcher is asked, and if it
accepts, the callable is called. -/
def Program.step (P : Program σ) (o : Running σ) (c : Callback) : Running σ :=
  if c.isMatch (P.msg o.state) then ⟨P.act c.id o.state, o.called ++ [c.id], o.handled || true⟩
  else ⟨o.state, o.called, o.handled || false⟩

/-- What an observer sees of `handle`: the state afterwards and the outcome. -/
structure Result (σ : Type) where
  state : σ
  out : Outcome

/-- The end of `handle`: the error line if no callback claimed the message, `msg/handler.hpp` 32-40,
`detail/indexed_handler_common.hpp` 57-62. -/
def Running.finish (o : Running σ) : Result σ := ⟨o.state, ⟨o.called, o.handled, !o.handled⟩⟩

/-- `handler::handle`: `msg/handler.hpp` 25-40. C++ does not specify the order of the operands. -/
def Program.handleIn (P : Program σ) (order : List Callback) (s : σ) : Result σ :=
  (order.foldl P.step ⟨s, [], false⟩).finish

/-- `handler::handle` with the operands from left to right. -/
def Program.handle (P : Program σ) (cbs : List Callback) (s : σ) : Result σ := P.handleIn cbs s

/-- `indexed_handler::handle`: `detail/indexed_handler_common.hpp` 49-64. The index is asked once, before
any callback is called; `invoke_callback` (`detail/indexed_builder_common.hpp` 146-166) asks what is left
of the matcher when it is its turn. -/
def Program.handleIndexed (P : Program σ) (fields : List Field) (cbs : List Callback) (s : σ) : Result σ :=
  ((candidateList fields (build cbs) (P.msg s)).foldl
    (fun o c => P.step o ⟨c.id, removeTerms fields c.matcher⟩) ⟨s, [], false⟩).finish

end Verif.React
