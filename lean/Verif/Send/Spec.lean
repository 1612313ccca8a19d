import Verif.Send.Model

/-!
# Specification of requests and responses

It speaks only about what happened (`Ev`) and in which order.
-/
namespace Verif.Send.Spec
open Verif.Send

/-- The arguments of the first run of this trigger. -/
def firstRun (q : Request) : List Ev → Option (List Val)
  | [] => none
  | .ran n vs :: l => if q.name = n ∧ q.types = vs.map (·.ty) then some vs else firstRun q l
  | _ :: l => firstRun q l

/-- What happened after the start with number `i`. -/
def after (i : Nat) : List Ev → List Ev
  | [] => []
  | .waits j r :: l => if j = i then l else after i l
  | _ :: l => after i l

/-- The senders that were started, with the numbers of their starts. -/
def started : List Ev → List (Nat × Nat)
  | [] => []
  | .waits i r :: l => (i, r) :: started l
  | _ :: l => started l

/-- The calls of receiving functions for the start with number `i`. -/
def receipts (i : Nat) : List Ev → List (Nat × List Val)
  | [] => []
  | .received g j vs :: l => if j = i then (g, vs) :: receipts i l else receipts i l
  | _ :: l => receipts i l

/-- The calls of request functions for the start with number `i`. -/
def calls (i : Nat) : List Ev → List (Nat × List Val)
  | [] => []
  | .called f j vs :: l => if j = i then (f, vs) :: calls i l else calls i l
  | _ :: l => calls i l

/-- All threads have done what they had to do. -/
def Quiet (s : State) : Prop := ∀ t, s.todo t = []

/-- The action was done, as seen in what happened. -/
def Done : Act → List Ev → Prop
  | .start r, l => ∃ i, Ev.waits i r ∈ l
  | .trigger n vs, l => Ev.ran n vs ∈ l
  | .handle m, l => Ev.handled m ∈ l
  | .other n, l => Ev.other n ∈ l

/-- The action of which this is the trace. Calls are no actions of their own. -/
def ofAct : Ev → Option Act
  | .waits _ r => some (.start r)
  | .ran n vs => some (.trigger n vs)
  | .handled m => some (.handle m)
  | .other n => some (.other n)
  | .called _ _ _ => none
  | .received _ _ _ => none

/-- The actions that are due because this happened: the body of a function that was called, or what the
callbacks whose matchers accept a message do with it. -/
def due (P : Prog) : Ev → List Act
  | .called f _ vs => P.body f vs
  | .received g _ vs => P.body g vs
  | .handled m => (P.callbacks.filter fun c =>
      Match.eval Match.revalLeaf c.matcher (P.messages m)).flatMap fun c => P.react c.id m
  | .waits _ _ => []
  | .ran _ _ => []
  | .other _ => []

end Verif.Send.Spec
