import Verif.Conc.Model
import Verif.Interrupt.Spec
/-!
# What concurrent calls should do
-/
namespace Verif.Conc
open Verif.Interrupt
variable {ι σ L : Type}

/-- What a call does to its part of the memory when nobody interferes. -/
def Lang.effect (P : Lang ι σ L) (c : ι) (x : σ) : σ :=
  ((P.body c).foldl (fun p f => f p) (P.start c, x)).2

/-- The calls made on part `k` one after the other. -/
def Lang.serial (P : Lang ι σ L) (k : Nat) (cs : List ι) (x : σ) : σ :=
  (cs.filter (fun c => P.part c == k)).foldl (fun x c => P.effect c x) x

/-- The calls of thread `t` in a list of calls of several threads. -/
def callsOf (t : Nat) (o : List (Nat × ι)) : List ι := (o.filter (fun p => p.1 == t)).map Prod.snd

/-- Thread `t` is inside a call on part `k`. -/
def St.Inside (P : Lang ι σ L) (s : St ι σ L) (k t : Nat) : Prop :=
  ∃ r, (s.thr t).cur = some r ∧ P.part r.call = k

/-- Nobody is inside a call on part `k`. -/
def St.Idle (P : Lang ι σ L) (s : St ι σ L) (k : Nat) : Prop := ∀ t, ¬ s.Inside P k t

/-- At most one thread is inside a call on part `k`. -/
def St.Exclusive (P : Lang ι σ L) (s : St ι σ L) (k : Nat) : Prop :=
  ∀ t u, s.Inside P k t → s.Inside P k u → t = u

/-- All calls of all threads are over. -/
def St.Done (s : St ι σ L) : Prop := ∀ t, (s.thr t).cur = none ∧ (s.thr t).todo = []

/-- The work left for a thread, in turns. -/
def Thread.work (P : Lang ι σ L) (x : Thread ι σ L) : Nat :=
  (match x.cur with | none => 0 | some r => r.left.length + 1) +
    (x.todo.map (fun c => (P.body c).length + 2)).sum

/-- A call of the controller as one step. -/
def Api.run {w : Nat} (H : Hal w) (root : List Irq) (s : Sys w) : Api → Sys w
  | .op o => { s with ctl := o.run H root s.ctl }
  | .init already res flows => { s with ctl := Interrupt.init H root already res flows s.ctl }
  | .read who f => { s with seen := s.seen ++ [(who, s.ctl.hw (H.reg f) &&& H.mask f != 0)] }

/-- The operations among the calls. -/
def opsOf : List Api → List Op
  | [] => []
  | .op o :: cs => o :: opsOf cs
  | _ :: cs => opsOf cs

end Verif.Conc
