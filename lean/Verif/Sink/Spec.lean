import Verif.Sink.Model
import Verif.Conc.Spec
/-!
# What destinations should receive
-/
namespace Verif.Sink
open Verif.Conc

/-- The messages that thread `t` has in a list of messages of several threads. -/
def ofThread {ν : Type} (t : Nat) (o : List (Nat × List ν)) : List (List ν) :=
  (o.filter (fun p => p.1 == t)).map Prod.snd

/-- The messages given to destination `d`, with their threads, in order. -/
def atDest {ν : Type} (d : Nat) (o : List (Nat × Write ν)) : List (Nat × List ν) :=
  (o.filter (fun p => p.2.dest == d)).map (fun p => (p.1, p.2.text))

/-- Each destination takes the messages one after the other and keeps its state. -/
def keepLog {δ β ν : Type} (ds : List (Dest δ β ν × δ)) (b : β) (m : List ν) :
    List (Dest δ β ν × δ) × β :=
  match ds with
  | [] => ([], b)
  | (D, s) :: ds =>
    let r := D.write m (s, b)
    let q := keepLog ds r.2 m
    ((D, r.1) :: q.1, q.2)

/-- All messages. -/
def keepLogs {δ β ν : Type} : List (Dest δ β ν × δ) → β → List (List ν) → β
  | _, b, [] => b
  | ds, b, m :: ms => keepLogs (keepLog ds b m).1 (keepLog ds b m).2 ms

/-- Each iterator takes the text of all lines, element by element, and goes on where it was. -/
def putAll {δ β ν : Type} (I : Iter δ β ν) (p : δ × β) (text : List ν) : δ × β :=
  text.foldl (fun p x => I.put x p) p

end Verif.Sink
