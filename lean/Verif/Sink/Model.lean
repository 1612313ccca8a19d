import Verif.Conc.Model
/-!
# Model of log destinations

What loggers do with their destinations: `log_writer` and `log_handler` of
`/repo/include/log_binary/catalog/encoder.hpp`, `log_handler` of `/repo/include/log_fmt/logger.hpp`.

The first part is about several threads that log at the same time, in small steps (see
`Verif.Conc.Model`): what a destination has received is a list; a message or line is written one
element (word, character) after the other. The second part is about destinations that are objects
with a state of their own.

Left out: destinations that log themselves; how messages are built (`Verif.Log.Model`).
-/
namespace Verif.Sink
open Verif.Conc

/-! ## Several threads -/

/-- One destination, by its place in the configuration, is given one message. -/
structure Write (ν : Type) where
  dest : Nat
  text : List ν
deriving DecidableEq, Repr

/-- The destination takes the elements one after the other. -/
def Write.body {ν : Type} (c : Write ν) : List (Micro (List ν) Unit) :=
  c.text.map (fun x p => (p.1, p.2 ++ [x]))

/-- `log_writer::operator()`: encoder.hpp 84-92: the call of a destination is inside a critical
section whose mutex is the type of the destination; `type` numbers the types. -/
def binary (ν : Type) (type : Nat → Nat) : Lang (Write ν) (List ν) Unit where
  part c := c.dest
  locked _ := true
  mutex := type
  start _ := ()
  body := Write.body

/-- `log_handler::log` of log_fmt/logger.hpp 54-72: no critical section. The line is prefix, message
and line end. -/
def plain (ν : Type) : Lang (Write ν) (List ν) Unit where
  part c := c.dest
  locked _ := false
  mutex := id
  start _ := ()
  body := Write.body

/-- A log statement calls all `n` destinations one after the other: encoder.hpp 87-91,
logger.hpp 59-71. -/
def logAll {ν : Type} (n : Nat) (m : List ν) : List (Write ν) :=
  (List.range n).map (fun d => ⟨d, m⟩)

/-- A thread that logs these messages. -/
def logs {ν : Type} (n : Nat) (ms : List (List ν)) : List (Write ν) := (ms.map (logAll n)).flatten

/-! ## Destinations with a state of their own -/

/-- A destination: what a message does to the state of the object and to the outside. -/
structure Dest (δ β ν : Type) where
  write : List ν → δ × β → δ × β

/-- `log_handler::log_msg` and `log_version`: encoder.hpp 105-142: `auto writer = …w` is a copy of the
writer with its destinations; the copies take the message and are dropped, the stored destinations
stay as they are. -/
def binaryLog {δ β ν : Type} (ds : List (Dest δ β ν × δ)) (b : β) (m : List ν) : β :=
  ds.foldl (fun b d => (d.1.write m (d.2, b)).2) b

/-- An output iterator: what assigning an element (and going on) does to the iterator and to the
outside. -/
structure Iter (δ β ν : Type) where
  put : ν → δ × β → δ × β

/-- `fmt::format_to(out, …)`: writes through a copy of the iterator; the new iterator is returned. -/
def Iter.formatTo {δ β ν : Type} (I : Iter δ β ν) (s : δ) (b : β) (text : List ν) : δ × β :=
  text.foldl (fun p x => I.put x p) (s, b)

/-- `log_handler::log`: logger.hpp 59-71: the returned iterators are not used, so prefix, message and
line end all start where the stored iterator is. -/
def textLog {δ β ν : Type} (nl : ν) (ds : List (Iter δ β ν × δ)) (b : β) (l : List ν × List ν) : β :=
  ds.foldl (fun b d =>
    let b1 := (d.1.formatTo d.2 b l.1).2
    let b2 := (d.1.formatTo d.2 b1 l.2).2
    (d.1.put nl (d.2, b2)).2) b

end Verif.Sink
