import Verif.Interrupt.Model
/-!
# Model of concurrent calls

Threads (tasks or interrupt handlers, numbered) make calls. A call is a list of small steps on one
part of the memory and on the local variables of the caller. A call may be made inside
`conc::call_in_critical_section<Mutex>`: then it begins only when no other thread is inside a critical
section of the same mutex. A schedule says whose turn it is at each time; a thread that has to wait
or has nothing left to do does nothing in its turn.

The second part gives the steps of the dynamic interrupt controller:
`/repo/include/interrupt/dynamic_controller.hpp`.

Left out: the `conc` library itself (critical sections are taken to exclude each other, which it does
by a lock or by switching interrupts off); memory orders weaker than one step after the other;
critical sections inside critical sections.
-/
namespace Verif.Conc
open Verif.Interrupt

/-- A step on one part of the memory (`σ`) and the local variables (`L`). -/
abbrev Micro (σ L : Type) := L × σ → L × σ

/-- What calls (`ι`) do. -/
structure Lang (ι σ L : Type) where
  /-- the part of the memory it works on -/
  part : ι → Nat
  /-- made inside a critical section -/
  locked : ι → Bool
  /-- the mutex for a part of the memory -/
  mutex : Nat → Nat
  /-- local variables at the beginning -/
  start : ι → L
  body : ι → List (Micro σ L)

/-- A call in progress: what is left to do. -/
structure Running (ι σ L : Type) where
  call : ι
  loc : L
  left : List (Micro σ L)

/-- A thread: the call it is in, and the calls still to make. -/
structure Thread (ι σ L : Type) where
  cur : Option (Running ι σ L)
  todo : List ι

/-- Memory, the holder of each mutex, and the threads. -/
structure St (ι σ L : Type) where
  mem : Nat → σ
  lock : Nat → Option Nat
  thr : Nat → Thread ι σ L

variable {ι σ L : Type}

/-- Changes a function at one place. -/
def upd {α : Type} (f : Nat → α) (k : Nat) (v : α) : Nat → α := fun x => if x = k then v else f x

/-- One turn of thread `t`: begins a call (taking the mutex), makes a step of it, or ends it (giving
the mutex back): `conc::call_in_critical_section<Mutex>([] { … })`. `none`: it has to wait or is
ready. -/
def St.step (P : Lang ι σ L) (s : St ι σ L) (t : Nat) : Option (St ι σ L) :=
  match (s.thr t).cur with
  | none =>
    match (s.thr t).todo with
    | [] => none
    | c :: cs =>
      if P.locked c then
        if (s.lock (P.mutex (P.part c))).isSome then none
        else some { s with
          lock := upd s.lock (P.mutex (P.part c)) (some t)
          thr := upd s.thr t ⟨some ⟨c, P.start c, P.body c⟩, cs⟩ }
      else some { s with thr := upd s.thr t ⟨some ⟨c, P.start c, P.body c⟩, cs⟩ }
  | some ⟨c, l, []⟩ =>
    some { s with
      lock := if P.locked c then upd s.lock (P.mutex (P.part c)) none else s.lock
      thr := upd s.thr t ⟨none, (s.thr t).todo⟩ }
  | some ⟨c, l, f :: fs⟩ =>
    some { s with
      mem := upd s.mem (P.part c) (f (l, s.mem (P.part c))).2
      thr := upd s.thr t ⟨some ⟨c, (f (l, s.mem (P.part c))).1, fs⟩, (s.thr t).todo⟩ }

/-- One turn; nothing happens if the thread cannot go on. -/
def St.turn (P : Lang ι σ L) (s : St ι σ L) (t : Nat) : St ι σ L := (s.step P t).getD s

/-- A whole schedule. -/
def St.run (P : Lang ι σ L) (s : St ι σ L) (sched : List Nat) : St ι σ L :=
  sched.foldl (St.turn P) s

/-- The call that begins in this turn, with its thread. -/
def St.begins (P : Lang ι σ L) (s : St ι σ L) (t : Nat) : List (Nat × ι) :=
  match (s.thr t).cur, (s.thr t).todo with
  | none, c :: _ => if (s.step P t).isSome then [(t, c)] else []
  | _, _ => []

/-- The calls in the order in which they begin. -/
def St.order (P : Lang ι σ L) : St ι σ L → List Nat → List (Nat × ι)
  | _, [] => []
  | s, t :: ts => s.begins P t ++ (s.turn P t).order P ts

/-- The beginning: nobody is in a call, the programs of the threads are given. -/
def St.initial (mem : Nat → σ) (prog : Nat → List ι) : St ι σ L :=
  ⟨mem, fun _ => none, fun t => ⟨none, prog t⟩⟩

/-! ## The dynamic controller in small steps -/

/-- The controller with the registers, and what enable fields were seen to be by `run`. -/
structure Sys (w : Nat) where
  ctl : Ctl w
  seen : List (Nat × Bool)

/-- Local variables. -/
structure Loc (w : Nat) where
  en : Enables
  value : BitVec w
  new : BitVec w
  old : BitVec w
  out : BitVec w

/-- Nothing computed yet. -/
def Loc.zero {w : Nat} : Loc w := ⟨⟨fun _ => false, fun _ => false, fun _ => false⟩, 0, 0, 0, 0⟩

/-- Calls of the interface. -/
inductive Api where
  /-- `enable`, `disable`, `refresh_…_enables`, `reset` -/
  | op (o : Op)
  /-- `init`: 450-471 -/
  | init (already : List Irq) (res flows : Nat → Bool)
  /-- `read_field<Field>::with_hal<Hal, Mutex>` as `run` does: `interrupt/impl.hpp` 12-21, 69, 97;
  `who` tells the readers apart -/
  | read (who field : Nat)

section
variable {w : Nat} (H : Hal w) (root : List Irq)

/-- Loads the bitsets: first part of `set<T>()` and `reset<T>()`. -/
def loadEn : Micro (Sys w) (Loc w) := fun p => ({ p.1 with en := p.2.ctl.en }, p.2)

/-- Stores a bitset. -/
def storeEn (f : Enables → Enables → Enables) : Micro (Sys w) (Loc w) := fun p =>
  (p.1, { p.2 with ctl := { p.2.ctl with en := f p.1.en p.2.ctl.en } })

/-- `enable_one`, `disable_one`: 267-291. The bitset is loaded, changed and stored. -/
def putSteps (b : Bool) (t : Nat) : List (Micro (Sys w) (Loc w)) :=
  if t ∈ resourcesOf root then
    [loadEn, storeEn (fun l c => { c with res := setOne l.res t b })]
  else if t ∈ flowsOf root then
    [loadEn, storeEn (fun l c => { c with flow := setOne l.flow t b })]
  else if t ∈ namesOf root then
    [loadEn, storeEn (fun l c => { c with name := setOne l.name t b })]
  else []

/-- `compute_register`: 334-340. -/
def computeStep (x : Irq) : Micro (Sys w) (Loc w) := fun p =>
  ({ p.1 with value := if isOn p.2.ctl.en x then p.1.value ||| maskFor H x else p.1.value }, p.2)

/-- `force_write` 342-346 and `write_if_changed` 348-353: the shadow value is read, written and read
again for the hardware. -/
def writeSteps (force : Bool) (r : Nat) : List (Micro (Sys w) (Loc w)) :=
  [fun p => ({ p.1 with old := p.2.ctl.shadow r }, p.2),
   fun p => (p.1, { p.2 with ctl := { p.2.ctl with
      shadow := fun x => if x = r then p.1.new else p.2.ctl.shadow x } }),
   fun p => ({ p.1 with out := p.2.ctl.shadow r }, p.2),
   fun p => (p.1, { p.2 with ctl := { p.2.ctl with
      hw := fun x => if x = r then (if force || p.1.new != p.1.old then p.1.out else p.2.ctl.hw x)
        else p.2.ctl.hw x } })]

/-- The body of the loop in `update`: 364-381. -/
def regSteps (force : Bool) (irqs : List Irq) (r : Nat) : List (Micro (Sys w) (Loc w)) :=
  [fun p => ({ p.1 with value := 0 }, p.2)] ++ (inReg H irqs r).map (computeStep H) ++
  [fun p => ({ p.1 with
      new := (p.2.ctl.shadow r &&& ~~~(maskOf H (inReg H irqs r))) ||| p.1.value }, p.2)] ++
  writeSteps force r

/-- `update`: 356-383. -/
def updateSteps (force : Bool) (irqs : List Irq) : List (Micro (Sys w) (Loc w)) :=
  ((regsOf H irqs).map (regSteps H force irqs)).flatten

/-- Assigns a bitset. -/
def setEn (f : Enables → Enables) : Micro (Sys w) (Loc w) := fun p =>
  (p.1, { p.2 with ctl := { p.2.ctl with en := f p.2.ctl.en } })

/-- `shadow_enable<reg> = {}` and `value |= mask`: 411, 427-428. -/
def setShadow (r : Nat) (f : BitVec w → BitVec w) : Micro (Sys w) (Loc w) := fun p =>
  (p.1, { p.2 with ctl := { p.2.ctl with
    shadow := fun x => if x = r then f (p.2.ctl.shadow x) else p.2.ctl.shadow x } })

/-- The steps of a call: enable and disable 478-530, refresh 385-391 and 473-476, `reset` 439-448,
`init` 450-471 with 395-432, reading 12-21 of `interrupt/impl.hpp`. -/
def Api.body : Api → List (Micro (Sys w) (Loc w))
  | .op (.items b p ts) =>
    (ts.map (putSteps root b)).flatten ++ updateSteps H false (affected root p ts)
  | .op (.names b ns) =>
    (ns.map (putSteps root b)).flatten ++ updateSteps H false ((ns.map (fun n =>
      (rootDescendants root).filter (fun x => x.info.name == n))).flatten)
  | .op .refreshTop => updateSteps H true root
  | .op .refreshAll => updateSteps H true (rootDescendants root)
  | .op .reset =>
    [setEn (fun c => { c with res := fun _ => false }),
     setEn (fun c => { c with flow := fun _ => false }),
     setEn (fun c => { c with name := fun _ => false })] ++
    updateSteps H true (rootDescendants root)
  | .init already res flows =>
    [setEn (fun c => { c with res := res }), setEn (fun c => { c with flow := flows }),
     setEn (fun c => { c with name := fun _ => true })] ++
    (regsOf H (rootDescendants root)).map (fun r => setShadow r (fun _ => 0)) ++
    ((regsOf H already).map (fun r => (inReg H already r).map (fun x =>
      setShadow r (fun v => v ||| maskFor H x)))).flatten ++
    updateSteps H false ((rootDescendants root).filter
      (fun x => decide (x.info.name ∉ already.map (fun y => y.info.name))))
  | .read who field =>
    [fun p => (p.1, { p.2 with
      seen := p.2.seen ++ [(who, p.2.ctl.hw (H.reg field) &&& H.mask field != 0)] })]

/-- Which calls are made inside a critical section: all (389, 465, 480, 492, 509, 523, and 17 of
`interrupt/impl.hpp`) but `reset` (439-448). -/
def Api.locked : Api → Bool
  | .op .reset => false
  | _ => true

/-- The controller; its state is one part of the memory, its mutex `mutex_t` (437) is number 0. -/
def controller : Lang Api (Sys w) (Loc w) where
  part _ := 0
  locked := Api.locked
  mutex _ := 0
  start _ := Loc.zero
  body := Api.body H root

end
end Verif.Conc
