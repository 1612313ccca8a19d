import Verif.Sink.Spec
import Verif.Conc.Props
/-!
# Properties of log destinations
-/
namespace Verif.Sink
open Verif.Conc
variable {ν : Type}

/-! ### Several threads -/

theorem body_take (text : List ν) (k : Nat) (x : List ν) :
    ((text.map (fun x (p : Unit × List ν) => (p.1, p.2 ++ [x]))).take k).foldl (fun p f => f p) ((), x) =
      ((), x ++ text.take k) := by
  induction text generalizing k x with
  | nil => simp
  | cons a text ih =>
    cases k with
    | zero => simp
    | succ k => simp only [List.map_cons, List.take_succ_cons, List.foldl_cons, ih, List.append_assoc,
        List.singleton_append]

/-- A language in which a call gives a destination a text. -/
structure Writes (P : Lang (Write ν) (List ν) Unit) : Prop where
  part : ∀ c, P.part c = c.dest
  body : ∀ c, P.body c = Write.body c

theorem Writes.effect {P : Lang (Write ν) (List ν) Unit} (h : Writes P) (c : Write ν) (x : List ν) :
    P.effect c x = x ++ c.text := by
  have := body_take c.text c.text.length x
  rw [List.take_length, List.take_of_length_le (by simp)] at this
  rw [Lang.effect, h.body]
  show (List.foldl (fun p f => f p) ((), x) (Write.body c)).2 = _
  rw [Write.body, this]

theorem Writes.serial {P : Lang (Write ν) (List ν) Unit} (h : Writes P) (d : Nat)
    (o : List (Nat × Write ν)) (x : List ν) :
    P.serial d (o.map Prod.snd) x = x ++ ((atDest d o).map Prod.snd).flatten := by
  induction o generalizing x with
  | nil => simp [Lang.serial, atDest]
  | cons p o ih =>
    rw [List.map_cons, show p.2 :: o.map Prod.snd = [p.2] ++ o.map Prod.snd from rfl, serial_append, ih]
    by_cases hd : p.2.dest = d
    · rw [serial_one (by rw [h.part, hd]), h.effect, atDest, atDest, List.filter_cons,
        if_pos (by simpa using hd)]
      simp
    · have : (p.2.dest == d) = false := by simpa using hd
      rw [show [p.2] = [p].map Prod.snd from rfl, serial_other (by simpa [h.part] using hd), atDest,
        atDest, List.filter_cons, if_neg (by simp [this])]

theorem atDest_append (d : Nat) (a b : List (Nat × Write ν)) :
    atDest d (a ++ b) = atDest d a ++ atDest d b := by simp [atDest]

/-- What a destination has at any time: whole messages, the last one perhaps not finished. -/
theorem Writes.received {P : Lang (Write ν) (List ν) Unit} (h : Writes P) (out : Nat → List ν)
    (prog : Nat → List (Write ν)) (sched : List Nat) (d : Nat)
    (hx : ∀ n, ((St.initial out prog : St (Write ν) (List ν) Unit).run P (sched.take n)).Exclusive P d) :
    ∃ rest, ((St.initial out prog : St (Write ν) (List ν) Unit).run P sched).mem d ++ rest =
      out d ++ ((atDest d ((St.initial out prog : St (Write ν) (List ν) Unit).order P sched)).map
        Prod.snd).flatten ∧
      (((St.initial out prog : St (Write ν) (List ν) Unit).run P sched).Idle P d → rest = []) ∧
      (rest = [] ∨ ∃ o t m, atDest d ((St.initial out prog : St (Write ν) (List ν) Unit).order P sched)
        = o ++ [(t, m)] ∧ rest <:+ m) := by
  have M := memInv_run (P := P) (s := St.initial out prog) d (fun _ => rfl) sched hx
  by_cases hi : ((St.initial out prog : St (Write ν) (List ν) Unit).run P sched).Idle P d
  · refine ⟨[], ?_, fun _ => rfl, .inl rfl⟩
    have := M.idle hi
    rw [h.serial] at this
    rw [List.append_nil, this]; rfl
  · obtain ⟨t, ht⟩ := not_forall.1 hi
    obtain ⟨r, hr, hk⟩ := not_not.1 ht
    obtain ⟨o1, o2, done, e1, e2, e3, e4⟩ := M.busy t r hr hk
    rw [h.serial, h.body] at *
    have hat : atDest d ((St.initial out prog : St (Write ν) (List ν) Unit).order P sched) =
        atDest d o1 ++ [(t, r.call.text)] := by
      rw [e1, show o1 ++ (t, r.call) :: o2 = o1 ++ [(t, r.call)] ++ o2 by simp, atDest_append,
        atDest_append]
      have h2 : atDest d o2 = [] := by
        rw [atDest, List.filter_eq_nil_iff.2, List.map_nil]
        intro p hp
        have := e2 p hp
        rw [h.part] at this
        simpa using this
      rw [h2, List.append_nil]
      rw [h.part] at hk
      simp [atDest, hk]
    have hdone : done = (Write.body r.call).take done.length := by rw [e3]; simp
    refine ⟨r.call.text.drop done.length, ?_, fun h => absurd h hi,
      .inr ⟨_, _, _, hat, List.drop_suffix _ _⟩⟩
    rw [hdone] at e4
    have e5 := congrArg Prod.snd e4
    rw [show ((P.start r.call, ((St.initial out prog : St (Write ν) (List ν) Unit)).mem d ++
        ((atDest d o1).map Prod.snd).flatten)) = ((), out d ++ ((atDest d o1).map Prod.snd).flatten)
        from rfl, Write.body, body_take] at e5
    rw [← show _ = ((St.initial out prog : St (Write ν) (List ν) Unit).run P sched).mem d from e5, hat]
    simp

/-- Per thread, a destination gets the messages in the order of the program. -/
theorem ofThread_atDest (d t : Nat) (o : List (Nat × Write ν)) :
    ofThread t (atDest d o) = ((callsOf t o).filter (fun c => c.dest == d)).map Write.text := by
  induction o with
  | nil => rfl
  | cons p o ih =>
    obtain ⟨u, c⟩ := p
    simp only [ofThread, atDest, callsOf] at ih ⊢
    by_cases h1 : c.dest = d <;> by_cases h2 : u = t <;> simp_all

theorem logs_dest {n d : Nat} (hd : d < n) (ms : List (List ν)) :
    ((logs n ms).filter (fun c => c.dest == d)).map Write.text = ms := by
  induction ms with
  | nil => rfl
  | cons m ms ih =>
    rw [logs, List.map_cons, List.flatten_cons, List.filter_append, List.map_append]
    rw [logs] at ih
    rw [ih, logAll, List.filter_map, List.map_map]
    have : (List.range n).filter ((fun c : Write ν => c.dest == d) ∘ fun d => ⟨d, m⟩) = [d] := by
      show (List.range n).filter (fun x => x == d) = [d]
      rw [nodup_filter_eq List.nodup_range, if_pos (List.mem_range.2 hd)]
    rw [this]
    rfl

theorem thread_order {P : Lang (Write ν) (List ν) Unit} {n d : Nat} (hd : d < n) (out : Nat → List ν)
    (msgs : Nat → List (List ν)) (sched : List Nat) (t : Nat) :
    ofThread t (atDest d ((St.initial out (fun t => logs n (msgs t)) :
      St (Write ν) (List ν) Unit).order P sched)) ++
      (((((St.initial out (fun t => logs n (msgs t)) : St (Write ν) (List ν) Unit).run P sched).thr
        t).todo).filter (fun c => c.dest == d)).map Write.text = msgs t := by
  have := program_order (P := P) (St.initial out (fun t => logs n (msgs t)) :
      St (Write ν) (List ν) Unit) sched t
  rw [ofThread_atDest, ← List.map_append, ← List.filter_append, this]
  exact logs_dest hd (msgs t)

theorem writes_binary (type : Nat → Nat) : Writes (binary ν type) := ⟨fun _ => rfl, fun _ => rfl⟩
theorem writes_plain : Writes (plain ν) := ⟨fun _ => rfl, fun _ => rfl⟩

/-- C126: however many threads log through the binary logger, in whatever interleaving of their steps:
at any time every destination has received whole messages, not mixed with each other, the last one
perhaps not yet finished; and the messages of each thread in the order in which it logged them, none
twice and none left out. -/
theorem C126_whole (type : Nat → Nat) (n : Nat) (out : Nat → List ν) (msgs : Nat → List (List ν))
    (sched : List Nat) (d : Nat) (hd : d < n) :
    ∃ (o : List (Nat × List ν)) (rest : List ν),
      ((St.initial out (fun t => logs n (msgs t)) : St (Write ν) (List ν) Unit).run
        (binary ν type) sched).mem d ++ rest = out d ++ (o.map Prod.snd).flatten ∧
      (rest = [] ∨ ∃ p t m, o = p ++ [(t, m)] ∧ rest <:+ m) ∧
      ∀ t, ofThread t o <+: msgs t := by
  obtain ⟨rest, h1, _, h3⟩ := (writes_binary (ν := ν) type).received out (fun t => logs n (msgs t)) sched d
    (fun k => exclusive_locked (fun _ _ _ => rfl) _ d)
  exact ⟨_, rest, h1, h3, fun t => ⟨_, thread_order hd out msgs sched t⟩⟩

/-- C126: when all log statements are over, every destination has all messages. -/
theorem C126_all (type : Nat → Nat) (n : Nat) (out : Nat → List ν) (msgs : Nat → List (List ν))
    (sched : List Nat) (hdone : ((St.initial out (fun t => logs n (msgs t)) :
      St (Write ν) (List ν) Unit).run (binary ν type) sched).Done) (d : Nat) (hd : d < n) :
    ∃ o : List (Nat × List ν),
      ((St.initial out (fun t => logs n (msgs t)) : St (Write ν) (List ν) Unit).run
        (binary ν type) sched).mem d = out d ++ (o.map Prod.snd).flatten ∧
      ∀ t, ofThread t o = msgs t := by
  obtain ⟨rest, h1, h2, _⟩ := (writes_binary (ν := ν) type).received out (fun t => logs n (msgs t)) sched d
    (fun k => exclusive_locked (fun _ _ _ => rfl) _ d)
  have hr : rest = [] := h2 (by
    rintro t ⟨r, hr, _⟩
    rw [(hdone t).1] at hr; cases hr)
  subst hr
  rw [List.append_nil] at h1
  refine ⟨_, h1, fun t => ?_⟩
  have := thread_order (P := binary ν type) hd out msgs sched t
  rwa [(hdone t).2, List.filter_nil, List.map_nil, List.append_nil] at this

/-- C125 for logging: all log statements of finitely many threads are over after finitely many rounds
in which every thread gets a turn. -/
theorem C125_logging (type : Nat → Nat) (k n : Nat) (out : Nat → List ν) (msgs : Nat → List (List ν))
    (hn : ∀ t, n ≤ t → msgs t = []) :
    ∃ m, ∀ rounds : List (List Nat), (∀ r ∈ rounds, ∀ t, t < n → t ∈ r) → m ≤ rounds.length →
      ((St.initial out (fun t => logs k (msgs t)) : St (Write ν) (List ν) Unit).run
        (binary ν type) rounds.flatten).Done := by
  refine ⟨St.total (binary ν type) n (St.initial out (fun t => logs k (msgs t))), fun rounds hr hl =>
    rounds_done (lockInv_initial _ _) (n := n) (fun t ht => ⟨rfl, ?_⟩) rounds hr hl⟩
  show logs k (msgs t) = []
  rw [hn t ht]; rfl

/-- C127, what holds: messages whose log statements are over before others begin come before these at
every destination. -/
theorem C127_realtime_partial (type : Nat → Nat) (n : Nat) (out : Nat → List ν)
    (msgs : Nat → List (List ν)) (sched later : List Nat) (d : Nat) :
    ∃ o, atDest d ((St.initial out (fun t => logs n (msgs t)) : St (Write ν) (List ν) Unit).order
        (binary ν type) (sched ++ later)) =
      atDest d ((St.initial out (fun t => logs n (msgs t)) : St (Write ν) (List ν) Unit).order
        (binary ν type) sched) ++ o := by
  rw [order_append, atDest_append]
  exact ⟨_, rfl⟩

/-- C127, what holds: if one thread logs, all destinations get the same. -/
theorem C127_single_partial (type : Nat → Nat) (n : Nat) (out : Nat → List ν)
    (msgs : Nat → List (List ν)) (t0 : Nat) (h1 : ∀ t, t ≠ t0 → msgs t = []) (sched : List Nat)
    (hdone : ((St.initial out (fun t => logs n (msgs t)) :
      St (Write ν) (List ν) Unit).run (binary ν type) sched).Done) (d : Nat) (hd : d < n) :
    ((St.initial out (fun t => logs n (msgs t)) : St (Write ν) (List ν) Unit).run
        (binary ν type) sched).mem d = out d ++ (msgs t0).flatten := by
  obtain ⟨o, e, ho⟩ := C126_all type n out msgs sched hdone d hd
  have hall : ∀ p ∈ o, p.1 = t0 := by
    intro p hp
    by_contra hne
    have h : p.2 ∈ ofThread p.1 o := by
      simp only [ofThread, List.mem_map, List.mem_filter]
      exact ⟨p, ⟨hp, by simp⟩, rfl⟩
    rw [ho, h1 p.1 hne] at h
    simp at h
  rw [e, ← ho t0, ofThread, List.filter_eq_self.2 (by simpa using hall)]

/-- Two threads with one message each. -/
def twoMsgs : Nat → List (List Nat)
  | 0 => [[1, 1]]
  | 1 => [[2, 2]]
  | _ => []

/-- Thread 1 comes between the two destinations of thread 0. -/
def crossSched : List Nat := List.replicate 4 0 ++ List.replicate 8 1 ++ List.replicate 4 0

/-- C127 is violated: two destinations can receive the messages of two threads in different orders,
although both have critical sections. -/
theorem C127_violated_orders : ∃ (type : Nat → Nat) (msgs : Nat → List (List Nat)) (sched : List Nat),
    (∀ t, t < 2 → (((St.initial (fun _ => []) (fun t => logs 2 (msgs t)) :
      St (Write Nat) (List Nat) Unit).run (binary Nat type) sched).thr t).todo.isEmpty ∧
      (((St.initial (fun _ => []) (fun t => logs 2 (msgs t)) :
      St (Write Nat) (List Nat) Unit).run (binary Nat type) sched).thr t).cur.isNone) ∧
    ((St.initial (fun _ => []) (fun t => logs 2 (msgs t)) :
      St (Write Nat) (List Nat) Unit).run (binary Nat type) sched).mem 0 = [1, 1, 2, 2] ∧
    ((St.initial (fun _ => []) (fun t => logs 2 (msgs t)) :
      St (Write Nat) (List Nat) Unit).run (binary Nat type) sched).mem 1 = [2, 2, 1, 1] :=
  ⟨id, twoMsgs, crossSched, by decide +kernel, by decide +kernel, by decide +kernel⟩

/-- Even if both destinations have the same type and so the same mutex. -/
theorem C127_violated_same_type : ∃ (msgs : Nat → List (List Nat)) (sched : List Nat),
    ((St.initial (fun _ => []) (fun t => logs 2 (msgs t)) :
      St (Write Nat) (List Nat) Unit).run (binary Nat (fun _ => 0)) sched).mem 0 = [1, 1, 2, 2] ∧
    ((St.initial (fun _ => []) (fun t => logs 2 (msgs t)) :
      St (Write Nat) (List Nat) Unit).run (binary Nat (fun _ => 0)) sched).mem 1 = [2, 2, 1, 1] :=
  ⟨twoMsgs, crossSched, by decide +kernel, by decide +kernel⟩

/-- C128, what holds: through the text logger, a destination to which no two threads write at the same
time receives whole lines, per thread in the order in which they are logged. -/
theorem C128_whole_partial (n : Nat) (out : Nat → List ν) (msgs : Nat → List (List ν))
    (sched : List Nat) (d : Nat) (hd : d < n)
    (hx : ∀ k, ((St.initial out (fun t => logs n (msgs t)) : St (Write ν) (List ν) Unit).run
      (plain ν) (sched.take k)).Exclusive (plain ν) d) :
    ∃ (o : List (Nat × List ν)) (rest : List ν),
      ((St.initial out (fun t => logs n (msgs t)) : St (Write ν) (List ν) Unit).run
        (plain ν) sched).mem d ++ rest = out d ++ (o.map Prod.snd).flatten ∧
      (rest = [] ∨ ∃ p t m, o = p ++ [(t, m)] ∧ rest <:+ m) ∧
      ∀ t, ofThread t o <+: msgs t := by
  obtain ⟨rest, h1, _, h3⟩ := (writes_plain (ν := ν)).received out (fun t => logs n (msgs t)) sched d hx
  exact ⟨_, rest, h1, h3, fun t => ⟨_, thread_order hd out msgs sched t⟩⟩

/-- Both threads write, one element each. -/
def mixSched : List Nat := [0, 1, 0, 1, 0, 1, 0, 1]

/-- C128 is violated: two threads that log through the text logger at the same time can mix their
lines. No order of whole lines gives what the destination has received. -/
theorem C128_violated_mixed : ∃ (msgs : Nat → List (List Nat)) (sched : List Nat),
    (∀ t, t < 2 → (((St.initial (fun _ => []) (fun t => logs 1 (msgs t)) :
      St (Write Nat) (List Nat) Unit).run (plain Nat) sched).thr t).todo.isEmpty ∧
      (((St.initial (fun _ => []) (fun t => logs 1 (msgs t)) :
      St (Write Nat) (List Nat) Unit).run (plain Nat) sched).thr t).cur.isNone) ∧
    ∀ o : List (Nat × List Nat), (∀ t, ofThread t o = msgs t) →
      ((St.initial (fun _ => []) (fun t => logs 1 (msgs t)) :
        St (Write Nat) (List Nat) Unit).run (plain Nat) sched).mem 0 ≠ (o.map Prod.snd).flatten := by
  refine ⟨twoMsgs, mixSched, by decide +kernel, fun o ho => ?_⟩
  rw [show ((St.initial (fun _ => []) (fun t => logs 1 (twoMsgs t)) :
        St (Write Nat) (List Nat) Unit).run (plain Nat) mixSched).mem 0 = [1, 2, 1, 2] by
    decide +kernel]
  have hall : ∀ p ∈ o, p.2 = [1, 1] ∨ p.2 = [2, 2] := by
    intro p hp
    have h : p.2 ∈ ofThread p.1 o := by
      simp only [ofThread, List.mem_map, List.mem_filter]
      exact ⟨p, ⟨hp, by simp⟩, rfl⟩
    rw [ho] at h
    match hp1 : p.1 with
    | 0 => rw [hp1] at h; exact .inl (by simpa [twoMsgs] using h)
    | 1 => rw [hp1] at h; exact .inr (by simpa [twoMsgs] using h)
    | n + 2 => rw [hp1] at h; simp [twoMsgs] at h
  intro e
  cases o with
  | nil => simp at e
  | cons p o =>
    rcases hall p (by simp) with h | h <;> rw [List.map_cons, h] at e <;> simp at e

/-! ### Destinations with a state of their own -/

/-- The effect on the outside does not depend on the state of the object. -/
def Dest.Stateless {δ β : Type} (D : Dest δ β ν) : Prop :=
  ∀ m s s' b, (D.write m (s, b)).2 = (D.write m (s', b)).2

theorem keepLog_stateless {δ β : Type} (ds es : List (Dest δ β ν × δ))
    (he : es.map Prod.fst = ds.map Prod.fst) (h : ∀ d ∈ ds, d.1.Stateless) (b : β) (m : List ν) :
    (keepLog es b m).2 = binaryLog ds b m ∧
      (keepLog es b m).1.map Prod.fst = ds.map Prod.fst := by
  induction ds generalizing es b with
  | nil =>
    rw [List.map_nil, List.map_eq_nil_iff] at he
    subst he
    exact ⟨rfl, rfl⟩
  | cons d ds ih =>
    cases es with
    | nil => simp at he
    | cons e es =>
      obtain ⟨D, s⟩ := d
      obtain ⟨E, r⟩ := e
      simp only [List.map_cons, List.cons.injEq] at he
      obtain ⟨rfl, he⟩ := he
      have hs := h (E, s) (by simp) m r s b
      obtain ⟨i1, i2⟩ := ih es he (fun d hd => h d (by simp [hd])) (E.write m (r, b)).2
      refine ⟨?_, by simp only [keepLog, List.map_cons, i2]⟩
      simp only [keepLog, i1]
      simp only [binaryLog, List.foldl_cons]
      rw [hs]

/-- C129, what holds: if what destinations do does not depend on a state of their own, the binary
logger has the effect of the destinations taking the messages one after the other. -/
theorem C129_binary_partial {δ β : Type} (ds : List (Dest δ β ν × δ)) (h : ∀ d ∈ ds, d.1.Stateless)
    (b : β) (ms : List (List ν)) : ms.foldl (binaryLog ds) b = keepLogs ds b ms := by
  have key : ∀ (es : List (Dest δ β ν × δ)), es.map Prod.fst = ds.map Prod.fst →
      ms.foldl (binaryLog ds) b = keepLogs es b ms := by
    induction ms generalizing b with
    | nil => intro es _; rfl
    | cons m ms ih =>
      intro es he
      obtain ⟨h1, h2⟩ := keepLog_stateless ds es he h b m
      rw [List.foldl_cons, keepLogs, h1]
      exact ih _ _ h2
  exact key ds rfl

/-- A destination that has a memory of words and writes each message where the last one ended. -/
def indexed : Dest Nat (Nat → Nat) Nat where
  write m p := m.foldl (fun p x => (p.1 + 1, fun i => if i = p.1 then x else p.2 i)) p

/-- C129 is violated: every message is given to a copy of the destination, so a destination that
counts starts again for each message. Here the second message overwrites the first. -/
theorem C129_violated_copy : ∃ (D : Dest Nat (Nat → Nat) Nat) (s : Nat) (b : Nat → Nat)
    (ms : List (List Nat)), (ms.foldl (binaryLog [(D, s)]) b) 0 = 8 ∧
      (keepLogs [(D, s)] b ms) 0 = 7 ∧ (keepLogs [(D, s)] b ms) 1 = 8 ∧
      (ms.foldl (binaryLog [(D, s)]) b) 1 = 0 :=
  ⟨indexed, 0, fun _ => 0, [[7], [8]], by decide, by decide, by decide, by decide⟩

/-- The effect on the outside does not depend on the iterator. -/
def Iter.Stateless {δ β : Type} (I : Iter δ β ν) : Prop :=
  ∀ x s s' b, (I.put x (s, b)).2 = (I.put x (s', b)).2

theorem putAll_stateless {δ β : Type} {I : Iter δ β ν} (h : I.Stateless) (text : List ν) (s s' : δ)
    (b : β) : (putAll I (s, b) text).2 = (putAll I (s', b) text).2 := by
  induction text generalizing s s' b with
  | nil => rfl
  | cons x text ih =>
    simp only [putAll, List.foldl_cons] at ih ⊢
    have hx := h x s s' b
    generalize hp : I.put x (s, b) = p at hx ⊢
    generalize hq : I.put x (s', b) = q at hx ⊢
    obtain ⟨p1, p2⟩ := p
    obtain ⟨q1, q2⟩ := q
    obtain rfl : p2 = q2 := hx
    exact ih _ _ _

theorem putAll_append {δ β : Type} (I : Iter δ β ν) (p : δ × β) (a b : List ν) :
    putAll I p (a ++ b) = putAll I (putAll I p a) b := by simp [putAll]

/-- C129, what holds: if what an output iterator does not depend on its position (as for iterators that
append to a stream or a container), the text logger gives it all lines one after the other. -/
theorem C129_text_partial {δ β : Type} (nl : ν) (I : Iter δ β ν) (h : I.Stateless) (s : δ) (b : β)
    (ls : List (List ν × List ν)) :
    ls.foldl (textLog nl [(I, s)]) b =
      (putAll I (s, b) (ls.map (fun l => l.1 ++ l.2 ++ [nl])).flatten).2 := by
  induction ls generalizing b with
  | nil => rfl
  | cons l ls ih =>
    rw [List.foldl_cons, ih, List.map_cons, List.flatten_cons, putAll_append]
    have e : (putAll I (s, b) (l.1 ++ l.2 ++ [nl])).2 = textLog nl [(I, s)] b l := by
      rw [putAll_append, putAll_append]
      simp only [textLog, List.foldl_cons, List.foldl_nil, Iter.formatTo]
      show (I.put nl (putAll I (putAll I (s, b) l.1) l.2)).2 = _
      have e1 : (putAll I (putAll I (s, b) l.1) l.2).2 =
          (putAll I (s, (putAll I (s, b) l.1).2) l.2).2 :=
        putAll_stateless h l.2 (putAll I (s, b) l.1).1 s (putAll I (s, b) l.1).2
      have e2 := h nl (putAll I (putAll I (s, b) l.1) l.2).1 s (putAll I (putAll I (s, b) l.1) l.2).2
      rw [show (putAll I (putAll I (s, b) l.1) l.2) = ((putAll I (putAll I (s, b) l.1) l.2).1,
        (putAll I (putAll I (s, b) l.1) l.2).2) from rfl, e2, e1]
      rfl
    have h2 := putAll_stateless h (ls.map (fun l => l.1 ++ l.2 ++ [nl])).flatten
      (putAll I (s, b) (l.1 ++ l.2 ++ [nl])).1 s (putAll I (s, b) (l.1 ++ l.2 ++ [nl])).2
    rw [e] at h2
    rw [← h2, ← e]

/-- An iterator into a buffer of characters: a position. -/
def pointer : Iter Nat (Nat → Nat) Nat where
  put x p := (p.1 + 1, fun i => if i = p.1 then x else p.2 i)

/-- C129 is violated for the text logger as well: through an iterator with a position, prefix, message
and line end are all written to the same place. A line `1 2` with line end 0: what is left is the line
end where the line began; the text of the line should be there. -/
theorem C129_violated_position : ∃ (I : Iter Nat (Nat → Nat) Nat) (b : Nat → Nat)
    (l : List Nat × List Nat), (textLog 0 [(I, 0)] b l) 0 = 0 ∧ (textLog 0 [(I, 0)] b l) 1 = 9 ∧
      (putAll I (0, b) (l.1 ++ l.2 ++ [0])).2 0 = 1 ∧
      (putAll I (0, b) (l.1 ++ l.2 ++ [0])).2 1 = 2 :=
  ⟨pointer, fun _ => 9, ([1], [2]), by decide, by decide, by decide, by decide⟩

/-! ### Cases -/

/-- Three threads, two destinations of one type. -/
def exMsgs : Nat → List (List Nat)
  | 0 => [[1, 2, 3], [4]]
  | 1 => [[5, 6]]
  | 2 => [[], [7, 8]]
  | _ => []

/-- Irregular turns. -/
def exSched : List Nat := [0, 1, 0, 2, 2, 0, 1, 0, 0, 1, 2] ++ (List.replicate 20 [1, 0, 2, 2]).flatten

example : ((St.initial (fun _ => []) (fun t => logs 2 (exMsgs t)) :
      St (Write Nat) (List Nat) Unit).run (binary Nat (fun _ => 0)) exSched).mem 0 =
    [1, 2, 3, 5, 6, 4, 7, 8] := by decide +kernel

example : ((St.initial (fun _ => []) (fun t => logs 2 (exMsgs t)) :
      St (Write Nat) (List Nat) Unit).run (binary Nat (fun _ => 0)) (exSched.take 12)).mem 0 =
    [1, 2, 3, 5] := by decide +kernel

/-- C128: two threads that log one after the other through the text logger. -/
def calmSched : List Nat := [0, 0, 0, 0, 1, 1, 1, 1]
example (k : Nat) : ((St.initial (fun _ => []) (fun t => logs 1 (twoMsgs t)) :
    St (Write Nat) (List Nat) Unit).run (plain Nat) (calmSched.take k)).Exclusive (plain Nat) 0 := by
  have two : ∀ t, 2 ≤ t → (((St.initial (fun _ => []) (fun t => logs 1 (twoMsgs t)) :
      St (Write Nat) (List Nat) Unit).run (plain Nat) (calmSched.take k)).thr t).cur = none := by
    have h : ((St.initial (fun _ => []) (fun t => logs 1 (twoMsgs t)) :
      St (Write Nat) (List Nat) Unit)).Few 2 := by
      intro t ht
      match t, ht with
      | n + 2, _ => exact ⟨rfl, rfl⟩
    exact fun t ht => ((total_run (P := plain Nat) h (calmSched.take k)).1 t ht).1
  have key : ∀ m, m < 9 → ¬ ((((St.initial (fun _ => []) (fun t => logs 1 (twoMsgs t)) :
      St (Write Nat) (List Nat) Unit).run (plain Nat) (calmSched.take m)).thr 0).cur.isSome ∧
      (((St.initial (fun _ => []) (fun t => logs 1 (twoMsgs t)) :
      St (Write Nat) (List Nat) Unit).run (plain Nat) (calmSched.take m)).thr 1).cur.isSome) := by
    decide +kernel
  have hk : ¬ ((((St.initial (fun _ => []) (fun t => logs 1 (twoMsgs t)) :
      St (Write Nat) (List Nat) Unit).run (plain Nat) (calmSched.take k)).thr 0).cur.isSome ∧
      (((St.initial (fun _ => []) (fun t => logs 1 (twoMsgs t)) :
      St (Write Nat) (List Nat) Unit).run (plain Nat) (calmSched.take k)).thr 1).cur.isSome) := by
    by_cases h : k < 9
    · exact key k h
    · have := key 8 (by omega)
      rw [List.take_of_length_le (by simp [calmSched])] at this
      rw [List.take_of_length_le (by simp [calmSched]; omega)]
      exact this
  rintro t u ⟨r, hr, _⟩ ⟨q, hq, _⟩
  match t, u with
  | 0, 0 => rfl
  | 1, 1 => rfl
  | 0, 1 => exact absurd ⟨by rw [hr]; rfl, by rw [hq]; rfl⟩ hk
  | 1, 0 => exact absurd ⟨by rw [hq]; rfl, by rw [hr]; rfl⟩ hk
  | n + 2, _ => rw [two _ (by omega)] at hr; cases hr
  | _, n + 2 => rw [two _ (by omega)] at hq; cases hq

/-- A destination that appends to what is outside has no state of its own. -/
def appending : Dest Unit (List Nat) Nat := ⟨fun m p => (p.1, p.2 ++ m)⟩
example : appending.Stateless := fun _ _ _ _ => rfl
example : [[1], [2, 3]].foldl (binaryLog [(appending, ()), (appending, ())]) [] =
    [1, 1, 2, 3, 2, 3] := by decide

/-- An iterator that appends. -/
def inserter : Iter Unit (List Nat) Nat := ⟨fun x p => (p.1, p.2 ++ [x])⟩
example : inserter.Stateless := fun _ _ _ _ => rfl
example : [([1], [2]), ([3], [])].foldl (textLog 0 [(inserter, ())]) [] = [1, 2, 0, 3, 0] := by decide

end Verif.Sink
