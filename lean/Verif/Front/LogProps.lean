import Verif.Front.TextLemmas
import Verif.Log.Props

/-! # What log statements do (C101, C103, C104, C105, C106) -/
namespace Verif.Front
open Spec

variable {S : Type}

/-! ## A program to try things on -/

/-- Numbers are written in place of the braces of a field; enough for the examples. -/
def exFormat : Str → List (Log.CType × Int) → Str
  | '{' :: '}' :: s, (_, v) :: as => (toString v).toList ++ exFormat s as
  | a :: s, as => a :: exFormat s as
  | [], _ => []

def exFixed : Fixed := ⟨exFormat, fun s _ => s.length, fun m => m.length, 42, "v1".toList⟩

def exExec (e : Env) (call : Call) (vals : List Int) (time : Nat) : Exec :=
  ⟨e, call, vals, fun u => u, false, time⟩

/-- Three statements: one in flavor 7, one without arguments, one at a level of its own. -/
def exRun : List Exec :=
  [exExec [.module "net".toList, .level 4, .unit 3] (.log ⟨"x = {}".toList, [.prim .int]⟩) [-5] 17,
   exExec [.flavor (some 7), .module "crypto".toList] (.atLevel 2 ⟨"key {}".toList, [.prim .uint]⟩) [9] 18,
   exExec [.module "net".toList, .level 4] (.atLevel 3 ⟨"low".toList, []⟩) [] 123456789]

/-- A destination that passes on what it gets. -/
def forward (sent : List Nat) : Dest Unit := ⟨(), fun _ r => ((), r), sent⟩

/-- The default flavor has a text logger, flavor 7 a binary one. -/
def exSys : Sys Unit :=
  ⟨fun f => if f = some 7 then .binary ⟨[forward []], fun _ => forward []⟩ else .text [.append [], .append "old".toList],
    []⟩

def Sink.content : Sink → Str
  | .append s => s
  | .pointer b => b

/-- What the destinations of a logger have. -/
def Logger.content : Logger Unit → List Str × List (List Nat)
  | .text ds => (ds.map Sink.content, [])
  | .binary b => ([], b.dests.map (·.sent))
  | _ => ([], [])

example : ((exSys.run exFixed exRun).map fun s => (s.loggers none).content.1.map String.ofList) =
      some ["      17us INFO [net]: x = -5\n123456789us WARN [net]: low\n",
        "old      17us INFO [net]: x = -5\n123456789us WARN [net]: low\n"] ∧
    ((exSys.run exFixed exRun).map fun s => (s.loggers (some 7)).content.2) =
      some [[35, 0, 6, 1, 6, 0, 0, 0, 9, 0, 0, 0]] := by
  decide +kernel

/-! ## C103 -/

/-- Every appending destination of a text logger gets, after what it had, the lines of all messages of the
flavor, once each and in the order of execution. Missing from the full statement: destinations that do not
move on by themselves, like pointers. -/
theorem C103_text_partial (c : Fixed) (f : Option Nat) (xs : List Exec) (s s' : Sys S)
    (h : s.run c xs = some s') (ds : List Sink) (hd : s.loggers f = .text ds) :
    ∃ ds', s'.loggers f = .text ds' ∧ ds'.length = ds.length ∧
      ∀ (i : Nat) t, ds[i]? = some (Sink.append t) →
        ds'[i]? = some (Sink.append (t ++ (xs.flatMap (saidTo c f)).flatMap (line c))) := by
  induction xs generalizing s ds with
  | nil =>
    cases h
    exact ⟨ds, hd, rfl, fun i t hi => by simpa using hi⟩
  | cons x xs ih =>
    obtain ⟨t, h1, h2⟩ := run_cons h
    obtain ⟨ds1, e1, l1, g1⟩ := step_text h1 hd
    obtain ⟨ds2, e2, l2, g2⟩ := ih t h2 ds1 e1
    refine ⟨ds2, e2, by rw [l2, l1], ?_⟩
    intro i u hi
    rw [g2 i _ (g1 i u hi), List.flatMap_cons, List.flatMap_append, List.append_assoc]

/-- Every destination of a binary logger sends on what it would send when called with all records of the
flavor, once each and in the order of execution, except those for which the environment names a writer,
which go to that writer and nowhere else. Missing from the full statement: destinations whose answer
depends on what they were called with before. -/
theorem C103_binary_partial (c : Fixed) (f : Option Nat) (xs : List Exec) (s s' : Sys S)
    (h : s.run c xs = some s') (b : Binary S) (hb : s.loggers f = .binary b) :
    ∃ b', s'.loggers f = .binary b' ∧ b'.dests.length = b.dests.length ∧
      (∀ (i : Nat) d, b.dests[i]? = some d → (∀ st r, (d.call st r).2 = (d.call d.state r).2) →
        ∃ d', b'.dests[i]? = some d' ∧ d'.sent = d.sent ++ feed d.call d.state (recordsFor c f none xs)) ∧
      ∀ w, (∀ st r, ((b.writers w).call st r).2 = ((b.writers w).call (b.writers w).state r).2) →
        (b'.writers w).sent =
          (b.writers w).sent ++ feed (b.writers w).call (b.writers w).state (recordsFor c f (some w) xs) := by
  refine ⟨_, run_binary xs h hb, by simp, ?_, ?_⟩
  · intro i d hi hs
    refine ⟨_, by rw [List.getElem?_map, hi]; rfl, ?_⟩
    simp only [Dest.after, feed_stateless d.call d.state hs]
  · intro w hs
    simp only [Dest.after, feed_stateless _ _ hs]

/-- No record of a run is lost on the way: all those that the statements call for can be made. -/
theorem C103_records (c : Fixed) (f : Option Nat) (xs : List Exec) (s s' : Sys S)
    (h : s.run c xs = some s') (b : Binary S) (hb : s.loggers f = .binary b) :
    ∀ x ∈ xs, ∀ r ∈ recordsTo c f x, r.2.isSome := by
  induction xs generalizing s b with
  | nil => simp
  | cons x xs ih =>
    obtain ⟨t, h1, h2⟩ := run_cons h
    intro y hy
    rcases List.mem_cons.mp hy with rfl | hy
    · intro r hr
      rcases step_binary h1 hb with ⟨h3, -⟩ | ⟨w, q, e, h3, -, -⟩
      · rw [h3] at hr; simp at hr
      · rw [h3, List.mem_singleton] at hr
        rw [hr]; rfl
    · rcases step_binary h1 hb with ⟨-, h4⟩ | ⟨w, q, e, -, -, h5⟩
      · exact ih t h2 _ h4 y hy
      · exact ih t h2 _ h5 y hy

example : ∃ s', exSys.run exFixed exRun = some s' ∧ exSys.loggers none = .text [.append [], .append "old".toList] ∧
    ((exRun.flatMap (saidTo exFixed none)).map (line exFixed)).length = 2 ∧
    recordsFor exFixed (some 7) none exRun = [[35, 0, 6, 1, 6, 0, 0, 0, 9, 0, 0, 0]] := by
  have h : (exSys.run exFixed exRun).isSome := by decide +kernel
  obtain ⟨s', hs⟩ := Option.isSome_iff_exists.mp h
  exact ⟨s', hs, rfl, by decide +kernel, by decide +kernel⟩

/-- A pointer is not moved on: what is written for a statement overwrites itself, and the next statement
overwrites it again. -/
theorem C103_violated_pointer :
    ((Sys.run exFixed (⟨fun _ => .text [.pointer (List.replicate 30 '.')], []⟩ : Sys Unit)
      [exExec [.level 4] (.log ⟨"abcdefghijklmnopqrstuvwxyz".toList, []⟩) [] 1]).map
        fun s => (s.loggers none).content.1.map String.ofList) =
      some ["\nbcdefghijklmnopqrstuvwxyz ..."] ∧
    ((Sys.run exFixed (⟨fun _ => .text [.append []], []⟩ : Sys Unit)
      [exExec [.level 4] (.log ⟨"abcdefghijklmnopqrstuvwxyz".toList, []⟩) [] 1]).map
        fun s => (s.loggers none).content.1.map String.ofList) =
      some ["       1us INFO [default]: abcdefghijklmnopqrstuvwxyz\n"] := by
  decide +kernel

/-- A destination that numbers the records. -/
def numbering : Dest Nat := ⟨0, fun n r => (n + 1, n :: r), []⟩

/-- A destination with a state starts anew with every record, since the logger calls a copy of it: one that
puts a number before every record always writes the same number. -/
theorem C103_violated_state :
    ((Sys.run exFixed (⟨fun _ => .binary ⟨[numbering], fun _ => numbering⟩, []⟩ : Sys Nat)
      [exExec [.level 4] (.log ⟨"a".toList, []⟩) [] 1, exExec [.level 4] (.log ⟨"bc".toList, []⟩) [] 2]).map
        fun s => (match s.loggers none with | .binary b => b.dests.map (·.sent) | _ => [])) =
      some [[0, 17, 0, 0, 0, 0, 33, 0, 0, 0]] ∧
    recordsFor exFixed none none
      [exExec [.level 4] (.log ⟨"a".toList, []⟩) [] 1, exExec [.level 4] (.log ⟨"bc".toList, []⟩) [] 2] =
        [[17, 0, 0, 0], [33, 0, 0, 0]] ∧
    feed numbering.call numbering.state [[17, 0, 0, 0], [33, 0, 0, 0]] = [0, 17, 0, 0, 0, 1, 33, 0, 0, 0] := by
  decide +kernel

/-! ## C101 -/

/-- A logger of the user is called once for every execution of a statement of its flavor, in the order of
execution; the environment that it gets answers with the level of the statement and the module, the unit and
the writer of the environment that the statement stands in. -/
theorem C101_logger (c : Fixed) (f : Option Nat) (xs : List Exec) (s s' : Sys S)
    (h : s.run c xs = some s') (v : VersionFn) (seen : List Seen) (hd : s.loggers f = .custom v seen) :
    ∃ ys, s'.loggers f = .custom v (seen ++ ys) ∧ List.Forall₂ (Heard c) ys (xs.flatMap (toldTo c v f)) := by
  induction xs generalizing s seen with
  | nil =>
    cases h
    exact ⟨[], by simpa using hd, .nil⟩
  | cons x xs ih =>
    obtain ⟨t, h1, h2⟩ := run_cons h
    have key : ∃ y1, t.loggers f = .custom v (seen ++ y1) ∧ List.Forall₂ (Heard c) y1 (toldTo c v f x) := by
      by_cases hv : flavorOf x = f ∧ isVersion x = true ∧ v = .withEnv
      · obtain ⟨rfl, hx, rfl⟩ := hv
        obtain ⟨e, l, -, -, h3, -, h4⟩ := step_version h1 hx
        rw [hd, Logger.version, Option.some.injEq] at h3
        refine ⟨[.version e c.buildId c.versionString], ?_, ?_⟩
        · rw [h4, ← h3]; simp
        · rw [toldTo, if_pos ⟨rfl, hx, rfl⟩]
          exact .cons ⟨rfl, rfl⟩ .nil
      · rw [toldTo, if_neg hv]
        by_cases hw : v = .withEnv
        · subst hw
          by_cases hf : flavorOf x = f
          · have hx : isVersion x = false := by
              cases hx : isVersion x with
              | false => rfl
              | true => exact absurd ⟨hf, hx, rfl⟩ hv
            subst hf
            rw [saidTo, if_pos rfl, if_neg (by simp [hx])]
            cases hm : said x with
            | none => exact ⟨[], by rw [step_silent h1 hm hx, hd]; simp, .nil⟩
            | some m =>
              obtain ⟨y, l, g1, g2, g3⟩ := step_said h1 hm
              rw [hd, Logger.log, Option.some.injEq] at g2
              exact ⟨[.log y], by rw [g3, ← g2]; simp, .cons g1 .nil⟩
          · rw [saidTo, if_neg hf]
            refine ⟨[], ?_, .nil⟩
            have hf' : ¬ f = flavorOf x := fun e => hf e.symm
            cases hx : isVersion x with
            | true =>
              obtain ⟨e, l, -, -, -, -, g2⟩ := step_version h1 hx
              rw [g2]; simp [hf', hd]
            | false =>
              cases hm : said x with
              | none => rw [step_silent h1 hm hx]; simp [hd]
              | some m =>
                obtain ⟨y, l, -, -, g3⟩ := step_said h1 hm
                rw [g3]; simp [hf', hd]
        · rcases step_plain h1 f (by intro e t; rw [hd]; cases v <;> first | rfl | exact absurd rfl hw)
            with ⟨g1, g2⟩ | ⟨m, y, g1, g2, g3⟩
          · rw [g1, g2, hd]
            exact ⟨[], by simp, .nil⟩
          · rw [hd, Logger.log, Option.some.injEq] at g3
            rw [g1]
            exact ⟨[.log y], g3.symm, .cons g2 .nil⟩
    obtain ⟨y1, e1, f1⟩ := key
    obtain ⟨y2, e2, f2⟩ := ih t h2 _ e1
    exact ⟨y1 ++ y2, by rw [e2, List.append_assoc],
      by rw [List.flatMap_cons]; exact List.rel_append f1 f2⟩

example : ∃ seen, ((Sys.run exFixed (⟨fun _ => .custom .none [], []⟩ : Sys Unit) exRun).map
      fun s => match s.loggers none with | .custom _ ys => ys | _ => []) = some seen ∧ seen.length = 2 ∧
    (exRun.flatMap (toldTo exFixed .none none)).length = 2 :=
  ⟨_, rfl, by decide +kernel, by decide +kernel⟩

theorem mapM_of_filterMap {α β : Type} (l : List α) (g : α → Option β) (ys : List β)
    (h : l.mapM g = some ys) : l.filterMap g = ys := by
  induction l generalizing ys with
  | nil => cases h; rfl
  | cons a l ih =>
    rw [List.mapM_cons] at h
    simp only [bind, Option.bind_eq_some_iff, pure, Option.some.injEq] at h
    obtain ⟨y, hy, r, hr, rfl⟩ := h
    rw [List.filterMap_cons, hy, ih r hr]

theorem feed_forward (rs : List (List Nat)) : feed (fun (_ : Unit) r => ((), r)) () rs = rs.flatten := by
  induction rs with
  | nil => rfl
  | cons r rs ih => rw [feed, ih, List.flatten_cons]

/-- From the statement to the decoder: the records of a run of statements of a flavor, sent on by a
destination and decoded, are the messages, each with the level, module, unit, text and arguments of its
statement, in the order of execution. Missing from the full statement: statements without arguments, whose
record has only the id of the text (`Log.wanted`), and what the record has no room for (`Log.Fits`,
`Log.Handled`). -/
theorem C101_binary_partial (c : Fixed) (f : Option Nat) (xs : List Exec) (s s' : Sys Unit)
    (h : s.run c xs = some s') (b : Binary Unit) (hb : s.loggers f = .binary b) (i : Nat)
    (hi : b.dests[i]? = some (forward []))
    (hx : ∀ x ∈ xs, flavorOf x = f → isVersion x = false ∧ ∀ m ∈ said x, m.writer = none)
    (db : Log.Db) (hs : ∀ m ∈ xs.flatMap (saidTo c f), Log.Fits (stmtOf c m) ∧ Log.Knows db (stmtOf c m) ∧
      ∀ a ∈ m.args, Log.Handled a.1 a.2) :
    ∃ b' d', s'.loggers f = .binary b' ∧ b'.dests[i]? = some d' ∧
      Log.decode db d'.sent = ((xs.flatMap (saidTo c f)).map fun m =>
        if m.args = [] then .short (c.ids m.fmt [])
        else .catalog (m.level.getD 0) (c.mods m.module) m.unit (c.ids m.fmt (m.args.map (·.1)))
          (m.args.map fun a => Log.shown a.1 a.2), true) := by
  obtain ⟨b', h1, -, h3, -⟩ := C103_binary_partial c f xs s s' h b hb
  obtain ⟨d', h4, h5⟩ := h3 i _ hi (fun _ _ => rfl)
  refine ⟨b', d', h1, h4, ?_⟩
  have hr : recordsFor c f none xs = (xs.flatMap (saidTo c f)).filterMap fun m => Log.record (stmtOf c m) := by
    rw [recordsFor]
    clear h hs h3 h5
    induction xs with
    | nil => rfl
    | cons x xs ih =>
      rw [List.flatMap_cons, List.flatMap_cons, List.filterMap_append, List.filterMap_append,
        ih fun y hy => hx y (List.mem_cons_of_mem _ hy)]
      congr 1
      rw [recordsTo, saidTo]
      split
      · next hf =>
        obtain ⟨h6, h7⟩ := hx x List.mem_cons_self hf
        rw [h6, if_neg (by simp), if_neg (by simp)]
        cases hm : said x with
        | none => rfl
        | some m =>
          have := h7 m (by rw [hm]; rfl)
          simp only [Option.toList_some, List.map_cons, List.map_nil, List.filterMap_cons, this, if_true,
            List.filterMap_nil]
      · rfl
  obtain ⟨bss, h6, h7⟩ := Log.C46_statements_partial ((xs.flatMap (saidTo c f)).map (stmtOf c)) (by
    intro st hst
    obtain ⟨m, hm, rfl⟩ := List.mem_map.mp hst
    exact hs m hm)
  rw [List.mapM_map, Function.comp_def] at h6
  rw [h5, hr, mapM_of_filterMap _ _ _ h6]
  rw [show (forward []).call = fun (_ : Unit) r => ((), r) from rfl]
  rw [show (forward []).state = () from rfl, feed_forward]
  rw [show (forward []).sent = [] from rfl, List.nil_append, h7, List.map_map]
  congr 1
  apply List.map_congr_left
  intro m _
  simp only [Function.comp, Log.wanted, stmtOf]
  split <;> simp_all

def exDb2 : Log.Db := ⟨fun _ => some [Log.encodeTag (.prim .uint)], fun _ => true⟩

example : ∃ s', exSys.run exFixed exRun = some s' ∧
    (∀ x ∈ exRun, flavorOf x = some 7 → isVersion x = false ∧ ∀ m ∈ said x, m.writer = none) ∧
    (∀ m ∈ exRun.flatMap (saidTo exFixed (some 7)), Log.Fits (stmtOf exFixed m) ∧
      Log.Knows exDb2 (stmtOf exFixed m) ∧ ∀ a ∈ m.args, Log.Handled a.1 a.2) ∧
    Log.decode exDb2 [35, 0, 6, 1, 6, 0, 0, 0, 9, 0, 0, 0] = ([.catalog 2 6 0 6 [.val (.int 9)]], true) := by
  have h : (exSys.run exFixed exRun).isSome := by decide +kernel
  obtain ⟨s', hs⟩ := Option.isSome_iff_exists.mp h
  refine ⟨s', hs, ?_, ?_, by decide +kernel⟩
  · intro x hx
    simp only [exRun, List.mem_cons, List.not_mem_nil, or_false] at hx
    rcases hx with rfl | rfl | rfl <;> intro _ <;> exact ⟨rfl, fun m hm => by cases hm; rfl⟩
  · intro m hm
    rw [show exRun.flatMap (saidTo exFixed (some 7)) =
      [⟨some 2, "crypto".toList, 0, none, "key {}".toList, [(.prim .uint, 9)], 18⟩] from rfl,
      List.mem_singleton] at hm
    subst hm
    refine ⟨⟨by decide, by decide, by decide, by decide, by decide, ?_⟩, ⟨rfl, rfl⟩, ?_⟩
    · intro a ha
      rw [show (stmtOf exFixed ⟨some 2, "crypto".toList, 0, none, "key {}".toList, [(.prim .uint, 9)], 18⟩).args =
        [(.prim .uint, 9)] from rfl, List.mem_singleton] at ha
      subst ha
      refine ⟨?_, .inl ⟨_, rfl⟩⟩
      unfold Log.InType
      exact ⟨fun s hs => by (rcases hs with hs | hs <;> cases hs), by decide⟩
    · intro a ha
      rw [List.mem_singleton] at ha
      subst ha
      simp [Log.Handled]

/-- Of a message without arguments the binary log keeps neither the level nor the module nor the unit: two
statements with the same text give the same record whatever they say about these. -/
theorem C101_violated_short (c : Fixed) (m m' : Said) (hf : m.fmt = m'.fmt) (h : m.args = []) (h' : m'.args = []) :
    Log.record (stmtOf c m) = Log.record (stmtOf c m') := by
  simp [Log.record, stmtOf, h, h', hf]

/-- An error in one module and a trace in another one. -/
example : recordsTo exFixed none (exExec [.module "a".toList] (.atLevel 2 ⟨"x".toList, []⟩) [] 0) =
    recordsTo exFixed none (exExec [.module "b".toList, .unit 9] (.atLevel 7 ⟨"x".toList, []⟩) [] 5) ∧
    recordsTo exFixed none (exExec [.module "a".toList] (.atLevel 2 ⟨"x".toList, []⟩) [] 0) =
      [(none, some [17, 0, 0, 0])] := by decide +kernel

/-! ## C104 -/

/-- A log that text loggers write can be read back: every line gives the time, the level, the module and
the text of its message. Missing from the full statement: modules with a closing bracket, and modules and
texts with line breaks. -/
theorem C104_read_partial (c : Fixed) (f : Option Nat) (xs : List Exec) (s s' : Sys S)
    (h : s.run c xs = some s') (ds : List Sink) (hd : s.loggers f = .text ds) (i : Nat)
    (hi : ds[i]? = some (.append []))
    (ht : ∀ m ∈ xs.flatMap (saidTo c f), ']' ∉ m.module ∧ '\n' ∉ m.module ∧ '\n' ∉ c.format m.fmt m.args) :
    ∃ ds' t, s'.loggers f = .text ds' ∧ ds'[i]? = some (.append t) ∧
      readLog t = some ((xs.flatMap (saidTo c f)).map (lineOf c)) := by
  obtain ⟨ds', h1, -, h3⟩ := C103_text_partial c f xs s s' h ds hd
  exact ⟨ds', _, h1, h3 i _ hi, by rw [List.nil_append]; exact readLog_lines c _ ht⟩

example : (∀ m ∈ exRun.flatMap (saidTo exFixed none),
      ']' ∉ m.module ∧ '\n' ∉ m.module ∧ '\n' ∉ exFixed.format m.fmt m.args) ∧
    readLog "      17us INFO [net]: x = -5\n123456789us WARN [net]: low\n".toList =
      some [⟨17, "INFO".toList, "net".toList, "x = -5".toList⟩,
        ⟨123456789, "WARN".toList, "net".toList, "low".toList⟩] := by
  refine ⟨?_, by decide +kernel⟩
  intro m hm
  rw [show exRun.flatMap (saidTo exFixed none) =
    [⟨some 4, "net".toList, 3, none, "x = {}".toList, [(.prim .int, -5)], 17⟩,
      ⟨some 3, "net".toList, 0, none, "low".toList, [], 123456789⟩] from rfl] at hm
  simp only [List.mem_cons, List.not_mem_nil, or_false] at hm
  rcases hm with rfl | rfl <;> decide +kernel

/-- A line break in a text makes one message look like two. -/
theorem C104_violated_break :
    line exFixed ⟨some 4, "net".toList, 0, none, "a\n       1us FATAL [net]: b".toList, [], 1⟩ =
      line exFixed ⟨some 4, "net".toList, 0, none, "a".toList, [], 1⟩ ++
        line exFixed ⟨some 1, "net".toList, 0, none, "b".toList, [], 1⟩ := by decide +kernel

/-- A bracket in the name of a module makes a message look like one of another module. -/
theorem C104_violated_module :
    line exFixed ⟨some 4, "a]: b".toList, 0, none, "c".toList, [], 1⟩ =
      line exFixed ⟨some 4, "a".toList, 0, none, "b]: c".toList, [], 1⟩ := by decide +kernel

/-! ## C105 -/

/-- A fatal error: `stdx::panic` is called once, with the text, the arguments that the text has fields for,
and the others as extra arguments; by then the loggers have got the message with level `FATAL`. -/
theorem C105_fatal (c : Fixed) (s s' : Sys S) (x : Exec) (m : Msg) (hc : x.call = .fatal m)
    (ps : List Piece) (hp : ∀ p ∈ ps, p.Ok) (hm : m.fmt = ps.flatMap Piece.render)
    (h : s.step c x = some s') :
    s'.panics = s.panics ++ [⟨m.fmt, (m.args.zip x.vals).take (ps.filter Piece.isField).length,
      (m.args.zip x.vals).drop (ps.filter Piece.isField).length, s'.loggers⟩] ∧
    said x = some (saidIn x (some 1) m.fmt ((m.args.zip x.vals).take (ps.filter Piece.isField).length)) ∧
    ∀ ds, s.loggers (flavorOf x) = .text ds → ∃ ds', s'.loggers (flavorOf x) = .text ds' ∧
      ∀ (i : Nat) t, ds[i]? = some (Sink.append t) → ds'[i]? = some (Sink.append (t ++ line c
        (saidIn x (some 1) m.fmt ((m.args.zip x.vals).take (ps.filter Piece.isField).length)))) := by
  have hn : specs m.fmt = (ps.filter Piece.isField).length := by rw [hm, specs_pieces ps hp]
  have hs : said x = some (saidIn x (some 1) m.fmt ((m.args.zip x.vals).take (ps.filter Piece.isField).length)) := by
    simp only [said, hc, hn]
  have h0 := h
  simp only [Sys.step, hc] at h
  obtain ⟨y, l, -, -, -, -, h5⟩ := fatal_some h
  rw [hn] at h5
  refine ⟨h5, hs, ?_⟩
  intro ds hd
  obtain ⟨ds', h6, -, h7⟩ := step_text h0 hd
  refine ⟨ds', h6, ?_⟩
  intro i t hi
  rw [h7 i t hi, saidTo, if_pos rfl, if_neg (by simp [isVersion, hc]), hs]
  simp

/-- An assertion that holds does nothing; one that fails is the fatal error with the text of the
expression. -/
theorem C105_assert (c : Fixed) (s : Sys S) (x : Exec) (e : Str) (args : List Log.CType)
    (hc : x.call = .assert e args) :
    (x.holds = true → s.step c x = some s) ∧
    (x.holds = false → s.step c x =
      s.step c { x with call := .fatal ⟨"Assertion failure: ".toList ++ e, args⟩ }) := by
  constructor
  · intro h; simp [Sys.step, hc, h]
  · intro h; simp [Sys.step, hc, h]; rfl

/-- Nothing else panics. -/
theorem C105_only (c : Fixed) (s s' : Sys S) (x : Exec) (h : s.step c x = some s')
    (hf : ∀ m, x.call ≠ .fatal m) (ha : (∃ e args, x.call = .assert e args) → x.holds = true) :
    s'.panics = s.panics := by
  cases hc : x.call with
  | log m =>
    simp only [Sys.step, hc] at h
    obtain ⟨l, -, h2, -⟩ := log_some h
    exact h2
  | atLevel l m =>
    simp only [Sys.step, hc] at h
    obtain ⟨l, -, h2, -⟩ := log_some h
    exact h2
  | fatal m => exact absurd hc (hf m)
  | assert e args =>
    rw [(C105_assert c s x e args hc).1 (ha ⟨e, args, hc⟩)] at h
    cases h; rfl
  | version f =>
    obtain ⟨e, l, -, -, -, h2, -⟩ := step_version h (by simp [isVersion, hc])
    exact h2

/-- The other flavors get nothing of a fatal error or of any other statement. -/
theorem C105_other_flavors (c : Fixed) (s s' : Sys S) (x : Exec) (h : s.step c x = some s') (f : Option Nat)
    (hf : flavorOf x ≠ f) : s'.loggers f = s.loggers f := by
  have hf' : ¬ f = flavorOf x := fun e => hf e.symm
  cases hv : isVersion x with
  | true =>
    obtain ⟨e, l, -, -, -, -, h2⟩ := step_version h hv
    rw [h2]; simp only [if_neg hf']
  | false =>
    cases hm : said x with
    | none => rw [step_silent h hm hv]
    | some m =>
      obtain ⟨y, l, -, -, h3⟩ := step_said h hm
      rw [h3]; simp only [if_neg hf']

def exFatal : Exec := exExec [.module "m".toList] (.fatal ⟨"bad {{{}}} {}".toList, [.prim .int, .prim .uint, .prim .int]⟩)
  [1, 2, 3] 5

example : "bad {{{}}} {}".toList =
      [Piece.text "bad ".toList, .openBrace, .field [], .closeBrace, .text " ".toList, .field []].flatMap Piece.render ∧
    ((exSys.step exFixed exFatal).map fun s => s.panics.map fun p =>
      (p.args, p.extra, (p.loggers none).content.1.length)) =
      some [([(.prim .int, 1), (.prim .uint, 2)], [(.prim .int, 3)], 2)] ∧
    (sites false [.level 2] (.call exFatal.call .done)).isSome := by decide +kernel

/-- Braces in an asserted expression are taken for fields: without further arguments the assertion does not
compile, with one the argument is taken for the text and not passed on as an extra argument. -/
theorem C105_violated_braces :
    sites false [] (.call (.assert "a == T{1}".toList []) .done) = none ∧
    (sites false [] (.call (.assert "a == T(1)".toList []) .done)).isSome ∧
    ((exSys.step exFixed (exExec [] (.assert "a == T{1}".toList [.prim .int]) [77] 5)).map fun s =>
      s.panics.map fun p => (p.args, p.extra)) = some [([(.prim .int, 77)], [])] ∧
    ((exSys.step exFixed (exExec [] (.assert "a == T(1)".toList [.prim .int]) [77] 5)).map fun s =>
      s.panics.map fun p => (p.args, p.extra)) = some [([], [(.prim .int, 77)])] :=
  ⟨by decide +kernel, by decide +kernel, by decide +kernel, by decide +kernel⟩

/-! ## C106 -/

/-- A request for the version: a binary logger writes one record, from which the build id and the version
string can be read. Missing from the full statement: version strings that are too long for the record. -/
theorem C106_binary_partial (c : Fixed) (s s' : Sys S) (x : Exec) (hx : isVersion x = true)
    (h : s.step c x = some s') (b : Binary S) (hb : s.loggers (flavorOf x) = .binary b)
    (hw : ask writer? x.env = none) (hv : c.buildId < 2 ^ 64) (hs : c.versionString.length + 8 < 2 ^ 16) :
    ∃ b' r, s'.loggers (flavorOf x) = .binary b' ∧
      Log.readVersion r = some (c.buildId, c.versionString.map Char.toNat) ∧
      b'.dests = b.dests.map fun d => { d with sent := d.sent ++ (d.call d.state r).2 } := by
  obtain ⟨r, h1, h2⟩ := Log.C47_version_partial hv (c.versionString.map Char.toNat) (by simpa using hs)
  rcases step_binary h hb with ⟨h3, -⟩ | ⟨w, q, e, h3, h4, h5⟩
  · rw [recordsTo, if_pos rfl, if_pos hx] at h3
    cases h3
  · rw [recordsTo, if_pos rfl, if_pos hx, hw, h1] at h3
    cases h3
    refine ⟨_, r, h5, h2, ?_⟩
    rw [Binary.write, h4]
    rfl

/-- A text logger writes one line with the build id and the version string. -/
theorem C106_text (c : Fixed) (s s' : Sys S) (x : Exec) (hx : isVersion x = true)
    (h : s.step c x = some s') (ds : List Sink) (hd : s.loggers (flavorOf x) = .text ds) :
    ∃ ds', s'.loggers (flavorOf x) = .text ds' ∧
      ∀ (i : Nat) t, ds[i]? = some (Sink.append t) →
        ds'[i]? = some (Sink.append (t ++ line c ⟨some 0, "default".toList, 0, none,
          "Version: ".toList ++ (Nat.repr c.buildId).toList ++ " (".toList ++ c.versionString ++ ")".toList, [],
          x.time⟩)) := by
  obtain ⟨ds', h6, -, h7⟩ := step_text h hd
  refine ⟨ds', h6, ?_⟩
  intro i t hi
  rw [h7 i t hi, saidTo, if_pos rfl, if_pos hx]
  simp [saidVersion]

/-- A logger of the user gets the version by its function when that takes the environment first, and as a
text otherwise; the flavor is the one named, whatever the environment says. Missing from the full statement:
a function as the documentation describes it. -/
theorem C106_logger_partial (c : Fixed) (s s' : Sys S) (x : Exec) (f : Option Nat) (hx : x.call = .version f)
    (h : s.step c x = some s') (v : VersionFn) (seen : List Seen) (hd : s.loggers f = .custom v seen) :
    (∃ y, s'.loggers f = .custom v (seen ++ [y]) ∧
      (v = .withEnv → ∃ e, y = .version e c.buildId c.versionString) ∧
      (v = .none → ∃ y', y = .log y' ∧ y'.args = [] ∧ getLevel y'.env = some 0 ∧
        y'.fmt = "Version: ".toList ++ (Nat.repr c.buildId).toList ++ " (".toList ++ c.versionString ++ ")".toList)) ∧
    s'.panics = s.panics ∧ ∀ g, g ≠ f → s'.loggers g = s.loggers g := by
  have hv : isVersion x = true := by simp [isVersion, hx]
  have hf : flavorOf x = f := by simp [flavorOf, hx]
  obtain ⟨e, l, -, -, h3, h4, h5⟩ := step_version h hv
  rw [hf] at h3 h5
  refine ⟨?_, h4, fun g hg => by rw [h5]; simp [hg]⟩
  rw [hd] at h3
  cases v with
  | withEnv =>
    rw [Logger.version, Option.some.injEq] at h3
    exact ⟨.version e c.buildId c.versionString, by rw [h5, ← h3]; simp, fun _ => ⟨e, rfl⟩, by simp⟩
  | none =>
    rw [Logger.version, Logger.log, Option.some.injEq] at h3
    · exact ⟨_, by rw [h5, ← h3]; simp; rfl, by simp, fun _ => ⟨_, rfl, rfl, rfl, rfl⟩⟩
    all_goals (intros; simp_all)
  | documented =>
    rw [Logger.version, Logger.log, Option.some.injEq] at h3
    · exact ⟨_, by rw [h5, ← h3]; simp; rfl, by simp, by simp⟩
    all_goals (intros; simp_all)

example : ((exSys.step exFixed (exExec [.flavor (some 7)] (.version none) [] 5)).map fun s =>
      (s.loggers none).content.1.map String.ofList) =
      some ["       5us MAX [default]: Version: 42 (v1)\n", "old       5us MAX [default]: Version: 42 (v1)\n"] ∧
    ((exSys.step exFixed (exExec [] (.version (some 7)) [] 5)).map fun s =>
      (s.loggers (some 7)).content.2.map Log.readVersion) = some [some (42, [118, 49])] := by decide +kernel

/-- A logger with the function of the documentation is never called through it. -/
theorem C106_violated_documented (c : Fixed) (s s' : Sys S) (x : Exec) (f : Option Nat) (hx : x.call = .version f)
    (h : s.step c x = some s') (seen : List Seen) (hd : s.loggers f = .custom .documented seen) :
    ∃ y, s'.loggers f = .custom .documented (seen ++ [.log y]) := by
  obtain ⟨ys, h1, h2⟩ := C101_logger c f [x] s s' (by rw [Sys.run, h]; rfl) .documented seen hd
  rw [List.flatMap_cons, toldTo, if_neg (by simp), saidTo, if_pos (by simp [flavorOf, hx]),
    if_pos (by simp [isVersion, hx])] at h2
  cases h2 with
  | @cons y _ ys _ g1 g2 =>
    cases g2
    cases y with
    | log y => exact ⟨y, h1⟩
    | version e b t => exact absurd g1 (by simp [Heard])

example : ((Sys.step exFixed (⟨fun _ => .custom .documented [], []⟩ : Sys Unit)
    (exExec [] (.version none) [] 5)).map fun s => match s.loggers none with | .custom _ ys => ys | _ => []) =
      some [.log ⟨[.level 0], "Version: 42 (v1)".toList, [], 0, 5⟩] := by decide +kernel

/-- The text of a version has the module `default`, whatever the module of the place. -/
theorem C106_violated_module :
    ((exSys.step exFixed (exExec [.module "boot".toList] (.version none) [] 5)).map fun s =>
      (s.loggers none).content.1.head?.map String.ofList) =
      some (some "       5us MAX [default]: Version: 42 (v1)\n") := by decide +kernel

end Verif.Front
