import Verif.Explain.ServiceProps

/-! # From services to the reader of the log: C112, C113; concrete cases -/
namespace Verif.Explain
open Verif.Match Verif.Message Verif.Receive Spec

variable {N : Numbering} {env : Receive.Env} {W : Nat} {nm : Names}

/-! ### Lemmas -/

theorem readCalls_texts (es : List Event) (ps : List (Front.Env × Told × Nat)) (h : readCalls es = some ps) :
    (texts es).filterMap readTold = ps.map (·.2.1) ∧ calls es = ps.map (·.2.2) := by
  induction es using readCalls.induct generalizing ps with
  | case1 => obtain rfl := Option.some.inj h; exact ⟨rfl, rfl⟩
  | case2 e t i es ih =>
    simp only [readCalls, Option.bind_eq_bind, Option.bind_eq_some_iff] at h
    obtain ⟨x, hx, xs, hxs, h⟩ := h
    obtain rfl := Option.some.inj h
    obtain ⟨i1, i2⟩ := ih xs hxs
    refine ⟨?_, ?_⟩
    · rw [show texts (.log e t :: .call i :: es) = t :: texts es from rfl, List.filterMap_cons, hx, i1]
      rfl
    · rw [show calls (.log e t :: .call i :: es) = i :: calls es from rfl, i2]
      rfl
  | case3 es h1 h2 => simp [readCalls] at h

theorem after_none {p s : Str} (h : s.head? ≠ p.head?) (hp : p ≠ []) : after p s = none := by
  unfold after
  rw [if_neg]
  intro hpre
  obtain ⟨t, rfl⟩ := List.isPrefixOf_iff_prefix.1 hpre
  apply h
  cases p with
  | nil => exact absurd rfl hp
  | cons a p => rfl

theorem lit_incoming : "Incoming message matched [".toList.head? = some 'I' ∧
    "Incoming message matched [".toList ≠ [] ∧
    ("None of the registered callbacks (".toList).head? = some 'N' ∧
    ("    ".toList).head? = some ' ' := by decide +kernel

theorem head_of_append {A B : Str} {a : Char} (h : A.head? = some a) : (A ++ B).head? = some a := by
  rw [List.head?_append, h]; rfl

theorem readTold_other {s : Str} {a : Char} (h : s.head? = some a) (ha : a ≠ 'I') : readTold s = none := by
  have : after "Incoming message matched [".toList s = none :=
    after_none (by rw [h, lit_incoming.1]; simpa using ha) lit_incoming.2.1
  unfold readTold
  rw [this]; rfl

theorem error_head (n : Nat) (stop : Char) : (errorText n stop).head? = some 'N' := by
  unfold errorText
  rw [List.append_assoc, List.append_assoc]
  exact head_of_append lit_incoming.2.2.1

theorem told_mismatch {d : Data W} (cbs : List Handler.Callback) (ms : List Event)
    (h : cbs.mapM (mismatchOne N nm W d) = some ms) : (texts ms).filterMap readTold = [] := by
  have hf := mapM_forall₂ _ _ _ h
  clear h
  induction hf with
  | nil => rfl
  | @cons c m cs ms hc _ ih =>
    obtain ⟨s, -, rfl⟩ := Option.map_eq_some_iff.1 hc
    rw [show texts (Event.log _ _ :: ms) = _ :: texts ms from rfl, List.filterMap_cons, readTold_other (a := ' '), ih]
    · simp only [List.append_assoc]
      exact head_of_append lit_incoming.2.2.2
    · decide

/-- The lines of a plain service about calls name the callbacks that were called. -/
theorem told_plain (hl : LineNames nm) {d : Data W} {cbs : List Handler.Callback} {es : List Event} {r : Bool}
    (h : handle N env nm W d cbs = some (es, r)) :
    ((texts es).filterMap readTold).map (·.name) = (calls es).map nm.callback := by
  obtain ⟨k1, k2, k3, k4⟩ := handle_cases h
  cases r with
  | true =>
    have k3 := k3 rfl
    subst k3
    have := readCalls_flatMap (fun c : Handler.Callback => nm.env c.id ++ [.level 4])
      (fun c => matchedText (nm.callback c.id) (describe (termText N nm) c.matcher) []) (fun c => c.id)
      (fun c : Handler.Callback => ⟨nm.callback c.id, describe (termText N nm) c.matcher, none⟩)
      (cbs.filter fun c => evalM N env W d c.matcher == some true)
      (fun c => readTold_plain (hl.callback c.id).1 (describe_bracket hl _))
    obtain ⟨i1, i2⟩ := readCalls_texts _ _ this
    rw [i1, i2]
    simp
  | false =>
    obtain ⟨ms, hm, rfl⟩ := k4 rfl
    have h1 : calls (.log [.level 2] (errorText cbs.length ':') :: ms) = [] := calls_mismatch cbs ms hm
    rw [h1, show texts (.log [.level 2] (errorText cbs.length ':') :: ms) = errorText cbs.length ':' :: texts ms from rfl,
      List.filterMap_cons, readTold_other (error_head _ _) (by decide), told_mismatch cbs ms hm]
    rfl

/-- The lines of an indexed service about calls name the callbacks that were called. -/
theorem told_indexed (hl : LineNames nm) {idx : List MField} {d : Data W} {cbs : List Handler.Callback}
    {es : List Event} {r : Bool} (h : handleIndexed N env nm W idx d cbs = some (es, r)) :
    ((texts es).filterMap readTold).map (·.name) = (calls es).map nm.callback := by
  obtain ⟨ixs, -, k1, k2, k3, k4⟩ := handleIndexed_cases h
  cases r with
  | true =>
    have k3 := k3 rfl
    subst k3
    have := readCalls_flatMap (fun c : Handler.Callback => nm.env c.id ++ [.level 4])
      (fun t => matchedText (nm.callback t.id)
        (describe (termText N nm) (Handler.removeTerms (idx.map (toField N)) t.matcher))
        (collapsedText (describe (termText N nm) t.matcher))) (fun c => c.id)
      (fun t : Handler.Callback => ⟨nm.callback t.id,
        describe (termText N nm) (Handler.removeTerms (idx.map (toField N)) t.matcher),
        some (describe (termText N nm) t.matcher)⟩)
      (taken N env W idx d ixs (Handler.build cbs))
      (fun c => readTold_collapsed (hl.callback c.id).1 (describe_bracket hl _) (describe_bracket hl _))
    obtain ⟨i1, i2⟩ := readCalls_texts _ _ this
    rw [i1, i2]
    simp
  | false =>
    obtain rfl := k4 rfl
    rw [show texts [.log [.level 2] (errorText (Handler.build cbs).length '.')] =
      [errorText (Handler.build cbs).length '.'] from rfl, List.filterMap_cons,
      readTold_other (error_head _ _) (by decide)]
    rfl

open Front.Spec in
theorem execs_said (c : Front.Fixed) (f : Option Nat) (time units : Nat → Nat) (inner : Nat → List Front.Exec)
    (es : List Event) (he : ∀ e t, Event.log e t ∈ es → (ask flavor? e).getD none = f ∧
      ']' ∉ (ask module? e).getD "default".toList ∧ '\n' ∉ (ask module? e).getD "default".toList ∧
      c.format t [] = t ∧ '\n' ∉ t)
    (hi : ∀ i ∈ calls es, ∀ m ∈ (inner i).flatMap (saidTo c f), ']' ∉ m.module ∧ '\n' ∉ m.module ∧
      '\n' ∉ c.format m.fmt m.args ∧ readTold (c.format m.fmt m.args) = none) :
    ∀ n, ((execs time units inner n es).flatMap (saidTo c f)).filterMap
        (fun m => readTold (c.format m.fmt m.args)) = (texts es).filterMap readTold ∧
      ∀ m ∈ (execs time units inner n es).flatMap (saidTo c f),
        ']' ∉ m.module ∧ '\n' ∉ m.module ∧ '\n' ∉ c.format m.fmt m.args := by
  induction es with
  | nil => intro n; exact ⟨rfl, by simp [execs]⟩
  | cons x es ih =>
    intro n
    cases x with
    | call i =>
      obtain ⟨i1, i2⟩ := ih (fun e t h => he e t (List.mem_cons_of_mem _ h))
        (fun j hj => hi j (by rw [show calls (.call i :: es) = i :: calls es from rfl]; exact List.mem_cons_of_mem _ hj))
        (n + 1)
      have hi := hi i (by rw [show calls (.call i :: es) = i :: calls es from rfl]; exact List.mem_cons_self)
      rw [execs, List.flatMap_append, List.filterMap_append]
      constructor
      · rw [List.filterMap_eq_nil_iff.2 (fun m hm => (hi m hm).2.2.2), List.nil_append, i1]
        rfl
      · intro m hm
        rcases List.mem_append.1 hm with hm | hm
        · exact ⟨(hi m hm).1, (hi m hm).2.1, (hi m hm).2.2.1⟩
        · exact i2 m hm
    | log e t =>
      obtain ⟨i1, i2⟩ := ih (fun e t h => he e t (List.mem_cons_of_mem _ h)) (fun j hj => hi j hj) (n + 1)
      obtain ⟨k1, k2, k3, k4, k5⟩ := he e t List.mem_cons_self
      have h0 : saidTo c f ⟨e, .log ⟨t, []⟩, [], units, false, time n⟩ =
          [saidIn ⟨e, .log ⟨t, []⟩, [], units, false, time n⟩ (ask level? e) t []] := by
        rw [saidTo, if_pos (by simpa [flavorOf] using k1)]
        rfl
      rw [execs, List.flatMap_cons, h0]
      constructor
      · rw [List.singleton_append, List.filterMap_cons, i1,
          show texts (.log e t :: es) = t :: texts es from rfl, List.filterMap_cons]
        simp only [saidIn, k4]
      · intro m hm
        rw [List.singleton_append, List.mem_cons] at hm
        rcases hm with rfl | hm
        · refine ⟨k2, k3, ?_⟩
          simp only [saidIn, k4]; exact k5
        · exact i2 m hm

open Front.Spec in
theorem read_names {S : Type} (c : Front.Fixed) (f : Option Nat) (time units : Nat → Nat)
    (inner : Nat → List Front.Exec) (es : List Event)
    (ht : ((texts es).filterMap readTold).map (·.name) = (calls es).map nm.callback)
    (he : ∀ e t, Event.log e t ∈ es → (ask flavor? e).getD none = f ∧
      ']' ∉ (ask module? e).getD "default".toList ∧ '\n' ∉ (ask module? e).getD "default".toList ∧
      c.format t [] = t ∧ '\n' ∉ t)
    (hi : ∀ i ∈ calls es, ∀ m ∈ (inner i).flatMap (saidTo c f), ']' ∉ m.module ∧ '\n' ∉ m.module ∧
      '\n' ∉ c.format m.fmt m.args ∧ readTold (c.format m.fmt m.args) = none)
    (s s' : Front.Sys S) (h : s.run c (execs time units inner 0 es) = some s')
    (ds : List Front.Sink) (hd : s.loggers f = .text ds) (i : Nat) (hs : ds[i]? = some (.append [])) :
    ∃ ds' t ls, s'.loggers f = .text ds' ∧ ds'[i]? = some (.append t) ∧ readLog t = some ls ∧
      (ls.filterMap fun l => readTold l.text).map (·.name) = (calls es).map nm.callback := by
  obtain ⟨k1, k2⟩ := execs_said c f time units inner es he hi 0
  obtain ⟨ds', t, g1, g2, g3⟩ := Front.C104_read_partial c f _ s s' h ds hd i hs k2
  refine ⟨ds', t, _, g1, g2, g3, ?_⟩
  rw [← ht, ← k1, List.filterMap_map]
  rfl

/-! ## C112: reading the log -/

open Front.Spec in
/-- A text log of a message given to a plain service, read line by line, names exactly the callbacks that were
called, in their order; the callables may log other things themselves. Missing from the full statement: line
breaks, and what `C104` leaves out. -/
theorem C115_plain_partial {S : Type} (hl : LineNames nm) (d : Data W) (cbs : List Handler.Callback)
    (es : List Event) (r : Bool) (hh : handle N env nm W d cbs = some (es, r)) (c : Front.Fixed)
    (f : Option Nat) (time units : Nat → Nat) (inner : Nat → List Front.Exec)
    (he : ∀ e t, Event.log e t ∈ es → (ask flavor? e).getD none = f ∧
      ']' ∉ (ask module? e).getD "default".toList ∧ '\n' ∉ (ask module? e).getD "default".toList ∧
      c.format t [] = t ∧ '\n' ∉ t)
    (hi : ∀ i ∈ calls es, ∀ m ∈ (inner i).flatMap (saidTo c f), ']' ∉ m.module ∧ '\n' ∉ m.module ∧
      '\n' ∉ c.format m.fmt m.args ∧ readTold (c.format m.fmt m.args) = none)
    (s s' : Front.Sys S) (h : s.run c (execs time units inner 0 es) = some s')
    (ds : List Front.Sink) (hd : s.loggers f = .text ds) (i : Nat) (hs : ds[i]? = some (.append [])) :
    ∃ ds' t ls, s'.loggers f = .text ds' ∧ ds'[i]? = some (.append t) ∧ readLog t = some ls ∧
      (ls.filterMap fun l => readTold l.text).map (·.name) = (calls es).map nm.callback :=
  read_names c f time units inner es (told_plain hl hh) he hi s s' h ds hd i hs

/-! ## C113: reading the log -/

open Front.Spec in
/-- The same for an indexed service. -/
theorem C115_indexed_partial {S : Type} (hl : LineNames nm) (idx : List MField) (d : Data W)
    (cbs : List Handler.Callback) (es : List Event) (r : Bool)
    (hh : handleIndexed N env nm W idx d cbs = some (es, r)) (c : Front.Fixed)
    (f : Option Nat) (time units : Nat → Nat) (inner : Nat → List Front.Exec)
    (he : ∀ e t, Event.log e t ∈ es → (ask flavor? e).getD none = f ∧
      ']' ∉ (ask module? e).getD "default".toList ∧ '\n' ∉ (ask module? e).getD "default".toList ∧
      c.format t [] = t ∧ '\n' ∉ t)
    (hi : ∀ i ∈ calls es, ∀ m ∈ (inner i).flatMap (saidTo c f), ']' ∉ m.module ∧ '\n' ∉ m.module ∧
      '\n' ∉ c.format m.fmt m.args ∧ readTold (c.format m.fmt m.args) = none)
    (s s' : Front.Sys S) (h : s.run c (execs time units inner 0 es) = some s')
    (ds : List Front.Sink) (hd : s.loggers f = .text ds) (i : Nat) (hs : ds[i]? = some (.append [])) :
    ∃ ds' t ls, s'.loggers f = .text ds' ∧ ds'[i]? = some (.append t) ∧ readLog t = some ls ∧
      (ls.filterMap fun l => readTold l.text).map (·.name) = (calls es).map nm.callback :=
  read_names c f time units inner es (told_indexed hl hh) he hi s s' h ds hd i hs

/-! ## Concrete cases -/

theorem exNames_line : LineNames exNames := by
  refine ⟨?_, ?_, ?_⟩
  · intro n
    match n with
    | 0 => decide
    | 1 => decide
    | n + 2 => exact (by decide : ']' ∉ "other".toList)
  · intro k
    simp only [exNames]
    split <;> decide
  · intro i
    simp only [exNames]
    split <;> decide

/-- Two callbacks: `id == 7 and len > 31`, and `id == 5`. -/
def exCbs (N : Numbering) : List Handler.Callback :=
  [⟨1, .and (.leaf (.rel .eq (toField N (exId N)) 7)) (.leaf (.rel .gt (toField N (exLen N)) 31))⟩,
   ⟨2, .leaf (.rel .eq (toField N (exId N)) 5)⟩]

example (N : Numbering) (env : Receive.Env) :
    handle N env exNames 8 (.raw [7#8, 40#8]) (exCbs N) = some
      ([.log [.level 4] ("Incoming message matched [first], because [(id == 0x7) and (len > 0x1f)]" ++
        ", executing callback").toList, .call 1], true) ∧
    handle N env exNames 8 (.raw [7#8, 40#8]) ((exCbs N).drop 1) = some
      ([.log [.level 2] "None of the registered callbacks (1) claimed this message:".toList,
        .log [.level 4] "    second - F:(id (0x7) == 0x5)".toList], false) := by
  have hv := ex_values N
  have hn := exNames_field N
  constructor
  · rw [handle, if_pos (by simp [compiles])]
    simp only [exCbs, mismatchOne, List.mapM_cons, List.mapM_nil, handleOne, evalM, evalLeaf, toField, N.field_ok, Receive.extractField,
      hv.1, hv.2.1, Option.bind_some, Option.map_some, RelOp.app, describe, termText, fieldName, Option.getD_some, hn,
      isAnd, describeMatch, termMatch, List.length_cons, List.length_nil]
    decide +kernel
  · rw [handle, if_pos (by simp [compiles])]
    simp only [exCbs, List.drop_succ_cons, List.drop_zero, List.mapM_cons, List.mapM_nil, handleOne, mismatchOne, evalM,
      evalLeaf, toField, N.field_ok, Receive.extractField, hv.1, Option.bind_some, Option.map_some, RelOp.app,
      describeMatch, termMatch, hn, describe, termText, fieldName, Option.getD_some, List.length_cons, List.length_nil]
    decide +kernel

/-- One callback for `id == 5 or id == 6`. -/
def exAlt (N : Numbering) : List Handler.Callback :=
  [⟨1, .or (.leaf (.rel .eq (toField N (exId N)) 5)) (.leaf (.rel .eq (toField N (exId N)) 6))⟩]

theorem alt_or (g : Field) : simplifyOr relOps (.leaf (.rel .eq g 5)) (.leaf (.rel .eq g 6)) =
    .or (.leaf (.rel .eq g 5)) (.leaf (.rel .eq g 6)) := by
  simp [simplifyOr, implies, impliesL, negate, relOps, relImplies, RelOp.inverse, RelOp.app, deMorganOr, cost]

theorem alt_and (a b : RLeaf) : simplifyAnd relOps .always (.or (.leaf a) (.leaf b)) = .or (.leaf a) (.leaf b) := by
  simp [simplifyAnd, implies, impliesL]

theorem exAlt_build (N : Numbering) : Handler.build (exAlt N) =
    [⟨1, .leaf (.rel .eq (toField N (exId N)) 5)⟩, ⟨1, .leaf (.rel .eq (toField N (exId N)) 6)⟩] := by
  have h1 : ∀ a b : RLeaf, sop relOps (.or (.leaf a) (.leaf b)) = .or (.leaf a) (.leaf b) := fun _ _ => rfl
  simp [exAlt, Handler.build, Handler.separate, Match.all, simplify, alt_or, alt_and, h1, Handler.splitOr]

/-- The error of an indexed service does not count the callbacks: one callback for `id == 5 or id == 6`, and
the log says that none of two claimed the message. -/
theorem C113_violated_count (N : Numbering) (env : Receive.Env) (nm : Names) :
    ∃ t, handleIndexed N env nm 8 [exId N] (.raw [7#8, 40#8]) (exAlt N) = some ([.log [.level 2] t], false) ∧
      readError t = some 2 ∧ (exAlt N).length = 1 := by
  refine ⟨errorText 2 '.', ?_, readError_text _ _ (.inr rfl), rfl⟩
  have hv := ex_values N
  have hi : ∀ i, candidatesOf [(toField N (exId N), 7)] [⟨1, .leaf (.rel .eq (toField N (exId N)) 5)⟩,
      ⟨1, .leaf (.rel .eq (toField N (exId N)) 6)⟩] i = false := by
    intro i
    simp [candidatesOf, Handler.createIndex, Handler.walk, Handler.indexTerms, Handler.indexNotTerms,
      Handler.addPositive, Handler.TempIndex.ensure, Handler.TempIndex.contains,
      Handler.TempIndex.mapEntries, Handler.collectDefaults, Handler.propagate,
      Handler.TempIndex.lookup, Handler.Bits.set, Handler.Bits.empty]
    omega
  simp [handleIndexed, exAlt_build, compiles, Data.storage, hv.1, hi]

/-- Two callbacks that both accept a message with `id == 7` and a long `len`. -/
def exTwo (N : Numbering) : List Handler.Callback :=
  [⟨1, .and (.leaf (.rel .eq (toField N (exId N)) 7)) (.leaf (.rel .gt (toField N (exLen N)) 31))⟩,
   ⟨2, .leaf (.rel .eq (toField N (exId N)) 7)⟩]

def exLine1 : Str := ("Incoming message matched [first], because [(id == 0x7) and (len > 0x1f)]" ++
  ", executing callback").toList

def exLine2 : Str := "Incoming message matched [second], because [id == 0x7], executing callback".toList

/-- A callback that logs such a line itself: the same text is logged when both callbacks are called and when only
the first is, which logs the line of the other one. No reader can tell the two apart. -/
theorem C115_violated (N : Numbering) (env : Receive.Env) : ∃ (both one : List Event) (inner : Nat → List Front.Exec)
    (t : Str), handle N env exNames 8 (.raw [7#8, 40#8]) (exTwo N) = some (both, true) ∧
    handle N env exNames 8 (.raw [7#8, 40#8]) ((exTwo N).take 1) = some (one, true) ∧
    ((Front.exSys.run Front.exFixed (execs (fun _ => 5) id (fun _ => []) 0 both)).map fun s => (s.loggers none).content.1[0]?) =
      some (some t) ∧
    ((Front.exSys.run Front.exFixed (execs (fun _ => 5) id inner 0 one)).map fun s => (s.loggers none).content.1[0]?) =
      some (some t) ∧
    (calls both).map exNames.callback = ["first".toList, "second".toList] ∧
    (calls one).map exNames.callback = ["first".toList] := by
  have hv := ex_values N
  have hn := exNames_field N
  refine ⟨[.log [.level 4] exLine1, .call 1, .log [.level 4] exLine2, .call 2], [.log [.level 4] exLine1, .call 1],
    fun _ => [⟨[.level 4], .log ⟨exLine2, []⟩, [], id, false, 5⟩],
    "       5us INFO [default]: ".toList ++ exLine1 ++ "\n       5us INFO [default]: ".toList ++ exLine2 ++ "\n".toList,
    ?_, ?_, ?_, ?_, by decide +kernel, by decide +kernel⟩
  · rw [handle, if_pos (by simp [compiles])]
    simp only [exTwo, mismatchOne, List.mapM_cons, List.mapM_nil, handleOne, evalM, evalLeaf, toField, N.field_ok, Receive.extractField,
      hv.1, hv.2.1, Option.bind_some, Option.map_some, RelOp.app, describe, termText, fieldName, Option.getD_some, hn,
      isAnd, describeMatch, termMatch, List.length_cons, List.length_nil]
    decide +kernel
  · rw [handle, if_pos (by simp [compiles])]
    simp only [exTwo, List.take_succ_cons, List.take_zero, mismatchOne, List.mapM_cons, List.mapM_nil, handleOne, evalM, evalLeaf,
      toField, N.field_ok, Receive.extractField,
      hv.1, hv.2.1, Option.bind_some, Option.map_some, RelOp.app, describe, termText, fieldName, Option.getD_some, hn,
      isAnd, describeMatch, termMatch, List.length_cons, List.length_nil]
    decide +kernel
  · decide +kernel
  · decide +kernel

end Verif.Explain
