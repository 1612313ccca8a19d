import Verif.Front.ScopeProps

/-! # Helpers about runs of log statements -/
namespace Verif.Front
open Spec

variable {S : Type}

/-- The entry answers as the message says. -/
def Answers (y : Entry) (m : Said) : Prop :=
  ask level? y.env = m.level ∧ (ask module? y.env).getD "default".toList = m.module ∧
    y.unit = m.unit ∧ ask writer? y.env = m.writer ∧ y.fmt = m.fmt ∧ y.args = m.args ∧ y.time = m.time

theorem ask_skip {α : Type} (q : Setting → Option α) (s : Setting) (e : Env) (h : q s = none) :
    ask q (s :: e) = ask q e := by simp [ask, h]

theorem unit_eq (x : Exec) (e : Env) (h : ask unit? e = ask unit? x.env) :
    x.unit e = ((ask unit? x.env).map x.units).getD 0 := by
  rw [Exec.unit, getUnit_eq, h]
  cases ask unit? x.env <;> rfl

theorem answers_same (x : Exec) (fmt : Str) (args : List (Log.CType × Int)) :
    Answers ⟨x.env, fmt, args, x.unit x.env, x.time⟩ (saidIn x (ask level? x.env) fmt args) :=
  ⟨rfl, rfl, unit_eq x _ rfl, rfl, rfl, rfl, rfl⟩

theorem answers_level (x : Exec) (l : Nat) (fmt : Str) (args : List (Log.CType × Int)) :
    Answers ⟨.level l :: x.env, fmt, args, x.unit (.level l :: x.env), x.time⟩ (saidIn x (some l) fmt args) :=
  ⟨rfl, rfl, unit_eq x _ rfl, rfl, rfl, rfl, rfl⟩

/-- What a log of an entry does. -/
theorem log_some {c : Fixed} {s s' : Sys S} {y : Entry} (h : s.log c y = some s') :
    ∃ l, (s.loggers (getFlavor y.env)).log c y = some l ∧ s'.panics = s.panics ∧
      s'.loggers = fun f => if f = getFlavor y.env then l else s.loggers f := by
  rw [Sys.log, Option.map_eq_some_iff] at h
  obtain ⟨l, h1, rfl⟩ := h
  exact ⟨l, h1, rfl, rfl⟩

theorem fatal_some {c : Fixed} {s s' : Sys S} {x : Exec} {fmt : Str} {args : List (Log.CType × Int)}
    (h : s.fatal c x fmt args = some s') :
    ∃ y l, Answers y (saidIn x (some 1) fmt (args.take (specs fmt))) ∧
      getFlavor y.env = (ask flavor? x.env).getD none ∧
      (s.loggers (getFlavor y.env)).log c y = some l ∧
      (s'.loggers = fun f => if f = getFlavor y.env then l else s.loggers f) ∧
      s'.panics = s.panics ++ [⟨fmt, args.take (specs fmt), args.drop (specs fmt), s'.loggers⟩] := by
  rw [Sys.fatal] at h
  simp only [bind, Option.bind_eq_some_iff, pure, Option.some.injEq] at h
  obtain ⟨t, ht, rfl⟩ := h
  obtain ⟨l, h1, h2, h3⟩ := log_some ht
  refine ⟨_, l, answers_level x 1 fmt _, ?_, h1, h3, ?_⟩
  · rw [getFlavor_eq]; rfl
  · rw [h2]

/-- What a step does that has a message. -/
theorem step_said {c : Fixed} {s s' : Sys S} {x : Exec} (h : s.step c x = some s') {m : Said}
    (hm : said x = some m) :
    ∃ y l, Answers y m ∧ (s.loggers (flavorOf x)).log c y = some l ∧
      s'.loggers = fun f => if f = flavorOf x then l else s.loggers f := by
  cases hc : x.call with
  | log mm =>
    simp only [Sys.step, said, hc, Option.some.injEq] at h hm
    subst hm
    obtain ⟨l, h1, -, h3⟩ := log_some h
    have e : getFlavor x.env = flavorOf x := by simp [flavorOf, hc, getFlavor_eq]
    exact ⟨_, l, answers_same x _ _, e ▸ h1, e ▸ h3⟩
  | atLevel lv mm =>
    simp only [Sys.step, said, hc, Option.some.injEq] at h hm
    subst hm
    obtain ⟨l, h1, -, h3⟩ := log_some h
    have e : getFlavor (.level lv :: x.env) = flavorOf x := by simp [flavorOf, hc, getFlavor_eq]; rfl
    exact ⟨_, l, answers_level x _ _ _, e ▸ h1, e ▸ h3⟩
  | fatal mm =>
    simp only [Sys.step, said, hc, Option.some.injEq] at h hm
    subst hm
    obtain ⟨y, l, h1, h2, h3, h4, -⟩ := fatal_some h
    have e : getFlavor y.env = flavorOf x := by simp [flavorOf, hc, h2]
    exact ⟨y, l, h1, e ▸ h3, e ▸ h4⟩
  | assert ex as =>
    simp only [Sys.step, said, hc] at h hm
    split at h
    · next hh => rw [if_pos hh] at hm; cases hm
    · next hh =>
      rw [if_neg hh] at hm
      cases hm
      obtain ⟨y, l, h1, h2, h3, h4, -⟩ := fatal_some h
      have e : getFlavor y.env = flavorOf x := by simp [flavorOf, hc, h2]
      exact ⟨y, l, h1, e ▸ h3, e ▸ h4⟩
  | version f => simp [said, hc] at hm

/-- A step without a message does nothing, unless it asks for the version. -/
theorem step_silent {c : Fixed} {s s' : Sys S} {x : Exec} (h : s.step c x = some s') (hm : said x = none)
    (hv : isVersion x = false) : s' = s := by
  cases hc : x.call with
  | log mm => simp [said, hc] at hm
  | atLevel lv mm => simp [said, hc] at hm
  | fatal mm => simp [said, hc] at hm
  | assert ex as =>
    simp only [Sys.step, said, hc] at h hm
    split at h
    · cases h; rfl
    · next hh => rw [if_neg hh] at hm; cases hm
  | version f => simp [isVersion, hc] at hv

/-- A request for the version. -/
theorem step_version {c : Fixed} {s s' : Sys S} {x : Exec} (h : s.step c x = some s')
    (hv : isVersion x = true) :
    ∃ e l, ask writer? e = ask writer? x.env ∧ ask module? e = ask module? x.env ∧
      (s.loggers (flavorOf x)).version c e x.time = some l ∧
      s'.panics = s.panics ∧ s'.loggers = fun f => if f = flavorOf x then l else s.loggers f := by
  cases hc : x.call with
  | version f =>
    simp only [Sys.step, hc, Option.map_eq_some_iff] at h
    obtain ⟨l, h1, rfl⟩ := h
    have e : getFlavor (.flavor f :: x.env) = flavorOf x := by simp [flavorOf, hc, getFlavor_eq, ask, flavor?]
    exact ⟨.flavor f :: x.env, l, rfl, rfl, e ▸ h1, rfl, by rw [e]⟩
  | log mm => simp [isVersion, hc] at hv
  | atLevel lv mm => simp [isVersion, hc] at hv
  | fatal mm => simp [isVersion, hc] at hv
  | assert ex as => simp [isVersion, hc] at hv

theorem answers_version (c : Fixed) (x : Exec) :
    Answers ⟨[.level 0], versionText c, [], 0, x.time⟩ (saidVersion c x) :=
  ⟨rfl, rfl, rfl, rfl, rfl, rfl, rfl⟩

/-- A step for a logger that has no function for versions: one log for every message. -/
theorem step_plain {c : Fixed} {s s' : Sys S} {x : Exec} (h : s.step c x = some s') (f : Option Nat)
    (hp : ∀ e t, (s.loggers f).version c e t = (s.loggers f).log c ⟨[.level 0], versionText c, [], 0, t⟩) :
    (saidTo c f x = [] ∧ s'.loggers f = s.loggers f) ∨
    ∃ m y, saidTo c f x = [m] ∧ Answers y m ∧ (s.loggers f).log c y = some (s'.loggers f) := by
  by_cases hf : flavorOf x = f
  · subst hf
    rw [saidTo, if_pos rfl]
    cases hv : isVersion x with
    | true =>
      obtain ⟨e, l, -, -, h1, -, h2⟩ := step_version h hv
      refine .inr ⟨_, _, rfl, answers_version c x, ?_⟩
      rw [hp] at h1
      rw [h1, h2]
      simp
    | false =>
      rw [if_neg (by simp)]
      cases hm : said x with
      | none => exact .inl ⟨rfl, by rw [step_silent h hm hv]⟩
      | some m =>
        obtain ⟨y, l, h1, h2, h3⟩ := step_said h hm
        refine .inr ⟨m, y, rfl, h1, ?_⟩
        rw [h2, h3]
        simp
  · refine .inl ⟨by rw [saidTo, if_neg hf], ?_⟩
    have hf' : ¬ f = flavorOf x := fun e => hf e.symm
    cases hv : isVersion x with
    | true =>
      obtain ⟨e, l, -, -, -, -, h2⟩ := step_version h hv
      rw [h2]; simp only [if_neg hf']
    | false =>
      cases hm : said x with
      | none => rw [step_silent h hm hv]
      | some m =>
        obtain ⟨y, l, -, -, h3⟩ := step_said h hm
        rw [h3]; simp only [if_neg hf']

theorem run_cons {c : Fixed} {s s' : Sys S} {x : Exec} {xs : List Exec} (h : s.run c (x :: xs) = some s') :
    ∃ t, s.step c x = some t ∧ t.run c xs = some s' := by
  rw [Sys.run] at h
  exact Option.bind_eq_some_iff.mp h

/-! ## Text -/

theorem levelText_eq {l : Nat} {t : Str} (h : levelText l = some t) : t = levelName (some l) := by
  match l with
  | 0 | 1 | 2 | 3 | 4 | 5 | 6 | 7 => cases h; rfl
  | n + 8 => simp [levelText] at h

theorem textParts_line {c : Fixed} {y : Entry} {m : Said} (ha : Answers y m) {ps : List Str}
    (h : textParts c.format y = some ps) : ps.flatten = line c m := by
  obtain ⟨h1, h2, h3, h4, h5, h6, h7⟩ := ha
  rw [textParts] at h
  simp only [bind, Option.bind_eq_some_iff, pure, Option.some.injEq] at h
  obtain ⟨l, hl, lt, hlt, rfl⟩ := h
  rw [getLevel_eq, h1] at hl
  rw [levelText_eq hlt, getModule_eq, h2, h5, h6, h7, line, hl]
  simp only [rightAlign, List.flatten_cons, List.flatten_nil, List.append_assoc, List.append_nil]
  rfl

theorem foldl_write_append (t : Str) (ps : List Str) :
    ps.foldl Sink.write (.append t) = .append (t ++ ps.flatten) := by
  induction ps generalizing t with
  | nil => simp
  | cons p ps ih => rw [List.foldl_cons, Sink.write, ih, List.flatten_cons, List.append_assoc]

/-- One step of a text logger. -/
theorem step_text {c : Fixed} {s s' : Sys S} {x : Exec} (h : s.step c x = some s') {f : Option Nat}
    {ds : List Sink} (hd : s.loggers f = .text ds) :
    ∃ ds', s'.loggers f = .text ds' ∧ ds'.length = ds.length ∧
      ∀ (i : Nat) t, ds[i]? = some (Sink.append t) →
        ds'[i]? = some (Sink.append (t ++ (saidTo c f x).flatMap (line c))) := by
  rcases step_plain h f (by intro e t; rw [hd]; rfl) with ⟨h1, h2⟩ | ⟨m, y, h1, h2, h3⟩
  · exact ⟨ds, by rw [h2, hd], rfl, fun i t hi => by rw [h1, hi]; simp⟩
  · rw [hd, Logger.log, textLog, Option.map_map, Option.map_eq_some_iff] at h3
    obtain ⟨ps, hp, h4⟩ := h3
    refine ⟨_, h4.symm, by simp, ?_⟩
    intro i t hi
    rw [List.getElem?_map, hi, h1]
    simp only [Option.map_some, foldl_write_append, textParts_line h2 hp, List.flatMap_cons,
      List.flatMap_nil, List.append_nil]

/-! ## Records -/

theorem toStmt_eq {c : Fixed} {y : Entry} {m : Said} (ha : Answers y m) {st : Log.Stmt}
    (h : toStmt c y = some st) : st = stmtOf c m := by
  obtain ⟨h1, h2, h3, h4, h5, h6, h7⟩ := ha
  rw [toStmt, Option.map_eq_some_iff] at h
  obtain ⟨l, hl, rfl⟩ := h
  rw [getLevel_eq, h1] at hl
  rw [getModule_eq, h2, h3, h5, h6, stmtOf, hl]
  rfl

/-- One step of a binary logger: every record goes to where it should. -/
theorem step_binary {c : Fixed} {s s' : Sys S} {x : Exec} (h : s.step c x = some s') {f : Option Nat}
    {b : Binary S} (hb : s.loggers f = .binary b) :
    (recordsTo c f x = [] ∧ s'.loggers f = .binary b) ∨
    ∃ w r e, recordsTo c f x = [(w, some r)] ∧ getWriter e = w ∧ s'.loggers f = .binary (b.write e r) := by
  by_cases hf : flavorOf x = f
  · subst hf
    rw [recordsTo, if_pos rfl]
    cases hv : isVersion x with
    | true =>
      rw [if_pos rfl]
      obtain ⟨e, l, h0, -, h1, -, h2⟩ := step_version h hv
      rw [hb, Logger.version, binaryVersion, Option.map_map, Option.map_eq_some_iff] at h1
      obtain ⟨r, hr, rfl⟩ := h1
      refine .inr ⟨ask writer? x.env, r, e, by rw [hr], by rw [getWriter_eq, h0], ?_⟩
      rw [h2]
      simp
    | false =>
      rw [if_neg (by simp)]
      cases hm : said x with
      | none => exact .inl ⟨rfl, by rw [step_silent h hm hv, hb]⟩
      | some m =>
        obtain ⟨y, l, h1, h2, h3⟩ := step_said h hm
        rw [hb, Logger.log, Option.map_eq_some_iff] at h2
        obtain ⟨b', h4, rfl⟩ := h2
        rw [binaryLog] at h4
        simp only [bind, Option.bind_eq_some_iff, pure, Option.some.injEq] at h4
        obtain ⟨st, hst, r, hr, rfl⟩ := h4
        rw [toStmt_eq h1 hst] at hr
        refine .inr ⟨m.writer, r, y.env, by simp [hr], by rw [getWriter_eq]; exact h1.2.2.2.1, ?_⟩
        rw [h3]
        simp
  · refine .inl ⟨by rw [recordsTo, if_neg hf], ?_⟩
    have hf' : ¬ f = flavorOf x := fun e => hf e.symm
    cases hv : isVersion x with
    | true =>
      obtain ⟨e, l, -, -, -, -, h2⟩ := step_version h hv
      rw [h2]; simp only [if_neg hf', hb]
    | false =>
      cases hm : said x with
      | none => rw [step_silent h hm hv, hb]
      | some m =>
        obtain ⟨y, l, -, -, h3⟩ := step_said h hm
        rw [h3]; simp only [if_neg hf', hb]

/-- A destination after some records. -/
def Dest.after (d : Dest S) (rs : List (List Nat)) : Dest S :=
  { d with sent := d.sent ++ rs.flatMap fun r => (d.call d.state r).2 }

theorem after_cons (d : Dest S) (r : List Nat) (rs : List (List Nat)) :
    (d.write r).after rs = d.after (r :: rs) := by
  simp [Dest.after, Dest.write, List.flatMap_cons, List.append_assoc]

theorem after_nil (d : Dest S) : d.after [] = d := by simp [Dest.after]

theorem run_binary {c : Fixed} {f : Option Nat} (xs : List Exec) : ∀ {s s' : Sys S},
    s.run c xs = some s' → ∀ {b : Binary S}, s.loggers f = .binary b →
    s'.loggers f = .binary ⟨b.dests.map fun d => d.after (recordsFor c f none xs),
      fun w => (b.writers w).after (recordsFor c f (some w) xs)⟩ := by
  induction xs with
  | nil =>
    intro s s' h b hb
    cases h
    simp [hb, recordsFor, after_nil]
  | cons x xs ih =>
    intro s s' h b hb
    obtain ⟨t, h1, h2⟩ := run_cons h
    have hr : ∀ w, recordsFor c f w (x :: xs) =
        ((recordsTo c f x).filterMap fun r => if r.1 = w then r.2 else none) ++ recordsFor c f w xs := by
      intro w; simp [recordsFor, List.flatMap_cons]
    rcases step_binary h1 hb with ⟨h3, h4⟩ | ⟨w, r, e, h3, h4, h5⟩
    · rw [ih h2 h4]
      simp only [hr, h3, List.filterMap_nil, List.nil_append]
    · rw [ih h2 h5]
      simp only [hr, h3]
      cases w with
      | none =>
        simp only [Binary.write, h4, List.map_map, Function.comp_def, after_cons]
        simp
      | some w =>
        simp only [Binary.write, h4]
        congr 2
        · funext v
          by_cases hvw : v = w
          · subst hvw; simp [after_cons]
          · have : ¬ w = v := fun e => hvw e.symm
            simp [hvw, this]

theorem feed_stateless (call : S → List Nat → S × List Nat) (s0 : S)
    (h : ∀ s r, (call s r).2 = (call s0 r).2) (rs : List (List Nat)) :
    ∀ s, feed call s rs = rs.flatMap fun r => (call s0 r).2 := by
  induction rs with
  | nil => intro _; rfl
  | cons r rs ih => intro s; rw [feed, ih, List.flatMap_cons, h]

end Verif.Front
