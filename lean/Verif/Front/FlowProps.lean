import Verif.Front.LogProps
import Verif.Flow.Props
import Verif.Nexus.Props

/-! # Logs of flows, and the main program (C107, C108, C109) -/
namespace Verif.Front
open Spec

/-! ## C107 -/

theorem kind_text (s : Service) (l : Flow.Leaf) :
    "flow.".toList ++ s.kind l ++ "(".toList ++ s.text l.name ++ ")".toList = nodeText s l := by
  rw [Service.kind, nodeText]
  cases l.func with
  | none => simp only [Option.map_none, Option.getD_none, Bool.false_eq_true, if_false]; rfl
  | some f =>
    simp only [Option.map_some, Option.getD_some]
    split <;> rfl

theorem flowNodes_eq (logEnv : Str → Env) (s : Service) (ρ : Nat → Nat → Bool) (ls : List Flow.Leaf) :
    ∀ k, flowNodes logEnv s ρ k ls = (Flow.runFrom ρ k ls).flatMap fun c =>
      s.line (getLogEnv logEnv (s.text c.2.name) s.name) (nodeText s c.2) ++ [.act c.1 c.2] := by
  induction ls with
  | nil => intro k; rfl
  | cons l ls ih =>
    intro k
    rw [flowNodes, Flow.runFrom, List.flatMap_append, ih]
    congr 1
    split
    · rw [kind_text]; simp
    · rfl

theorem acts_append (a b : List Event) : acts (a ++ b) = acts a ++ acts b := List.filterMap_append ..
theorem texts_append (a b : List Event) : texts (a ++ b) = texts a ++ texts b := List.filterMap_append ..

theorem acts_line (s : Service) (e : Env) (t : Str) : acts (s.line e t) = [] := by
  rw [Service.line]; split <;> rfl

theorem texts_line (s : Service) (e : Env) (t : Str) : texts (s.line e t) = if s.logs then [t] else [] := by
  rw [Service.line]; split <;> rfl

/-- Logging does not change what a flow does: the calls of a run are those of the flow, whatever is
logged. -/
theorem C107_calls (logEnv : Str → Env) (s : Service) (ρ : Nat → Nat → Bool) (out : List Flow.Leaf) :
    acts (flowRun logEnv s ρ out) = Flow.run ρ out := by
  simp only [flowRun, acts_append, acts_line, List.nil_append, List.append_nil, flowNodes_eq]
  rw [show Flow.runFrom ρ 0 out = Flow.run ρ out from rfl]
  induction Flow.run ρ out with
  | nil => rfl
  | cons c cs ih =>
    rw [List.flatMap_cons, acts_append, ih, acts_append, acts_line]
    rfl

/-- The log of a run: the start, a line for every call, of the kind of the node and with its name, and the
end. A service that does not log has none. -/
theorem C107_texts (logEnv : Str → Env) (s : Service) (ρ : Nat → Nat → Bool) (out : List Flow.Leaf) :
    texts (flowRun logEnv s ρ out) = if s.logs then flowTexts s (Flow.run ρ out) else [] := by
  simp only [flowRun, texts_append, texts_line, flowNodes_eq, flowTexts]
  rw [show Flow.runFrom ρ 0 out = Flow.run ρ out from rfl]
  have key : texts ((Flow.run ρ out).flatMap fun c =>
      s.line (getLogEnv logEnv (s.text c.2.name) s.name) (nodeText s c.2) ++ [.act c.1 c.2]) =
      if s.logs then (Flow.run ρ out).map fun k => nodeText s k.2 else [] := by
    induction Flow.run ρ out with
    | nil => simp [texts]
    | cons c cs ih =>
      rw [List.flatMap_cons, texts_append, ih, texts_append, texts_line]
      split <;> rfl
  rw [key]
  split <;> simp

/-- The line of a call comes directly before it; the first line comes before all calls, the last one after
all of them. -/
theorem C107_before (logEnv : Str → Env) (s : Service) (hs : s.logs = true) (ρ : Nat → Nat → Bool)
    (out : List Flow.Leaf) (p r : List Event) (k : Nat) (l : Flow.Leaf)
    (h : flowRun logEnv s ρ out = p ++ .act k l :: r) :
    (∃ p' e, p = p' ++ [.log e (nodeText s l)]) ∧
    (∃ e p', p = .log e ("flow.start(".toList ++ s.name ++ ")".toList) :: p') ∧
    ∃ e r', r = r' ++ [.log e ("flow.end(".toList ++ s.name ++ ")".toList)] := by
  have hl : ∀ e t, s.line e t = [.log e t] := fun e t => by rw [Service.line, if_pos hs]
  simp only [flowRun, hl, flowNodes_eq] at h
  generalize Flow.runFrom ρ 0 out = cs at h
  refine ⟨?_, ?_, ?_⟩
  · -- the call is one of the nodes
    generalize hg : (fun c : Nat × Flow.Leaf => ([.log (getLogEnv logEnv (s.text c.2.name) s.name) (nodeText s c.2)] ++
      [.act c.1 c.2] : List Event)) = g at h
    have key : ∀ (cs : List (Nat × Flow.Leaf)) (p0 : List Event) p r t, p0 ++ cs.flatMap g ++ t = p ++ .act k l :: r →
        (∀ x ∈ p0, ∀ k l, x ≠ .act k l) → (∀ x ∈ t, ∀ k l, x ≠ .act k l) →
        ∃ p' e, p = p' ++ [.log e (nodeText s l)] := by
      intro cs
      induction cs with
      | nil =>
        intro p0 p r t h1 h2 h3
        have : Event.act k l ∈ p0 ++ t := by
          have : Event.act k l ∈ p ++ .act k l :: r := by simp
          rw [← h1] at this
          simpa using this
        rcases List.mem_append.mp this with h4 | h4
        · exact absurd rfl (h2 _ h4 k l)
        · exact absurd rfl (h3 _ h4 k l)
      | cons c cs ih =>
        intro p0 p r t h1 h2 h3
        have hc : g c = [.log (getLogEnv logEnv (s.text c.2.name) s.name) (nodeText s c.2), .act c.1 c.2] := by
          rw [← hg]; rfl
        rw [List.flatMap_cons, hc] at h1
        -- where the call is
        have h1' : (p0 ++ [.log (getLogEnv logEnv (s.text c.2.name) s.name) (nodeText s c.2)]) ++
            (.act c.1 c.2 :: (cs.flatMap g ++ t)) = p ++ .act k l :: r := by
          rw [← h1]; simp
        rcases List.append_eq_append_iff.mp h1' with ⟨a, h4, h5⟩ | ⟨a, h4, h5⟩
        · cases a with
          | nil =>
            rw [List.append_nil] at h4
            rw [List.nil_append] at h5
            cases h5
            exact ⟨p0, _, h4⟩
          | cons y a =>
            rw [List.cons_append, List.cons.injEq] at h5
            obtain ⟨rfl, h5⟩ := h5
            obtain ⟨p', e, he⟩ := ih [] a r t (by rw [List.nil_append]; exact h5) (by simp) h3
            exact ⟨p0 ++ [.log (getLogEnv logEnv (s.text c.2.name) s.name) (nodeText s c.2)] ++ .act c.1 c.2 :: p', e,
              by rw [h4, he]; simp⟩
        · cases a with
          | nil =>
            rw [List.append_nil] at h4
            rw [List.nil_append] at h5
            cases h5
            exact ⟨p0, _, h4.symm⟩
          | cons y a =>
            rw [List.cons_append, List.cons.injEq] at h5
            obtain ⟨rfl, -⟩ := h5
            have : Event.act k l ∈ p0 ++ [.log (getLogEnv logEnv (s.text c.2.name) s.name) (nodeText s c.2)] := by
              rw [h4]; simp
            rcases List.mem_append.mp this with h6 | h6
            · exact absurd rfl (h2 _ h6 k l)
            · simp at h6
    refine key cs [.log (getLogEnv logEnv s.name "default".toList) ("flow.start(".toList ++ s.name ++ ")".toList)] p r _ h ?_ ?_
    · simp
    · simp
  · cases p with
    | nil => simp at h
    | cons x p =>
      simp only [List.cons_append, List.nil_append, List.cons.injEq] at h
      exact ⟨_, p, by rw [← h.1]⟩
  · rcases List.eq_nil_or_concat r with rfl | ⟨r', x, rfl⟩
    · have h' := congrArg List.getLast? h
      rw [List.getLast?_append, List.getLast?_append] at h'
      simp at h'
    · refine ⟨getLogEnv logEnv s.name "default".toList, r', ?_⟩
      have h' := congrArg List.getLast? h
      rw [List.getLast?_append, List.concat_eq_append] at h'
      have : (p ++ Event.act k l :: (r' ++ [x])).getLast? = some x := by
        rw [show p ++ Event.act k l :: (r' ++ [x]) = (p ++ Event.act k l :: r') ++ [x] by simp]
        exact List.getLast?_concat
      rw [this] at h'
      simp only [List.getLast?_singleton, Option.some_or, Option.some.injEq] at h'
      rw [List.concat_eq_append, ← h']

/-- With the policy that flows have by default, a flow logs exactly when it has a name. -/
theorem C107_policy (name : Str) (text : Nat → Str) (milestone : Nat → Bool) (logEnv : Str → Env)
    (ρ : Nat → Nat → Bool) (out : List Flow.Leaf) :
    texts (flowRun logEnv ⟨name, defaultPolicy name, text, milestone⟩ ρ out) = [] ↔ name = [] := by
  rw [C107_texts]
  cases name with
  | nil => simp [defaultPolicy]
  | cons a n => simp [defaultPolicy, flowTexts]

/-- In the log of a flow that was built, every action has at most one line, and the lines stand in an order
that respects all declared orders: when an action has a line, it stands before the line of every action that
is declared to come after it. -/
theorem C107_order (picks : Nat → Nat) (fs : List Flow.Frag) (out : List Flow.Leaf)
    (hf : ∀ f ∈ fs, Flow.Spec.FlowExpr f.expr) (h : Flow.flow picks fs = some out) (ρ : Nat → Nat → Bool)
    (logEnv : Str → Env) (s : Service) (hs : s.logs = true) (a b : Nat)
    (hab : Relation.TransGen (Flow.Spec.ProgDeclared fs) a b) :
    ∃ names : List Nat, names.Nodup ∧ names.Sublist (out.map (·.name)) ∧
      texts (flowRun logEnv s ρ out) = ["flow.start(".toList ++ s.name ++ ")".toList] ++
        (Flow.run ρ out).map (fun k => nodeText s k.2) ++ ["flow.end(".toList ++ s.name ++ ")".toList] ∧
      (Flow.run ρ out).map (·.2.name) = names ∧ (a ∈ names → Flow.Spec.Precedes a b names) := by
  refine ⟨_, ?_, ?_, ?_, rfl, fun ha => Flow.C30_run picks fs out hf h ρ a b hab ha⟩
  · have h1 := (Flow.C31_run_subset out ρ).map (·.name)
    rw [List.map_map] at h1
    exact (Flow.C31_once picks fs out hf h).2.sublist h1
  · have h1 := (Flow.C31_run_subset out ρ).map (·.name)
    rwa [List.map_map] at h1
  · rw [C107_texts, if_pos hs, flowTexts]

theorem flowExecs_said (c : Fixed) (f : Option Nat) (time units : Nat → Nat) (es : List Event)
    (hf : ∀ e t, Event.log e t ∈ es → (ask flavor? e).getD none = f) :
    ∀ n, ((flowExecs time units (fun _ _ => []) n es).flatMap (saidTo c f)).map (fun m => (m.fmt, m.args)) =
        (texts es).map (fun t => (t, [])) ∧
      ∀ m ∈ (flowExecs time units (fun _ _ => []) n es).flatMap (saidTo c f),
        ∃ e, Event.log e m.fmt ∈ es ∧ m.level = ask level? e ∧ m.module = (ask module? e).getD "default".toList := by
  induction es with
  | nil => intro n; exact ⟨rfl, by simp [flowExecs]⟩
  | cons x es ih =>
    intro n
    have ih := ih (fun e t h => hf e t (List.mem_cons_of_mem _ h)) (n + 1)
    cases x with
    | act k l =>
      rw [flowExecs, List.nil_append]
      refine ⟨ih.1, ?_⟩
      intro m hm
      obtain ⟨e, h1, h2⟩ := ih.2 m hm
      exact ⟨e, List.mem_cons_of_mem _ h1, h2⟩
    | log e t =>
      have h0 : saidTo c f ⟨e, .log ⟨t, []⟩, [], units, false, time n⟩ =
          [saidIn ⟨e, .log ⟨t, []⟩, [], units, false, time n⟩ (ask level? e) t []] := by
        rw [saidTo, if_pos (by simpa [flavorOf] using hf e t List.mem_cons_self)]
        rfl
      rw [flowExecs, List.flatMap_cons, h0]
      constructor
      · rw [List.map_append, ih.1]; rfl
      · intro m hm
        rw [List.singleton_append, List.mem_cons] at hm
        rcases hm with rfl | hm
        · exact ⟨e, List.mem_cons_self, rfl, rfl⟩
        · obtain ⟨e', h1, h2⟩ := ih.2 m hm
          exact ⟨e', List.mem_cons_of_mem _ h1, h2⟩

/-- From the flow to the reader of the log: a text log of a run of a flow, whose actions log nothing
themselves, reads back as the start, the calls that were made, in their order, and the end. Missing from the
full statement: line breaks in names, and what `C104` leaves out. -/
theorem C104_flow_partial {S : Type} (c : Fixed) (f : Option Nat) (logEnv : Str → Env) (sv : Service)
    (hl : sv.logs = true) (ρ : Nat → Nat → Bool) (out : List Flow.Leaf) (time units : Nat → Nat)
    (s s' : Sys S)
    (h : s.run c (flowExecs time units (fun _ _ => []) 0 (flowRun logEnv sv ρ out)) = some s')
    (he : ∀ e t, Event.log e t ∈ flowRun logEnv sv ρ out → (ask flavor? e).getD none = f ∧
      ']' ∉ (ask module? e).getD "default".toList ∧ '\n' ∉ (ask module? e).getD "default".toList ∧
      c.format t [] = t ∧ '\n' ∉ t)
    (ds : List Sink) (hd : s.loggers f = .text ds) (i : Nat) (hi : ds[i]? = some (.append [])) :
    ∃ ds' t ls, s'.loggers f = .text ds' ∧ ds'[i]? = some (.append t) ∧ readLog t = some ls ∧
      ls.map (·.text) = flowTexts sv (Flow.run ρ out) := by
  obtain ⟨h1, h2⟩ := flowExecs_said c f time units (flowRun logEnv sv ρ out)
    (fun e t hm => (he e t hm).1) 0
  have hfmt : ∀ m ∈ (flowExecs time units (fun _ _ => []) 0 (flowRun logEnv sv ρ out)).flatMap (saidTo c f),
      m.args = [] ∧ c.format m.fmt m.args = m.fmt ∧ ']' ∉ m.module ∧ '\n' ∉ m.module ∧ '\n' ∉ m.fmt := by
    intro m hm
    have ha : m.args = [] := by
      have : (m.fmt, m.args) ∈ (texts (flowRun logEnv sv ρ out)).map (fun t => (t, [])) := by
        rw [← h1]; exact List.mem_map_of_mem (f := fun m : Said => (m.fmt, m.args)) hm
      obtain ⟨t, -, e⟩ := List.mem_map.mp this
      exact (Prod.mk.inj e).2.symm
    obtain ⟨e, g1, -, g3⟩ := h2 m hm
    obtain ⟨-, k1, k2, k3, k4⟩ := he e _ g1
    rw [ha, g3]
    exact ⟨rfl, k3, k1, k2, k4⟩
  obtain ⟨ds', t, g1, g2, g3⟩ := C104_read_partial c f _ s s' h ds hd i hi (by
    intro m hm
    obtain ⟨-, k1, k2, k3, k4⟩ := hfmt m hm
    rw [k1]
    exact ⟨k2, k3, k4⟩)
  refine ⟨ds', t, _, g1, g2, g3, ?_⟩
  rw [List.map_map]
  have : ((flowExecs time units (fun _ _ => []) 0 (flowRun logEnv sv ρ out)).flatMap (saidTo c f)).map
      (Line.text ∘ lineOf c) = ((flowExecs time units (fun _ _ => []) 0 (flowRun logEnv sv ρ out)).flatMap
        (saidTo c f)).map (·.fmt) := by
    apply List.map_congr_left
    intro m hm
    exact (hfmt m hm).2.1
  rw [this]
  have h3 := congrArg (List.map Prod.fst) h1
  rw [List.map_map, List.map_map] at h3
  simp only [Function.comp_def, List.map_id'] at h3
  rw [h3, C107_texts, if_pos hl]

/-- Three nodes, the second one a milestone, the third one under a condition that is false. -/
def exService : Service := ⟨"boot".toList, defaultPolicy "boot".toList, fun n => ["n".toList, "m".toList, "c".toList].getD n [],
  fun f => f = 1⟩

def exLeaves : List Flow.Leaf :=
  [⟨.action, 0, true, [], some 0⟩, ⟨.action, 1, true, [], some 1⟩, ⟨.action, 2, true, [5], some 2⟩]

example : (texts (flowRun (fun _ => [.level 7]) exService (fun _ _ => false) exLeaves)).map String.ofList =
      ["flow.start(boot)", "flow.action(n)", "flow.milestone(m)", "flow.end(boot)"] ∧
    acts (flowRun (fun _ => [.level 7]) exService (fun _ _ => false) exLeaves) =
      [(0, ⟨.action, 0, true, [], some 0⟩), (1, ⟨.action, 1, true, [], some 1⟩)] ∧
    (Sys.run exFixed exSys (flowExecs (fun n => n) (fun u => u) (fun _ _ => []) 0
      (flowRun (fun _ => [.level 7]) exService (fun _ _ => false) exLeaves))).isSome := by decide +kernel

/-! ## C108 -/

/-- A line of a node has the environment that was given for the node, else the one for its flow, else the
one for `default`, else the level `TRACE`; a start or an end the one of the flow. Missing from the full
statement: environments given that are the one with only the level `TRACE`. -/
theorem C108_env_partial (sp : Str → Option Env) (hs : ∀ n e, sp n = some e → e ≠ [.level 7]) (s : Service)
    (ρ : Nat → Nat → Bool) (out : List Flow.Leaf) (e : Env) (t : Str)
    (h : Event.log e t ∈ flowRun (withDefault sp) s ρ out) :
    (∃ kl ∈ Flow.run ρ out, t = nodeText s kl.2 ∧ e = chosen sp [s.text kl.2.name, s.name]) ∨
    ((t = "flow.start(".toList ++ s.name ++ ")".toList ∨ t = "flow.end(".toList ++ s.name ++ ")".toList) ∧
      e = chosen sp [s.name]) := by
  have hd : ∀ n, withDefault sp n = defaultLogEnv ↔ sp n = none := by
    intro n
    rw [withDefault, defaultLogEnv]
    cases hn : sp n with
    | none => simp
    | some e => simpa using hs n e hn
  have key : ∀ n g, getLogEnv (withDefault sp) n g = chosen sp [n, g] := by
    intro n g
    rw [getLogEnv, chosen]
    by_cases h1 : sp n = none
    · rw [if_pos ((hd n).mpr h1)]
      by_cases h2 : g = "default".toList
      · rw [if_pos h2, h2, withDefault]
        simp only [List.cons_append, List.nil_append, List.findSome?_cons, h1, List.findSome?_nil]
        cases sp "default".toList <;> rfl
      · rw [if_neg h2]
        by_cases h3 : sp g = none
        · rw [if_pos ((hd g).mpr h3), withDefault]
          simp only [List.cons_append, List.nil_append, List.findSome?_cons, h1, h3, List.findSome?_nil]
          cases sp "default".toList <;> rfl
        · rw [if_neg (fun h => h3 ((hd g).mp h)), withDefault]
          obtain ⟨e, he⟩ := Option.ne_none_iff_exists'.mp h3
          simp [h1, he]
    · rw [if_neg (fun h => h1 ((hd n).mp h)), withDefault]
      obtain ⟨e, he⟩ := Option.ne_none_iff_exists'.mp h1
      simp [he]
  have key2 : ∀ n, getLogEnv (withDefault sp) n "default".toList = chosen sp [n] := by
    intro n
    rw [key, chosen, chosen]
    simp only [List.cons_append, List.nil_append, List.findSome?_cons, List.findSome?_nil]
    cases sp n with
    | some e => rfl
    | none => cases sp "default".toList <;> rfl
  have hl : ∀ {e' t'}, Event.log e t ∈ s.line e' t' → e = e' ∧ t = t' := by
    intro e' t' hm
    rw [Service.line] at hm
    split at hm
    · simpa using hm
    · simp at hm
  simp only [flowRun, flowNodes_eq, List.mem_append, List.mem_flatMap] at h
  rcases h with (h | ⟨kl, hk, h⟩) | h
  · obtain ⟨rfl, rfl⟩ := hl h
    exact .inr ⟨.inl rfl, key2 _⟩
  · rcases h with h | h
    · obtain ⟨rfl, rfl⟩ := hl h
      exact .inl ⟨kl, hk, rfl, key _ _⟩
    · simp at h
  · obtain ⟨rfl, rfl⟩ := hl h
    exact .inr ⟨.inr rfl, key2 _⟩

/-- C108: in general, an environment given that has only the level `TRACE` counts as not given. -/
theorem C108_exact (sp : Str → Option Env) (s : Service) (ρ : Nat → Nat → Bool) (out : List Flow.Leaf) (e : Env) (t : Str)
    (h : Event.log e t ∈ flowRun (withDefault sp) s ρ out) :
    (∃ kl ∈ Flow.run ρ out, t = nodeText s kl.2 ∧
      e = chosen (fun n => (sp n).filter (· ≠ [.level 7])) [s.text kl.2.name, s.name]) ∨
    ((t = "flow.start(".toList ++ s.name ++ ")".toList ∨ t = "flow.end(".toList ++ s.name ++ ")".toList) ∧
      e = chosen (fun n => (sp n).filter (· ≠ [.level 7])) [s.name]) := by
  have hw : withDefault sp = withDefault fun n => (sp n).filter (· ≠ [.level 7]) := by
    funext n
    rw [withDefault, withDefault]
    cases sp n with
    | none => rfl
    | some e =>
      by_cases he : e = [.level 7]
      · subst he; rfl
      · simp [Option.filter, he]
  rw [hw] at h
  refine C108_env_partial _ ?_ s ρ out e t h
  intro n e he
  simpa using (Option.filter_eq_some_iff.mp he).2

example : chosen (fun n => (if n = "n".toList then some [.level 7] else if n = "boot".toList then some [.level 4]
      else none : Option Env).filter (· ≠ [.level 7])) ["n".toList, "boot".toList] = [.level 4] := by decide +kernel

/-- An environment given for a node that is the same as the default one is passed over: the node logs with
the level of the flow. -/
theorem C108_violated_same :
    getLogEnv (withDefault fun n => if n = "n".toList then some [.level 7] else if n = "boot".toList then some [.level 4]
      else none) "n".toList "boot".toList = [.level 4] ∧
    chosen (fun n => if n = "n".toList then some [.level 7] else if n = "boot".toList then some [.level 4] else none)
      ["n".toList, "boot".toList] = [.level 7] := by decide +kernel

def exSp (n : Str) : Option Env :=
  if n = "n".toList then some [.level 4] else if n = "boot".toList then some [.module "b".toList, .level 3] else none

example : (∀ n e, exSp n = some e → e ≠ [.level 7]) ∧
    (flowRun (withDefault exSp) exService (fun _ _ => false) exLeaves).filterMap (fun e =>
      match e with | .log e _ => some e | _ => none) =
      [[.module "b".toList, .level 3], [.level 4], [.module "b".toList, .level 3], [.module "b".toList, .level 3]] := by
  refine ⟨?_, by decide +kernel⟩
  intro n e h
  rw [exSp] at h
  split at h
  · cases h; decide
  · split at h
    · cases h; decide
    · cases h

/-! ## C109 -/

theorem mapM_range_some {α : Type} (n : Nat) (g : Nat → Option α) (v : Nat → α) (h : ∀ i, g i = some (v i)) :
    (List.range n).mapM g = some ((List.range n).map v) := by
  have : ∀ l : List Nat, l.mapM g = some (l.map v) := by
    intro l
    induction l with
    | nil => rfl
    | cons a l ih => rw [List.mapM_cons, h a, ih]; rfl
  exact this _

/-- The fragments that the configuration of the project adds to a service: those of all extensions of it
that count, with the runtime conditions around them. -/
def added (preds : Nat → List Nat) (names : Nat → Option Nat) (project : Nexus.Cfg Flow.Frag) (s : Nat) :
    List Flow.Frag :=
  ((Nexus.Spec.activeNodes project).filter fun n =>
    Nexus.locate names (topConfig project).exported n.target = some s).flatMap fun n =>
      n.args.map fun f => ⟨f.whens ++ n.conds.map preds, f.expr⟩

theorem wrap_under (preds : Nat → List Nat) (conds : List Nat) (f : Flow.Frag) :
    Nexus.Spec.wrap (underCondition preds) conds f = some ⟨f.whens ++ conds.map preds, f.expr⟩ := by
  induction conds generalizing f with
  | nil => simp [Nexus.Spec.wrap]
  | cons c cs ih =>
    rw [Nexus.Spec.wrap, underCondition, Option.bind_some, ih]
    simp

theorem mapM_some_map {α β : Type} (l : List α) (g : α → Option β) (v : α → β) (h : ∀ a, g a = some (v a)) :
    l.mapM g = some (l.map v) := by
  induction l with
  | nil => rfl
  | cons a l ih => rw [List.mapM_cons, h a, ih]; rfl

theorem active_top {A : Type} (project : Nexus.Cfg A) :
    Nexus.Spec.activeNodes (topConfig project) = Nexus.Spec.activeNodes project := by
  simp [Nexus.Spec.activeNodes, topConfig, Nexus.Spec.nodes, Nexus.Spec.nodesAll]

/-- The flow services hold what the project added. -/
theorem top_service (preds : Nat → List Nat) (names : Nat → Option Nat)
    (arrange : List (Nexus.Ext Flow.Frag) → List (Nexus.Ext Flow.Frag)) (harr : ∀ l, (arrange l).Perm l)
    (project : Nexus.Cfg Flow.Frag) (bs : List (Nat × List Flow.Frag))
    (h : Nexus.builders (underCondition preds) names arrange (topConfig project) = some bs)
    (s : Nat) (hs : s ∈ (topConfig project).exported) :
    ∃ fs, (Nexus.init names (topConfig project).exported bs (.start Flow.Frag)).service s = some fs ∧
      fs.Perm (added preds names project s) := by
  obtain ⟨h1, -, h3, -⟩ := Nexus.C86_service arrange (topConfig project) bs h (.start Flow.Frag)
  obtain ⟨fs, hm⟩ := h3 s hs
  obtain ⟨-, -, h4⟩ := Nexus.C51_once arrange harr (topConfig project) bs h
  obtain ⟨ws, h5, h6⟩ := h4 s fs hm
  refine ⟨fs, h1 s fs hm, ?_⟩
  rw [active_top, mapM_some_map _ _ (fun n => n.args.map fun f => (⟨f.whens ++ n.conds.map preds, f.expr⟩ : Flow.Frag))
    (fun n => mapM_some_map _ _ _ fun f => wrap_under preds n.conds f), Option.some.injEq] at h5
  rw [added, List.flatMap_def, h5]
  exact h6

/-- The calls of a step of the main program. -/
def callsOf : Step → List (Nat × Nat × Flow.Leaf)
  | .flow s es => (acts es).map fun a => (s, a)
  | .info _ => []

/-- The main program of a project that compiles: after the services were initialised, the flows
`EarlyRuntimeInit`, `RuntimeInit` and `RuntimeStart` run once, in this order, with a message before the
second and the third, and then `MainLoop` runs again and again. Each flow is made of all that the project
adds to it. They log no lines of their own. -/
theorem C109_main (preds : Nat → List Nat) (names : Nat → Option Nat)
    (arrange : List (Nexus.Ext Flow.Frag) → List (Nexus.Ext Flow.Frag)) (harr : ∀ l, (arrange l).Perm l)
    (project : Nexus.Cfg Flow.Frag) (bs : List (Nat × List Flow.Frag))
    (h : Nexus.builders (underCondition preds) names arrange (topConfig project) = some bs)
    (logEnv : Str → Env) (text : Nat → Str) (milestone : Nat → Bool) (picks : Nat → Nat)
    (ρ : Nat → Nat → Nat → Bool) (n : Nat) (st : List Step)
    (hm : topMain logEnv text milestone picks names project bs ρ n = some st) :
    ∃ fs : Nat → List Flow.Frag, ∃ out : Nat → List Flow.Leaf,
      (∀ s ∈ [earlyInit, runtimeInit, runtimeStart], (fs s).Perm (added preds names project s) ∧
        Flow.flow picks (fs s) = some (out s)) ∧
      (0 < n → (fs mainLoop).Perm (added preds names project mainLoop) ∧
        Flow.flow picks (fs mainLoop) = some (out mainLoop)) ∧
      st = [.flow earlyInit ((Flow.run (ρ 0) (out earlyInit)).map fun c => .act c.1 c.2),
          .info "cib::top::init() - RuntimeInit".toList,
          .flow runtimeInit ((Flow.run (ρ 1) (out runtimeInit)).map fun c => .act c.1 c.2),
          .info "cib::top::init() - RuntimeStart".toList,
          .flow runtimeStart ((Flow.run (ρ 2) (out runtimeStart)).map fun c => .act c.1 c.2)] ++
        (List.range n).map fun i =>
          .flow mainLoop ((Flow.run (ρ (3 + i)) (out mainLoop)).map fun c => .act c.1 c.2) := by
  have hex : ∀ s ∈ [earlyInit, runtimeInit, runtimeStart, mainLoop], s ∈ (topConfig project).exported := by
    intro s hs
    simp only [topConfig, Nexus.Cfg.exported, Nexus.exportedAll, List.mem_append]
    exact .inl hs
  have hsv := fun s hs => top_service preds names arrange harr project bs h s (hex s hs)
  choose! fs hfs using hsv
  have hrun : ∀ s ρ' out, Flow.flow picks (fs s) = some out → ∀ hs : s ∈ [earlyInit, runtimeInit, runtimeStart, mainLoop],
      runTop logEnv text milestone picks
        (Nexus.init names (topConfig project).exported bs (.start Flow.Frag)) s ρ' =
      some (.flow s ((Flow.run ρ' out).map fun c => .act c.1 c.2)) := by
    intro s ρ' out hout hs
    rw [runTop, (hfs s hs).1]
    simp only [bind, Option.bind_some, hout, pure]
    congr 2
    simp only [flowRun, flowNodes_eq, Service.line, defaultPolicy, List.isEmpty_nil, Bool.not_true,
      Bool.false_eq_true, if_false, List.nil_append, List.append_nil]
    rw [show Flow.runFrom ρ' 0 out = Flow.run ρ' out from rfl]
    induction Flow.run ρ' out with
    | nil => rfl
    | cons c cs ih => rw [List.flatMap_cons, ih, List.map_cons]; rfl
  have hflow : ∀ s ρ' x, s ∈ [earlyInit, runtimeInit, runtimeStart, mainLoop] →
      runTop logEnv text milestone picks
        (Nexus.init names (topConfig project).exported bs (.start Flow.Frag)) s ρ' = some x →
      ∃ o, Flow.flow picks (fs s) = some o := by
    intro s ρ' x hs hx
    rw [runTop, (hfs s hs).1] at hx
    simp only [bind, Option.bind_some, Option.bind_eq_some_iff] at hx
    obtain ⟨o, ho, -⟩ := hx
    exact ⟨o, ho⟩
  rw [topMain] at hm
  simp only [bind, Option.bind_eq_some_iff, pure, Option.some.injEq] at hm
  obtain ⟨a, ha, b, hb, d, hd, loop, hl, rfl⟩ := hm
  obtain ⟨oa, hoa⟩ := hflow _ _ _ (by simp) ha
  obtain ⟨ob, hob⟩ := hflow _ _ _ (by simp) hb
  obtain ⟨od, hod⟩ := hflow _ _ _ (by simp) hd
  have hol : ∃ ol, 0 < n → Flow.flow picks (fs mainLoop) = some ol := by
    cases n with
    | zero => exact ⟨[], fun h => absurd h (by simp)⟩
    | succ n =>
      rw [List.range_succ_eq_map, List.mapM_cons] at hl
      simp only [bind, Option.bind_eq_some_iff] at hl
      obtain ⟨x, hx, -⟩ := hl
      obtain ⟨ol, ho⟩ := hflow _ _ _ (by simp) hx
      exact ⟨ol, fun _ => ho⟩
  obtain ⟨ol, hol⟩ := hol
  refine ⟨fs, fun s => if s = earlyInit then oa else if s = runtimeInit then ob else
    if s = runtimeStart then od else ol, ?_, ?_, ?_⟩
  · intro s hs
    simp only [List.mem_cons, List.not_mem_nil, or_false] at hs
    rcases hs with rfl | rfl | rfl
    · exact ⟨(hfs _ (by simp)).2, hoa⟩
    · exact ⟨(hfs _ (by simp)).2, hob⟩
    · exact ⟨(hfs _ (by simp)).2, hod⟩
  · intro hn
    exact ⟨(hfs _ (by simp)).2, hol hn⟩
  · rw [hrun _ _ _ hoa (by simp), Option.some.injEq] at ha
    rw [hrun _ _ _ hob (by simp), Option.some.injEq] at hb
    rw [hrun _ _ _ hod (by simp), Option.some.injEq] at hd
    subst ha hb hd
    congr 1
    cases n with
    | zero => cases hl; rfl
    | succ n =>
      rw [mapM_range_some _ _ _ (fun i => hrun _ _ _ (hol (by simp)) (by simp)), Option.some.injEq] at hl
      exact hl.symm

/-- The order of calls in a run of the main program: an action of an earlier flow is called before one of a
later flow, and within a run of a flow the declared orders hold. -/
theorem C109_order (preds : Nat → List Nat) (names : Nat → Option Nat)
    (arrange : List (Nexus.Ext Flow.Frag) → List (Nexus.Ext Flow.Frag)) (harr : ∀ l, (arrange l).Perm l)
    (project : Nexus.Cfg Flow.Frag) (bs : List (Nat × List Flow.Frag))
    (h : Nexus.builders (underCondition preds) names arrange (topConfig project) = some bs)
    (hfl : ∀ s, ∀ f ∈ added preds names project s, Flow.Spec.FlowExpr f.expr)
    (logEnv : Str → Env) (text : Nat → Str) (milestone : Nat → Bool) (picks : Nat → Nat)
    (ρ : Nat → Nat → Nat → Bool) (n : Nat) (st : List Step)
    (hm : topMain logEnv text milestone picks names project bs ρ n = some st) :
    ((st.flatMap callsOf).map (·.1)).Pairwise (· ≤ ·) ∧
    ∀ s es, Step.flow s es ∈ st → ∀ a b, Relation.TransGen (Flow.Spec.ProgDeclared (added preds names project s)) a b →
      a ∈ (acts es).map (·.2.name) → Flow.Spec.Precedes a b ((acts es).map (·.2.name)) := by
  obtain ⟨fs, out, h1, h2, rfl⟩ := C109_main preds names arrange harr project bs h logEnv text milestone picks ρ n st hm
  have hacts : ∀ cs : List (Nat × Flow.Leaf), acts (cs.map fun c => Event.act c.1 c.2) = cs := by
    intro cs
    induction cs with
    | nil => rfl
    | cons c cs ih => rw [List.map_cons]; exact congrArg (c :: ·) ih
  have hord : ∀ s, (fs s).Perm (added preds names project s) → Flow.flow picks (fs s) = some (out s) →
      ∀ ρ' a b, Relation.TransGen (Flow.Spec.ProgDeclared (added preds names project s)) a b →
      a ∈ (Flow.run ρ' (out s)).map (·.2.name) → Flow.Spec.Precedes a b ((Flow.run ρ' (out s)).map (·.2.name)) := by
    intro s hp ho ρ' a b hab ha
    refine Flow.C30_run picks (fs s) (out s) (fun f hf => hfl s f (hp.subset hf)) ho ρ' a b ?_ ha
    exact Relation.TransGen.mono (fun x y ⟨f, hf, hd⟩ => ⟨f, hp.symm.subset hf, hd⟩) _ _ hab
  constructor
  · have hc : ∀ (s : Nat) (cs : List (Nat × Flow.Leaf)), (callsOf (.flow s (cs.map fun c => Event.act c.1 c.2))).map (·.1) =
        List.replicate cs.length s := by
      intro s cs
      rw [callsOf, hacts, List.map_map]
      induction cs with
      | nil => rfl
      | cons c cs ih => rw [List.map_cons, ih]; rfl
    have hloop : ∀ x ∈ (((List.range n).map fun i => Step.flow mainLoop
        ((Flow.run (ρ (3 + i)) (out mainLoop)).map fun c => .act c.1 c.2)).flatMap callsOf).map (·.1), x = mainLoop := by
      intro x hx
      rw [List.map_flatMap, List.mem_flatMap] at hx
      obtain ⟨y, hy, hx⟩ := hx
      obtain ⟨i, -, rfl⟩ := List.mem_map.mp hy
      rw [hc, List.mem_replicate] at hx
      exact hx.2
    simp only [List.flatMap_append, List.map_append, List.flatMap_cons, List.flatMap_nil, List.append_nil, hc]
    rw [show ∀ t, callsOf (.info t) = [] from fun _ => rfl, show ∀ t, callsOf (.info t) = [] from fun _ => rfl,
      List.map_nil, List.nil_append, List.nil_append]
    simp only [List.pairwise_append, List.mem_append, List.mem_replicate]
    have hp : ∀ (k s : Nat), (List.replicate k s).Pairwise (· ≤ ·) := by
      intro k s
      rw [List.pairwise_replicate]
      exact .inr (Nat.le_refl s)
    refine ⟨⟨hp _ _, ⟨hp _ _, hp _ _, ?_⟩, ?_⟩, ?_, ?_⟩
    · rintro a ⟨-, rfl⟩ b ⟨-, rfl⟩; decide
    · rintro a ⟨-, rfl⟩ b (⟨-, rfl⟩ | ⟨-, rfl⟩) <;> decide
    · refine List.Pairwise.imp_of_mem (R := fun _ _ => True) ?_ (List.pairwise_of_forall (fun _ _ => trivial))
      intro a b ha hb _
      rw [hloop a ha, hloop b hb]
    · rintro a (⟨-, rfl⟩ | ⟨-, rfl⟩ | ⟨-, rfl⟩) b hb <;> rw [hloop b hb] <;> decide
  · intro s es hs a b hab ha
    rcases List.mem_append.mp hs with hs | hs
    · simp only [List.mem_cons, List.not_mem_nil, or_false, reduceCtorEq, false_or, Step.flow.injEq] at hs
      rcases hs with ⟨rfl, rfl⟩ | ⟨rfl, rfl⟩ | ⟨rfl, rfl⟩ <;> rw [hacts] at ha ⊢ <;>
        exact hord _ (h1 _ (by simp)).1 (h1 _ (by simp)).2 _ a b hab ha
    · obtain ⟨i, hi, e⟩ := List.mem_map.mp hs
      cases e
      have hn : 0 < n := Nat.lt_of_le_of_lt (Nat.zero_le i) (List.mem_range.mp hi)
      rw [hacts] at ha ⊢
      exact hord _ (h2 hn).1 (h2 hn).2 _ a b hab ha

/-- A project that adds to three of the flows, to one of them under a condition. -/
def exProject : Nexus.Cfg Flow.Frag :=
  .config [.extend (.type earlyInit) [⟨[], .star (.action 1 10)⟩],
    .runIf 6 [.extend (.type runtimeInit) [⟨[], .star (.seq (.action 2 20) (.action 3 30))⟩]],
    .extend (.type mainLoop) [⟨[], .star (.action 4 40)⟩]]

example : ∃ bs, Nexus.builders (underCondition fun c => [c]) (fun _ => none) id (topConfig exProject) = some bs ∧
    ((topMain (fun _ => [.level 7]) (fun _ => []) (fun _ => false) (fun _ => 0) (fun _ => none) exProject bs
      (fun _ _ p => p = 6) 2).map fun st => (st.flatMap callsOf).map fun c => (c.1, c.2.2.name)) =
      some [(0, 1), (1, 2), (1, 3), (3, 4), (3, 4)] ∧
    (∀ s ∈ [0, 1, 2, 3], ∀ f ∈ added (fun c => [c]) (fun _ => none) exProject s, Flow.Spec.FlowExpr f.expr) := by
  refine ⟨_, rfl, by decide +kernel, ?_⟩
  intro s hs f hf
  simp only [List.mem_cons, List.not_mem_nil, or_false] at hs
  rcases hs with rfl | rfl | rfl | rfl
  · rw [show added (fun c => [c]) (fun _ => none) exProject 0 = [⟨[], .star (.action 1 10)⟩] from rfl,
      List.mem_singleton] at hf
    subst hf; exact trivial
  · rw [show added (fun c => [c]) (fun _ => none) exProject 1 =
      [⟨[[6]], .star (.seq (.action 2 20) (.action 3 30))⟩] from rfl, List.mem_singleton] at hf
    subst hf; exact ⟨trivial, trivial⟩
  · rw [show added (fun c => [c]) (fun _ => none) exProject 2 = [] from rfl] at hf
    simp at hf
  · rw [show added (fun c => [c]) (fun _ => none) exProject 3 = [⟨[], .star (.action 4 40)⟩] from rfl,
      List.mem_singleton] at hf
    subst hf; exact trivial

end Verif.Front
