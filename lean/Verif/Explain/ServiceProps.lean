import Verif.Explain.DescribeProps
import Verif.Front.FlowProps

/-! # What services log: C112, C113 -/
namespace Verif.Explain
open Verif.Match Verif.Message Verif.Receive Spec

variable {N : Numbering} {env : Receive.Env} {W : Nat} {nm : Names}

/-! ### Lemmas: lines -/

theorem takeWhile_free {w : Str} {b : Char} (h : b ∉ w) (s : Str) :
    ((w ++ b :: s).takeWhile fun a => decide (a ≠ b)) = w := by
  induction w with
  | nil => simp
  | cons a w ih =>
    simp only [List.mem_cons, not_or] at h
    rw [List.cons_append, List.takeWhile_cons_of_pos (by simpa using Ne.symm h.1), ih h.2]

theorem lit_because : "], because [".toList = ']' :: ", because [".toList := by decide +kernel
theorem lit_close : "]".toList = [']'] := by decide +kernel
theorem lit_end : "])".toList = [']', ')'] := by decide +kernel
theorem lit_executing : "]), executing callback".toList = ']' :: ')' :: ", executing callback".toList := by
  decide +kernel
theorem lit_head : ("(collapsed by index from [".toList : Str) ≠ [] ∧
    " (collapsed by index from [".toList = ' ' :: "(collapsed by index from [".toList ∧
    ", executing callback".toList.head? = some ',' := by decide +kernel

theorem shape_plain (A B B' C K name because : Str) (hB : B' = ']' :: B) (hK : K = [']']) :
    A ++ name ++ B' ++ because ++ K ++ [] ++ C = A ++ (name ++ ']' :: (B ++ (because ++ ']' :: C))) := by
  subst hB hK; simp

theorem shape_collapsed (A B B' C D E K name because before : Str) (hB : B' = ']' :: B) (hK : K = [']'])
    (hE : E = [']', ')']) :
    A ++ name ++ B' ++ because ++ K ++ (D ++ before ++ E) ++ C =
      A ++ (name ++ ']' :: (B ++ (because ++ ']' :: (D ++ (before ++ ']' :: ')' :: C))))) := by
  subst hB hK hE; simp

theorem shape_error (A B B' n : Str) (stop : Char) (hB : B' = ')' :: B) :
    A ++ n ++ B' ++ [stop] = A ++ (n ++ ')' :: (B ++ [stop])) := by
  subst hB; simp

theorem readTold_plain {name because : Str} (hn : ']' ∉ name) (hb : ']' ∉ because) :
    readTold (matchedText name because []) = some ⟨name, because, none⟩ := by
  have h3 : ∀ s : Str, after "], because [".toList (']' :: (", because [".toList ++ s)) = some s := by
    intro s; rw [← List.cons_append, ← lit_because]; exact after_append _ s
  have h4 : ∀ s : Str, after "]".toList (']' :: s) = some s := by
    intro s; rw [show ']' :: s = [']'] ++ s from rfl, ← lit_close]; exact after_append _ s
  have e : matchedText name because [] = "Incoming message matched [".toList ++ (name ++ ']' ::
      (", because [".toList ++ (because ++ ']' :: ", executing callback".toList))) := by
    exact shape_plain _ _ _ _ _ _ _ lit_because lit_close
  unfold readTold
  simp only [e, after_append, takeWhile_free hn, List.drop_left, h3, takeWhile_free hb, h4,
    Option.bind_eq_bind, Option.bind_some, if_true]
  rfl

theorem readTold_collapsed {name because before : Str} (hn : ']' ∉ name) (hb : ']' ∉ because)
    (hc : ']' ∉ before) :
    readTold (matchedText name because (collapsedText before)) = some ⟨name, because, some before⟩ := by
  have h3 : ∀ s : Str, after "], because [".toList (']' :: (", because [".toList ++ s)) = some s := by
    intro s; rw [← List.cons_append, ← lit_because]; exact after_append _ s
  have h4 : ∀ s : Str, after "]".toList (']' :: s) = some s := by
    intro s; rw [show ']' :: s = [']'] ++ s from rfl, ← lit_close]; exact after_append _ s
  have e : matchedText name because (collapsedText before) = "Incoming message matched [".toList ++ (name ++ ']' ::
      (", because [".toList ++ (because ++ ']' :: (" (collapsed by index from [".toList ++ (before ++ ']' ::
        ')' :: ", executing callback".toList))))) := by
    exact shape_collapsed _ _ _ _ _ _ _ _ _ _ lit_because lit_close lit_end
  have h5 : ∀ s : Str, ¬(" (collapsed by index from [".toList ++ s = ", executing callback".toList) := by
    intro s h
    have := congrArg List.head? h
    rw [lit_head.2.1, lit_head.2.2] at this
    simp at this
  unfold readTold
  simp only [e, after_append, takeWhile_free hn, List.drop_left, h3, takeWhile_free hb, h4,
    Option.bind_eq_bind, Option.bind_some, h5, if_false, takeWhile_free hc, lit_executing, if_true]
  rfl

theorem not_prefix {p u v : Str} {b : Char} (hb : b ∈ p) (hu : b ∉ u) (hl : p.length ≤ u.length) :
    p.isPrefixOf (u ++ v) = false := by
  rw [Bool.eq_false_iff]
  intro h
  have h2 := List.isPrefixOf_iff_prefix.1 h
  have h3 : p <+: u := List.prefix_of_prefix_length_le h2 (List.prefix_append u v) hl
  exact hu (h3.subset hb)

theorem cutAt_name {name : Str} (hn : '(' ∉ name) (s : Str) :
    cutAt " - F:(".toList (name ++ (" - F:(".toList ++ s)) = some (name, s) := by
  induction name with
  | nil =>
    have h : List.isPrefixOf " - F:(".toList (' ' :: ("- F:(".toList ++ s)) = true :=
      List.isPrefixOf_iff_prefix.2 ⟨s, rfl⟩
    rw [List.nil_append, show " - F:(".toList ++ s = ' ' :: ("- F:(".toList ++ s) from rfl, cutAt, if_pos h]
    rfl
  | cons a name ih =>
    rw [List.cons_append, cutAt, if_neg, ih (fun h => hn (List.mem_cons_of_mem _ h))]
    · rfl
    · have e : a :: (name ++ (" - F:(".toList ++ s)) = (a :: (name ++ " - F:".toList)) ++ ("(".toList ++ s) := by
        simp
      rw [e, not_prefix (b := '(') (by decide)]
      · simp
      · simp only [List.mem_cons, List.mem_append, not_or] at hn ⊢
        exact ⟨hn.1, hn.2, by decide⟩
      · simp

theorem readRefused_text {name found : Str} (hn : '(' ∉ name) :
    readRefused ("    ".toList ++ name ++ " - F:(".toList ++ found ++ ")".toList) = some ⟨name, found⟩ := by
  have e : "    ".toList ++ name ++ " - F:(".toList ++ found ++ ")".toList =
      "    ".toList ++ (name ++ (" - F:(".toList ++ (found ++ [')']))) := by simp
  unfold readRefused
  simp only [e, after_append, Option.bind_eq_bind, Option.bind_some, cutAt_name hn]
  rw [if_pos (by simp)]
  simp

theorem readError_text (n : Nat) (stop : Char) (hs : stop = ':' ∨ stop = '.') :
    readError (errorText n stop) = some n := by
  have hd : ')' ∉ Nat.toDigits 10 n := by
    intro h
    have := Nat.isDigit_of_mem_toDigits (b := 10) (by omega) (by omega) h
    exact absurd this (by decide)
  have hc : ") claimed this message".toList = ')' :: " claimed this message".toList := by decide +kernel
  have e : errorText n stop = "None of the registered callbacks (".toList ++ (Nat.toDigits 10 n ++ ')' ::
      (" claimed this message".toList ++ [stop])) := by
    exact shape_error _ _ _ _ _ hc
  unfold readError
  simp only [e, after_append, Option.bind_eq_bind, Option.bind_some, takeWhile_free hd, List.drop_left]
  rw [if_pos (by rcases hs with rfl | rfl <;> decide), Nat.ofDigitChars_ten_toDigits]
  rfl

theorem describe_free {text : RLeaf → Str} {b : Char} (hb : b ∉ "truefalsenot() and or ".toList) (m : M RLeaf)
    (h : ∀ a ∈ leaves m, b ∉ text a) : b ∉ describe text m := by
  have lit : ∀ s : Str, s ⊆ "truefalsenot() and or ".toList → b ∉ s := fun s hs h => hb (hs h)
  have hop : ∀ c s, b ∉ s → b ∉ operand c s := by
    intro c s hs
    unfold operand
    split
    · exact hs
    · simp only [List.mem_append, not_or]
      exact ⟨⟨lit _ (by decide), hs⟩, lit _ (by decide)⟩
  induction m with
  | always => exact lit "true".toList (by decide)
  | never => exact lit "false".toList (by decide)
  | leaf a => exact h a (by simp [leaves])
  | not m ih =>
    simp only [describe, List.mem_append, not_or]
    exact ⟨⟨lit _ (by decide), ih h⟩, lit _ (by decide)⟩
  | and l r ihl ihr =>
    simp only [leaves, List.mem_append] at h
    simp only [describe, List.mem_append, not_or]
    exact ⟨⟨hop _ _ (ihl fun a ha => h a (.inl ha)), lit _ (by decide)⟩,
      hop _ _ (ihr fun a ha => h a (.inr ha))⟩
  | or l r ihl ihr =>
    simp only [leaves, List.mem_append] at h
    simp only [describe, List.mem_append, not_or]
    exact ⟨⟨hop _ _ (ihl fun a ha => h a (.inl ha)), lit _ (by decide)⟩,
      hop _ _ (ihr fun a ha => h a (.inr ha))⟩

theorem termText_free (hl : LineNames nm) (a : RLeaf) : ']' ∉ termText N nm a := by
  cases a with
  | rel op g v =>
    have : ']' ∉ fieldName N nm g := by
      unfold fieldName
      cases N.fieldOf g.name with
      | none => simp
      | some f => exact hl.field f.name
    simp only [termText, List.mem_append, not_or]
    exact ⟨⟨⟨⟨this, by decide⟩, by cases op <;> decide⟩, by decide⟩, hex_not (by decide) (by decide)⟩
  | pred i =>
    simp only [termText]
    split
    · simp only [List.mem_append, not_or]
      exact ⟨⟨by decide, hl.field _⟩, by decide⟩
    · exact hl.cond _
    · simp

theorem describe_bracket (hl : LineNames nm) (m : M RLeaf) : ']' ∉ describe (termText N nm) m :=
  describe_free (by decide) m fun a _ => termText_free hl a

/-! ### Lemmas: events -/

theorem mapM_forall₂ {α β : Type} (f : α → Option β) (l : List α) (r : List β) (h : l.mapM f = some r) :
    List.Forall₂ (fun a b => f a = some b) l r := by
  induction l generalizing r with
  | nil => obtain rfl := Option.some.inj h; exact .nil
  | cons a l ih =>
    rw [List.mapM_cons] at h
    simp only [Option.bind_eq_bind, Option.bind_eq_some_iff] at h
    obtain ⟨b, hb, bs, hbs, h⟩ := h
    obtain rfl := Option.some.inj h
    exact .cons hb (ih bs hbs)

theorem mapM_events {γ : Type} (g : γ → Option Bool) (ev : γ → List Event) (cs : List γ)
    (rs : List (List Event × Bool))
    (h : cs.mapM (fun c => (g c).map fun b => if b then (ev c, true) else ([], false)) = some rs) :
    (∀ c ∈ cs, ∃ b, g c = some b) ∧ rs.flatMap (·.1) = (cs.filter fun c => g c == some true).flatMap ev ∧
      rs.any (·.2) = !(cs.filter fun c => g c == some true).isEmpty := by
  have := mapM_forall₂ _ _ _ h
  clear h
  induction this with
  | nil => simp
  | @cons c r cs rs hc _ ih =>
    obtain ⟨b, hb, rfl⟩ := Option.map_eq_some_iff.1 hc
    obtain ⟨i1, i2, i3⟩ := ih
    refine ⟨?_, ?_, ?_⟩
    · intro c' hc'
      rcases List.mem_cons.1 hc' with rfl | hc'
      · exact ⟨b, hb⟩
      · exact i1 c' hc'
    · rw [List.flatMap_cons, i2, List.filter_cons, hb]
      cases b <;> simp
    · rw [List.any_cons, i3, List.filter_cons, hb]
      cases b <;> simp

theorem readCalls_flatMap {γ : Type} (e : γ → Front.Env) (txt : γ → Str) (id : γ → Nat) (T : γ → Told)
    (l : List γ) (h : ∀ c, readTold (txt c) = some (T c)) :
    readCalls (l.flatMap fun c => [.log (e c) (txt c), .call (id c)]) = some (l.map fun c => (e c, T c, id c)) := by
  induction l with
  | nil => rfl
  | cons c l ih =>
    simp only [List.flatMap_cons, List.cons_append, List.nil_append, readCalls, h c, ih, List.map_cons]
    rfl

theorem level_env (i : Nat) : Front.Spec.ask Front.Spec.level? (nm.env i ++ [.level 4]) = some (lineLevel nm i) := by
  simp only [Front.Spec.ask, lineLevel, List.filterMap_append, List.head?_append]
  cases (List.filterMap Front.Spec.level? (nm.env i)).head? <;> rfl

theorem handle_cases {d : Data W} {cbs : List Handler.Callback} {es : List Event} {r : Bool}
    (h : handle N env nm W d cbs = some (es, r)) :
    (∀ c ∈ cbs, ∃ b, evalM N env W d c.matcher = some b) ∧
    r = !(cbs.filter fun c => evalM N env W d c.matcher == some true).isEmpty ∧
    (r = true → es = (cbs.filter fun c => evalM N env W d c.matcher == some true).flatMap fun c =>
      [.log (nm.env c.id ++ [.level 4]) (matchedText (nm.callback c.id) (describe (termText N nm) c.matcher) []),
        .call c.id]) ∧
    (r = false → ∃ ms, cbs.mapM (mismatchOne N nm W d) = some ms ∧
      es = .log [.level 2] (errorText cbs.length ':') :: ms) := by
  unfold handle at h
  split at h
  · simp only [Option.bind_eq_bind, Option.bind_eq_some_iff] at h
    obtain ⟨rs, h1, h2⟩ := h
    obtain ⟨k1, k2, k3⟩ := mapM_events (fun c : Handler.Callback => evalM N env W d c.matcher)
      (fun c => [.log (nm.env c.id ++ [Front.Setting.level 4])
        (matchedText (nm.callback c.id) (describe (termText N nm) c.matcher) []), .call c.id]) cbs rs h1
    rw [k2] at h2
    split at h2
    · next hr =>
      obtain ⟨rfl, rfl⟩ := Prod.mk.inj (Option.some.inj h2)
      exact ⟨k1, by rw [← k3, hr], fun _ => rfl, by simp⟩
    · next hr =>
      simp only [Option.bind_eq_some_iff] at h2
      obtain ⟨ms, h3, h4⟩ := h2
      obtain ⟨rfl, rfl⟩ := Prod.mk.inj (Option.some.inj h4)
      rw [k3] at hr
      have hr : (cbs.filter fun c => evalM N env W d c.matcher == some true) = [] := by simpa using hr
      rw [hr]
      exact ⟨k1, rfl, by simp, fun _ => ⟨ms, h3, rfl⟩⟩
  · simp at h

/-! ## C112 -/

/-- When a plain service says that the message was handled, then what happened is a row of calls, one for
each callback whose matcher accepts the message, in order of registration. Directly before each call there is
a line with the name of the callback and a condition, at the level `INFO` unless the message has its own; the
condition, read by someone who knows the message, is true. -/
theorem C112_called (hn : ReadableNames nm) (hl : LineNames nm) (d : Data W) (cbs : List Handler.Callback)
    (es : List Event) (h : handle N env nm W d cbs = some (es, true)) :
    ∃ ps, ps ≠ [] ∧ readCalls es = some ps ∧
      List.Forall₂ (fun c p => p.2.2 = c.id ∧ p.2.1.name = nm.callback c.id ∧ p.2.1.before = none ∧
          Front.Spec.ask Front.Spec.level? p.1 = some (lineLevel nm c.id) ∧
          ∃ x, readText p.2.1.because = some x ∧
            ∀ val ans, Known N env nm d c.matcher val ans → x.eval (truth val ans) = true)
        (cbs.filter fun c => evalM N env W d c.matcher == some true) ps := by
  obtain ⟨-, k2, k3, -⟩ := handle_cases h
  have k3 := k3 rfl
  subst k3
  refine ⟨_, ?_, readCalls_flatMap _ _ _
    (fun c : Handler.Callback => ⟨nm.callback c.id, describe (termText N nm) c.matcher, none⟩) _
    (fun c => readTold_plain (hl.callback c.id).1 (describe_bracket hl _)), ?_⟩
  · intro h0
    rw [List.map_eq_nil_iff.1 h0] at k2
    simp at k2
  · rw [List.forall₂_map_right_iff, List.forall₂_same]
    intro c hc
    obtain ⟨x, h1, h2⟩ := C110_fields (N := N) hn c.matcher
    have hb := (List.mem_filter.1 hc).2
    exact ⟨rfl, rfl, rfl, level_env c.id, x, h1, fun val ans hk => h2 W d env val ans hk true (by simpa using hb)⟩

/-- When a plain service says that the message was not handled, then no callable was called, no matcher
accepts the message, and the log has an error with the number of the callbacks, and then for each callback in
order of registration one line with its name and a condition that shows the values of the fields it asks for
and is false. -/
theorem C112_refused (hn : ReadableNames nm) (hl : LineNames nm) (d : Data W) (cbs : List Handler.Callback)
    (es : List Event) (h : handle N env nm W d cbs = some (es, false)) :
    calls es = [] ∧ (∀ c ∈ cbs, evalM N env W d c.matcher = some false) ∧
    ∃ e t ls, lines es = (e, t) :: ls ∧ readError t = some cbs.length ∧
      Front.Spec.ask Front.Spec.level? e = some 2 ∧
      List.Forall₂ (fun c p => Front.Spec.ask Front.Spec.level? p.1 = some (lineLevel nm c.id) ∧
          ∃ q x, readRefused p.2 = some q ∧ q.name = nm.callback c.id ∧ readText q.found = some x ∧
            x.terms.map readShown = (leaves c.matcher).map (shown N nm d) ∧
            ∀ ans, Answered N env nm d c.matcher ans → x.eval (truthShown ans) = false)
        cbs ls := by
  obtain ⟨k1, k2, -, k4⟩ := handle_cases h
  obtain ⟨ms, hm, rfl⟩ := k4 rfl
  have hfalse : ∀ c ∈ cbs, evalM N env W d c.matcher = some false := by
    intro c hc
    obtain ⟨b, hb⟩ := k1 c hc
    cases b with
    | false => exact hb
    | true =>
      have : (cbs.filter fun c => evalM N env W d c.matcher == some true) = [] := by simpa using k2
      have hc' : c ∈ cbs.filter fun c => evalM N env W d c.matcher == some true := by
        rw [List.mem_filter]; exact ⟨hc, by simp [hb]⟩
      rw [this] at hc'
      simp at hc'
  have hf := mapM_forall₂ _ _ _ hm
  have key : calls ms = [] ∧ List.Forall₂ (fun c p => Front.Spec.ask Front.Spec.level? p.1 = some (lineLevel nm c.id) ∧
          ∃ q x, readRefused p.2 = some q ∧ q.name = nm.callback c.id ∧ readText q.found = some x ∧
            x.terms.map readShown = (leaves c.matcher).map (shown N nm d) ∧
            ∀ ans, Answered N env nm d c.matcher ans → x.eval (truthShown ans) = false) cbs (lines ms) := by
    clear hm h k1 k2 k4
    induction hf with
    | nil => exact ⟨rfl, .nil⟩
    | @cons c m cs ms hc _ ih =>
      obtain ⟨i1, i2⟩ := ih (fun c hc => hfalse c (List.mem_cons_of_mem _ hc))
      obtain ⟨s, hs, rfl⟩ := Option.map_eq_some_iff.1 hc
      refine ⟨i1, .cons ⟨level_env c.id, ?_⟩ i2⟩
      obtain ⟨x, g1, g2, g3⟩ := C111_shown_partial hn d c.matcher s hs
      exact ⟨⟨nm.callback c.id, s⟩, x, readRefused_text (hl.callback c.id).2, rfl, g1, g2,
        fun ans ha => g3 env ans ha false (hfalse c List.mem_cons_self)⟩
  exact ⟨key.1, hfalse, _, _, _, rfl, readError_text _ _ (.inl rfl), rfl, key.2⟩

theorem serve_cases {d : Data W} (cbs : List Handler.Callback)
    (h : ∀ c ∈ cbs, ∃ b, evalM N env W d c.matcher = some b) (o : List Nat × Bool) :
    cbs.foldlM (stepData N env W d) o =
      some (o.1 ++ (cbs.filter fun c => evalM N env W d c.matcher == some true).map (·.id),
        o.2 || !(cbs.filter fun c => evalM N env W d c.matcher == some true).isEmpty) := by
  induction cbs generalizing o with
  | nil => simp
  | cons c cs ih =>
    obtain ⟨b, hb⟩ := h c (by simp)
    rw [List.foldlM_cons, stepData, hb, Option.map_some]
    show cs.foldlM _ _ = _
    rw [ih (fun c hc => h c (by simp [hc])), List.filter_cons, hb]
    cases b <;> simp

theorem calls_flatMap {γ : Type} (e : γ → Front.Env) (txt : γ → Str) (id : γ → Nat) (l : List γ) :
    calls (l.flatMap fun c => [.log (e c) (txt c), .call (id c)]) = l.map id := by
  induction l with
  | nil => rfl
  | cons c l ih => simpa [calls] using ih

theorem calls_mismatch {d : Data W} (cbs : List Handler.Callback) (ms : List Event)
    (h : cbs.mapM (mismatchOne N nm W d) = some ms) : calls ms = [] := by
  have hf := mapM_forall₂ _ _ _ h
  clear h
  induction hf with
  | nil => rfl
  | cons hc _ ih =>
    obtain ⟨s, -, rfl⟩ := Option.map_eq_some_iff.1 hc
    exact ih

/-- Logging changes nothing: with its log lines a plain service makes the same calls and gives the same answer
as without them (`Verif.Receive`). -/
theorem C112_same_calls (d : Data W) (cbs : List Handler.Callback) (es : List Event) (r : Bool)
    (h : handle N env nm W d cbs = some (es, r)) :
    serve N env W d cbs = some ⟨calls es, r, !r⟩ := by
  obtain ⟨k1, k2, k3, k4⟩ := handle_cases h
  have hc : (cbs.all fun c => compiles N d c.matcher) = true := by
    unfold handle at h
    split at h
    · assumption
    · simp at h
  rw [serve, runAll, if_pos hc, serve_cases cbs k1]
  have : calls es = (cbs.filter fun c => evalM N env W d c.matcher == some true).map (·.id) := by
    cases r with
    | true => rw [k3 rfl, calls_flatMap]
    | false =>
      obtain ⟨ms, hm, rfl⟩ := k4 rfl
      have h0 : (cbs.filter fun c => evalM N env W d c.matcher == some true) = [] := by simpa using k2
      rw [h0]
      exact calls_mismatch cbs ms hm
  simp [this, k2]

/-- A plain service gives an answer, with its log, when every field that the callbacks ask for can be read. -/
theorem C112_total (d : Data W) (cbs : List Handler.Callback)
    (h : ∀ c ∈ cbs, LS (Readable N W d) c.matcher) : (handle N env nm W d cbs).isSome := by
  have h1 : ∀ cs : List Handler.Callback, (∀ c ∈ cs, LS (Readable N W d) c.matcher) →
      (cs.mapM (handleOne N env nm W d [])).isSome ∧ (cs.mapM (mismatchOne N nm W d)).isSome := by
    intro cs
    induction cs with
    | nil => intro _; exact ⟨rfl, rfl⟩
    | cons c cs ih =>
      intro hc
      obtain ⟨i1, i2⟩ := ih (fun c h => hc c (List.mem_cons_of_mem _ h))
      obtain ⟨a, ha⟩ := Option.isSome_iff_exists.1 i1
      obtain ⟨b, hb⟩ := Option.isSome_iff_exists.1 i2
      obtain ⟨t, ht⟩ := Option.isSome_iff_exists.1 (C111_total_partial (nm := nm) d c.matcher (hc c (by simp)))
      simp [List.mapM_cons, handleOne, mismatchOne, evalM_seen _ (hc c (by simp)), ha, hb, ht]
  obtain ⟨i1, i2⟩ := h1 cbs h
  obtain ⟨a, ha⟩ := Option.isSome_iff_exists.1 i1
  obtain ⟨b, hb⟩ := Option.isSome_iff_exists.1 i2
  rw [handle, if_pos (List.all_eq_true.2 fun c hc => compiles_readable _ (h c hc)), ha, hb]
  simp only [Option.bind_eq_bind, Option.bind_some]
  split <;> rfl

/-! ## C113 -/

/-- The entries of the table whose callback functions an indexed service calls, and which then accept. -/
def taken (N : Numbering) (env : Receive.Env) (W : Nat) (idx : List MField) (d : Data W)
    (ixs : List (Field × Int)) (ts : List Handler.Callback) : List Handler.Callback :=
  ((ts.zipIdx.filter fun p => candidatesOf ixs ts p.2).map (·.1)).filter fun t =>
    evalM N env W d (Handler.removeTerms (idx.map (toField N)) t.matcher) == some true

theorem handleIndexed_cases {idx : List MField} {d : Data W} {cbs : List Handler.Callback} {es : List Event}
    {r : Bool} (h : handleIndexed N env nm W idx d cbs = some (es, r)) :
    ∃ ixs, (idx.mapM fun f => (value N W f d.storage).map fun x => (toField N f, x)) = some ixs ∧
    (∀ t ∈ ((Handler.build cbs).zipIdx.filter fun p => candidatesOf ixs (Handler.build cbs) p.2).map (·.1),
      ∃ b, evalM N env W d (Handler.removeTerms (idx.map (toField N)) t.matcher) = some b) ∧
    r = !(taken N env W idx d ixs (Handler.build cbs)).isEmpty ∧
    (r = true → es = (taken N env W idx d ixs (Handler.build cbs)).flatMap fun t =>
      [.log (nm.env t.id ++ [.level 4]) (matchedText (nm.callback t.id)
        (describe (termText N nm) (Handler.removeTerms (idx.map (toField N)) t.matcher))
        (collapsedText (describe (termText N nm) t.matcher))), .call t.id]) ∧
    (r = false → es = [.log [.level 2] (errorText (Handler.build cbs).length '.')]) := by
  unfold handleIndexed at h
  dsimp only at h
  split at h
  · simp only [Option.bind_eq_bind, Option.bind_eq_some_iff] at h
    obtain ⟨ixs, h0, rs, h1, h2⟩ := h
    refine ⟨ixs, h0, ?_⟩
    obtain ⟨k1, k2, k3⟩ := mapM_events (fun t : Handler.Callback =>
        evalM N env W d (Handler.removeTerms (idx.map (toField N)) t.matcher))
      (fun t => [.log (nm.env t.id ++ [Front.Setting.level 4]) (matchedText (nm.callback t.id)
        (describe (termText N nm) (Handler.removeTerms (idx.map (toField N)) t.matcher))
        (collapsedText (describe (termText N nm) t.matcher))), .call t.id]) _ rs h1
    rw [k2] at h2
    rw [show ((((Handler.build cbs).zipIdx.filter fun p => candidatesOf ixs (Handler.build cbs) p.2).map
      (·.1)).filter fun t => evalM N env W d (Handler.removeTerms (idx.map (toField N)) t.matcher) == some true) =
      taken N env W idx d ixs (Handler.build cbs) from rfl] at k3 h2
    split at h2
    · next hr =>
      obtain ⟨rfl, rfl⟩ := Prod.mk.inj (Option.some.inj h2)
      exact ⟨k1, by rw [← k3, hr], fun _ => rfl, by simp⟩
    · next hr =>
      obtain ⟨rfl, rfl⟩ := Prod.mk.inj (Option.some.inj h2)
      rw [k3] at hr
      have hr : taken N env W idx d ixs (Handler.build cbs) = [] := by simpa using hr
      rw [hr]
      exact ⟨k1, rfl, by simp, fun _ => rfl⟩
  · simp at h

theorem taken_sublist (idx : List MField) (d : Data W) (ixs : List (Field × Int)) (ts : List Handler.Callback) :
    (taken N env W idx d ixs ts).Sublist ts := by
  refine List.Sublist.trans List.filter_sublist ?_
  have : ((ts.zipIdx.filter fun p => candidatesOf ixs ts p.2).map (·.1)).Sublist (ts.zipIdx.map (·.1)) :=
    List.filter_sublist.map _
  simpa using this

/-- When an indexed service says that the message was handled, then what happened is a row of calls of entries
of its table, in their order. Directly before each call there is a line with the name of the callback and two
conditions: what was left to test, which is true, and what the entry asks for altogether. -/
theorem C113_called (hn : ReadableNames nm) (hl : LineNames nm) (idx : List MField) (d : Data W)
    (cbs : List Handler.Callback) (es : List Event) (h : handleIndexed N env nm W idx d cbs = some (es, true)) :
    ∃ ps ts, ps ≠ [] ∧ readCalls es = some ps ∧ ts.Sublist (Handler.build cbs) ∧
      List.Forall₂ (fun t p => p.2.2 = t.id ∧ p.2.1.name = nm.callback t.id ∧
          Front.Spec.ask Front.Spec.level? p.1 = some (lineLevel nm t.id) ∧
          (∃ x, readText p.2.1.because = some x ∧ ∀ val ans,
            Known N env nm d (Handler.removeTerms (idx.map (toField N)) t.matcher) val ans →
              x.eval (truth val ans) = true) ∧
          ∃ s y, p.2.1.before = some s ∧ readText s = some y ∧
            ∀ (W' : Nat) (d' : Data W') (env' : Receive.Env) val ans, Known N env' nm d' t.matcher val ans →
              ∀ b, evalM N env' W' d' t.matcher = some b → y.eval (truth val ans) = b) ts ps := by
  obtain ⟨ixs, -, -, k2, k3, -⟩ := handleIndexed_cases h
  have k3 := k3 rfl
  subst k3
  refine ⟨_, _, ?_, readCalls_flatMap _ _ _
    (fun t : Handler.Callback => ⟨nm.callback t.id,
      describe (termText N nm) (Handler.removeTerms (idx.map (toField N)) t.matcher),
      some (describe (termText N nm) t.matcher)⟩) _
    (fun c => readTold_collapsed (hl.callback c.id).1 (describe_bracket hl _) (describe_bracket hl _)),
    taken_sublist (N := N) (env := env) idx d ixs _, ?_⟩
  · intro h0
    rw [List.map_eq_nil_iff.1 h0] at k2
    simp at k2
  · rw [List.forall₂_map_right_iff, List.forall₂_same]
    intro t ht
    obtain ⟨x, h1, h2⟩ := C110_fields (N := N) hn (Handler.removeTerms (idx.map (toField N)) t.matcher)
    obtain ⟨y, g1, g2⟩ := C110_fields (N := N) hn t.matcher
    have hb := (List.mem_filter.1 ht).2
    exact ⟨rfl, rfl, level_env t.id, ⟨x, h1, fun val ans hk => h2 W d env val ans hk true (by simpa using hb)⟩,
      _, y, rfl, g1, g2⟩

theorem taken_exact {K : Field → Option Int} {idx : List MField} (hne : idx ≠ []) {d : Data W}
    {cbs : List Handler.Callback} (hr : ∀ c ∈ cbs, LS (Readable N W d) c.matcher)
    (hx : ∀ c ∈ cbs, MixTree K c.matcher)
    (hI : Handler.Indexable (idx.map (toField N)) ((Handler.build cbs).map (·.matcher)))
    (hi : ∀ f ∈ idx, ∃ x, value N W f d.storage = some x ∧ extractField N W d f = some x ∧
      (ty N f).InRange x) {ixs : List (Field × Int)}
    (h : (idx.mapM fun f => (value N W f d.storage).map fun x => (toField N f, x)) = some ixs) :
    taken N env W idx d ixs (Handler.build cbs) =
      (Handler.build cbs).filter fun t => evalM N env W d t.matcher == some true := by
  rw [mapM_index (env := env) idx hi] at h
  obtain rfl := Option.some.inj h
  have hb := LS_build (readable_neg d) cbs hr
  have hcand : candidatesOf (idx.map fun f => (toField N f, (seen N env W d).val (toField N f)))
      (Handler.build cbs) = Handler.candidates (idx.map (toField N)) (Handler.build cbs)
        (seen N env W d) := by
    cases idx with
    | nil => rfl
    | cons f fs =>
      funext i
      simp [candidatesOf, Handler.candidates, List.all_map, Function.comp_def]
  rw [taken, hcand, Handler.filter_zipIdx]
  refine Handler.filter_zipIdx_eq (p := fun t : Handler.Callback => evalM N env W d
    (Handler.removeTerms (idx.map (toField N)) t.matcher) == some true)
    (q := fun t => evalM N env W d t.matcher == some true)
    (r := Handler.candidates (idx.map (toField N)) (Handler.build cbs) (seen N env W d)) _ 0 ?_
  intro i t ht
  have hmem := List.mem_of_getElem? ht
  have := Handler.candidate_exact (Handler.sound_mix K) (idx.map (toField N)) (by simpa using hne) cbs hx hI
    ⟨seen N env W d, seen_wt d⟩ i t ht
  rw [Nat.zero_add, evalM_seen _ (hb t hmem), evalM_seen _ (LS_removeTerms (readable_neg d) _ _ (hb t hmem))]
  simpa [Handler.Callback.isMatch] using this

/-- For conditions that the index handles (C25) the calls are those of all entries which accept the message,
and in each line both conditions, the one that was left to test and the one before the index, are true. Missing
from the full statement: the violations of C25. -/
theorem C113_exact_partial (hn : ReadableNames nm) (hl : LineNames nm) (K : Field → Option Int)
    (idx : List MField) (hne : idx ≠ []) (d : Data W) (cbs : List Handler.Callback)
    (hr : ∀ c ∈ cbs, LS (Readable N W d) c.matcher) (hx : ∀ c ∈ cbs, MixTree K c.matcher)
    (hI : Handler.Indexable (idx.map (toField N)) ((Handler.build cbs).map (·.matcher)))
    (hi : ∀ f ∈ idx, ∃ x, value N W f d.storage = some x ∧ extractField N W d f = some x ∧
      (ty N f).InRange x) (es : List Event) (r : Bool) (h : handleIndexed N env nm W idx d cbs = some (es, r)) :
    (r = false → ∀ t ∈ Handler.build cbs, evalM N env W d t.matcher = some false) ∧
    (r = true → ∃ ps, readCalls es = some ps ∧
      List.Forall₂ (fun t p => p.2.2 = t.id ∧ p.2.1.name = nm.callback t.id ∧
          (∃ x, readText p.2.1.because = some x ∧ ∀ val ans,
            Known N env nm d (Handler.removeTerms (idx.map (toField N)) t.matcher) val ans →
              x.eval (truth val ans) = true) ∧
          ∃ s y, p.2.1.before = some s ∧ readText s = some y ∧
            ∀ val ans, Known N env nm d t.matcher val ans → y.eval (truth val ans) = true)
        ((Handler.build cbs).filter fun t => evalM N env W d t.matcher == some true) ps) := by
  obtain ⟨ixs, k0, -, k2, k3, -⟩ := handleIndexed_cases h
  rw [taken_exact hne hr hx hI hi k0] at k2 k3
  constructor
  · rintro rfl t ht
    have hb := LS_build (readable_neg d) cbs hr
    rw [evalM_seen _ (hb t ht)]
    have h0 : ((Handler.build cbs).filter fun t => evalM N env W d t.matcher == some true) = [] := by simpa using k2
    cases hv : eval revalLeaf t.matcher (seen N env W d) with
    | false => rfl
    | true =>
      have : t ∈ (Handler.build cbs).filter fun t => evalM N env W d t.matcher == some true := by
        rw [List.mem_filter, evalM_seen _ (hb t ht), hv]; exact ⟨ht, rfl⟩
      rw [h0] at this
      simp at this
  · rintro rfl
    have k3 := k3 rfl
    subst k3
    refine ⟨_, readCalls_flatMap _ _ _
      (fun t : Handler.Callback => ⟨nm.callback t.id,
        describe (termText N nm) (Handler.removeTerms (idx.map (toField N)) t.matcher),
        some (describe (termText N nm) t.matcher)⟩) _
      (fun c => readTold_collapsed (hl.callback c.id).1 (describe_bracket hl _) (describe_bracket hl _)), ?_⟩
    rw [List.forall₂_map_right_iff, List.forall₂_same]
    intro t ht
    obtain ⟨x, h1, h2⟩ := C110_fields (N := N) hn (Handler.removeTerms (idx.map (toField N)) t.matcher)
    obtain ⟨y, g1, g2⟩ := C110_fields (N := N) hn t.matcher
    have hb := (List.mem_filter.1 ht).2
    have hb' : evalM N env W d (Handler.removeTerms (idx.map (toField N)) t.matcher) = some true := by
      rw [← taken_exact (env := env) hne hr hx hI hi k0] at ht
      simpa using (List.mem_filter.1 ht).2
    exact ⟨rfl, rfl, ⟨x, h1, fun val ans hk => h2 W d env val ans hk true hb'⟩,
      _, y, rfl, g1, fun val ans hk => g2 W d env val ans hk true (by simpa using hb)⟩

/-- When an indexed service says that the message was not handled, nothing was called and the log has exactly
one line, an error. It has the number of the entries of the table, which is that of the callbacks when none
has alternatives. Missing from the full statement: `C113_violated_count`. -/
theorem C113_refused_partial (idx : List MField) (d : Data W) (cbs : List Handler.Callback) (es : List Event)
    (h : handleIndexed N env nm W idx d cbs = some (es, false)) :
    calls es = [] ∧ ∃ e t, lines es = [(e, t)] ∧ Front.Spec.ask Front.Spec.level? e = some 2 ∧
      ∃ n, readError t = some n ∧ ((∀ c ∈ cbs, (Handler.separate c).length = 1) → n = cbs.length) := by
  obtain ⟨ixs, -, -, -, -, k4⟩ := handleIndexed_cases h
  obtain rfl := k4 rfl
  refine ⟨rfl, _, _, rfl, rfl, _, readError_text _ _ (.inr rfl), fun hs => ?_⟩
  rw [Handler.build, List.length_flatMap, List.map_congr_left hs]
  simp

/-- Logging changes nothing: with its log lines an indexed service makes the same calls and gives the same
answer as without them (`Verif.Receive`). -/
theorem C113_same_calls (idx : List MField) (d : Data W) (cbs : List Handler.Callback) (es : List Event) (r : Bool)
    (h : handleIndexed N env nm W idx d cbs = some (es, r)) :
    serveIndexed N env W idx d cbs = some ⟨calls es, r, !r⟩ := by
  obtain ⟨ixs, k0, k1, k2, k3, k4⟩ := handleIndexed_cases h
  have hc : ((Handler.build cbs).all fun t =>
      compiles N d (Handler.removeTerms (idx.map (toField N)) t.matcher)) = true := by
    unfold handleIndexed at h
    dsimp only at h
    split at h
    · assumption
    · simp at h
  have hc' : (((Handler.build cbs).map fun t =>
      (⟨t.id, Handler.removeTerms (idx.map (toField N)) t.matcher⟩ : Handler.Callback)).all
        fun c => compiles N d c.matcher) = true := by
    rw [List.all_map]; exact hc
  have hswap : ∀ (ts : List Handler.Callback) (k : Nat) (p : Nat → Bool),
      (((ts.map fun t => (⟨t.id, Handler.removeTerms (idx.map (toField N)) t.matcher⟩ :
        Handler.Callback)).zipIdx k).filter fun q => p q.2).map (·.1) =
      (((ts.zipIdx k).filter fun q => p q.2).map (·.1)).map fun t =>
        (⟨t.id, Handler.removeTerms (idx.map (toField N)) t.matcher⟩ : Handler.Callback) := by
    intro ts
    induction ts with
    | nil => intro k p; rfl
    | cons t ts ih =>
      intro k p
      simp only [List.map_cons, List.zipIdx_cons, List.filter_cons]
      split <;> simp [ih (k + 1) p]
  simp only [serveIndexed]
  rw [if_pos hc', k0, Option.bind_some, hswap, runAll, if_pos]
  · rw [serve_cases]
    · have hcalls : calls es = (taken N env W idx d ixs (Handler.build cbs)).map (·.id) := by
        cases r with
        | true => rw [k3 rfl, calls_flatMap]
        | false =>
          rw [k4 rfl]
          have h0 : taken N env W idx d ixs (Handler.build cbs) = [] := by simpa using k2
          rw [h0]; rfl
      rw [hcalls, k2, taken, List.filter_map, List.map_map]
      simp [Function.comp_def]
    · intro c hc
      obtain ⟨t, ht, rfl⟩ := List.mem_map.1 hc
      exact k1 t ht
  · rw [List.all_eq_true]
    intro c hcm
    obtain ⟨t, ht, rfl⟩ := List.mem_map.1 hcm
    rw [List.all_eq_true] at hc
    refine hc t ?_
    obtain ⟨⟨t', i⟩, hp, rfl⟩ := List.mem_map.1 ht
    exact List.mem_of_getElem? (List.mem_zipIdx_iff_getElem?.1 (List.mem_filter.1 hp).1)

end Verif.Explain
