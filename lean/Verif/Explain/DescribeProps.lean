import Verif.Explain.TermLemmas
import Verif.Receive.ServiceProps

/-! # Descriptions of matchers and messages: C110, C111, C114 -/
namespace Verif.Explain
open Verif.Match Verif.Message Verif.Receive Spec

variable {N : Numbering} {env : Receive.Env} {W : Nat} {nm : Names}

/-! ### Lemmas -/

theorem compares_app (op : RelOp) (a b : Int) : compares op a b = op.app a b := by
  cases op <;> simp [compares, RelOp.app]

/-- Evaluation that stops early agrees with an evaluation of all terms. -/
theorem evalM_eval {d : Data W} (m : M RLeaf) (τ : RLeaf → Bool) (b : Bool)
    (h : ∀ a ∈ leaves m, ∀ v, evalLeaf N env W d a = some v → τ a = v) (hb : evalM N env W d m = some b) :
    eval (fun a (_ : Unit) => τ a) m () = b := by
  induction m generalizing b with
  | always => simpa [evalM, eval] using hb
  | never => simpa [evalM, eval] using hb
  | leaf a => exact h a (by simp [leaves]) b hb
  | not m ih =>
    simp only [evalM, Option.map_eq_some_iff] at hb
    obtain ⟨v, h1, rfl⟩ := hb
    simp only [eval, ih v h h1]
  | and l r ihl ihr =>
    simp only [leaves, List.mem_append] at h
    simp only [evalM, Option.bind_eq_some_iff] at hb
    obtain ⟨v, h1, h2⟩ := hb
    have hl := ihl v (fun a ha => h a (.inl ha)) h1
    cases v with
    | false => simp_all [eval]
    | true => simp only [eval, hl, Bool.true_and]; exact ihr b (fun a ha => h a (.inr ha)) (by simpa using h2)
  | or l r ihl ihr =>
    simp only [leaves, List.mem_append] at h
    simp only [evalM, Option.bind_eq_some_iff] at hb
    obtain ⟨v, h1, h2⟩ := hb
    have hl := ihl v (fun a ha => h a (.inl ha)) h1
    cases v with
    | true => simp_all [eval]
    | false => simp only [eval, hl, Bool.false_or]; exact ihr b (fun a ha => h a (.inr ha)) (by simpa using h2)

theorem plain_nil : PlainTerm [] := by decide

theorem plain_termText (hn : ReadableNames nm) (a : RLeaf) : PlainTerm (termText N nm a) := by
  cases a with
  | rel op g v =>
    simp only [termText]
    have : Balanced (fieldName N nm g) ∧ (fieldName N nm g).head? ≠ some '(' := by
      unfold fieldName
      cases N.fieldOf g.name with
      | none => exact ⟨(by decide : Balanced []), by simp⟩
      | some f => exact hn.field f.name
    exact plain_comparison this.1 this.2 op v
  | pred i =>
    simp only [termText]
    split
    · exact plain_predicate (hn.field _).1
    · exact (hn.cond _).1
    · exact plain_nil

theorem plain_termMatch (hn : ReadableNames nm) {d : Data W} (a : RLeaf) (s : Str)
    (h : termMatch N nm W d a = some s) : PlainTerm s := by
  cases a with
  | rel op g v =>
    simp only [termMatch, Option.bind_eq_some_iff, Option.map_eq_some_iff] at h
    obtain ⟨f, -, x, -, rfl⟩ := h
    exact plain_shown (hn.field _).1 (hn.field _).2 x op v
  | pred i =>
    simp only [termMatch] at h
    split at h
    · next f p _ =>
      obtain ⟨x, -, rfl⟩ := Option.map_eq_some_iff.1 h
      have e : "<predicate>(".toList ++ nm.field f.name ++ "(0x".toList ++ hex x ++ "))".toList =
          "<predicate>(".toList ++ (nm.field f.name ++ ("(".toList ++ ("0x".toList ++ hex x) ++ ")".toList)) ++
            ")".toList := by simp
      rw [e]
      exact plain_predicate (balanced_append (hn.field _).1
        (balanced_paren (balanced_append (by decide) (balanced_hex x))))
    · obtain rfl := Option.some.inj h
      exact (hn.cond _).1
    · simp at h

theorem readShown_none {s : Str} (h : readComparison s = none) : readShown s = none := by
  simp [readShown, h]

theorem truth_rel {val : Str → Int} {ans : Str → Bool} (op : RelOp) (g : Field) (v : Int) :
    truth val ans (termText N nm (.rel op g v)) = op.app (val (fieldName N nm g)) v := by
  simp only [truth, termText, readComparison_text, compares_app]

theorem truth_other {val : Str → Int} {ans : Str → Bool} {s : Str} (h : readComparison s = none) :
    truth val ans s = ans s := by
  simp only [truth, h]

theorem known_truth (hn : ReadableNames nm) {d : Data W} {m : M RLeaf} {val : Str → Int} {ans : Str → Bool}
    (hk : Known N env nm d m val ans) (a : RLeaf) (ha : a ∈ leaves m) (v : Bool)
    (hv : evalLeaf N env W d a = some v) : truth val ans (termText N nm a) = v := by
  cases a with
  | rel op g c =>
    simp only [evalLeaf, Option.bind_eq_some_iff, Option.map_eq_some_iff] at hv
    obtain ⟨f, hf, x, hx, rfl⟩ := hv
    rw [truth_rel]
    simp only [fieldName, hf, Option.map_some, Option.getD_some, hk.field op g c ha f hf x hx]
  | pred i =>
    simp only [evalLeaf] at hv
    simp only [termText]
    split at hv
    · next f p hp =>
      obtain ⟨x, hx, rfl⟩ := Option.map_eq_some_iff.1 hv
      simp only [hp]
      rw [truth_other (readComparison_paren _)]
      exact hk.pred i ha f p hp x hx
    · next k hp =>
      obtain rfl := Option.some.inj hv
      simp only [hp]
      rw [truth_other (hn.cond k).2]
      exact hk.cond i ha k hp
    · simp at hv

theorem termMatch_shown (hn : ReadableNames nm) {d : Data W} (a : RLeaf) (s : Str)
    (h : termMatch N nm W d a = some s) : readShown s = shown N nm d a := by
  cases a with
  | rel op g v =>
    simp only [termMatch, Option.bind_eq_some_iff, Option.map_eq_some_iff] at h
    obtain ⟨f, hf, x, hx, rfl⟩ := h
    simp only [readShown_text, shown, hf, hx, Option.bind_eq_bind, Option.bind_some]
    rfl
  | pred i =>
    simp only [termMatch] at h
    simp only [shown]
    split at h
    · obtain ⟨x, -, rfl⟩ := Option.map_eq_some_iff.1 h
      refine readShown_none ?_
      rw [show "))".toList = ")".toList ++ ")".toList from rfl, ← List.append_assoc]
      exact readComparison_paren _
    · obtain rfl := Option.some.inj h
      exact readShown_none (hn.cond _).2
    · simp at h

theorem answered_truth (hn : ReadableNames nm) {d : Data W} {m : M RLeaf} {ans : Str → Bool}
    (hk : Answered N env nm d m ans) (a : RLeaf) (ha : a ∈ leaves m) (v : Bool)
    (hv : evalLeaf N env W d a = some v) (s : Str) (hs : termMatch N nm W d a = some s) :
    truthShown ans s = v := by
  have hsh := termMatch_shown hn a s hs
  cases a with
  | rel op g c =>
    simp only [evalLeaf, Option.bind_eq_some_iff, Option.map_eq_some_iff] at hv
    obtain ⟨f, hf, x, hx, rfl⟩ := hv
    simp only [shown, hf, hx, Option.bind_eq_bind, Option.bind_some] at hsh
    simp only [truthShown, hsh]
    exact compares_app _ _ _
  | pred i =>
    simp only [shown] at hsh
    simp only [truthShown, hsh]
    simp only [evalLeaf] at hv
    simp only [termMatch] at hs
    split at hv
    · next f p hp =>
      simp only [hp] at hs
      obtain ⟨x, hx, rfl⟩ := Option.map_eq_some_iff.1 hs
      rw [hx] at hv
      obtain rfl := Option.some.inj hv
      exact hk.pred i ha f p hp x (hex x) hx (number_hex x)
    · next k hp =>
      simp only [hp] at hs
      obtain rfl := Option.some.inj hs
      obtain rfl := Option.some.inj hv
      exact hk.cond i ha k hp
    · simp at hv

/-! ## C110 -/

/-- The description of a matcher, read as a condition, has the terms of the matcher in their order, and is
true exactly when the matcher is: for every way in which the terms can be true or false. The texts of the
terms must be such that they are not mistaken for combinations. -/
theorem C110_meaning {α E : Type} (text : α → Str) (m : M α) (h : ∀ a ∈ leaves m, PlainTerm (text a)) :
    ∃ x, readText (describe text m) = some x ∧ x.terms = (leaves m).map text ∧
      ∀ (τ : Str → Bool) (ev : α → E → Bool) (e : E), (∀ a ∈ leaves m, τ (text a) = ev a e) →
        x.eval τ = eval ev m e := by
  obtain ⟨x, h1, h2⟩ := readText_describe text m h
  exact ⟨x, h1, h2.1, fun τ ev e ha => h2.2 τ E ev e ha⟩

/-- The same for matchers on fields: whoever knows the values of the fields by their names, and how the
predicates answer, and reads the description, finds whether the matcher accepts the message. -/
theorem C110_fields (hn : ReadableNames nm) (m : M RLeaf) :
    ∃ x, readText (describe (termText N nm) m) = some x ∧
      ∀ (W : Nat) (d : Data W) (env : Receive.Env) (val : Str → Int) (ans : Str → Bool),
        Known N env nm d m val ans → ∀ b, evalM N env W d m = some b → x.eval (truth val ans) = b := by
  obtain ⟨x, h1, h2⟩ := readText_describe (termText N nm) m (fun a _ => plain_termText hn a)
  refine ⟨x, h1, fun W d env val ans hk b hb => ?_⟩
  rw [h2.2 (truth val ans) Unit (fun a _ => truth val ans (termText N nm a)) () (fun _ _ => rfl)]
  exact evalM_eval m (fun a => truth val ans (termText N nm a)) b (fun a ha v hv => known_truth hn hk a ha v hv) hb

/-! ## C111 -/

/-- The description of a mismatch, read as a condition in which each comparison shows the value of its
field, justifies the result of the matcher on this message: its terms show, in their order, the names, the
operators, the bounds and the values that the message holds, and with these values the condition is what the
matcher says. Missing from the full statement: `C111_violated_reads_more`. -/
theorem C111_shown_partial (hn : ReadableNames nm) (d : Data W) (m : M RLeaf) (t : Str)
    (h : describeMatch (termMatch N nm W d) m = some t) :
    ∃ x, readText t = some x ∧ x.terms.map readShown = (leaves m).map (shown N nm d) ∧
      ∀ (env : Receive.Env) (ans : Str → Bool), Answered N env nm d m ans →
        ∀ b, evalM N env W d m = some b → x.eval (truthShown ans) = b := by
  obtain ⟨h1, rfl⟩ := describeMatch_eq _ m t h
  have hp : ∀ a ∈ leaves m, PlainTerm ((termMatch N nm W d a).getD []) := by
    intro a ha
    obtain ⟨s, hs⟩ := h1 a ha
    rw [hs]; exact plain_termMatch hn a s hs
  obtain ⟨x, h2, h3⟩ := readText_describe _ m hp
  refine ⟨x, h2, ?_, fun env ans hk b hb => ?_⟩
  · rw [h3.1, List.map_map]
    apply List.map_congr_left
    intro a ha
    obtain ⟨s, hs⟩ := h1 a ha
    simp only [Function.comp_apply, hs, Option.getD_some]
    exact termMatch_shown hn a s hs
  · rw [h3.2 (truthShown ans) Unit (fun a _ => truthShown ans ((termMatch N nm W d a).getD [])) ()
      (fun _ _ => rfl)]
    refine evalM_eval m (fun a => truthShown ans ((termMatch N nm W d a).getD [])) b (fun a ha v hv => ?_) hb
    obtain ⟨s, hs⟩ := h1 a ha
    rw [hs]
    exact answered_truth hn hk a ha v hv s hs

/-- There is a description when every field that the matcher mentions can be read from the message. -/
theorem C111_total_partial (d : Data W) (m : M RLeaf) (h : LS (Readable N W d) m) :
    (describeMatch (termMatch N nm W d) m).isSome := by
  induction m with
  | always => rfl
  | never => rfl
  | leaf a =>
    simp only [LS_leaf] at h
    cases a with
    | rel op g v =>
      obtain ⟨f, x, rfl, hx, -⟩ := h
      simp [describeMatch, termMatch, toField, N.field_ok, hx]
    | pred i =>
      rcases h with ⟨f, p, x, rfl, hx⟩ | ⟨k, rfl⟩
      · simp [describeMatch, termMatch, N.pred_ok, hx]
      · simp [describeMatch, termMatch, N.pred_ok]
  | not m ih => simpa [describeMatch] using ih (by simpa using h)
  | and l r ihl ihr =>
    simp only [LS_and] at h
    obtain ⟨a, ha⟩ := Option.isSome_iff_exists.1 (ihl h.1)
    obtain ⟨b, hb⟩ := Option.isSome_iff_exists.1 (ihr h.2)
    simp [describeMatch, ha, hb]
  | or l r ihl ihr =>
    simp only [LS_or] at h
    obtain ⟨a, ha⟩ := Option.isSome_iff_exists.1 (ihl h.1)
    obtain ⟨b, hb⟩ := Option.isSome_iff_exists.1 (ihr h.2)
    simp [describeMatch, ha, hb]

/-! ### A concrete case -/

/-- Names: fields `id`, `len`, and so on; a condition `ready`. -/
def exNames : Names :=
  ⟨fun n => ["id".toList, "len".toList].getD n "other".toList,
    fun k => if k = 0 then "ready".toList else "<predicate>".toList,
    fun i => if i = 1 then "first".toList else "second".toList, fun _ => []⟩

theorem exNames_readable : ReadableNames exNames := by
  constructor
  · intro n
    match n with
    | 0 => decide
    | 1 => decide
    | n + 2 => exact (by decide : Balanced "other".toList ∧ ("other".toList).head? ≠ some '(')
  · intro k
    simp only [exNames]
    split
    · exact ⟨by decide, by decide +kernel⟩
    · exact ⟨by decide, by decide +kernel⟩

/-- `field<"id", u8>` in the first byte and `field<"len", u8>` in the second one. -/
def exId (N : Numbering) : MField := field N 0 u8 [.located [⟨7, 0⟩]]
def exLen (N : Numbering) : MField := field N 1 u8 [.located [⟨15, 8⟩]]

/-- `id == 5 or (len > 31 and not ready)`. -/
def exMatcher (N : Numbering) : M RLeaf :=
  .or (.leaf (.rel .eq (toField N (exId N)) 5))
    (.and (.leaf (.rel .gt (toField N (exLen N)) 31)) (.not (.leaf (.pred (N.pred (.cond 0))))))

theorem ex_values (N : Numbering) : value N 8 (exId N) [7#8, 40#8] = some 7 ∧
    value N 8 (exLen N) [7#8, 40#8] = some 40 ∧ value N 8 (exId N) [7#8] = some 7 ∧
    value N 8 (exLen N) [7#8] = none := by
  have h1 : signed N (exId N) = false := by simp [exId, field, declare, newField, u8]
  have h2 : signed N (exLen N) = false := by simp [exLen, field, declare, newField, u8]
  have key : ∀ F G : Bits.Fld, F = ⟨[⟨7, 0⟩], 8⟩ → G = ⟨[⟨15, 8⟩], 8⟩ →
      (F.extract 8 [7#8, 40#8]).map (toInt false) = some 7 ∧
      (G.extract 8 [7#8, 40#8]).map (toInt false) = some 40 ∧
      (F.extract 8 [7#8]).map (toInt false) = some 7 ∧
      (G.extract 8 [7#8]).map (toInt false) = none := by
    rintro _ _ rfl rfl; decide +kernel
  simp only [value, h1, h2]
  exact key _ _ rfl rfl

theorem exNames_field (N : Numbering) : exNames.field (exId N).name = "id".toList ∧
    exNames.field (exLen N).name = "len".toList ∧ exNames.cond 0 = "ready".toList := ⟨rfl, rfl, rfl⟩

example (N : Numbering) : ReadableNames exNames ∧
    describe (termText N exNames) (exMatcher N) = "(id == 0x5) or ((len > 0x1f) and (not (ready)))".toList ∧
    readText "(id == 0x5) or ((len > 0x1f) and (not (ready)))".toList =
      some (.or (.term "id == 0x5".toList) (.and (.term "len > 0x1f".toList) (.not (.term "ready".toList)))) := by
  refine ⟨exNames_readable, ?_, by decide +kernel⟩
  simp only [exMatcher, describe, termText, fieldName, toField, N.field_ok, N.pred_ok, Option.map_some,
    Option.getD_some, isOr, isAnd, exNames_field]
  decide +kernel

/-- The message `id = 7, len = 40` is known to someone who knows these numbers. -/
example (N : Numbering) (env : Receive.Env) (h : env.cond 0 = false) :
    Known N env exNames (.raw [7#8, 40#8]) (exMatcher N) (fun s => if s = "id".toList then 7 else 40) (fun _ => false) ∧
    evalM N env 8 (.raw [7#8, 40#8]) (exMatcher N) = some true := by
  have hv := ex_values N
  refine ⟨⟨?_, ?_, ?_⟩, ?_⟩
  · intro op g v hm f hf x hx
    simp only [exMatcher, leaves, List.cons_append, List.nil_append, List.mem_cons, List.not_mem_nil, or_false,
      reduceCtorEq, RLeaf.rel.injEq] at hm
    rcases hm with ⟨-, rfl, -⟩ | ⟨-, rfl, -⟩
    · simp only [toField, N.field_ok, Option.some.injEq] at hf
      subst hf
      rw [Receive.extractField, hv.1] at hx
      obtain rfl := Option.some.inj hx
      rw [if_pos (by rfl)]
    · simp only [toField, N.field_ok, Option.some.injEq] at hf
      subst hf
      rw [Receive.extractField, hv.2.1] at hx
      obtain rfl := Option.some.inj hx
      rw [(exNames_field N).2.1, if_neg (by decide)]
  · intro i hm f p hp
    simp only [exMatcher, leaves, List.cons_append, List.nil_append, List.mem_cons, List.not_mem_nil, or_false,
      reduceCtorEq, RLeaf.pred.injEq, false_or] at hm
    subst hm
    simp [N.pred_ok] at hp
  · intro i hm k hp
    simp only [exMatcher, leaves, List.cons_append, List.nil_append, List.mem_cons, List.not_mem_nil, or_false,
      reduceCtorEq, RLeaf.pred.injEq, false_or] at hm
    subst hm
    simp only [N.pred_ok, Option.some.injEq, Pred.cond.injEq] at hp
    subst hp; exact h.symm
  · simp [exMatcher, evalM, evalLeaf, toField, N.field_ok, N.pred_ok, Receive.extractField, hv.1, hv.2.1, h,
      RelOp.app]

example (N : Numbering) :
    describeMatch (termMatch N exNames 8 (.raw [7#8, 40#8])) (exMatcher N) =
      some "(id (0x7) == 0x5) or ((len (0x28) > 0x1f) and (not (ready)))".toList := by
  have hv := ex_values N
  simp only [exMatcher, describeMatch, termMatch, toField, N.field_ok, N.pred_ok, Option.map_some, isOr,
    Option.bind_some, Receive.extractField, hv.1, hv.2.1, isAnd, exNames_field]
  decide +kernel

/-- The description of a mismatch asks every term, also those that the matcher itself does not come to: on
data that is too short for the second field, `id == 5 and len == 3` says no, and its description reads past
the end. -/
theorem C111_violated_reads_more (N : Numbering) (env : Receive.Env) (nm : Names) :
    let m : M RLeaf := .and (.leaf (.rel .eq (toField N (exId N)) 5)) (.leaf (.rel .eq (toField N (exLen N)) 3))
    evalM N env 8 (.raw [7#8]) m = some false ∧ describeMatch (termMatch N nm 8 (.raw [7#8])) m = none := by
  have hv := ex_values N
  simp [evalM, evalLeaf, describeMatch, termMatch, toField, N.field_ok, Receive.extractField, hv.2.2, RelOp.app]

/-- Predicates without names all look the same: two matchers with the same description, one accepts and the
other one refuses. -/
theorem C110_violated_unnamed (N : Numbering) : ∃ (nm : Names) (env : Receive.Env) (p q : M RLeaf),
    ReadableNames nm ∧ describe (termText N nm) p = describe (termText N nm) q ∧
      evalM N env 8 (.raw []) p = some true ∧ evalM N env 8 (.raw []) q = some false := by
  refine ⟨exNames, ⟨fun _ _ => false, fun k => k = 1⟩, .leaf (.pred (N.pred (.cond 1))),
    .leaf (.pred (N.pred (.cond 2))), exNames_readable, ?_, ?_, ?_⟩
  · simp only [describe, termText, N.pred_ok]; rfl
  · simp [evalM, evalLeaf, N.pred_ok]
  · simp [evalM, evalLeaf, N.pred_ok]

/-! ## C114 -/

theorem after_append (p s : Str) : after p (p ++ s) = some s := by
  unfold after
  rw [if_pos (List.isPrefixOf_iff_prefix.2 ⟨s, rfl⟩), List.drop_left]

theorem numberAt_hex (v : Int) (a : Char) (s : Str) (ha : a = ',' ∨ a = ')') :
    numberAt ("0x".toList ++ hex v ++ a :: s) = some (v, a :: s) := by
  have ht : ∀ w : Str, ',' ∉ w → ')' ∉ w → ((w ++ a :: s).takeWhile fun a => a ≠ ',' && a ≠ ')') = w := by
    intro w
    induction w with
    | nil =>
      intro _ _
      rw [List.nil_append, List.takeWhile_cons_of_neg]
      rcases ha with rfl | rfl <;> decide
    | cons b w ih =>
      intro h1 h2
      simp only [List.mem_cons, not_or] at h1 h2
      rw [List.cons_append, List.takeWhile_cons_of_pos (by simpa using ⟨Ne.symm h1.1, Ne.symm h2.1⟩),
        ih h1.2 h2.2]
  have hw := ht ("0x".toList ++ hex v)
    (by rw [List.mem_append, not_or]; exact ⟨by decide, hex_not (by decide) (by decide)⟩)
    (by rw [List.mem_append, not_or]; exact ⟨by decide, hex_not (by decide) (by decide)⟩)
  unfold numberAt
  simp only [hw, number_hex, Option.map_some, List.drop_left]

theorem readFields_join (fs : List (Str × Int)) (s : Str) :
    readFields (fs.map (·.1)) (joinComma (fs.map fun p => p.1 ++ ": 0x".toList ++ hex p.2) ++ ')' :: s) =
      some (fs.map (·.2), ')' :: s) := by
  induction fs with
  | nil => rfl
  | cons p fs ih =>
    cases fs with
    | nil =>
      have e : joinComma ([p].map fun p => p.1 ++ ": 0x".toList ++ hex p.2) ++ ')' :: s =
          (p.1 ++ ": ".toList) ++ ("0x".toList ++ hex p.2 ++ ')' :: s) := by simp [joinComma]
      rw [e]
      simp only [List.map_cons, List.map_nil, readFields, after_append, numberAt_hex p.2 ')' s (.inr rfl),
        Option.bind_eq_bind, Option.bind_some]
      rfl
    | cons q fs =>
      have e : joinComma ((p :: q :: fs).map fun p => p.1 ++ ": 0x".toList ++ hex p.2) ++ ')' :: s =
          (p.1 ++ ": ".toList) ++ ("0x".toList ++ hex p.2 ++ ',' ::
            (" ".toList ++ (joinComma ((q :: fs).map fun p => p.1 ++ ": 0x".toList ++ hex p.2) ++ ')' :: s))) := by
        simp [joinComma]
      rw [e]
      have h2 : ∀ t : Str, after ", ".toList (',' :: (" ".toList ++ t)) = some t := fun t =>
        after_append ", ".toList t
      rw [List.map_cons, List.map_cons, readFields]
      · simp only [after_append, numberAt_hex p.2 ',' _ (.inl rfl), h2, Option.bind_eq_bind, Option.bind_some]
        rw [← List.map_cons (f := fun p : Str × Int => p.1), ih]
        rfl
      · simp

/-- The description of a message shows every field with its name and its value: whoever knows the names reads
the values of all fields, in the order in which the message has them. -/
theorem C114_values (name : Str) (fs : List MField) (r : List (BitVec W)) (s : Str)
    (h : describeMsg N nm name W fs r = some s) :
    readMsg name (fs.map fun f => nm.field f.name) s = fs.mapM fun f => value N W f r := by
  obtain ⟨ds, h1, rfl⟩ := Option.map_eq_some_iff.1 h
  have key : ∀ (fs : List MField) (ds : List Str),
      fs.mapM (fun f => (value N W f r).map (describeField nm f)) = some ds →
      ∃ ps : List (Str × Int), ps.map (·.1) = fs.map (fun f => nm.field f.name) ∧
        ds = ps.map (fun p => p.1 ++ ": 0x".toList ++ hex p.2) ∧
        fs.mapM (fun f => value N W f r) = some (ps.map (·.2)) := by
    intro fs
    induction fs with
    | nil =>
      intro ds hd
      obtain rfl := Option.some.inj hd
      exact ⟨[], rfl, rfl, rfl⟩
    | cons f fs ih =>
      intro ds hd
      rw [List.mapM_cons] at hd
      simp only [Option.bind_eq_bind, Option.bind_eq_some_iff, Option.map_eq_some_iff] at hd
      obtain ⟨a, ⟨v, hv, rfl⟩, ds', hd', h2⟩ := hd
      obtain rfl := Option.some.inj h2
      obtain ⟨ps, g1, rfl, g3⟩ := ih ds' hd'
      refine ⟨(nm.field f.name, v) :: ps, by simp [g1], rfl, ?_⟩
      rw [List.mapM_cons, hv, g3]; rfl
  obtain ⟨ps, g1, rfl, g3⟩ := key fs ds h1
  rw [g3, ← g1]
  have e : name ++ "(".toList ++ joinComma (ps.map fun p => p.1 ++ ": 0x".toList ++ hex p.2) ++ ")".toList =
      (name ++ "(".toList) ++ (joinComma (ps.map fun p => p.1 ++ ": 0x".toList ++ hex p.2) ++ ')' :: []) := by
    simp
  rw [e]
  simp only [readMsg, after_append, Option.bind_eq_bind, Option.bind_some, readFields_join]
  rfl

/-- A message has a description when its fields lie inside the storage; it shows what the storage holds at
the places of the fields. -/
theorem C114_held (hW : Bits.Narrow W) (name : Str) (fs : List MField) (r : List (BitVec W))
    (hf : ∀ f ∈ fs, f.fld.Legal ∧ f.fld.Within (r.length * W)) :
    ∃ s, describeMsg N nm name W fs r = some s ∧
      readMsg name (fs.map fun f => nm.field f.name) s = some (fs.map fun f => held (signed N f) f.fld r) := by
  have key : ∀ (α : Type) (k : MField → Int → α),
      fs.mapM (fun f => (value N W f r).map (k f)) = some (fs.map fun f => k f (held (signed N f) f.fld r)) := by
    intro α k
    induction fs with
    | nil => rfl
    | cons f fs ih =>
      rw [List.mapM_cons, (value_held hW f (hf f (by simp)).1 r (hf f (by simp)).2).1,
        ih (fun g hg => hf g (by simp [hg]))]
      rfl
  have h1 : describeMsg N nm name W fs r = some (name ++ "(".toList ++
      joinComma (fs.map fun f => describeField nm f (held (signed N f) f.fld r)) ++ ")".toList) := by
    rw [describeMsg, key Str (describeField nm)]; rfl
  refine ⟨_, h1, ?_⟩
  rw [C114_values name fs r _ h1]
  have := key Int (fun _ v => v)
  simpa using this

example (N : Numbering) :
    describeMsg N exNames "msg".toList 8 [exId N, exLen N] [7#8, 40#8] = some "msg(id: 0x7, len: 0x28)".toList ∧
    readMsg "msg".toList ["id".toList, "len".toList] "msg(id: 0x7, len: 0x28)".toList = some [7, 40] := by
  have hv := ex_values N
  refine ⟨?_, by decide +kernel⟩
  simp only [describeMsg, List.mapM_cons, List.mapM_nil, hv.1, hv.2.1, describeField, exNames_field, Option.map_some]
  decide +kernel

end Verif.Explain
