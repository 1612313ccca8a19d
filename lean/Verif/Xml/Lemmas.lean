import Verif.Xml.Spec
import Verif.Render.TypeLemmas
import Verif.Symbols.Lemmas
/-!
# Lemmas on the XML file
-/
namespace Verif.Xml
open Verif.Symbols (Text natText intText natText_digit isDigit)
open Verif.Render (xmlFormat element digitsOf padded xmlRead escapeCdata read_element)

/-! ## Numbers -/

theorem value_append (b : Nat) (s t : Text) (v : Nat) :
    value b v (s ++ t) = (value b v s).bind fun n => value b n t := by
  induction s generalizing v with
  | nil => rfl
  | cons c s ih =>
    rw [List.cons_append, value, value]
    cases digitValue c with
    | none => rfl
    | some d =>
      simp only [Option.bind_some]
      split
      · exact ih _
      · rfl

theorem value_digits {b : Nat} (hb : 1 < b) (f : Char → Char)
    (hf : ∀ d < b, digitValue (f (Nat.digitChar d)) = some d) (n : Nat) :
    value b 0 ((Nat.toDigits b n).map f) = some n := by
  induction n using Nat.strongRecOn with
  | ind n ih =>
    rcases Nat.lt_or_ge n b with h | h
    · rw [Nat.toDigits_of_lt_base h, List.map_singleton, value, hf n h, Option.bind_some, if_pos h, value]
      simp
    · rw [Nat.toDigits_of_base_le hb h, List.map_append, value_append, ih _ (Nat.div_lt_self (by omega) hb),
        Option.bind_some, List.map_singleton, value, hf _ (Nat.mod_lt _ (by omega)), Option.bind_some,
        if_pos (Nat.mod_lt _ (by omega)), value, Nat.mul_comm, Nat.div_add_mod]

theorem value_zeros {b : Nat} (hb : 0 < b) (k : Nat) (t : Text) :
    value b 0 (List.replicate k '0' ++ t) = value b 0 t := by
  induction k with
  | zero => rfl
  | succ k ih =>
    rw [List.replicate_succ, List.cons_append, value, show digitValue '0' = some 0 by decide, Option.bind_some,
      if_pos hb, Nat.zero_mul, Nat.add_zero, ih]

theorem number_plain {t : Text} (h : 'x' ∉ t) : number t = value 10 0 t := by
  unfold number
  split
  · simp at h
  · rfl

theorem number_nat (n : Nat) : number (natText n) = some n := by
  rw [number_plain fun h => absurd (natText_digit h) (by decide), natText]
  have := value_digits (b := 10) (by decide) id (by decide +kernel) n
  rwa [List.map_id] at this

theorem number_hex (n : Nat) : number (hexId n) = some n := by
  have e : number (hexId n) = value 16 0 (padded false (digitsOf 'X' n) true 8) := rfl
  rw [e, padded]
  simp only [if_true, Bool.false_eq_true, if_false, List.nil_append]
  rw [value_zeros (by decide), digitsOf, if_neg (by decide), if_pos rfl]
  exact value_digits (by decide) Char.toUpper (by decide +kernel) n

/-! ## Messages -/

/-- The element of a message. -/
def Shows (m : Msg) (e : El) : Prop := serializeMessage m = some e

theorem shows_for {m : Msg} {e : El} (h : Shows m e) (id : Nat) :
    (e.tag = t!"syst:Format" && isFor e id) = (m.id % 2 ^ 28 == id % 2 ^ 28) := by
  rw [Shows, serializeMessage, Option.map_eq_some_iff] at h
  obtain ⟨f, -, rfl⟩ := h
  have h1 : ∀ l : List (Text × Text), (El.mk t!"syst:Format" ([(t!"ID", hexId m.id), (t!"Mask", t!"0x0FFFFFFF")] ++ l)
      (element f) []).attr t!"ID" = some (hexId m.id) := fun _ => rfl
  have h2 : ∀ l : List (Text × Text), (El.mk t!"syst:Format" ([(t!"ID", hexId m.id), (t!"Mask", t!"0x0FFFFFFF")] ++ l)
      (element f) []).attr t!"Mask" = some t!"0x0FFFFFFF" := fun _ => rfl
  have h3 : number t!"0x0FFFFFFF" = some (2 ^ 28 - 1) := by decide
  simp only [isFor, h1, h2, h3, number_hex, Option.bind_some, El.tag, decide_true, Bool.true_and,
    Nat.and_two_pow_sub_one_eq_mod]

theorem shows_text {m : Msg} {e : El} (h : Shows m e) : ∃ f, xmlFormat m.text m.args = some f ∧ e.text = element f := by
  rw [Shows, serializeMessage, Option.map_eq_some_iff] at h
  obtain ⟨f, hf, rfl⟩ := h
  exact ⟨f, hf, rfl⟩

theorem takeWhile_nat (n : Nat) (t : Text) : (natText n ++ ':' :: t).takeWhile (· ≠ ':') = natText n ∧
    (natText n ++ ':' :: t).dropWhile (· ≠ ':') = ':' :: t := by
  have h : ∀ c ∈ natText n, (decide (c ≠ ':')) = true := by
    intro c hc
    have := natText_digit hc
    rcases Decidable.em (c = ':') with rfl | h
    · exact absurd this (by decide)
    · simpa using h
  constructor
  · rw [List.takeWhile_append_of_pos h]
    simp
  · rw [List.dropWhile_append_of_pos h]
    simp

theorem shows_lookup {m : Msg} {e : El} (h : Shows m e) : lookupOf e = m.lookup := by
  rw [Shows, serializeMessage, Option.map_eq_some_iff] at h
  obtain ⟨f, hf, rfl⟩ := h
  cases hl : m.lookup with
  | none => rfl
  | some l =>
    have h1 : (El.mk t!"syst:Format" ([(t!"ID", hexId m.id), (t!"Mask", t!"0x0FFFFFFF")] ++
        [(t!"EnumLookup", natText l.1 ++ t!":" ++ natText l.2)]) (element f) []).attr t!"EnumLookup" =
        some (natText l.1 ++ ':' :: natText l.2) := by
      simp [El.attr, El.attrs, List.find?]
    simp only [lookupOf, h1, Option.bind_some, (takeWhile_nat l.1 _).1, (takeWhile_nat l.1 _).2, List.tail_cons,
      number_nat, Option.map_some]

/-- Elements correspond to messages. -/
inductive All : List Msg → List El → Prop
  | nil : All [] []
  | cons {m e ms es} : Shows m e → All ms es → All (m :: ms) (e :: es)

theorem All.append {ms ms' : List Msg} {es es' : List El} (h : All ms es) (h' : All ms' es') :
    All (ms ++ ms') (es ++ es') := by
  induction h with
  | nil => exact h'
  | cons h _ ih => exact .cons h ih

theorem serialize_all {ms : List Msg} {a b : List Msg} {r out : List El × List El} (h1 : All a r.1) (h2 : All b r.2)
    (h : serializeMessages ms r = some out) :
    All (a ++ ms.filter fun m => m.args.length = 0) out.1 ∧
    All (b ++ ms.filter fun m => !decide (m.args.length = 0)) out.2 := by
  induction ms generalizing a b r with
  | nil =>
    simp only [serializeMessages, Option.some.injEq] at h
    subst h
    simpa using ⟨h1, h2⟩
  | cons m ms ih =>
    rw [serializeMessages, Option.bind_eq_some_iff] at h
    obtain ⟨e, he, h⟩ := h
    by_cases hm : m.args.length = 0
    · rw [if_pos hm] at h
      have := ih (a := a ++ [m]) (b := b) (r := (r.1 ++ [e], r.2)) (h1.append (.cons he .nil)) h2 h
      rwa [List.append_assoc, List.singleton_append, ← List.filter_cons_of_pos (p := fun m => decide ((Msg.args m).length = 0)) (by simpa using hm),
        ← List.filter_cons_of_neg (a := m) (p := fun m => !decide ((Msg.args m).length = 0)) (by simp [hm])] at this
    · rw [if_neg hm] at h
      have := ih (a := a) (b := b ++ [m]) (r := (r.1, r.2 ++ [e])) h1 (h2.append (.cons he .nil)) h
      rwa [List.append_assoc, List.singleton_append, ← List.filter_cons_of_pos (p := fun m => !decide ((Msg.args m).length = 0)) (by simpa using hm),
        ← List.filter_cons_of_neg (a := m) (p := fun m => decide ((Msg.args m).length = 0)) (by simp [hm])] at this

theorem All.find {ms : List Msg} {es : List El} (h : All ms es) (p : El → Bool) (q : Msg → Bool)
    (hp : ∀ m e, Shows m e → p e = q m) :
    (ms.find? q = none → es.find? p = none) ∧ ∀ m, ms.find? q = some m → ∃ e, es.find? p = some e ∧ Shows m e := by
  induction h with
  | nil => simp
  | @cons m e ms es hm _ ih =>
    have := hp m e hm
    cases hq : q m with
    | true =>
      rw [List.find?_cons_of_pos hq, List.find?_cons_of_pos (by rw [this, hq])]
      exact ⟨fun h => (by cases h), fun m' h => ⟨e, rfl, Option.some.inj h ▸ hm⟩⟩
    | false =>
      rw [List.find?_cons_of_neg (by simp [hq]), List.find?_cons_of_neg (by simp [this, hq])]
      exact ih

/-- The messages of a kind. -/
def ofKind (messages : List Msg) (kind : Text) : List Msg := messages.filter fun m => kindOf m = kind

theorem entry_find {s : Settings} {messages : List Msg} {modules : List Mod}
    {enums : List (Text × Nat × List (Text × Int))} {root : El} (h : writeXml s messages modules enums = some root)
    {kind : Text} (hk : kind = t!"syst:Short32" ∨ kind = t!"syst:Catalog32") (id : Nat) :
    ((ofKind messages kind).find? (fun m => m.id % 2 ^ 28 == id % 2 ^ 28) = none → entryOf root kind id = none) ∧
    ∀ m, (ofKind messages kind).find? (fun m => m.id % 2 ^ 28 == id % 2 ^ 28) = some m →
      ∃ e, entryOf root kind id = some e ∧ Shows m e := by
  rw [writeXml, Option.map_eq_some_iff] at h
  obtain ⟨r, hr, rfl⟩ := h
  obtain ⟨h1, h2⟩ := serialize_all (a := []) (b := []) .nil .nil hr
  rw [List.nil_append] at h1 h2
  have e1 : (messages.filter fun m => decide (m.args.length = 0)) = ofKind messages t!"syst:Short32" := by
    refine List.filter_congr fun m _ => ?_
    rw [decide_eq_decide, kindOf, List.length_eq_zero_iff]
    split <;> simp_all
  have e2 : (messages.filter fun m => !decide (m.args.length = 0)) = ofKind messages t!"syst:Catalog32" := by
    refine List.filter_congr fun m _ => ?_
    rw [← decide_not, decide_eq_decide, kindOf, List.length_eq_zero_iff]
    split <;> simp_all
  rw [e1] at h1
  rw [e2] at h2
  rcases hk with rfl | rfl
  · exact h1.find (fun e => e.tag = t!"syst:Format" && isFor e id) _ fun m e hm => shows_for hm id
  · exact h2.find (fun e => e.tag = t!"syst:Format" && isFor e id) _ fun m e hm => shows_for hm id

theorem find_unique {α : Type} {l : List α} {p : α → Bool} {x : α} (hx : x ∈ l) (hp : p x = true)
    (hu : ∀ y ∈ l, p y = true → y = x) : l.find? p = some x := by
  cases h : l.find? p with
  | none => exact absurd (List.find?_eq_none.1 h x hx) (by simp [hp])
  | some y => rw [hu y (List.mem_of_find?_eq_some h) (List.find?_some h)]

/-! ## Modules and enumerations -/

theorem module_find {s : Settings} {messages : List Msg} {modules : List Mod}
    {enums : List (Text × Nat × List (Text × Int))} {root : El} (h : writeXml s messages modules enums = some root)
    (id : Nat) : moduleOf root id = (modules.find? fun m => m.id = id).bind fun m => xmlRead 0 false (element m.text) := by
  rw [writeXml, Option.map_eq_some_iff] at h
  obtain ⟨r, hr, rfl⟩ := h
  have e : ∀ l : List Mod, ((l.map fun m => El.mk t!"syst:Module" [(t!"ID", natText m.id)] (element m.text) []).find?
      fun e => e.tag = t!"syst:Module" && (e.attr t!"ID").bind number == some id).bind (fun e => xmlRead 0 false e.text) =
      (l.find? fun m => m.id = id).bind fun m => xmlRead 0 false (element m.text) := by
    intro l
    induction l with
    | nil => rfl
    | cons m l ih =>
      have hp : ((El.mk t!"syst:Module" [(t!"ID", natText m.id)] (element m.text) []).tag = t!"syst:Module" &&
          ((El.mk t!"syst:Module" [(t!"ID", natText m.id)] (element m.text) []).attr t!"ID").bind number == some id) =
          decide (m.id = id) := by
        rw [show (El.mk t!"syst:Module" [(t!"ID", natText m.id)] (element m.text) []).attr t!"ID" = some (natText m.id) from rfl,
          Option.bind_some, number_nat]
        by_cases hi : m.id = id <;> simp [El.tag, hi]
      rw [List.map_cons, List.find?_cons, hp, List.find?_cons]
      by_cases hi : m.id = id
      · simp [hi, El.text]
      · simpa [hi] using ih
  exact e modules

theorem enum_find {s : Settings} {messages : List Msg} {modules : List Mod}
    {enums : List (Text × Nat × List (Text × Int))} {root : El} (h : writeXml s messages modules enums = some root)
    (n : Nat) : enumOf root n = (enums.find? fun e => e.2.1 = n).map fun e =>
      (e.1, e.2.2.map fun v => (some v.1, some (intText v.2))) := by
  rw [writeXml, Option.map_eq_some_iff] at h
  obtain ⟨r, hr, rfl⟩ := h
  let mk (e : Text × Nat × List (Text × Int)) : El :=
    .mk t!"syst:Enum" [(t!"Name", e.1), (t!"ID", natText e.2.1)] [] (e.2.2.map fun v =>
      .mk t!"syst:EnumEntry" [(t!"Value", intText v.2), (t!"Name", v.1)] [] [])
  have e : ∀ l : List (Text × Nat × List (Text × Int)), ((l.map mk).find?
      fun e => e.tag = t!"syst:Enum" && (e.attr t!"ID").bind number == some n).bind (fun e =>
        (e.attr t!"Name").map fun name => (name, e.kids.map fun v => (v.attr t!"Name", v.attr t!"Value"))) =
      (l.find? fun e => e.2.1 = n).map fun e => (e.1, e.2.2.map fun v => (some v.1, some (intText v.2))) := by
    intro l
    induction l with
    | nil => rfl
    | cons m l ih =>
      have hp : ((mk m).tag = t!"syst:Enum" && ((mk m).attr t!"ID").bind number == some n) = decide (m.2.1 = n) := by
        rw [show (mk m).attr t!"ID" = some (natText m.2.1) from rfl, Option.bind_some, number_nat]
        by_cases hi : m.2.1 = n <;> simp [mk, El.tag, hi]
      rw [List.map_cons, List.find?_cons, hp, List.find?_cons]
      by_cases hi : m.2.1 = n
      · simp only [hi, decide_true, Option.bind_some, Option.map_some]
        rw [show (mk m).attr t!"Name" = some m.1 from rfl, Option.map_some]
        simp only [mk, El.kids, List.map_map]
        rfl
      · simpa [hi] using ih
  exact e enums

theorem enumerated_find {i : Nat} {es : List (Text × List (Text × Int))} {n : Nat} {name : Text}
    (h : Json.dget (Json.enumIds i es) name = some n) :
    i ≤ n ∧ ∃ vs, (name, vs) ∈ es ∧ (enumerated i es).find? (fun e => e.2.1 = n) = some (name, n, vs) := by
  induction es generalizing i with
  | nil => simp [Json.enumIds, Json.dget] at h
  | cons e es ih =>
    rw [Json.enumIds, Json.dget, List.find?_cons] at h
    by_cases he : e.1 = name
    · simp only [he, decide_true, Option.map_some, Option.some.injEq] at h
      subst h
      refine ⟨Nat.le_refl _, e.2, ?_, ?_⟩
      · rw [← he]; exact List.mem_cons_self ..
      · rw [enumerated, List.find?_cons_of_pos (by simp), he]
    · simp only [he, decide_false] at h
      obtain ⟨h1, vs, h2, h3⟩ := ih (i := i + 1) h
      refine ⟨by omega, vs, List.mem_cons_of_mem _ h2, ?_⟩
      rw [enumerated, List.find?_cons_of_neg (by simp; omega), h3]

end Verif.Xml
