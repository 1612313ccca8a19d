import Verif.Xml.Lemmas
import Verif.Json.Props
/-!
# C165: what a decoder finds in the XML file
-/
namespace Verif.Xml
open Verif.Symbols (Text dec dec_eq)
open Verif.Render (xmlFormat escapeCdata element xmlRead read_element escape_id)

variable {s : Settings} {messages : List Msg} {modules : List Mod}
  {enums : List (Text × Nat × List (Text × Int))} {root : El}

/-- **C165**: for the id of a message the decoder finds an entry with its format string and its reference
to an enumeration. Missing for the whole claim: messages of one kind whose ids differ only above bit 27,
and format strings with `&` or `]]>`. -/
theorem C165_message_partial (h : writeXml s messages modules enums = some root) (m : Msg) (hm : m ∈ messages)
    (hu : ∀ m' ∈ messages, kindOf m' = kindOf m → m'.id % 2 ^ 28 = m.id % 2 ^ 28 → m' = m) :
    ∃ f e, xmlFormat m.text m.args = some f ∧ entryOf root (kindOf m) m.id = some e ∧ lookupOf e = m.lookup ∧
      (¬ t!"]]>" <:+: f → '&' ∉ f → formatOf root (kindOf m) m.id = some f) := by
  have hk : kindOf m = t!"syst:Short32" ∨ kindOf m = t!"syst:Catalog32" := by
    unfold kindOf; split <;> simp
  obtain ⟨e, he, hs⟩ := (entry_find h hk m.id).2 m (find_unique (by simp [ofKind, hm]) (by simp) (by
    intro y hy hp
    rw [ofKind, List.mem_filter] at hy
    exact hu y hy.1 (by simpa using hy.2) (by simpa using hp)))
  obtain ⟨f, hf, ht⟩ := shows_text hs
  refine ⟨f, e, hf, he, shows_lookup hs, fun h1 h2 => ?_⟩
  rw [formatOf, he, Option.bind_some, ht, read_element h1, escape_id h2]

/-- **C165**: exactly: for an id the decoder finds the first message of the kind that agrees with it in the
lower 28 bits, and nothing if there is none. -/
theorem C165_exact (h : writeXml s messages modules enums = some root) (kind : Text)
    (hk : kind = t!"syst:Short32" ∨ kind = t!"syst:Catalog32") (id : Nat) :
    (entryOf root kind id = none ↔ ∀ m ∈ messages, kindOf m = kind → m.id % 2 ^ 28 ≠ id % 2 ^ 28) ∧
    ∀ e, entryOf root kind id = some e → ∃ before m after f, messages = before ++ m :: after ∧
      (∀ m' ∈ before, kindOf m' = kind → m'.id % 2 ^ 28 ≠ id % 2 ^ 28) ∧
      kindOf m = kind ∧ m.id % 2 ^ 28 = id % 2 ^ 28 ∧ xmlFormat m.text m.args = some f ∧ e.text = element f ∧
      lookupOf e = m.lookup := by
  obtain ⟨h1, h2⟩ := entry_find h hk id
  have e0 : (ofKind messages kind).find? (fun m => m.id % 2 ^ 28 == id % 2 ^ 28) =
      messages.find? fun m => decide (kindOf m = kind) && m.id % 2 ^ 28 == id % 2 ^ 28 := by
    rw [ofKind, List.find?_filter]
    congr 1
    funext m
    simp only [beq_iff_eq, Bool.decide_and, ← Bool.beq_eq_decide_eq]
  rw [e0] at h1 h2
  cases hf : messages.find? fun m => decide (kindOf m = kind) && m.id % 2 ^ 28 == id % 2 ^ 28 with
  | none =>
    have h3 := h1 hf
    rw [h3]
    refine ⟨⟨fun _ m hm hkm hi => ?_, fun _ => rfl⟩, fun e he => by cases he⟩
    exact absurd (List.find?_eq_none.1 hf m hm) (by simp [hkm, hi])
  | some m =>
    obtain ⟨e, he, hs⟩ := h2 m hf
    obtain ⟨hp, before, after, hl, hb⟩ := List.find?_eq_some_iff_append.1 hf
    simp only [Bool.and_eq_true, decide_eq_true_eq, beq_iff_eq] at hp
    rw [he]
    refine ⟨⟨fun h => (by cases h), fun hn => ?_⟩, fun e' he' => ?_⟩
    · exact absurd hp.2 (hn m (by rw [hl]; simp) hp.1)
    · obtain ⟨f, hf', ht⟩ := shows_text hs
      cases he'
      refine ⟨before, m, after, f, hl, fun m' hm' hk' hi => ?_, hp.1, hp.2, hf', ht, shows_lookup hs⟩
      have := hb m' hm'
      simp [hk', hi] at this

/-- **C165**: for the id of a module the decoder finds its text. -/
theorem C165_module_partial (h : writeXml s messages modules enums = some root) (m : Mod) (hm : m ∈ modules)
    (hu : ∀ m' ∈ modules, m'.id = m.id → m' = m) (h1 : ¬ t!"]]>" <:+: m.text) (h2 : '&' ∉ m.text) :
    moduleOf root m.id = some m.text := by
  rw [module_find h, find_unique hm (by simp) (fun y hy hp => hu y hy (by simpa using hp)), Option.bind_some,
    read_element h1, escape_id h2]

/-- For an id that no module has it finds nothing. -/
theorem C165_no_module (h : writeXml s messages modules enums = some root) (id : Nat) (hn : ∀ m ∈ modules, m.id ≠ id) :
    moduleOf root id = none := by
  rw [module_find h, List.find?_eq_none.2 fun m hm => by simp [hn m hm]]
  rfl

/-- **C165**: what the file refers to for an argument of an enumeration is that enumeration, with its
enumerators and their values. `es` are the enumerations of the generated file, which have different names
since they are a dictionary. -/
theorem C165_enum (es : List (Text × List (Text × Int))) (hn : (es.map Prod.fst).Nodup)
    (h : writeXml s messages modules (enumerated 0 es) = some root) (name : Text) (vs : List (Text × Int))
    (he : (name, vs) ∈ es) :
    ∃ n, Json.dget (Json.enumIds 0 es) name = some n ∧
      enumOf root n = some (name, vs.map fun v => (some v.1, some (dec v.2))) := by
  have key : ∀ (es : List (Text × List (Text × Int))) (i : Nat), name ∈ es.map Prod.fst →
      ∃ n, Json.dget (Json.enumIds i es) name = some n := by
    intro es
    induction es with
    | nil => intro i h; cases h
    | cons e es ih =>
      intro i h
      rw [Json.enumIds, Json.dget, List.find?_cons]
      by_cases hc : e.1 = name
      · exact ⟨i, by simp [hc]⟩
      · obtain ⟨n, h'⟩ := ih (i + 1) (by simpa [Ne.symm hc] using h)
        exact ⟨n, by simpa [hc, Json.dget] using h'⟩
  obtain ⟨n, hd⟩ := key es 0 (List.mem_map.2 ⟨_, he, rfl⟩)
  obtain ⟨-, vs', hv, hf⟩ := enumerated_find hd
  have hv' : vs' = vs := by
    have : ∀ es : List (Text × List (Text × Int)), (es.map Prod.fst).Nodup → (name, vs) ∈ es → (name, vs') ∈ es → vs' = vs := by
      intro es
      induction es with
      | nil => intro _ h; cases h
      | cons e es ih =>
        intro hn h1 h2
        rw [List.map_cons, List.nodup_cons] at hn
        rcases List.mem_cons.1 h1 with h1 | h1 <;> rcases List.mem_cons.1 h2 with h2 | h2
        · rw [← h1] at h2; exact (Prod.mk.inj h2).2
        · exact absurd (List.mem_map.2 ⟨_, h2, by rw [← h1]⟩) hn.1
        · exact absurd (List.mem_map.2 ⟨_, h1, by rw [← h2]⟩) hn.1
        · exact ih hn.2 h1 h2
    exact this es hn he hv
  refine ⟨n, hd, ?_⟩
  rw [enum_find h, hf, hv']
  simp only [Option.map_some, dec_eq]

/-- Different enumerations have different numbers, so a reference means one enumeration only. -/
theorem C165_one_enum (es : List (Text × List (Text × Int))) (n : Nat) (a b : Text)
    (ha : Json.dget (Json.enumIds 0 es) a = some n) (hb : Json.dget (Json.enumIds 0 es) b = some n) : a = b := by
  obtain ⟨-, _, -, h1⟩ := enumerated_find ha
  obtain ⟨-, _, -, h2⟩ := enumerated_find hb
  rw [h1] at h2
  simp only [Option.some.injEq, Prod.mk.injEq] at h2
  exact h2.1

/-- **C165**: the file names the client, its id with the mask for it, and the version. -/
theorem C165_client (h : writeXml s messages modules enums = some root) :
    ((root.child t!"syst:Client").bind (·.attr t!"Name") = some s.clientName) ∧
    ((root.child t!"syst:FwVersion").bind (·.attr t!"FW_Version") = some s.version) ∧
    ∃ g, ((root.child t!"syst:Client").bind fun c => (c.child t!"syst:Guids").bind (·.child t!"syst:Guid")) = some g ∧
      g.attr t!"ID" = some ('{' :: s.guidId ++ ['}']) ∧ g.attr t!"Mask" = some ('{' :: s.guidMask ++ ['}']) := by
  rw [writeXml, Option.map_eq_some_iff] at h
  obtain ⟨r, -, rfl⟩ := h
  refine ⟨rfl, rfl, _, rfl, rfl, rfl⟩

/-! ## Cases -/

def exFile : List Msg := [⟨t!"Hello", [], 5, none⟩, ⟨t!"x is {}", [t!"encode_32<int>"], 5, none⟩,
  ⟨t!"{} of {}", [t!"encode_u32<unsigned int>", t!"encode_enum<ns::E, int, 4>"], 0xABCDE, some (2, 0)⟩]

def exRoot : Option El := writeXml ⟨t!"c", t!"1", [], []⟩ exFile [⟨t!"default", 3⟩] (enumerated 0 [(t!"ns::E", [(t!"A", -1), (t!"B", 7)])])

/-- Three messages, two of them with the same id but of different kinds. -/
example : ∃ root, exRoot = some root ∧ formatOf root t!"syst:Short32" 5 = some t!"Hello" ∧
    formatOf root t!"syst:Catalog32" 5 = some t!"x is %d" ∧
    formatOf root t!"syst:Catalog32" 0xABCDE = some t!"%u of %d" ∧
    (entryOf root t!"syst:Catalog32" 0xABCDE).bind lookupOf = some (2, 0) ∧
    enumOf root 0 = some (t!"ns::E", [(some t!"A", some t!"-1"), (some t!"B", some t!"7")]) ∧
    moduleOf root 3 = some t!"default" ∧ moduleOf root 4 = none ∧ (entryOf root t!"syst:Short32" 6).isNone := by
  have h : exRoot.isSome = true := by decide +kernel
  obtain ⟨root, hr⟩ := Option.isSome_iff_exists.1 h
  have h' : exRoot.all fun root => formatOf root t!"syst:Short32" 5 = some t!"Hello" ∧
    formatOf root t!"syst:Catalog32" 5 = some t!"x is %d" ∧
    formatOf root t!"syst:Catalog32" 0xABCDE = some t!"%u of %d" ∧
    (entryOf root t!"syst:Catalog32" 0xABCDE).bind lookupOf = some (2, 0) ∧
    enumOf root 0 = some (t!"ns::E", [(some t!"A", some t!"-1"), (some t!"B", some t!"7")]) ∧
    moduleOf root 3 = some t!"default" ∧ moduleOf root 4 = none ∧ (entryOf root t!"syst:Short32" 6).isNone := by
    decide +kernel
  rw [hr] at h'
  exact ⟨root, hr, by simpa using h'⟩

/-- The hypotheses of `C165_message_partial` hold for them. -/
example : ∀ m ∈ exFile, ∀ m' ∈ exFile, kindOf m' = kindOf m → m'.id % 2 ^ 28 = m.id % 2 ^ 28 → m' = m := by
  decide +kernel

/-- **C165 fails**: of two messages whose ids differ only above bit 27, the first is found for both. -/
theorem C165_violated_mask :
    let a : Msg := ⟨t!"a {}", [t!"encode_32<int>"], 1, none⟩
    let b : Msg := ⟨t!"b {}", [t!"encode_32<int>"], 0x10000001, none⟩
    (writeXml ⟨[], [], [], []⟩ [a, b] [] []).map (fun root => formatOf root t!"syst:Catalog32" b.id) =
      some (some t!"a %d") := by
  decide +kernel

end Verif.Xml
