import Verif.Whole.ReadLemmas
/-! # Properties of the way of a log statement -/
namespace Verif.Whole
open Verif.Symbols (Text dec codes)
open Verif.Json (J PyKey Str code dget dupdate)
open Verif.Catalog (Item same)
open Verif.Render (Piece fmtText lineOut PyOk)

theorem lineOut_congr {name name' : Nat → Int → Option Text} {enum : Nat → Text} {ps : List Piece}
    {as : List (Log.CType × Int)} (h : ∀ a ∈ as, ∀ e v, enumArg a = some (e, v) → name e v = name' e v) :
    lineOut name enum ps as = lineOut name' enum ps as := by
  induction ps generalizing as with
  | nil => cases as <;> rfl
  | cons p ps ih =>
    cases p with
    | lit s => simp only [lineOut, ih h]
    | plain =>
      cases as with
      | nil => rfl
      | cons a as =>
        have ih := ih fun b hb => h b (List.mem_cons_of_mem _ hb)
        have h := h a List.mem_cons_self
        obtain ⟨t, v⟩ := a
        cases t with
        | prim p => simp only [lineOut, ih]
        | enumClass e p => simp only [lineOut, ih, h e _ rfl]
        | enumPlain e p => simp only [lineOut, ih, h e _ rfl]
    | spec z w c =>
      cases as with
      | nil => rfl
      | cons a as =>
        have ih := ih fun b hb => h b (List.mem_cons_of_mem _ hb)
        obtain ⟨t, v⟩ := a
        cases t <;> simp only [lineOut, ih]

theorem lineOut_text {name : Nat → Int → Option Text} {enum : Nat → Text} {ps : List Piece} (h : PyOk ps [])
    (hb : ∀ t, .lit t ∈ ps → '{' ∉ t ∧ '}' ∉ t) : lineOut name enum ps [] = some (fmtText ps) := by
  induction ps with
  | nil => rfl
  | cons p ps ih =>
    cases p with
    | lit s =>
      have ih := ih h fun t ht => hb t (List.mem_cons_of_mem _ ht)
      have hs := hb s List.mem_cons_self
      rw [lineOut, ih, show fmtText (.lit s :: ps) = (Piece.lit s).text ++ fmtText ps from List.flatMap_cons ..,
        Render.Piece.text, Option.map_some]
      congr 2
      clear ih hb h
      induction s with
      | nil => rfl
      | cons c s ih =>
        simp only [List.mem_cons, not_or] at hs
        rw [List.flatMap_cons, ← ih ⟨hs.1.2, hs.2.2⟩, if_neg (by rintro (rfl | rfl) <;> simp at hs)]
        rfl
    | plain => exact h.elim
    | spec z w c => exact h.elim

theorem convert_none {db : Render.Enums} {ps : List Piece} {as : List (Log.CType × Int)} (h : PyOk ps as)
    (hl : ∀ t, .lit t ∈ ps → '(' ∉ t) (n : Nat) : Render.convertCt db (n + 1) (fmtText ps) = some (fmtText ps) := by
  have hs : Render.searchCt (fmtText ps) = none := by
    have := Render.search_skip (t := []) (Render.fmtText_paren h hl)
    rw [List.append_nil] at this
    rw [this]; rfl
  rw [Render.convertCt, hs]

theorem enumerator_eq {enums : List (Text × List (Text × Int))} {names : Nat → Text} {e : Nat} {v : Int} {vs : List (Text × Int)}
    {n : Text} (hn : (enums.map Prod.fst).Nodup) (h1 : (names e, vs) ∈ enums) (h2 : (n, v) ∈ vs)
    (h3 : ∀ n', (n', v) ∈ vs → n' = n) : enumerator enums names e v = some n := by
  have hf : enums.find? (fun x => x.1 = names e) = some (names e, vs) := by
    induction enums with
    | nil => cases h1
    | cons x enums ih =>
      rw [List.map_cons, List.nodup_cons] at hn
      rw [List.find?_cons]
      rcases List.mem_cons.1 h1 with rfl | h1
      · simp
      · have : x.1 ≠ names e := fun e' => hn.1 (List.mem_map.2 ⟨_, h1, e'.symm⟩)
        simp only [this, decide_false]
        exact ih hn.2 h1
  rw [enumerator, hf, Option.bind_some]
  cases hg : vs.find? fun y => y.2 = v with
  | none => exact absurd (List.find?_eq_none.1 hg _ h2) (by simp)
  | some y =>
    have hy := List.mem_of_find?_eq_some hg
    have : y.2 = v := by simpa using List.find?_some hg
    rw [Option.map_some, h3 y.1 (by rw [← this]; exact hy)]

theorem tag_ok {names : Nat → Text} {a : Log.CType × Int}
    (h : ∀ e v, enumArg a = some (e, v) → '<' ∉ names e ∧ ',' ∉ names e ∧ names e ∉ typeNames) :
    TagOk names (Log.encodeTag a.1) := by
  intro e he
  obtain ⟨t, v⟩ := a
  cases t with
  | prim p =>
    simp only [Log.encodeTag, Log.plainTag] at he
    split at he <;> split at he <;> cases he
  | enumClass e' p =>
    cases he
    exact h _ _ rfl
  | enumPlain e' p =>
    simp only [Log.encodeTag, Log.plainTag] at he
    have : e' = e := by
      split at he <;> split at he <;> exact Option.some.inj he
    subst this
    exact h e' _ rfl

/-- What the script has read and written. -/
theorem script_some {hash : Catalog.Text → Nat} {C : Coding} {x : Input} {out : Output} (h : script hash C x = some out) :
    ∃ s es, Json.readStable x.stable = some s ∧ x.symbols.mapM Symbols.readLine = some es ∧
      out.messages = (Catalog.run (Catalog.msgKey hash) [s.1.map (ofJson C)] x.reserved x.forget
        ((es.filterMap messageOf?).map (ofSymbol C))).1 ∧
      out.modules = (Catalog.run (Catalog.modKey hash) [s.2.map (ofJsonMod C)] [] x.forget
        ((es.filterMap moduleOf?).map (ofSymbolMod C))).1 ∧
      (∀ m ∈ out.modules, m.id ≤ x.limit) ∧
      Json.writeJson (out.messages.map (toJson C)) (out.modules.map toJsonMod) x.enums x.extras
        ((remembered (Catalog.msgKey hash) (s.1.map (ofJson C)) x.forget ((es.filterMap messageOf?).map (ofSymbol C))).map
          (toJson C))
        ((remembered (Catalog.modKey hash) (s.2.map (ofJsonMod C)) x.forget
          ((es.filterMap moduleOf?).map (ofSymbolMod C))).map toJsonMod) = some out.json := by
  rw [script, Option.bind_eq_some_iff] at h
  obtain ⟨s, hs, h⟩ := h
  rw [Option.bind_eq_some_iff] at h
  obtain ⟨es, he, h⟩ := h
  dsimp only at h
  rw [Option.bind_eq_some_iff] at h
  obtain ⟨r, hr, h⟩ := h
  rw [Option.map_eq_some_iff] at h
  obtain ⟨json, hj, rfl⟩ := h
  obtain ⟨e, hle⟩ := (Catalog.C50_limit _ _ _ _ _).2 r hr
  exact ⟨s, es, hs, he, rfl, by rw [e], hle, hj⟩

/-- The JSON file is loaded; an id of the C++ file finds an entry with the text and the argument types of the
message. -/
theorem db_of_script {hash : Catalog.Text → Nat} {C : Coding} {x : Input} {out : Output} (hs : script hash C x = some out)
    (hx : Sound hash C x) : ∃ db, loadDb (J.obj out.json).file = some db ∧ db.file = (J.obj out.json).file ∧
      (∀ o ∈ out.messages, ∃ m : Json.Message, dget db.messages o.id = some m.toJson ∧ m.text = o.text ∧ m.args = o.args) ∧
      (∀ o ∈ out.modules, ∃ d : Json.Module, dget db.modules o.id = some d.toJson ∧ d.text = o.text) ∧
      ∀ o ∈ out.modules, ∃ k : Nat, o.id = k ∧ k < 2 ^ 7 := by
  obtain ⟨s, es, h1, h2, h3, h4, h5, h6⟩ := script_some hs
  obtain ⟨hc, hc', ho, ho', hpos⟩ := hx.stable s h1 es h2
  have hex : ∀ y ∈ x.extras, Json.Extra y := fun y hy => (hx.extras y hy).1
  obtain ⟨l, hl, hlm⟩ := file_messages h6 hex fun y hy => (hx.extras y hy).2.1
  obtain ⟨l', hl', hlm'⟩ := file_modules h6 hex fun y hy => (hx.extras y hy).2.2
  obtain ⟨ms, hms, hget⟩ := byId_get (f := Json.Message.toJson) (g := fun m => m.id) (fun a => rfl) hlm
  obtain ⟨ds, hds, hget'⟩ := byId_get (f := Json.Module.toJson) (g := fun m => m.id) (fun a => rfl) hlm'
  refine ⟨⟨ms, ds, (J.obj out.json).file⟩, ?_, rfl, ?_, ?_, ?_⟩
  · rw [loadDb, hl, hl']
    simp only [Option.bind_some, J.arr?, hms, hds, Option.map_some]
  · intro o hmo
    obtain ⟨b, hb, hid, hd⟩ := hget (toJson C o) (List.mem_append_left _ (List.mem_map_of_mem hmo))
    have : ∃ v, (v ∈ out.messages ∨ v ∈ remembered (Catalog.msgKey hash) (s.1.map (ofJson C)) x.forget
        ((es.filterMap messageOf?).map (ofSymbol C))) ∧ toJson C v = b := by
      rcases List.mem_append.1 hb with hb | hb
      · obtain ⟨v, hv, e⟩ := List.mem_map.1 hb
        exact ⟨v, .inl hv, e⟩
      · obtain ⟨v, hv, e⟩ := List.mem_map.1 hb
        exact ⟨v, .inr hv, e⟩
    obtain ⟨v, hv, rfl⟩ := this
    rw [h3] at hv hmo
    obtain ⟨e1, e2⟩ := entry_same hc ho hmo hv hid
    exact ⟨_, hd, e1, e2⟩
  · intro o hmo
    obtain ⟨b, hb, hid, hd⟩ := hget' (toJsonMod o) (List.mem_append_left _ (List.mem_map_of_mem hmo))
    have : ∃ v, (v ∈ out.modules ∨ v ∈ remembered (Catalog.modKey hash) (s.2.map (ofJsonMod C)) x.forget
        ((es.filterMap moduleOf?).map (ofSymbolMod C))) ∧ toJsonMod v = b := by
      rcases List.mem_append.1 hb with hb | hb
      · obtain ⟨v, hv, e⟩ := List.mem_map.1 hb
        exact ⟨v, .inl hv, e⟩
      · obtain ⟨v, hv, e⟩ := List.mem_map.1 hb
        exact ⟨v, .inr hv, e⟩
    obtain ⟨v, hv, rfl⟩ := this
    rw [h4] at hv hmo
    obtain ⟨e1, _⟩ := entry_same hc' ho' hmo hv hid
    exact ⟨_, hd, e1⟩
  · have hle : ∀ m ∈ out.modules, m.id ≤ 127 := fun m hm => Int.le_trans (h5 m hm) hx.limit
    rw [h4] at hle ⊢
    have hr := (Catalog.C50_limit (Catalog.modKey hash) [s.2.map (ofJsonMod C)] x.forget 127
      ((es.filterMap moduleOf?).map (ofSymbolMod C))).1.2 hle
    obtain ⟨r, hr⟩ := Option.isSome_iff_exists.1 hr
    have e := ((Catalog.C50_limit _ _ _ _ _).2 r hr).1
    have h7 := Catalog.C50_seven_bits _ _ _ _ hpos hr
    rw [e] at h7
    exact h7

/-- The names of enumerators in the JSON file are those of the program. -/
theorem names_of_script {hash : Catalog.Text → Nat} {C : Coding} {x : Input} {out : Output} (hs : script hash C x = some out)
    (hx : Sound hash C x) {db : Db} (hfile : db.file = (J.obj out.json).file) {names : Nat → Text} (e : Nat) (v : Int)
    (h : Named x.enums names e v) :
    enumerator x.enums names e v = Render.nameIn (Json.enumName db.file) names e v := by
  obtain ⟨_, _, _, _, _, _, _, hwrite⟩ := script_some hs
  obtain ⟨vs, n, q1, q2, q3⟩ := h
  rw [enumerator_eq hx.enums q1 q2 q3, Render.nameIn, hfile]
  exact (Json.C147_name _ _ _ _ _ _ _ hwrite (fun y hy => (hx.extras y hy).1) hx.enums q1 q2 q3).symm

/-- One statement, with ids of one build and a JSON file of the same or another. -/
theorem record_line {C : Coding} {out : Output} {enums : List (Text × List (Text × Int))} (hid : IdsFit out) {db : Db}
    {names : Nat → Text}
    (hnames : ∀ e v, Named enums names e v → enumerator enums names e v = Render.nameIn (Json.enumName db.file) names e v)
    (hmsg : ∀ o ∈ out.messages, ∃ m : Json.Message, dget db.messages o.id = some m.toJson ∧ m.text = o.text ∧ m.args = o.args)
    (hmod : ∀ o ∈ out.modules, ∃ d : Json.Module, dget db.modules o.id = some d.toJson ∧ d.text = o.text)
    (hseven : ∀ o ∈ out.modules, ∃ k : Nat, o.id = k ∧ k < 2 ^ 7)
    {s : Statement} (hf : s.Fine enums names) {i j : Int}
    (hi : idOf out.messages (ofSymbol C (s.msg names)) = some i) (hj : idOf out.modules (ofSymbolMod C s.modMsg) = some j) :
    ∃ bs line, s.record C out names = some bs ∧ s.line enums names = some line ∧ Reads db bs line := by
  obtain ⟨o, ho, ot, oa, oi⟩ := idOf_some hi
  obtain ⟨p, hp, pt, -, pi⟩ := idOf_some hj
  obtain ⟨m, hm, mt, ma⟩ := hmsg o ho
  obtain ⟨d, hd, dt⟩ := hmod p hp
  obtain ⟨k, hk, hk7⟩ := hseven p hp
  obtain ⟨hi0, hi1, hi2⟩ := hid o ho
  subst oi pi
  -- the entry
  have hmtext : m.text = code (fmtText s.fmt) := by
    rw [mt, ot]
    exact codes_chars hf.ascii.1
  have hmargs : m.args = ((s.args.map fun a => Log.encodeTag a.1).map (Render.tagText names)).map code := by
    rw [ma, oa]
    simp only [ofSymbol, Statement.msg, Statement.sym, List.map_map]
    rfl
  have hdtext : d.text = code s.module := by
    rw [dt, pt]
    exact codes_chars hf.ascii.2
  have hstr : strOf m.toJson t!"msg" = some (fmtText s.fmt) := by
    have : (m.toJson.get t!"msg").bind J.str? = some m.text := rfl
    rw [strOf, this, Option.map_some, hmtext, map_ofNat_code]
  have htext : textOf db m.toJson = some (fmtText s.fmt) := by
    rw [textOf, hstr, Option.bind_some]
    exact convert_none hf.pieces hf.parens _
  have hmodn : strOf d.toJson t!"string" = some s.module := by
    have : (d.toJson.get t!"string").bind J.str? = some d.text := rfl
    rw [strOf, this, Option.map_some, hdtext, map_ofNat_code]
  have hoi : ((o.id.toNat : Nat) : Int) = o.id := Int.toNat_of_nonneg hi0
  have hpi : ((p.id.toNat : Nat) : Int) = p.id := by rw [hk]; rfl
  -- the record
  have hfits : Log.Fits ⟨s.level, o.id.toNat, p.id.toNat, s.unit, s.args⟩ := by
    refine ⟨hf.level, ?_, hf.unit, ?_, ?_, fun a ha => ⟨(hf.args a ha).1, (hf.args a ha).2.1⟩⟩
    · rw [hk]; exact hk7
    · show o.id.toNat < 2 ^ 32
      omega
    · intro ha
      have h0 : o.args = [] := by
        rw [oa]
        simp only [ofSymbol, Statement.msg, Statement.sym]
        rw [show s.args = [] from ha]
        rfl
      have := hi2 h0
      show o.id.toNat < 2 ^ 28
      omega
  let ldb : Log.Db := ⟨fun _ => some (s.args.map fun a => Log.encodeTag a.1), fun _ => true⟩
  obtain ⟨bs', hr, hne, hread⟩ := Log.readRecord_record hfits
  have hrec : s.record C out names = some bs' := by
    rw [Statement.record, hi, Option.bind_some, hj, Option.bind_some]
    exact hr
  have hread := hread ldb ⟨rfl, rfl⟩
  -- names of enumerators
  have hname : ∀ a ∈ s.args, ∀ e v, enumArg a = some (e, v) →
      enumerator enums names e v = Render.nameIn (Json.enumName db.file) names e v :=
    fun a ha e v hev => hnames e v (hf.named a ha e v hev)
  have hline := lineOut_congr (enum := names) (ps := s.fmt) hname
  by_cases ha : s.args = []
  · refine ⟨bs', fmtText s.fmt, hrec, ?_, hne, fun rest => ?_⟩
    · rw [Statement.line, ha, lineOut_text (ha ▸ hf.pieces) (hf.braces ha), Option.map_some, if_pos rfl]
    · have := hread rest
      rw [Log.got, if_pos ha] at this
      exact read_short this (by rw [hoi]; exact hm) htext
  · obtain ⟨h1, h2⟩ := Render.py_text (db := Json.enumName db.file) (names := names) hf.pieces
    obtain ⟨t, ht⟩ := Option.isSome_iff_exists.1 h2
    refine ⟨bs', Render.levelName s.level ++ t!" [" ++ s.module ++ t!"] " ++ t, hrec, ?_, hne, fun rest => ?_⟩
    · rw [Statement.line, hline, ht, Option.map_some, if_neg ha]
    · have := hread rest
      rw [Log.got, if_neg ha] at this
      rw [← Render.severity_eq s.level hf.level]
      refine read_catalog this (names := names) (tags := s.args.map fun a => Log.encodeTag a.1) rfl ?_ (by rw [hoi]; exact hm)
        (by rw [hpi]; exact hd) htext hmodn ?_ ?_
      · intro t ht
        obtain ⟨a, ha, rfl⟩ := List.mem_map.1 ht
        exact tag_ok (hf.types a ha)
      · have : (m.toJson.get t!"arg_types").bind J.arr? = some (m.args.map .str) := rfl
        rw [this, hmargs, List.map_map]
        rfl
      · rw [← ht, ← h1, List.map_map]
        congr 1
        apply List.map_congr_left
        intro a ha
        have := (Log.actual_eq_shown (hf.args a ha).1 (hf.args a ha).2.1).2 (hf.args a ha).2.2
        simp only [Function.comp, this]

/-- A program that links: each statement has ids. -/
theorem lines_of_ids {hash : Catalog.Text → Nat} {C : Coding} {x : Input} {out : Output} (hs : script hash C x = some out)
    (hx : Sound hash C x) (hid : IdsFit out) {names : Nat → Text} {ss : List Statement}
    (hf : ∀ s ∈ ss, s.Fine x.enums names)
    (hi : ∀ s ∈ ss, (∃ i, idOf out.messages (ofSymbol C (s.msg names)) = some i) ∧
      ∃ j, idOf out.modules (ofSymbolMod C s.modMsg) = some j) :
    ∃ bss lines, ss.mapM (Statement.record C out names) = some bss ∧
      ss.mapM (Statement.line x.enums names) = some lines ∧ decode (J.obj out.json).file bss.flatten = (lines, true) := by
  obtain ⟨db, h1, h2, h3, h4, h5⟩ := db_of_script hs hx
  have key : ∃ bss lines, ss.mapM (Statement.record C out names) = some bss ∧
      ss.mapM (Statement.line x.enums names) = some lines ∧ List.Forall₂ (Reads db) bss lines := by
    clear h1
    induction ss with
    | nil => exact ⟨[], [], rfl, rfl, .nil⟩
    | cons s ss ih =>
      obtain ⟨bss, lines, q0, q1, q2⟩ := ih (fun t ht => hf t (List.mem_cons_of_mem _ ht))
        fun t ht => hi t (List.mem_cons_of_mem _ ht)
      obtain ⟨⟨i, hi⟩, j, hj⟩ := hi s List.mem_cons_self
      obtain ⟨bs, line, q3, q4, q5⟩ := record_line hid (names_of_script hs hx h2) h3 h4 h5 (hf s List.mem_cons_self) hi hj
      exact ⟨bs :: bss, line :: lines, by rw [List.mapM_cons, q3, q0]; rfl, by rw [List.mapM_cons, q4, q1]; rfl,
        .cons q5 q2⟩
  obtain ⟨bss, lines, q0, q1, q2⟩ := key
  refine ⟨bss, lines, q0, q1, ?_⟩
  rw [decode, h1]
  exact readLogs_all q2 _ (Nat.le_refl _)

theorem mapM_mem {α β : Type} {f : α → Option β} {l : List α} {r : List β} (h : l.mapM f = some r) :
    (∀ a ∈ l, ∃ b ∈ r, f a = some b) ∧ ∀ b ∈ r, ∃ a ∈ l, f a = some b := by
  induction l generalizing r with
  | nil => cases h; exact ⟨fun a ha => (List.not_mem_nil ha).elim, fun a ha => (List.not_mem_nil ha).elim⟩
  | cons a l ih =>
    rw [List.mapM_cons] at h
    simp only [Option.bind_eq_bind, Option.bind_eq_some_iff] at h
    obtain ⟨b, hb, r', hr, e⟩ := h
    cases e
    obtain ⟨h1, h2⟩ := ih hr
    constructor
    · intro c hc
      rcases List.mem_cons.1 hc with rfl | hc
      · exact ⟨b, List.mem_cons_self, hb⟩
      · obtain ⟨d, hd, e⟩ := h1 c hc
        exact ⟨d, List.mem_cons_of_mem _ hd, e⟩
    · intro c hc
      rcases List.mem_cons.1 hc with rfl | hc
      · exact ⟨a, List.mem_cons_self, hb⟩
      · obtain ⟨d, hd, e⟩ := h2 c hc
        exact ⟨d, List.mem_cons_of_mem _ hd, e⟩

theorem codes_inj {a b : List Int} (ha : Symbols.Plain a) (hb : Symbols.Plain b) (h : codes a = codes b) : a = b := by
  have key : ∀ a : List Int, (∀ c ∈ a, 0 ≤ c) → (codes a).map (fun n : Nat => (n : Int)) = a := by
    intro a ha
    rw [codes, List.map_map]
    conv => rhs; rw [← List.map_id a]
    exact List.map_congr_left fun c hc => Int.toNat_of_nonneg (ha c hc)
  rw [← key a fun c hc => (ha.2 c hc).1, ← key b fun c hc => (hb.2 c hc).1, h]

theorem map_code_inj {a b : List Text} (h : a.map code = b.map code) : a = b := by
  have key : ∀ a : List Text, (a.map code).map (fun s => s.map Char.ofNat) = a := by
    intro a
    rw [List.map_map]
    conv => rhs; rw [← List.map_id a]
    exact List.map_congr_left fun t _ => map_ofNat_code t
  rw [← key a, ← key b, h]

theorem idOf_of_same {key : Catalog.Key} {f items : List Item} {res : List (Nat × Nat)} {forget : Bool} {i : Item}
    (hc : Catalog.NoCollision key items) (hi : i ∈ items)
    (h1 : ∀ k ∈ items, same k i → k.cppType = i.cppType) :
    ∃ n, idOf (Catalog.run key [f] res forget items).1 i = some n := by
  obtain ⟨o, ho, hs⟩ := (Catalog.C48_complete key f items res forget hc).1 i hi
  rw [Catalog.run_fst] at ho ⊢
  obtain ⟨k, hk, e, -⟩ := Catalog.loop_mem ho
  have hk' : k ∈ items := Catalog.mem_unique ((Catalog.sort_perm _).mem_iff.mp hk)
  have he : o.cppType = k.cppType := by rw [e]; rfl
  have hsk : same k i := by
    have : same o k := Catalog.same_of_eq_id e
    exact Catalog.same_trans (Catalog.same_symm this) hs
  rw [h1 k hk' hsk] at he
  rw [idOf]
  cases hf : List.find? (fun o : Item => decide (o.cppType = i.cppType)) _ with
  | none => exact absurd (List.find?_eq_none.1 hf o ho) (by simp [he])
  | some p => exact ⟨p.id, rfl⟩

/-- A program whose symbols are all read gets an id for each statement. -/
theorem ids_of_lists {hash : Catalog.Text → Nat} {C : Coding} {x : Input} {out : Output} (hs : script hash C x = some out)
    (hx : Sound hash C x) {names : Nat → Text} {ss : List Statement} (hl : Lists x names ss)
    (hr : ∀ s ∈ ss, s.Readable names) (ht : OneType names ss) :
    ∀ s ∈ ss, (∃ i, idOf out.messages (ofSymbol C (s.msg names)) = some i) ∧
      ∃ j, idOf out.modules (ofSymbolMod C s.modMsg) = some j := by
  obtain ⟨st, es, h1, h2, h3, h4, -, -⟩ := script_some hs
  obtain ⟨hc, hc', -, -, -⟩ := hx.stable st h1 es h2
  obtain ⟨hm1, hm2⟩ := mapM_mem h2
  have hmsg : ∀ s ∈ ss, ∀ n long gap, Symbols.readLine (Symbols.nmLine n long gap t!"catalog"
      ((s.sym names).type gap Symbols.nmChar)) = some (some (.message (s.msg names))) := fun s hs n long gap =>
    Symbols.C137_message_partial n long gap _ (hr s hs).message
  have hmod : ∀ s ∈ ss, ∀ n long gap, Symbols.readLine (Symbols.nmLine n long gap t!"module"
      (s.mod.type gap Symbols.nmChar)) = some (some (.module s.modMsg)) := fun s hs n long gap =>
    Symbols.C137_module_partial n long gap _ (hr s hs).modSuffix (hr s hs).module
  -- what the entries are
  have honly : ∀ e ∈ es, e = none ∨ ∃ s ∈ ss, e = some (.message (s.msg names)) ∨ e = some (.module s.modMsg) := by
    intro e he
    obtain ⟨l, hl', hle⟩ := hm2 e he
    rcases hl.only l hl' with ⟨s, hs, n, long, gap, rfl | rfl⟩ | h
    · rw [hmsg s hs] at hle
      exact .inr ⟨s, hs, .inl (Option.some.inj hle).symm⟩
    · rw [hmod s hs] at hle
      exact .inr ⟨s, hs, .inr (Option.some.inj hle).symm⟩
    · rw [h] at hle
      exact .inl (Option.some.inj hle).symm
  intro s hss
  constructor
  · rw [h3]
    refine idOf_of_same (fun a ha b hb => hc a (List.mem_append_right _ ha) b (List.mem_append_right _ hb)) ?_ ?_
    · obtain ⟨n, long, gap, hmem⟩ := hl.messages s hss
      obtain ⟨e, he, q⟩ := hm1 _ hmem
      rw [hmsg s hss] at q
      cases q
      exact List.mem_map_of_mem (List.mem_filterMap.2 ⟨_, he, rfl⟩)
    · intro k hk hsame
      obtain ⟨m, hm, rfl⟩ := List.mem_map.1 hk
      obtain ⟨e, he, q⟩ := List.mem_filterMap.1 hm
      rcases honly e he with rfl | ⟨t, htt, rfl | rfl⟩
      · cases q
      · cases q
        have h := (ht t htt s hss).1 (codes_inj (hr t htt).message.text (hr s hss).message.text hsame.1) (map_code_inj hsame.2)
        rw [Statement.msg, h]
        rfl
      · cases q
  · rw [h4]
    refine idOf_of_same (fun a ha b hb => hc' a (List.mem_append_right _ ha) b (List.mem_append_right _ hb)) ?_ ?_
    · obtain ⟨n, long, gap, hmem⟩ := hl.modules s hss
      obtain ⟨e, he, q⟩ := hm1 _ hmem
      rw [hmod s hss] at q
      cases q
      exact List.mem_map_of_mem (List.mem_filterMap.2 ⟨_, he, rfl⟩)
    · intro k hk hsame
      obtain ⟨m, hm, rfl⟩ := List.mem_map.1 hk
      obtain ⟨e, he, q⟩ := List.mem_filterMap.1 hm
      rcases honly e he with rfl | ⟨t, htt, rfl | rfl⟩
      · cases q
      · cases q
      · cases q
        have h := (ht t htt s hss).2 (codes_inj (hr t htt).module (hr s hss).module hsame.1)
        rw [Statement.modMsg, h]
        rfl

/-! ## C153 -/

/-- A program whose symbols the script has read links with the generated C++ file, and the decoder prints, from its
log and the generated JSON file, the lines that the statements say, in order. Part of the claim: `Statement.Fine`,
`Statement.Readable` and `OneType` leave out the statements that are decoded wrong, cannot be read, or do not link. -/
theorem C153_program_partial (hash : Catalog.Text → Nat) (C : Coding) (x : Input) (out : Output)
    (hs : script hash C x = some out) (hx : Sound hash C x) (hid : IdsFit out) (names : Nat → Text) (ss : List Statement)
    (hl : Lists x names ss) (hf : ∀ s ∈ ss, s.Fine x.enums names ∧ s.Readable names) (ht : OneType names ss) :
    ∃ bss lines, ss.mapM (Statement.record C out names) = some bss ∧
      ss.mapM (Statement.line x.enums names) = some lines ∧ decode (J.obj out.json).file bss.flatten = (lines, true) :=
  lines_of_ids hs hx hid (fun s h => (hf s h).1) (ids_of_lists hs hx hl (fun s h => (hf s h).2) ht)

end Verif.Whole
