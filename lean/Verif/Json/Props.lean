import Verif.Json.FileLemmas
import Verif.Json.TextLemmas
/-! # Properties of the files of the catalog -/
namespace Verif.Json
open Verif.Symbols (Text dec dec_eq natText intText)

/-! ## C144 -/

/-- An entry is read back as it was written. -/
theorem C144_entry (m : Message) (h : m.Ok) : Message.ofJson m.toJson.file = some m := by
  rw [file_loaded _ m.loaded, Message.round h]

/-- So is one of a module. -/
theorem C144_module (m : Module) : Module.ofJson m.toJson.file = some m := by
  rw [file_loaded _ m.loaded, Module.round]

theorem mapM_mem {α β : Type} {g : β → Option α} {f : α → β} {l : List β} (h : ∀ x ∈ l, ∃ y, x = f y ∧ g x = some y) :
    ∃ r, l.mapM g = some r ∧ ∀ y, y ∈ r ↔ ∃ x ∈ l, g x = some y := by
  induction l with
  | nil => exact ⟨[], rfl, fun y => by simp⟩
  | cons x l ih =>
    obtain ⟨y, _, hy⟩ := h x (List.mem_cons_self ..)
    obtain ⟨r, hr, hm⟩ := ih fun z hz => h z (List.mem_cons_of_mem _ hz)
    refine ⟨y :: r, by simp [hy, hr], fun z => ?_⟩
    rw [List.mem_cons, hm]
    constructor
    · rintro (rfl | ⟨w, hw, h1⟩)
      · exact ⟨x, List.mem_cons_self .., hy⟩
      · exact ⟨w, List.mem_cons_of_mem _ hw, h1⟩
    · rintro ⟨w, hw, h1⟩
      rcases List.mem_cons.1 hw with rfl | hw
      · rw [hy] at h1; exact .inl (Option.some.inj h1).symm
      · exact .inr ⟨w, hw, h1⟩

theorem file_arr {l : List J} (h : ∀ j ∈ l, j.Loaded) : (J.arr l).file = .arr l :=
  file_loaded _ (by rw [J.Loaded, loadedL_iff]; exact h)

theorem base_messages (ms : List Message) (ds : List Module) (om : List Message) (od : List Module) :
    dget (base ms ds om od) (.str t!"messages") = some (.arr (addNew (ms.map Message.toJson) (om.map Message.toJson))) := rfl

theorem base_modules (ms : List Message) (ds : List Module) (om : List Message) (od : List Module) :
    dget (base ms ds om od) (.str t!"modules") = some (.arr (addNew (ds.map Module.toJson) (od.map Module.toJson))) := rfl

theorem write_eq {ms : List Message} {ds : List Module} {enums : List (Text × List (Text × Int))}
    {xs : List (List (PyKey × J))} {om : List Message} {od : List Module} {old new : List (PyKey × J)}
    (h1 : dget (xs.foldl dupdate (base ms ds om od)) (.str t!"enums") = some (.obj old))
    (h2 : addEnums old (dupdate [] (enums.map fun e => (e.1, byValue e.2))) = some new) :
    writeJson ms ds enums xs om od = some (dset (.str t!"enums") (.obj new) (xs.foldl dupdate (base ms ds om od))) := by
  rw [base] at h1 ⊢
  simp only [writeJson]
  rw [h1]
  simp only [Option.bind_some, J.obj?, h2, Option.map_some]

/-- The file of a build, used as the stable file of the next: read are the entries of the build and those that
were to be remembered, and no others. -/
theorem C144_file (ms : List Message) (ds : List Module) (enums : List (Text × List (Text × Int)))
    (om : List Message) (od : List Module) (h : ∀ m ∈ ms ++ om, m.Ok) :
    ∃ out, writeJson ms ds enums [] om od = some out ∧
      ∃ file, (J.obj out).file = .obj file ∧
        ∃ rm rd, readStable [file] = some (rm, rd) ∧ (∀ m, m ∈ rm ↔ m ∈ ms ++ om) ∧ ∀ d, d ∈ rd ↔ d ∈ ds ++ od := by
  obtain ⟨new, hn⟩ := addEnums_some (es := dupdate [] (enums.map fun e => (e.1, byValue e.2))) (enums := [])
    (fun e he => by cases he)
  have hw : writeJson ms ds enums [] om od =
      some (dset (.str t!"enums") (.obj new) (base ms ds om od)) := write_eq (xs := []) rfl hn
  refine ⟨_, hw, ?_⟩
  obtain ⟨file, hfile⟩ : ∃ file, (J.obj (dset (.str t!"enums") (.obj new) (base ms ds om od))).file = .obj file := by
    rw [J.file]; exact ⟨_, rfl⟩
  refine ⟨file, hfile, ?_⟩
  have hx : ∀ x ∈ ([] : List (List (PyKey × J))), Extra x := fun x hx => by cases hx
  have hload1 : ∀ j ∈ addNew (ms.map Message.toJson) (om.map Message.toJson), ∃ m ∈ ms ++ om, j = m.toJson := by
    intro j hj
    rw [mem_addNew, List.mem_map, List.mem_map] at hj
    rcases hj with ⟨m, hm, rfl⟩ | ⟨m, hm, rfl⟩
    · exact ⟨m, List.mem_append_left _ hm, rfl⟩
    · exact ⟨m, List.mem_append_right _ hm, rfl⟩
  have hload2 : ∀ j ∈ addNew (ds.map Module.toJson) (od.map Module.toJson), ∃ m ∈ ds ++ od, j = m.toJson := by
    intro j hj
    rw [mem_addNew, List.mem_map, List.mem_map] at hj
    rcases hj with ⟨m, hm, rfl⟩ | ⟨m, hm, rfl⟩
    · exact ⟨m, List.mem_append_left _ hm, rfl⟩
    · exact ⟨m, List.mem_append_right _ hm, rfl⟩
  have g1 : (J.obj file).get t!"messages" = some (.arr (addNew (ms.map Message.toJson) (om.map Message.toJson))) := by
    rw [← hfile, out_get hw hx (by decide), List.foldl_nil, base_messages, Option.map_some, file_arr]
    intro j hj
    obtain ⟨m, _, rfl⟩ := hload1 j hj
    exact m.loaded
  have g2 : (J.obj file).get t!"modules" = some (.arr (addNew (ds.map Module.toJson) (od.map Module.toJson))) := by
    rw [← hfile, out_get hw hx (by decide), List.foldl_nil, base_modules, Option.map_some, file_arr]
    intro j hj
    obtain ⟨m, _, rfl⟩ := hload2 j hj
    exact m.loaded
  rw [J.get] at g1 g2
  have hnd : (file.map Prod.fst).Nodup := by
    rw [J.file] at hfile
    cases hfile
    exact nodup_dupdate (by simp) _
  have up : ∀ {k : Text} {v : J}, dget file (.str k) = some v →
      dget (dupdate [(.str t!"messages", .arr []), (.str t!"modules", .arr [])] file) (.str k) = some v := by
    intro k v hv
    obtain ⟨w, hw, hg⟩ := dget_dupdate_some [(PyKey.str t!"messages", J.arr []), (.str t!"modules", .arr [])]
      (es := file) (k := .str k) ⟨_, mem_of_dget hv, rfl⟩
    rw [hg, nodup_mem hnd hw (mem_of_dget hv)]
  obtain ⟨rm, hrm, hmem⟩ := mapM_mem (g := Message.ofJson) (f := Message.toJson)
    (l := addNew (ms.map Message.toJson) (om.map Message.toJson)) (by
      intro j hj
      obtain ⟨m, hm, rfl⟩ := hload1 j hj
      exact ⟨m, rfl, Message.round (h m hm)⟩)
  obtain ⟨rd, hrd, hmed⟩ := mapM_mem (g := Module.ofJson) (f := Module.toJson)
    (l := addNew (ds.map Module.toJson) (od.map Module.toJson)) (by
      intro j hj
      obtain ⟨m, hm, rfl⟩ := hload2 j hj
      exact ⟨m, rfl, m.round⟩)
  refine ⟨rm, rd, ?_, ?_, ?_⟩
  · rw [readStable]
    dsimp only [List.foldl_cons, List.foldl_nil]
    rw [up g1, up g2]
    simp only [Option.bind_some, J.arr?, hrm, hrd, Option.map_some]
  · intro m
    rw [hmem, List.mem_append]
    constructor
    · rintro ⟨j, hj, hm⟩
      obtain ⟨m', hm', rfl⟩ := hload1 j hj
      rw [Message.round (h m' hm')] at hm
      cases hm
      exact List.mem_append.1 hm'
    · intro hm
      refine ⟨m.toJson, ?_, Message.round (h m (List.mem_append.2 hm))⟩
      rw [mem_addNew]
      exact hm.imp (fun h => List.mem_map_of_mem h) fun h => List.mem_map_of_mem h
  · intro m
    rw [hmed, List.mem_append]
    constructor
    · rintro ⟨j, hj, hm⟩
      obtain ⟨m', hm', rfl⟩ := hload2 j hj
      rw [Module.round m'] at hm
      cases hm
      exact List.mem_append.1 hm'
    · intro hm
      refine ⟨m.toJson, ?_, m.round⟩
      rw [mem_addNew]
      exact hm.imp (fun h => List.mem_map_of_mem h) fun h => List.mem_map_of_mem h

/-- A message with an argument at a place, a reference to an argument, and a tag. -/
def exMessage : Message :=
  ⟨code t!"x = {}, y = {}", [code t!"encode_32<int>", code t!"encode_32<int>"], 7, [⟨code t!"x", 4, 6⟩, ⟨code t!"y", 1, 0⟩],
    [⟨code t!"area", code t!"net"⟩]⟩

example : exMessage.Ok ∧ Message.ofJson exMessage.toJson.file = some exMessage := by
  constructor
  · unfold Message.Ok NamedArg.Ok; decide
  · decide +kernel

/-! ## C145 -/

/-- What an extra file has for a key, other than enumerations, is in the catalog as it stands, if no later file
has the key. Missing from the full statement: files with the same key. -/
theorem C145_copied_partial (ms : List Message) (ds : List Module) (enums : List (Text × List (Text × Int)))
    (pre post : List (List (PyKey × J))) (x : List (PyKey × J)) (om : List Message) (od : List Module)
    (out : List (PyKey × J)) (h : writeJson ms ds enums (pre ++ x :: post) om od = some out)
    (hx : ∀ y ∈ pre ++ x :: post, Extra y) {k : Text} {v : J} (hk : k ≠ t!"enums") (hm : (.str k, v) ∈ x)
    (hl : ∀ y ∈ post, Without k y) : (J.obj out).file.get k = some v := by
  have hxx := hx x (by simp)
  rw [out_get h hx hk, fold_last hxx hm hl, Option.map_some, file_loaded _ (Extra.mem hxx hm)]

theorem enums_get {new : List (PyKey × J)} (hn : Fields new) (e : Text) :
    (J.obj new).file.get e = (dget new (.str e)).map J.file := file_get hn e

theorem enum_keys (enums : List (Text × List (Text × Int))) :
    ((dupdate [] (enums.map fun e => (e.1, byValue e.2))).map Prod.fst).Nodup := nodup_dupdate (by simp) _

/-- An enumerator of an extra file is in the catalog, unless the program has one with its value, if no later
file has enumerations. Missing from the full statement: several files with enumerations. -/
theorem C145_enumerator_partial (ms : List Message) (ds : List Module) (enums : List (Text × List (Text × Int)))
    (pre post : List (List (PyKey × J))) (x : List (PyKey × J)) (om : List Message) (od : List Module)
    (out : List (PyKey × J)) (h : writeJson ms ds enums (pre ++ x :: post) om od = some out)
    (hx : ∀ y ∈ pre ++ x :: post, Extra y) {es vs : List (PyKey × J)} {e v n : Text}
    (hm : (.str t!"enums", .obj es) ∈ x) (he : (.str e, .obj vs) ∈ es) (hv : (.str v, .str (code n)) ∈ vs)
    (hl : ∀ y ∈ post, Without t!"enums" y)
    (hp : ∀ a ∈ enums, a.1 = e → ∀ y ∈ a.2, dec y.2 ≠ v) : enumName (J.obj out).file e v = some n := by
  have hxx := hx x (by simp)
  obtain ⟨old, new, h1, h2, h3⟩ := out_enums h hx
  rw [fold_last hxx hm hl] at h1
  cases h1
  have hes : Extra es := Extra.mem hxx hm
  have hvs : Extra vs := Extra.mem hes he
  have hnew := addEnums_fields h2 hes.fields
  have hold : dget es (.str e) = some (.obj vs) := dget_of_mem hes.fields.1 he
  have hgv : (J.obj vs).file.get v = some (.str (code n)) := by
    rw [file_get hvs.fields, dget_of_mem hvs.fields.1 hv]; rfl
  have key : ∃ j, dget new (.str e) = some j ∧ j.file.get v = some (.str (code n)) := by
    by_cases hin : ∃ a ∈ dupdate [] (enums.map fun e => (e.1, byValue e.2)), a.1 = e
    · obtain ⟨⟨a, b⟩, ha, hae⟩ := hin
      simp only at hae
      subst hae
      have hb : ∃ c ∈ enums, c.1 = a ∧ b = byValue c.2 := by
        rcases mem_dupdate ha with h | h
        · cases h
        · obtain ⟨c, hc, hce⟩ := List.mem_map.1 h
          cases hce
          exact ⟨c, hc, rfl, rfl⟩
      obtain ⟨c, hc, hca, rfl⟩ := hb
      rcases addEnums_self h2 (enum_keys enums) ha with ⟨hnone, _⟩ | ⟨old', ho, hg⟩
      · rw [hold] at hnone; cases hnone
      · rw [hold] at ho
        cases ho
        refine ⟨_, hg, ?_⟩
        rw [get_other hvs.fields, hgv]
        intro y hy
        rw [← dec_eq]
        exact hp c hc hca y hy
    · refine ⟨.obj vs, ?_, hgv⟩
      rw [addEnums_not h2 fun a ha hae => hin ⟨a, ha, hae⟩, hold]
  obtain ⟨j, hj1, hj2⟩ := key
  rw [enumName, h3, Option.bind_some, file_get hnew, hj1, Option.map_some, Option.bind_some, hj2]
  simp only [Option.bind_some, J.str?, Option.map_some, code_back]

/-- A file with versions and an enumeration. -/
def exExtra : List (PyKey × J) :=
  [(.str t!"version", .str (code t!"1.2")), (.str t!"enums", .obj [(.str t!"E", .obj [(.str t!"5", .str (code t!"five"))])])]

example : Extra exExtra ∧ EnumsOk exExtra ∧
    (writeJson [] [] [(t!"E", [(t!"one", 1)])] [exExtra] [] []).map (fun o =>
      ((J.obj o).file.get t!"version", enumName (J.obj o).file t!"E" t!"5", enumName (J.obj o).file t!"E" t!"1")) =
      some (some (.str (code t!"1.2")), some t!"five", some t!"one") := by
  refine ⟨by simp [Extra, exExtra, J.Loaded, LoadedO], ?_, by decide +kernel⟩
  intro j hj
  simp only [exExtra, List.mem_cons, Prod.mk.injEq, List.not_mem_nil, or_false] at hj
  rcases hj with ⟨h, _⟩ | ⟨_, rfl⟩
  · cases h
  · exact ⟨_, rfl, fun e he => by rw [List.mem_singleton] at he; exact ⟨_, by rw [he]⟩⟩

/-- Two files with the same key: only what the last says is in the catalog. Two files with enumerations: those of
the first are lost, though they are different enumerations. -/
theorem C145_violated_two :
    (writeJson [] [] [] [[(.str t!"v", .int 1)], [(.str t!"v", .int 2)]] [] []).map
      (fun o => (J.obj o).file.get t!"v") = some (some (.int 2)) ∧
    (writeJson [] [] [] [[(.str t!"enums", .obj [(.str t!"E", .obj [(.str t!"5", .str (code t!"five"))])])],
        [(.str t!"enums", .obj [(.str t!"F", .obj [(.str t!"6", .str (code t!"six"))])])]] [] []).map
      (fun o => (enumName (J.obj o).file t!"E" t!"5", enumName (J.obj o).file t!"F" t!"6")) = some (none, some t!"six") := by
  constructor <;> decide +kernel

/-! ## C146 -/

/-- Every message and module of the program is in the catalog that is written, and read back from it, whatever
else the extra files have. Missing from the full statement: extra files with messages or modules. -/
theorem C146_listed_partial (ms : List Message) (ds : List Module) (enums : List (Text × List (Text × Int)))
    (xs : List (List (PyKey × J))) (om : List Message) (od : List Module) (out : List (PyKey × J))
    (h : writeJson ms ds enums xs om od = some out) (hx : ∀ y ∈ xs, Extra y)
    (h1 : ∀ y ∈ xs, Without t!"messages" y) (h2 : ∀ y ∈ xs, Without t!"modules" y) :
    (∀ m ∈ ms, ∃ l, (J.obj out).file.get t!"messages" = some (.arr l) ∧ m.toJson ∈ l) ∧
    ∀ d ∈ ds, ∃ l, (J.obj out).file.get t!"modules" = some (.arr l) ∧ d.toJson ∈ l := by
  constructor
  · intro m hm
    rw [out_get h hx (by decide), fold_without h1, base_messages, Option.map_some, file_arr]
    · refine ⟨_, rfl, ?_⟩
      rw [mem_addNew]; exact .inl (List.mem_map_of_mem hm)
    · intro j hj
      rw [mem_addNew, List.mem_map, List.mem_map] at hj
      rcases hj with ⟨m, _, rfl⟩ | ⟨m, _, rfl⟩ <;> exact m.loaded
  · intro m hm
    rw [out_get h hx (by decide), fold_without h2, base_modules, Option.map_some, file_arr]
    · refine ⟨_, rfl, ?_⟩
      rw [mem_addNew]; exact .inl (List.mem_map_of_mem hm)
    · intro j hj
      rw [mem_addNew, List.mem_map, List.mem_map] at hj
      rcases hj with ⟨m, _, rfl⟩ | ⟨m, _, rfl⟩ <;> exact m.loaded

example : Extra exExtra ∧ Without t!"messages" exExtra ∧ Without t!"modules" exExtra ∧
    (writeJson [exMessage] [⟨code t!"m", 3⟩] [] [exExtra] [] []).map (fun o =>
      ((J.obj o).file.get t!"messages", (J.obj o).file.get t!"modules")) =
      some (some (.arr [exMessage.toJson]), some (.arr [Module.toJson ⟨code t!"m", 3⟩])) := by
  refine ⟨by simp [Extra, exExtra, J.Loaded, LoadedO], ?_, ?_, by decide +kernel⟩ <;> unfold Without <;> decide +kernel

/-- An extra file with messages: those of the program are not in the catalog. -/
theorem C146_violated_messages :
    (writeJson [exMessage] [] [] [[(.str t!"messages", .arr [])]] [] []).map
      (fun o => (J.obj o).file.get t!"messages") = some (some (.arr [])) := by
  decide +kernel

/-! ## C147 -/

/-- The catalog is written, when the enumerations of the extra files are dictionaries of dictionaries. -/
theorem C147_written (ms : List Message) (ds : List Module) (enums : List (Text × List (Text × Int)))
    (xs : List (List (PyKey × J))) (om : List Message) (od : List Module) (hx : ∀ y ∈ xs, Extra y)
    (he : ∀ y ∈ xs, EnumsOk y) : ∃ out, writeJson ms ds enums xs om od = some out := by
  have key : ∃ old, dget (xs.foldl dupdate (base ms ds om od)) (.str t!"enums") = some (.obj old) ∧
      ∀ e ∈ old, ∃ vs, e.2 = J.obj vs := by
    rcases fold_cases t!"enums" xs with hw | ⟨pre, x, post, v, rfl, hv, hp⟩
    · exact ⟨[], by rw [fold_without hw]; rfl, fun e he => by cases he⟩
    · obtain ⟨es, rfl, h⟩ := he x (by simp) v hv
      exact ⟨es, fold_last (hx x (by simp)) hv hp _, h⟩
  obtain ⟨old, h1, h2⟩ := key
  obtain ⟨new, hn⟩ := addEnums_some (es := dupdate [] (enums.map fun e => (e.1, byValue e.2))) h2
  exact ⟨_, write_eq h1 hn⟩

/-- The decoder finds the value of each enumerator of the program, with the name of an enumerator of that
enumeration and that value, whatever the extra files have. -/
theorem C147_found (ms : List Message) (ds : List Module) (enums : List (Text × List (Text × Int)))
    (xs : List (List (PyKey × J))) (om : List Message) (od : List Module) (out : List (PyKey × J))
    (h : writeJson ms ds enums xs om od = some out) (hx : ∀ y ∈ xs, Extra y) (hn : (enums.map Prod.fst).Nodup)
    {e : Text} {vs : List (Text × Int)} (he : (e, vs) ∈ enums) {n : Text} {v : Int} (hv : (n, v) ∈ vs) :
    ∃ n', (n', v) ∈ vs ∧ enumName (J.obj out).file e (dec v) = some n' := by
  obtain ⟨old, new, h1, h2, h3⟩ := out_enums h hx
  have hold : Extra old := old_loaded hx h1
  have hnew := addEnums_fields h2 hold.fields
  have hes : dupdate [] (enums.map fun e => (e.1, byValue e.2)) = enums.map fun e => (e.1, byValue e.2) := by
    rw [dupdate_nodup, List.nil_append]
    rw [List.nil_append, List.map_map]
    exact hn
  have hin : (e, byValue vs) ∈ dupdate [] (enums.map fun e => (e.1, byValue e.2)) := by
    rw [hes]; exact List.mem_map.2 ⟨_, he, rfl⟩
  have key : ∃ old', Fields old' ∧ dget new (.str e) = some (.obj (dupdate old' (byValue vs))) := by
    rcases addEnums_self h2 (enum_keys enums) hin with ⟨_, hg⟩ | ⟨old', ho, hg⟩
    · refine ⟨[], ⟨by simp, fun e he => by cases he⟩, ?_⟩
      rw [hg, dupdate_nodup _ _ (by simpa using byValue_nodup vs), List.nil_append]
    · exact ⟨old', Extra.fields (Extra.mem hold (mem_of_dget ho)), hg⟩
  obtain ⟨old', ho', hg⟩ := key
  obtain ⟨y, hy, hyv, hget⟩ := get_value ho' hv
  refine ⟨y.1, ?_, ?_⟩
  · simp only at hyv
    rw [← hyv]; exact hy
  · rw [enumName, h3, Option.bind_some, file_get hnew, hg, Option.map_some, Option.bind_some, dec_eq, hget]
    simp only [Option.bind_some, J.str?, Option.map_some, code_back]

/-- Its own name, if no other has the value. -/
theorem C147_name (ms : List Message) (ds : List Module) (enums : List (Text × List (Text × Int)))
    (xs : List (List (PyKey × J))) (om : List Message) (od : List Module) (out : List (PyKey × J))
    (h : writeJson ms ds enums xs om od = some out) (hx : ∀ y ∈ xs, Extra y) (hn : (enums.map Prod.fst).Nodup)
    {e : Text} {vs : List (Text × Int)} (he : (e, vs) ∈ enums) {n : Text} {v : Int} (hv : (n, v) ∈ vs)
    (ho : ∀ n', (n', v) ∈ vs → n' = n) : enumName (J.obj out).file e (dec v) = some n := by
  obtain ⟨n', h1, h2⟩ := C147_found ms ds enums xs om od out h hx hn he hv
  rw [h2, ho n' h1]

/-- Negative values, an enumerator with the value of another, an extra file that knows the enumeration. -/
example : (writeJson [] [] [(t!"E", [(t!"a", -1), (t!"b", 5), (t!"c", 5)]), (t!"F", [(t!"x", 0)])] [exExtra] [] []).map
    (fun o => (enumName (J.obj o).file t!"E" t!"-1", enumName (J.obj o).file t!"E" t!"5",
      enumName (J.obj o).file t!"F" t!"0")) = some (some t!"a", some t!"c", some t!"x") := by
  decide +kernel

/-! ## C149 -/

/-- Reserved ids: the numbers that are kept free are those in one of the ranges that the user wrote, in decimal or
hexadecimal digits, with blanks or without. -/
theorem C149_read (rs : List Range) :
    ∃ is, intervals (rangesText rs) = some is ∧
      ∀ v, Catalog.contains is v = true ↔ ∃ r ∈ rs, r.lo.val ≤ v ∧ v ≤ r.top := by
  refine ⟨_, intervals_text rs, fun v => ?_⟩
  rw [Catalog.contains, List.any_map, List.any_eq_true]
  simp

/-- What the script prints for the ranges is read as the same ranges. -/
theorem C149_printed (is : List (Nat × Nat)) : intervals (intervalsText is) = some is := by
  rw [intervalsText_eq, intervals_text, List.map_map]
  congr 1
  conv => rhs; rw [← List.map_id is]
  apply List.map_congr_left
  intro x _
  obtain ⟨a, b⟩ := x
  simp only [Function.comp, rangeOf, Range.top, id]
  by_cases h : a = b
  · subst h; simp
  · simp [h]

/-- A text with another character is refused. Missing from the full statement: texts in which there are two
dashes between commas. -/
theorem C149_refused_partial (t : Text) (c : Char) (hc : c ∈ t) (h : ¬ RangeChar c)
    (hd : ∀ p ∈ Symbols.splitAt ',' t, p.count '-' ≤ 1) : intervals t = none := by
  cases hi : intervals t with
  | none => rfl
  | some r => exact absurd (intervals_char hi hd c hc) h

example : rangesText [⟨⟨0, false, 1, 0⟩, some ⟨0, true, 31, 0⟩⟩, ⟨⟨1, false, 40, 0⟩, none⟩] = t!"1-0x1f, 40" ∧
    intervals t!"1-0x1f, 40" = some [(1, 31), (40, 40)] ∧ intervals t!"1-x" = none ∧ intervals t!"1;3" = none := by
  decide +kernel

/-- `1-2-3` and `1-?-` are read as 1. -/
theorem C149_violated_dashes : intervals t!"1-2-3" = some [(1, 1)] ∧ intervals t!"1-?-" = some [(1, 1)] := by
  decide +kernel

/-! ## C151 -/

theorem lookup_none {ids : List (Text × Nat)} {args : List Arg} (hok : ∀ a ∈ args, a.Ok) (i : Nat)
    (r : Option (Nat × Nat)) (h : ∀ a ∈ args, dget ids a.name = none) :
    enumLookup ids i (args.map Arg.text) r = some r := by
  induction args generalizing i with
  | nil => rfl
  | cons a args ih =>
    obtain ⟨x, hx, hn⟩ := argType_name (hok a (List.mem_cons_self ..))
    rw [List.map_cons, enumLookup, hx, Option.bind_some, hn, h a (List.mem_cons_self ..)]
    exact ih (fun b hb => hok b (List.mem_cons_of_mem _ hb)) _ fun b hb => h b (List.mem_cons_of_mem _ hb)

theorem references_none {ids : Text → Option Nat} {l : List Text} (h : ∀ e ∈ l, ids e = none) (i : Nat) :
    references ids i l = [] := by
  induction l generalizing i with
  | nil => rfl
  | cons e l ih =>
    rw [references, h e (List.mem_cons_self ..), ih fun x hx => h x (List.mem_cons_of_mem _ hx)]
    rfl

theorem references_eq_nil {ids : Text → Option Nat} {l : List Text} {i : Nat} (h : references ids i l = []) :
    ∀ e ∈ l, ids e = none := by
  induction l generalizing i with
  | nil => intro e he; cases he
  | cons x l ih =>
    rw [references, List.append_eq_nil_iff] at h
    intro e he
    rcases List.mem_cons.1 he with rfl | he
    · cases hx : ids e with
      | none => rfl
      | some n => rw [hx] at h; simp at h
    · exact ih h.2 e he

/-- With at most one argument of a known enumeration, the XML file refers to what the program says: the position of
the argument and the number of the enumeration, or nothing. Missing from the full statement: two such arguments. -/
theorem C151_refers_partial (ids : List (Text × Nat)) (args : List Arg) (hok : ∀ a ∈ args, a.Ok)
    (h : (references (dget ids) 1 (args.map Arg.name)).length ≤ 1) :
    ∃ r, enumLookup ids 0 (args.map Arg.text) none = some r ∧ r.toList = references (dget ids) 1 (args.map Arg.name) := by
  have key : ∀ (i : Nat), (references (dget ids) (i + 1) (args.map Arg.name)).length ≤ 1 →
      ∃ r, enumLookup ids i (args.map Arg.text) none = some r ∧
        r.toList = references (dget ids) (i + 1) (args.map Arg.name) := by
    clear h
    induction args with
    | nil => intro i _; exact ⟨none, rfl, rfl⟩
    | cons a args ih =>
      intro i h
      obtain ⟨x, hx, hn⟩ := argType_name (hok a (List.mem_cons_self ..))
      rw [List.map_cons, enumLookup, hx, Option.bind_some, hn]
      rw [List.map_cons, references] at h ⊢
      cases hg : dget ids a.name with
      | none =>
        rw [hg] at h
        exact ih (fun b hb => hok b (List.mem_cons_of_mem _ hb)) (i + 1) (by simpa using h)
      | some n =>
        rw [hg] at h
        have hnil : references (dget ids) (i + 1 + 1) (args.map Arg.name) = [] := by
          simpa using h
        have hall := references_eq_nil hnil
        refine ⟨some (i + 1, n), ?_, ?_⟩
        · exact lookup_none (fun b hb => hok b (List.mem_cons_of_mem _ hb)) _ _ fun b hb =>
            hall b.name (List.mem_map_of_mem hb)
        · rw [hnil]; rfl
  exact key 0 h

/-- An enumeration in the second place. -/
example : (∀ a ∈ [Arg.plain true false t!"int", Arg.scoped t!"E" t!"int" 4], a.Ok) ∧
    references (dget [(t!"E", 6)]) 1 [t!"int", t!"E"] = [(2, 6)] ∧
    (enumLookup [(t!"E", 6)] 0 [Arg.text (.plain true false t!"int"), Arg.text (.scoped t!"E" t!"int" 4)] none).map
      enumLookupText = some (some t!"2:6") := by
  refine ⟨?_, by decide +kernel, by decide +kernel⟩
  intro a ha
  simp only [List.mem_cons, List.not_mem_nil, or_false] at ha
  rcases ha with rfl | rfl
  · trivial
  · show ',' ∉ t!"int"; decide

/-- Two enumerations: only the second is referred to. -/
theorem C151_violated_two :
    (enumLookup [(t!"E", 0), (t!"F", 1)] 0 [Arg.text (.scoped t!"E" t!"int" 4), Arg.text (.scoped t!"F" t!"int" 4)]
      none).map enumLookupText = some (some t!"2:1") ∧
    references (dget [(t!"E", 0), (t!"F", 1)]) 1 [t!"E", t!"F"] = [(1, 0), (2, 1)] := by
  decide +kernel

/-! ## C152 -/

theorem scopedEnums_eq {args : List Arg} (hok : ∀ a ∈ args, a.Ok) (d : List (Text × Text)) :
    scopedEnums (args.map Arg.text) d = some (dupdate d (args.filterMap Arg.enum?)) := by
  induction args generalizing d with
  | nil => rfl
  | cons a args ih =>
    have hrest := fun b hb => hok b (List.mem_cons_of_mem _ hb)
    cases a with
    | «scoped» e ut n =>
      rw [List.map_cons, scopedEnums, argType_scoped (hok _ (List.mem_cons_self ..)) n, Option.bind_some, if_pos rfl,
        ih hrest]
      rfl
    | plain s l e =>
      obtain ⟨t, ht, hx⟩ := argType_plain s l e
      rw [List.map_cons, scopedEnums, hx, Option.bind_some, if_neg ht, ih hrest]
      rfl

/-- The generated C++ declares the scoped enumerations of the arguments, each once and with its underlying type,
if they are members of named namespaces. Missing from the full statement: members of classes. -/
theorem C152_declared_partial (args : List Arg) (hok : ∀ a ∈ args, a.Ok)
    (hq : ∀ a ∈ args.filterMap Arg.enum?, ∃ ns e, (∀ n ∈ ns, Ident n) ∧ Ident e ∧ a.1 = qualified ns e)
    (hu : ∀ a ∈ args.filterMap Arg.enum?, ∀ b ∈ args.filterMap Arg.enum?, a.1 = b.1 → a.2 = b.2) :
    ∃ names : List (List Text × Text × Text),
      enumDecls (args.map Arg.text) = some (names.map fun x => declText x.1 x.2.1 x.2.2) ∧
      (names.map fun x => qualified x.1 x.2.1).Nodup ∧
      ∀ q ut, (q, ut) ∈ args.filterMap Arg.enum? ↔ ∃ ns e, (ns, e, ut) ∈ names ∧ q = qualified ns e := by
  generalize hl : args.filterMap Arg.enum? = l at hq hu
  have hd : enumDecls (args.map Arg.text) = (dupdate [] l).mapM fun e => enumDecl e.1 e.2 := by
    rw [enumDecls, scopedEnums_eq hok, hl, Option.bind_some]
  have hnd : ((dupdate [] l).map Prod.fst).Nodup := nodup_dupdate (by simp) _
  have hmem : ∀ a, a ∈ dupdate [] l ↔ a ∈ l := by
    intro a
    constructor
    · intro h
      rcases mem_dupdate h with h | h
      · cases h
      · exact h
    · intro h
      obtain ⟨v, hv, hg⟩ := dget_dupdate_some [] (es := l) (k := a.1) ⟨a, h, rfl⟩
      have := hu (a.1, v) hv a h rfl
      simp only at this
      have h2 := mem_of_dget hg
      rw [this] at h2
      exact h2
  have hq' : ∀ a ∈ dupdate [] l, ∃ ns e, (∀ n ∈ ns, Ident n) ∧ Ident e ∧ a.1 = qualified ns e :=
    fun a ha => hq a ((hmem a).1 ha)
  rw [hd]
  generalize dupdate [] l = m at hnd hmem hq'
  have main : ∃ names : List (List Text × Text × Text),
      (m.mapM fun e => enumDecl e.1 e.2) = some (names.map fun x => declText x.1 x.2.1 x.2.2) ∧
      m = names.map fun x => (qualified x.1 x.2.1, x.2.2) := by
    clear hd hnd hmem hl
    induction m with
    | nil => exact ⟨[], rfl, rfl⟩
    | cons a m ih =>
      obtain ⟨names, h1, h2⟩ := ih fun b hb => hq' b (List.mem_cons_of_mem _ hb)
      obtain ⟨ns, e, hns, he, ha⟩ := hq' a (List.mem_cons_self ..)
      refine ⟨(ns, e, a.2) :: names, ?_, ?_⟩
      · rw [List.mapM_cons, ha, enumDecl_qualified hns he, h1]
        rfl
      · rw [List.map_cons, ← h2]
        simp only
        rw [← ha]
  obtain ⟨names, h1, h2⟩ := main
  refine ⟨names, h1, ?_, ?_⟩
  · rw [h2, List.map_map] at hnd
    exact hnd
  · intro q ut
    rw [← hmem, h2, List.mem_map]
    constructor
    · rintro ⟨⟨ns, e, u⟩, hx, hxe⟩
      simp only [Prod.mk.injEq] at hxe
      obtain ⟨rfl, rfl⟩ := hxe
      exact ⟨ns, e, hx, rfl⟩
    · rintro ⟨ns, e, hx, rfl⟩
      exact ⟨_, hx, rfl⟩

/-- An enumeration in an unnamed namespace is refused. -/
theorem C152_unnamed (ns : List Text) (e ut : Text) (h : ∀ n ∈ ns, ':' ∉ n) (he : ':' ∉ e)
    (ha : t!"(anonymous namespace)" ∈ ns ∨ t!"{anonymous}" ∈ ns) : enumDecl (qualified ns e) ut = none := by
  rw [enumDecl, splitColons_qualified h he]
  rw [if_pos]
  exact ha.imp (List.mem_append_left _) (List.mem_append_left _)

example : enumDecls [Arg.text (.scoped t!"a::b::E" t!"int" 4), Arg.text (.plain true false t!"int"),
      Arg.text (.scoped t!"F" t!"unsigned char" 1), Arg.text (.scoped t!"a::b::E" t!"int" 4)] =
    some [t!"namespace a::b { enum struct E : int; }", t!"enum struct F : unsigned char;"] ∧
    declText [t!"a", t!"b"] t!"E" t!"int" = t!"namespace a::b { enum struct E : int; }" ∧
    enumDecl t!"a::(anonymous namespace)::E" t!"int" = none := by
  decide +kernel

/-- The enumeration `E` of a class `C`: `C` is said to be a namespace. The name does not tell. -/
theorem C152_violated_member :
    enumDecls [Arg.text (.scoped t!"C::E" t!"int" 4)] = some [t!"namespace C { enum struct E : int; }"] := by
  decide +kernel

end Verif.Json
