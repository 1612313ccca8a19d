import Verif.Render.PyLemmas
import Verif.Render.CtLemmas
import Verif.Render.TypeLemmas
/-! # Properties of the texts in the collateral and in decoded logs -/
namespace Verif.Render
open Verif.Symbols (Text natText isDigit)
open Verif.Log (Prim)

/-! ## C139: format strings of the XML file -/

/-- Which conversion stands where: with `k` fields `{:…}` in the format string, these get `%…`, and the
`j`-th `{}` gets the conversion of the argument `k + j`, whichever arguments the fields belong to. -/
theorem C139_formats (ps : List Piece) (as : List (Prim × Int)) (h : ∀ p ∈ ps, p.Ok)
    (hn : as.length = ps.countP isSpec + ps.countP isPlain) :
    xmlFormat (fmtText ps) (as.map fun a => argText a.1) =
      some (xmlText ps ((as.drop (ps.countP isSpec)).map fun a => printfOf a.1)) := by
  refine xml_pieces h (by simpa using hn) ?_ ?_
  · rw [← List.map_drop]
    generalize as.drop (ps.countP isSpec) = bs
    induction bs with
    | nil => rfl
    | cons b bs ih =>
      rw [List.map_cons, List.mapM_cons, argPrintf_eq, ih]
      rfl
  · intro s hs
    obtain ⟨a, _, rfl⟩ := List.mem_map.1 hs
    exact printfOf_brace _

example :
    xmlFormat t!"a {} b {:x} c {}" [argText .int, argText .uint, argText .llong] = some t!"a %u b %x c %lld" :=
  C139_formats [.lit t!"a ", .plain, .lit t!" b ", .spec false 0 'x', .lit t!" c ", .plain]
    [(.int, 0), (.uint, 0), (.llong, 0)] (by
      intro p hp
      simp only [List.mem_cons, List.not_mem_nil, or_false] at hp
      rcases hp with rfl | rfl | rfl | rfl | rfl | rfl <;> simp [Piece.Ok]) rfl

theorem fieldsOk_pieces {L : Nat} {ps : List Piece} {as : List (Prim × Int)} (h : FieldsOk L ps as) :
    (∀ p ∈ ps, p.Ok) ∧ as.length = ps.countP isSpec + ps.countP isPlain := by
  induction ps generalizing as with
  | nil => cases h; simp
  | cons p ps ih =>
    cases p with
    | lit s =>
      obtain ⟨h1, h2⟩ := ih h.2
      refine ⟨?_, by simpa [List.countP_cons, isSpec, isPlain] using h2⟩
      intro q hq
      rcases List.mem_cons.1 hq with rfl | hq
      · exact ⟨h.1.1, h.1.2.1⟩
      · exact h1 q hq
    | plain =>
      cases as with
      | nil => exact absurd h id
      | cons a as =>
        obtain ⟨h1, h2⟩ := ih h.2.2
        refine ⟨?_, by simp [List.countP_cons, isSpec, isPlain]; omega⟩
        intro q hq
        rcases List.mem_cons.1 hq with rfl | hq
        · trivial
        · exact h1 q hq
    | spec z w c =>
      cases as with
      | nil => exact absurd h id
      | cons a as =>
        obtain ⟨h1, h2⟩ := ih h.2.2.2
        refine ⟨?_, by simp [List.countP_cons, isSpec, isPlain]; omega⟩
        intro q hq
        rcases List.mem_cons.1 hq with rfl | hq
        · exact h.2.1
        · exact h1 q hq

theorem printf_text {L : Nat} {ps : List Piece} {as : List (Prim × Int)} (h : FieldsOk L ps as) :
    printf L none (xmlText ps ((plainTypes ps as).map printfOf)) (as.map fun a => word a.1 a.2) = fmtOut ps as := by
  induction ps generalizing as with
  | nil => cases h; rfl
  | cons p ps ih =>
    cases p with
    | lit s => rw [plainTypes, xmlText, printf_lit h.1.2.2, ih h.2, fmtOut]
    | plain =>
      cases as with
      | nil => exact absurd h id
      | cons a as =>
        rw [plainTypes, List.map_cons, List.map_cons, xmlText, printf_plain h.1 h.2.1, ih h.2.2, fmtOut]
    | spec z w c =>
      cases as with
      | nil => exact absurd h id
      | cons a as =>
        rw [plainTypes, List.map_cons, xmlText, printf_spec h.1 h.2.1 h.2.2.1, ih h.2.2.2, fmtOut]

theorem fmtOut_some {L : Nat} {ps : List Piece} {as : List (Prim × Int)} (h : FieldsOk L ps as) : (fmtOut ps as).isSome := by
  induction ps generalizing as with
  | nil => cases h; rfl
  | cons p ps ih =>
    cases p with
    | lit s => rw [fmtOut, Option.isSome_map]; exact ih h.2
    | plain =>
      cases as with
      | nil => exact absurd h id
      | cons a as =>
        obtain ⟨x, hx⟩ := Option.isSome_iff_exists.1 (ih h.2.2)
        have : (fmtPlain a.1 a.2).isSome := by
          obtain ⟨p, v⟩ := a
          have := h.2.1
          cases p <;> simp_all [fmtPlain]
        obtain ⟨y, hy⟩ := Option.isSome_iff_exists.1 this
        rw [fmtOut, hy, hx]; rfl
    | spec z w c =>
      cases as with
      | nil => exact absurd h id
      | cons a as =>
        obtain ⟨x, hx⟩ := Option.isSome_iff_exists.1 (ih h.2.2.2)
        have : ¬ (a.1 = .float ∨ a.1 = .double) := by
          rintro (e | e)
          · exact h.1.2 e
          · have := h.1.1; rw [e] at this; exact absurd this (by decide)
        rw [fmtOut, hx, fmtSpec, if_neg this]; rfl

/-- Partial: a SyS-T decoder prints with the format string of the XML file what the program's format string
says — when each `{}` gets the conversion of its own argument (`horder`), and for the texts, types and values
of `FieldsOk`. Missing: format strings with `{}` before `{:…}` and other types (`C139_violated_order`), with
`%` (`C139_violated_percent`) or braces (`C139_violated_braces`) in the text, truth values
(`C139_violated_bool`), `{:…}` with 64 bits (`C139_violated_long`) or negative numbers in hexadecimal
(`C139_violated_negative`). -/
theorem C139_shown_partial (L : Nat) (ps : List Piece) (as : List (Prim × Int)) (h : FieldsOk L ps as)
    (horder : plainTypes ps as = (as.drop (ps.countP isSpec)).map (·.1)) :
    ∃ x out, xmlFormat (fmtText ps) (as.map fun a => argText a.1) = some x ∧
      fmtOut ps as = some out ∧ printf L none x (as.map fun a => word a.1 a.2) = some out := by
  obtain ⟨h1, h2⟩ := fieldsOk_pieces h
  obtain ⟨out, ho⟩ := Option.isSome_iff_exists.1 (fmtOut_some h)
  refine ⟨_, out, C139_formats ps as h1 h2, ho, ?_⟩
  have := printf_text h
  rw [horder, List.map_map] at this
  rw [← ho, ← this]
  rfl

theorem plainTypes_all {ps : List Piece} {as : List (Prim × Int)} (hs : ps.countP isSpec = 0)
    (hn : as.length = ps.countP isPlain) : plainTypes ps as = as.map (·.1) := by
  induction ps generalizing as with
  | nil => cases as with
    | nil => rfl
    | cons a as => cases hn
  | cons p ps ih =>
    cases p with
    | lit s =>
      rw [plainTypes]
      exact ih (by simpa [List.countP_cons, isSpec] using hs) (by simpa [List.countP_cons, isPlain] using hn)
    | plain =>
      cases as with
      | nil => simp [List.countP_cons, isPlain] at hn
      | cons a as =>
        rw [plainTypes, List.map_cons]
        rw [ih (by simpa [List.countP_cons, isSpec] using hs) (by simpa [List.countP_cons, isPlain] using hn)]
    | spec z w c => simp [List.countP_cons, isSpec] at hs

/-- The order that is right: all fields `{:…}` before all fields `{}`. -/
theorem C139_order (qs ps : List Piece) (as : List (Prim × Int)) (hq : qs.countP isPlain = 0)
    (hp : ps.countP isSpec = 0) (hn : as.length = qs.countP isSpec + ps.countP isPlain) :
    plainTypes (qs ++ ps) as = (as.drop ((qs ++ ps).countP isSpec)).map (·.1) := by
  rw [List.countP_append, hp, Nat.add_zero]
  induction qs generalizing as with
  | nil => exact plainTypes_all hp (by simpa using hn)
  | cons q qs ih =>
    cases q with
    | lit s =>
      rw [List.cons_append, plainTypes]
      have := ih as (by simpa [List.countP_cons, isPlain] using hq) (by simpa [List.countP_cons, isSpec] using hn)
      simpa [List.countP_cons, isSpec] using this
    | plain => simp [List.countP_cons, isPlain] at hq
    | spec z w c =>
      cases as with
      | nil => simp [List.countP_cons, isSpec] at hn; omega
      | cons a as =>
        rw [List.cons_append, plainTypes]
        have := ih as (by simpa [List.countP_cons, isPlain] using hq)
          (by simp [List.countP_cons, isSpec] at hn; omega)
        rw [this]
        simp [List.countP_cons, isSpec]

/-- `"x={:04x} n={} c={}"` with 255, -7 and 'A'. -/
example :
    let ps := [.lit t!"x=", .spec true 4 'x', .lit t!" n=", .plain, .lit t!" c=", .plain]
    let as : List (Prim × Int) := [(.ushort, 255), (.long 8, -7), (.char true, 65)]
    FieldsOk 8 ps as ∧ plainTypes ps as = (as.drop (ps.countP isSpec)).map (·.1) ∧
      fmtOut ps as = some t!"x=00ff n=-7 c=A" := by
  refine ⟨?_, rfl, by decide⟩
  simp [FieldsOk, Fits, Log.InType, Log.CType.under, Prim.size, Prim.signed]

/-- What a SyS-T decoder shows. -/
def xmlShown (L : Nat) (ps : List Piece) (as : List (Prim × Int)) : Option Text :=
  (xmlFormat (fmtText ps) (as.map fun a => argText a.1)).bind fun x => printf L none x (as.map fun a => word a.1 a.2)

/-- `"{} {:x}"` with -1 and 255u: the `{}` gets `%u`. -/
theorem C139_violated_order :
    let ps := [.plain, .lit t!" ", .spec false 0 'x']
    let as : List (Prim × Int) := [(.int, -1), (.uint, 255)]
    fmtOut ps as = some t!"-1 ff" ∧ xmlShown 8 ps as = some t!"4294967295 ff" := by
  decide +kernel

/-- `"50% of {}"`: `% ` is no conversion. -/
theorem C139_violated_percent :
    let ps := [.lit t!"50% of ", .plain]
    let as : List (Prim × Int) := [(.int, 3)]
    fmtOut ps as = some t!"50% of 3" ∧ xmlShown 8 ps as = none := by
  decide +kernel

/-- `"100%d {}"`: text takes an argument. -/
theorem C139_violated_percent_text :
    let ps := [.lit t!"100%d ", .plain]
    let as : List (Prim × Int) := [(.int, 3)]
    fmtOut ps as = some t!"100%d 3" ∧ xmlShown 8 ps as = none := by
  decide +kernel

/-- `"{{{}}}"`: braces stay doubled. -/
theorem C139_violated_braces :
    let ps := [.lit t!"{", .plain, .lit t!"}"]
    let as : List (Prim × Int) := [(.int, 3)]
    fmtOut ps as = some t!"{3}" ∧ xmlShown 8 ps as = some t!"{{3}}" := by
  decide +kernel

/-- `"{:x}"` with an `unsigned long long`: `%x` reads 4 of 8 bytes. -/
theorem C139_violated_long :
    let as : List (Prim × Int) := [(.ullong, 255)]
    fmtOut [.spec false 0 'x'] as = some t!"ff" ∧
      xmlFormat (fmtText [.spec false 0 'x']) [argText .ullong] = some t!"%x" ∧ xmlShown 8 [.spec false 0 'x'] as = none := by
  decide +kernel

/-- `"{:x}"` with -1. -/
theorem C139_violated_negative :
    fmtOut [.spec false 0 'x'] [(.int, -1)] = some t!"-1" ∧ xmlShown 8 [.spec false 0 'x'] [(.int, -1)] = some t!"ffffffff" := by
  decide +kernel

/-- `"{}"` with `true`. -/
theorem C139_violated_bool :
    fmtOut [.plain] [(.bool, 1)] = some t!"true" ∧ xmlShown 8 [.plain] [(.bool, 1)] = some t!"1" := by
  decide +kernel

/-! ## C140: lines of a decoded log -/

theorem toPy_int {db : Enums} {names : Nat → Text} {p : Prim} {v : Int} (h : Integer p) :
    toPy db names (Log.shown (.prim p) v) = .int v ∧ fmtPlain p v = some (Symbols.intText v) := by
  obtain ⟨h1, h2, h3, h4⟩ := h
  cases p with
  | char s => exact absurd rfl (h1 s)
  | bool => exact absurd rfl h2
  | float => exact absurd rfl h3
  | double => exact absurd rfl h4
  | _ => exact ⟨rfl, rfl⟩

/-- The names that the JSON file has. -/
abbrev nameIn (db : Enums) (names : Nat → Text) (e : Nat) (v : Int) : Option Text := db (names e) (Symbols.dec v)

theorem enum_field {db : Enums} {names : Nat → Text} {e : Nat} {v : Int} :
    pyField (toPy db names (.enum e (.int v))) [] = some ((nameIn db names e v).getD
      (t!"static_cast<" ++ names e ++ t!">(" ++ Symbols.dec v ++ t!")")) := by
  rw [toPy, pyField, pyStr, enumLookup, ← Symbols.dec_eq]
  rfl

theorem py_text {db : Enums} {names : Nat → Text} {ps : List Piece} {as : List (Log.CType × Int)} (h : PyOk ps as) :
    pyFormat .out (fmtText ps) (as.map fun a => toPy db names (Log.shown a.1 a.2)) =
        lineOut (nameIn db names) names ps as ∧
      (lineOut (nameIn db names) names ps as).isSome := by
  induction ps generalizing as with
  | nil => cases h; exact ⟨rfl, rfl⟩
  | cons p ps ih =>
    rw [show fmtText (p :: ps) = p.text ++ fmtText ps from List.flatMap_cons ..]
    cases p with
    | lit s =>
      obtain ⟨h1, h2⟩ := ih h
      rw [py_lit, h1, lineOut]
      exact ⟨rfl, by rw [Option.isSome_map]; exact h2⟩
    | plain =>
      cases as with
      | nil => exact absurd h id
      | cons a as =>
        obtain ⟨h1, h2⟩ := ih h.2
        obtain ⟨t, v⟩ := a
        rw [List.map_cons, Piece.text, py_plain, h1]
        cases t with
        | prim p =>
          obtain ⟨h3, h4⟩ := toPy_int (db := db) (names := names) (v := v) (h.1 p rfl)
          rw [h3, pyField_plain, lineOut, h4]
          refine ⟨rfl, ?_⟩
          rw [Option.bind_some, Option.isSome_map]; exact h2
        | enumClass e p =>
          rw [Log.shown, enum_field, lineOut]
          exact ⟨rfl, by rw [Option.isSome_map]; exact h2⟩
        | enumPlain e p =>
          rw [Log.shown, enum_field, lineOut]
          exact ⟨rfl, by rw [Option.isSome_map]; exact h2⟩
    | spec z w c =>
      cases as with
      | nil => exact absurd h id
      | cons a as =>
        obtain ⟨h1, h2⟩ := ih h.2.2
        obtain ⟨t, v⟩ := a
        obtain ⟨⟨p, hp, hi⟩, hc, _⟩ := h
        simp only at hp
        subst hp
        obtain ⟨h3, _⟩ := toPy_int (db := db) (names := names) (v := v) hi
        have hr := raw_ok (p := .spec z w c) hc
        have h5 : fmtSpec p v z w c = some (padded (v < 0) (digitsOf c v.natAbs) z w) := by
          rw [fmtSpec, if_neg (by simp [hi.2.2.1, hi.2.2.2])]
        rw [List.map_cons, show Piece.text (.spec z w c) =
          t!"{:" ++ ((if z then t!"0" else []) ++ widthText w ++ [c]) ++ t!"}" from by simp [Piece.text],
          py_spec hr.2.2 hr.2.1, h3, pyField_spec hc, h1, lineOut, h5]
        refine ⟨rfl, ?_⟩
        rw [Option.bind_some, Option.isSome_map]; exact h2

theorem fmtText_paren {ps : List Piece} {as : List (Log.CType × Int)} (h : PyOk ps as) (hl : ∀ s, .lit s ∈ ps → '(' ∉ s) :
    '(' ∉ fmtText ps := by
  induction ps generalizing as with
  | nil => simp [fmtText]
  | cons p ps ih =>
    rw [show fmtText (p :: ps) = p.text ++ fmtText ps from List.flatMap_cons ..]
    rw [List.mem_append, not_or]
    have hl' : ∀ s, .lit s ∈ ps → '(' ∉ s := fun s hs => hl s (List.mem_cons_of_mem _ hs)
    cases p with
    | lit s =>
      refine ⟨?_, ih h hl'⟩
      rw [Piece.text, List.mem_flatMap]
      rintro ⟨c, hc, hm⟩
      have : c ≠ '(' := fun e => hl s (List.mem_cons_self ..) (e ▸ hc)
      split at hm <;> simp at hm
      · exact this hm.symm
      · exact this hm.symm
    | plain =>
      cases as with
      | nil => exact absurd h id
      | cons a as => exact ⟨by decide, ih h.2 hl'⟩
    | spec z w c =>
      cases as with
      | nil => exact absurd h id
      | cons a as =>
        refine ⟨?_, ih h.2.2 hl'⟩
        have hw : '(' ∉ widthText w := fun m => by have := widthText_digit m; revert this; decide
        have hc : '(' ≠ c := by rcases h.2.1 with e | e | e <;> rw [e] <;> decide
        cases z <;> simp [Piece.text, hw, hc]

theorem severity_eq : ∀ n < 8, severity n = levelName n := by decide

/-- Partial: the line that the Python decoder prints for a record is the severity, the module and what the
program's format string says, for integers (with any text, widths, hexadecimal, all sizes) and for enumerators,
which are shown by the names in the JSON file. What the record holds is what was logged (C45). Missing: characters
(`C140_violated_char`), truth values (`C140_violated_bool`), text with parentheses, in which enumerators are looked
for (C141); floating point numbers are left out. -/
theorem C140_line_partial (db : Enums) (names : Nat → Text) (sev : Nat) (hsev : sev < 8) (module : Text) (ps : List Piece)
    (as : List (Log.CType × Int)) (h : PyOk ps as) (hl : ∀ s, .lit s ∈ ps → '(' ∉ s) :
    ∃ out, lineOut (nameIn db names) names ps as = some out ∧
      catalogLine db names 1 sev module (fmtText ps) (as.map fun a => Log.shown a.1 a.2) =
        some (levelName sev ++ t!" [" ++ module ++ t!"] " ++ out) := by
  obtain ⟨h1, h2⟩ := py_text (db := db) (names := names) h
  obtain ⟨out, ho⟩ := Option.isSome_iff_exists.1 h2
  refine ⟨out, ho, ?_⟩
  have hs : searchCt (fmtText ps) = none := by
    have := search_skip (t := []) (fmtText_paren h hl)
    rw [List.append_nil] at this
    rw [this]; rfl
  rw [catalogLine, convertCt, hs, List.map_map, ← severity_eq sev hsev]
  simp only [Option.bind_some]
  rw [show List.map (toPy db names ∘ fun a => Log.shown a.1 a.2) as =
    as.map fun a => toPy db names (Log.shown a.1 a.2) from rfl, h1, ho]
  rfl

/-- `"{{{:08X}}} {} 100% {} {}"`: braces, hexadecimal with a width, 64 bits, negative numbers, an enumerator in the
JSON file and one that is not. -/
example :
    let ps := [.lit t!"{", .spec true 8 'X', .lit t!"} ", .plain, .lit t!" 100% ", .plain, .lit t!" ", .plain]
    let as : List (Log.CType × Int) :=
      [(.prim .ullong, 48879), (.prim .int, -12), (.enumClass 0 .schar, -1), (.enumPlain 0 .int, 3)]
    let db : Enums := fun e v => if e = t!"E" ∧ v = t!"-1" then some t!"NONE" else none
    PyOk ps as ∧ (∀ s, .lit s ∈ ps → '(' ∉ s) ∧
      lineOut (fun _ v => if v = -1 then some t!"NONE" else none) (fun _ => t!"E") ps as =
        some t!"{0000BEEF} -12 100% NONE static_cast<E>(3)" ∧
      catalogLine db (fun _ => t!"E") 1 4 t!"m" (fmtText ps) (as.map fun a => Log.shown a.1 a.2) =
        some t!"INFO [m] {0000BEEF} -12 100% NONE static_cast<E>(3)" := by
  refine ⟨?_, ?_, by decide +kernel, by decide +kernel⟩
  · simp [PyOk, Integer]
  · intro s hs
    simp only [List.mem_cons, List.not_mem_nil, or_false, Piece.lit.injEq, reduceCtorEq, false_or] at hs
    rcases hs with rfl | rfl | rfl | rfl <;> decide

/-- A character is shown as Python writes bytes. -/
theorem C140_violated_char :
    fmtOut [.plain] [(.char true, 97)] = some t!"a" ∧
      catalogLine (fun _ _ => none) (fun _ => []) 1 4 t!"default" t!"{}" [Log.shown (.prim (.char true)) 97] =
        some t!"INFO [default] b'a'" := by
  decide +kernel

/-- `true` is shown as -1 (the value that the decoder takes from the record, C45, is -1). -/
theorem C140_violated_bool :
    fmtOut [.plain] [(.bool, 1)] = some t!"true" ∧ Log.convert .bool [1, 0, 0, 0] = some (.int (-1)) ∧
      catalogLine (fun _ _ => none) (fun _ => []) 1 4 t!"default" t!"{}" [.val (.int (-1))] =
        some t!"INFO [default] -1" := by
  decide +kernel

/-- Both truth values are shown as numbers, at all levels and in all modules: what the target means by `false` is shown
as 0, what it means by `true` as -1. -/
theorem C140_bool_exact (db : Enums) (names : Nat → Text) (sev : Nat) (hsev : sev < 8) (module : Text) (b : Bool) :
    fmtOut [.plain] [(.bool, if b then 1 else 0)] = some (if b then t!"true" else t!"false") ∧
      ∃ d, Log.convert .bool [if b then 1 else 0, 0, 0, 0] = some d ∧
        catalogLine db names 1 sev module t!"{}" [.val d] =
          some (levelName sev ++ t!" [" ++ module ++ t!"] " ++ if b then t!"-1" else t!"0") := by
  refine ⟨by cases b <;> decide +kernel, ?_⟩
  have hs : searchCt t!"{}" = none := by decide +kernel
  cases b
  · refine ⟨.int 0, by decide +kernel, ?_⟩
    rw [catalogLine, convertCt, hs, ← severity_eq sev hsev]
    have : pyFormat .out t!"{}" [toPy db names (.val (.int 0))] = some t!"0" := by
      show pyFormat .out t!"{}" [.int 0] = _
      decide +kernel
    simp only [Option.bind_some, List.map_cons, List.map_nil, this, Option.map_some]
    rfl
  · refine ⟨.int (-1), by decide +kernel, ?_⟩
    rw [catalogLine, convertCt, hs, ← severity_eq sev hsev]
    have : pyFormat .out t!"{}" [toPy db names (.val (.int (-1)))] = some t!"-1" := by
      show pyFormat .out t!"{}" [.int (-1)] = _
      decide +kernel
    simp only [Option.bind_some, List.map_cons, List.map_nil, this, Option.map_some]
    rfl

/-! ## C141: enumerators in texts -/

/-- All enumerators in a text get the name of the first. -/
theorem C141_first (db : Enums) (hdb : Names db) (ps : List CtPiece) (h : CtOk ps) (x : Text × Nat)
    (hx : firstCt ps = some x) (n : Nat) (hn : 2 ≤ n) :
    convertCt db n (ctText ps) = some (ctShown (fun _ _ => enumLookup db x.1 (natText x.2)) ps) := by
  rw [convert_pieces hdb h.word hn, hx]

theorem shown_same {f : Text → Nat → Text} {r : Text} {ps : List CtPiece} (h : ∀ e v, .ct e v ∈ ps → f e v = r) :
    ctShown (fun _ _ => r) ps = ctShown f ps := by
  induction ps with
  | nil => rfl
  | cons p ps ih =>
    have ih := ih fun e v m => h e v (List.mem_cons_of_mem _ m)
    cases p with
    | lit s => rw [ctShown_lit, ctShown_lit, ih]
    | ct e v => rw [ctShown_ct, ctShown_ct, ih, h e v (List.mem_cons_self ..)]

/-- Partial: an enumerator that the compiler has written into a text as `(E)v` is shown by its name, or as
`static_cast<E>(v)` when it is not in the JSON file — when all enumerators in the text are the same. Missing:
different ones (`C141_violated_two`), text that looks like an enumerator (`C141_violated_call`). -/
theorem C141_names_partial (db : Enums) (hdb : Names db) (ps : List CtPiece) (h : CtOk ps)
    (hsame : ∀ e v e' v', .ct e v ∈ ps → .ct e' v' ∈ ps → e = e' ∧ v = v') (n : Nat) (hn : 2 ≤ n) :
    convertCt db n (ctText ps) = some (ctShown (fun e v => enumLookup db e (natText v)) ps) := by
  rw [convert_pieces hdb h.word hn]
  have hmem : ∀ (qs : List CtPiece) x, firstCt qs = some x → .ct x.1 x.2 ∈ qs := by
    intro qs x
    induction qs with
    | nil => intro h; cases h
    | cons q qs ih =>
      cases q with
      | lit s => intro h; exact List.mem_cons_of_mem _ (ih h)
      | ct e v => intro h; cases h; exact List.mem_cons_self ..
  cases hf : firstCt ps with
  | none =>
    have hnone : ∀ (qs : List CtPiece), firstCt qs = none → ctText qs = ctShown (fun e v => enumLookup db e (natText v)) qs := by
      intro qs
      induction qs with
      | nil => intro _; rfl
      | cons q qs ih =>
        cases q with
        | lit s => intro h; rw [ctText_lit, ctShown_lit, ih h]
        | ct e v => intro h; cases h
    simp only
    rw [hnone ps hf]
  | some x =>
    simp only
    rw [shown_same (f := fun e v => enumLookup db e (natText v))]
    intro e v hm
    obtain ⟨rfl, rfl⟩ := hsame _ _ _ _ (hmem ps x hf) hm
    rfl

def sampleDb : Enums := fun e v =>
  if e = t!"E" ∧ v = t!"0" then some t!"RED" else if e = t!"E" ∧ v = t!"1" then some t!"BLUE" else none

theorem sampleDb_names : Names sampleDb := by
  intro e v n h
  rw [sampleDb] at h
  split at h
  · cases h; exact ⟨by decide, by intro c r e; cases e; rfl, by decide, by decide⟩
  · split at h
    · cases h; exact ⟨by decide, by intro c r e; cases e; rfl, by decide, by decide⟩
    · cases h

example : convertCt sampleDb 2 t!"is (E)1, not x" = some t!"is BLUE, not x" :=
  C141_names_partial sampleDb sampleDb_names [.lit t!"is ", .ct t!"E" 1, .lit t!", not x"]
    ⟨by decide, by decide, by decide, by intro c r e; cases e; decide, by decide, trivial⟩ (by
      intro e v e' v' h1 h2
      simp at h1 h2
      exact ⟨h1.1.trans h2.1.symm, h1.2.trans h2.2.symm⟩) 2 (Nat.le_refl _)

example : Names sampleDb ∧ CtOk [.lit t!"from ", .ct t!"E" 1, .lit t!" to ", .ct t!"E" 0] :=
  ⟨sampleDb_names, by decide, by decide, by decide, by intro c r e; cases e; decide, by decide, by decide, by decide,
    (fun c r e => by cases e), trivial⟩

/-- `"from (E)1 to (E)0"` becomes `"from BLUE to BLUE"`. -/
theorem C141_violated_two :
    convertCt sampleDb 2 t!"from (E)1 to (E)0" = some t!"from BLUE to BLUE" := by
  decide +kernel

/-- Text with a number behind parentheses is rewritten: `"f(x)2"` becomes `"fstatic_cast<x>(2)"`. -/
theorem C141_violated_call : convertCt sampleDb 2 t!"f(x)2" = some t!"fstatic_cast<x>(2)" := by
  decide +kernel

/-- The loop ends, whatever the text, and the result has nothing left to convert: converting it again (as
happens with the next record of the same message) leaves it as it is. -/
theorem C141_ends (db : Enums) (hdb : Names db) (t : Text) :
    ∃ x, (∀ n, t.length < n → convertCt db n t = some x) ∧ ∀ n, 0 < n → convertCt db n x = some x := by
  have key : ∀ n m t x, convertCt db n t = some x → n ≤ m → convertCt db m t = some x := by
    intro n
    induction n with
    | zero => intro m t x h; cases h
    | succ n ih =>
      intro m t x h hm
      obtain ⟨m, rfl⟩ : ∃ k, m = k + 1 := ⟨m - 1, by omega⟩
      rw [convertCt] at h ⊢
      split at h
      · exact h
      · exact ih _ _ _ h (by omega)
  obtain ⟨x, h1, h2⟩ := convert_ends hdb (closers t + 1) t (Nat.lt_succ_self _)
  refine ⟨x, fun n hn => key _ _ _ _ h1 (by have := closers_le t; omega), ?_⟩
  intro n hn
  obtain ⟨n, rfl⟩ : ∃ k, n = k + 1 := ⟨n - 1, by omega⟩
  rw [convertCt, h2]

/-- Two rounds: the name of an enumerator in parentheses, with a number behind it. -/
example : convertCt sampleDb 9 t!"((E)1)5" = some t!"static_cast<BLUE>(5)" := by decide +kernel

/-! ## C142: types of arguments in the JSON file -/

/-- Partial: the decoder takes from the type of an argument in the JSON file how it is sent, its type and its
size — for enumerations whose name has no `<` and no `,`. Missing: enumerations in class templates
(`C142_violated_template`). -/
theorem C142_types_partial (names : Nat → Text) (t : Log.Tag)
    (h : ∀ e, tagEnum t = some e → '<' ∉ names e ∧ ',' ∉ names e) :
    readArgType (tagText names t) = some (wantedArg names t) := by
  cases t with
  | enum e p n =>
    obtain ⟨h1, h2⟩ := h e rfl
    exact read_enum h1 h2 (fun m => (prim_plain p _ m).1 rfl) (fun m => (prim_plain p _ m).2.1 rfl) (prim_trim p)
  | e32 s =>
    exact read_plain (tag := t!"encode_32") (by decide) (by decide) (spec_plain fun e he => (h e (by rw [he]; rfl)).1)
  | u32 s =>
    exact read_plain (tag := t!"encode_u32") (by decide) (by decide) (spec_plain fun e he => (h e (by rw [he]; rfl)).1)
  | e64 s =>
    exact read_plain (tag := t!"encode_64") (by decide) (by decide) (spec_plain fun e he => (h e (by rw [he]; rfl)).1)
  | u64 s =>
    exact read_plain (tag := t!"encode_u64") (by decide) (by decide) (spec_plain fun e he => (h e (by rw [he]; rfl)).1)

example : readArgType t!"encode_enum<ns::E, unsigned char, 4>" = some (.enum t!"ns::E" t!"unsigned char" 4) :=
  C142_types_partial (fun _ => t!"ns::E") (.enum 0 .uchar 4) (by intro e _; decide)

/-- A record with an argument of an enumeration in a class template cannot be decoded. -/
theorem C142_violated_template (names : Nat → Text) (e : Nat) (p : Prim) (n : Nat) (h : '<' ∈ names e) :
    readArgType (tagText names (.enum e p n)) = none := by
  apply read_split
  have : 0 < (names e).count '<' := List.count_pos_iff.2 h
  rw [tagText, dropLast_snoc]
  simp [List.count_append]
  omega

example : '<' ∈ (t!"A<int>::E" : Text) := by decide

/-- The XML file has the conversion of the underlying type for every enumeration, whatever its name. -/
theorem C142_underlying (names : Nat → Text) (e : Nat) (p : Prim) (n : Nat) :
    argTypeEncoding (tagText names (.enum e p n)) = some (t!"encode_enum", primText p) := encoding_enum names e p n

example : argTypeEncoding t!"encode_enum<A<int, 4>::E, short, 4>" = some (t!"encode_enum", t!"short") :=
  C142_underlying (fun _ => t!"A<int, 4>::E") 0 .short 4

/-! ## C143: texts in the XML file -/

/-- What an XML reader takes from an element: the text with `&amp;` for `&`. -/
theorem C143_exact (t : Text) (h : ¬ t!"]]>" <:+: t) : xmlRead 0 false (element t) = some (escapeCdata t) := read_element h

/-- Partial: an XML reader takes from the XML file the text of a format string or a module — without `&`
(`C143_violated_amp`) and `]]>` (`C143_violated_end`). -/
theorem C143_text_partial (t : Text) (h : ¬ t!"]]>" <:+: t) (ha : '&' ∉ t) : xmlRead 0 false (element t) = some t := by
  rw [C143_exact t h, escape_id ha]

example : ¬ t!"]]>" <:+: t!"a<b> [%d]]" ∧ '&' ∉ t!"a<b> [%d]]" ∧
    element t!"a<b> [%d]]" = t!"<![CDATA[a<b> [%d]]]]>" := by decide

/-- Every text with `&` is read wrongly. -/
theorem C143_violated_amp (t : Text) (h : ¬ t!"]]>" <:+: t) (ha : '&' ∈ t) : xmlRead 0 false (element t) ≠ some t := by
  rw [C143_exact t h]
  intro e
  have h1 : escapeCdata t = t := Option.some.inj e
  have h2 : ∀ s : Text, s.length ≤ (escapeCdata s).length := by
    intro s
    induction s with
    | nil => exact Nat.le_refl _
    | cons c s ih =>
      rw [show escapeCdata (c :: s) = (if c = '&' then t!"&amp;" else [c]) ++ escapeCdata s from List.flatMap_cons ..]
      split <;> simp <;> omega
  obtain ⟨a, b, rfl⟩ := List.append_of_mem ha
  have h3 := congrArg List.length h1
  rw [escape_app, show escapeCdata ('&' :: b) = t!"&amp;" ++ escapeCdata b from List.flatMap_cons ..] at h3
  have := h2 a
  have := h2 b
  simp at h3
  omega

example : ¬ t!"]]>" <:+: t!"a & b" ∧ '&' ∈ t!"a & b" ∧ xmlRead 0 false (element t!"a & b") = some t!"a &amp; b" := by
  decide

/-- `]]>` in a text ends the CDATA; the file is not well-formed. -/
theorem C143_violated_end : xmlRead 0 false (element t!"a[b[0]]>1") = none := by decide

end Verif.Render
