import Verif.Json.Props
/-! # Exactly what is listed and referred to -/
namespace Verif.Json
open Verif.Symbols (Text)

/-! ## C146 -/

/-- One of the two lists. -/
theorem listed_iff {ms : List Message} {ds : List Module} {enums : List (Text × List (Text × Int))}
    {xs : List (List (PyKey × J))} {om : List Message} {od : List Module} {out : List (PyKey × J)}
    (h : writeJson ms ds enums xs om od = some out) (hx : ∀ y ∈ xs, Extra y) {k : Text} (hk : k ≠ t!"enums") {es : List J}
    (hb : (∀ y ∈ xs, Without k y) → ∀ j ∈ es, ∃ l, (J.obj out).file.get k = some (.arr l) ∧ j ∈ l) :
    (∀ j ∈ es, ∃ l, (J.obj out).file.get k = some (.arr l) ∧ j ∈ l) ↔
      (∀ y ∈ xs, Without k y) ∨ ∃ pre x post, xs = pre ++ x :: post ∧ (∀ y ∈ post, Without k y) ∧
        ∃ v, (.str k, v) ∈ x ∧ ∀ j ∈ es, ∃ l, v = .arr l ∧ j ∈ l := by
  constructor
  · intro hl
    rcases fold_cases k xs with hw | ⟨pre, x, post, v, rfl, hv, hp⟩
    · exact .inl hw
    · have hxx := hx x (by simp)
      refine .inr ⟨pre, x, post, rfl, hp, v, hv, fun j hj => ?_⟩
      obtain ⟨l, h1, h2⟩ := hl j hj
      rw [out_get h hx hk, fold_last hxx hv hp, Option.map_some, file_loaded v (Extra.mem hxx hv)] at h1
      exact ⟨l, Option.some.inj h1, h2⟩
  · rintro (hw | ⟨pre, x, post, rfl, hp, v, hv, hj⟩)
    · exact hb hw
    · intro j hm
      obtain ⟨l, rfl, h2⟩ := hj j hm
      have hxx := hx x (by simp)
      refine ⟨l, ?_, h2⟩
      rw [out_get h hx hk, fold_last hxx hv hp, Option.map_some, file_loaded _ (Extra.mem hxx hv)]

/-- **C146** The messages of the program are in the catalog exactly if no extra file has messages, or the last one
that has lists them all; the same for the modules. -/
theorem C146_exact (ms : List Message) (ds : List Module) (enums : List (Text × List (Text × Int)))
    (xs : List (List (PyKey × J))) (om : List Message) (od : List Module) (out : List (PyKey × J))
    (h : writeJson ms ds enums xs om od = some out) (hx : ∀ y ∈ xs, Extra y) :
    ((∀ m ∈ ms, ∃ l, (J.obj out).file.get t!"messages" = some (.arr l) ∧ m.toJson ∈ l) ↔
      (∀ y ∈ xs, Without t!"messages" y) ∨ ∃ pre x post, xs = pre ++ x :: post ∧ (∀ y ∈ post, Without t!"messages" y) ∧
        ∃ v, (.str t!"messages", v) ∈ x ∧ ∀ m ∈ ms, ∃ l, v = .arr l ∧ m.toJson ∈ l) ∧
    ((∀ d ∈ ds, ∃ l, (J.obj out).file.get t!"modules" = some (.arr l) ∧ d.toJson ∈ l) ↔
      (∀ y ∈ xs, Without t!"modules" y) ∨ ∃ pre x post, xs = pre ++ x :: post ∧ (∀ y ∈ post, Without t!"modules" y) ∧
        ∃ v, (.str t!"modules", v) ∈ x ∧ ∀ d ∈ ds, ∃ l, v = .arr l ∧ d.toJson ∈ l) := by
  have a1 := listed_iff h hx (k := t!"messages") (by decide) (es := ms.map Message.toJson) (by
    intro hw j hj
    obtain ⟨m, hm, rfl⟩ := List.mem_map.1 hj
    rw [out_get h hx (by decide), fold_without hw, base_messages, Option.map_some, file_arr]
    · exact ⟨_, rfl, by rw [mem_addNew]; exact .inl hj⟩
    · intro j hj
      rw [mem_addNew, List.mem_map, List.mem_map] at hj
      rcases hj with ⟨m, _, rfl⟩ | ⟨m, _, rfl⟩ <;> exact m.loaded)
  have a2 := listed_iff h hx (k := t!"modules") (by decide) (es := ds.map Module.toJson) (by
    intro hw j hj
    obtain ⟨m, hm, rfl⟩ := List.mem_map.1 hj
    rw [out_get h hx (by decide), fold_without hw, base_modules, Option.map_some, file_arr]
    · exact ⟨_, rfl, by rw [mem_addNew]; exact .inl hj⟩
    · intro j hj
      rw [mem_addNew, List.mem_map, List.mem_map] at hj
      rcases hj with ⟨m, _, rfl⟩ | ⟨m, _, rfl⟩ <;> exact m.loaded)
  simp only [List.forall_mem_map] at a1 a2
  exact ⟨a1, a2⟩

/-- An extra file that lists the message of the program. -/
example : Extra [(.str t!"messages", .arr [exMessage.toJson])] ∧
    (writeJson [exMessage] [] [] [[(.str t!"messages", .arr [exMessage.toJson])]] [] []).map
      (fun o => (J.obj o).file.get t!"messages") = some (some (.arr [exMessage.toJson])) := by
  refine ⟨?_, by decide +kernel⟩
  have := exMessage.loaded
  simp [J.Loaded, LoadedO, LoadedL, this]

/-! ## C151 -/

theorem lookup_last (ids : List (Text × Nat)) {args : List Arg} (hok : ∀ a ∈ args, a.Ok) (i : Nat)
    (r : Option (Nat × Nat)) : enumLookup ids i (args.map Arg.text) r =
      some ((references (dget ids) (i + 1) (args.map Arg.name)).getLast?.or r) := by
  induction args generalizing i r with
  | nil => rfl
  | cons a args ih =>
    obtain ⟨x, hx, hn⟩ := argType_name (hok a (List.mem_cons_self ..))
    rw [List.map_cons, enumLookup, hx, Option.bind_some, hn, ih fun b hb => hok b (List.mem_cons_of_mem _ hb),
      List.map_cons, references]
    cases dget ids a.name with
    | none => rfl
    | some n =>
      rw [Option.map_some, Option.toList_some, List.singleton_append, List.getLast?_cons]
      cases (references (dget ids) (i + 1 + 1) (args.map Arg.name)).getLast? <;> rfl

/-- **C151** The XML file refers to the enumeration of the last argument that has one, and to nothing if there is
none. -/
theorem C151_exact (ids : List (Text × Nat)) (args : List Arg) (hok : ∀ a ∈ args, a.Ok) :
    enumLookup ids 0 (args.map Arg.text) none = some (references (dget ids) 1 (args.map Arg.name)).getLast? := by
  rw [lookup_last ids hok]
  simp

/-- So the references are those of the program exactly if there is at most one. -/
theorem C151_iff (ids : List (Text × Nat)) (args : List Arg) (hok : ∀ a ∈ args, a.Ok) :
    (∃ r, enumLookup ids 0 (args.map Arg.text) none = some r ∧ r.toList = references (dget ids) 1 (args.map Arg.name)) ↔
      (references (dget ids) 1 (args.map Arg.name)).length ≤ 1 := by
  refine ⟨?_, C151_refers_partial ids args hok⟩
  rintro ⟨r, -, h2⟩
  rw [← h2]
  cases r <;> simp

end Verif.Json
