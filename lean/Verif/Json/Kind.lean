import Verif.Json.Props
/-! # C144: the kind of an entry, entries of older files -/
namespace Verif.Json
open Verif.Symbols (Text)

/-- **C144**: in the file the type of an entry is `flow` if its text begins with `flow.`, else `msg`. -/
theorem C144_kind (m : Message) :
    (code t!"flow." <+: m.text → m.toJson.file.get t!"type" = some (.str (code t!"flow"))) ∧
    (¬ code t!"flow." <+: m.text → m.toJson.file.get t!"type" = some (.str (code t!"msg"))) := by
  constructor <;> intro h
  · simp only [Message.toJson, Message.type, if_pos h]; rfl
  · simp only [Message.toJson, Message.type, if_neg h]; rfl

/-- **C144**: an entry without named arguments and tags, as in files of older versions, is read with none,
whatever else it has. -/
theorem C144_older (j : J) (text : Str) (args : List Str) (id : Int) (h1 : j.get t!"msg" = some (.str text))
    (h2 : j.get t!"arg_types" = some (.arr (args.map .str))) (h3 : j.get t!"id" = some (.int id))
    (h4 : j.get t!"args" = none) (h5 : j.get t!"tags" = none) :
    Message.ofJson j = some ⟨text, args, id, [], []⟩ := by
  have h : (args.map J.str).mapM J.str? = some args := by
    clear h2
    induction args with
    | nil => rfl
    | cons a as ih =>
      rw [List.map_cons, List.mapM_cons, ih]
      rfl
  simp only [Message.ofJson, J.listOr, h1, h2, h3, h4, h5, Option.bind_some, J.str?, J.arr?, J.int?, Option.map_some]
  rw [show (args.map J.str).mapM J.str? = some args from h]
  rfl

/-- A message of a flow, and one that only mentions it. -/
example : (⟨code t!"flow.start(a)", [], 1, [], []⟩ : Message).toJson.file.get t!"type" = some (.str (code t!"flow")) ∧
    (⟨code t!"a flow.", [], 1, [], []⟩ : Message).toJson.file.get t!"type" = some (.str (code t!"msg")) :=
  ⟨(C144_kind _).1 (by decide), (C144_kind _).2 (by decide)⟩

/-- An entry with a further field. -/
example : Message.ofJson (.obj [(.str t!"id", .int 7), (.str t!"msg", .str (code t!"x")), (.str t!"author", .int 1),
    (.str t!"arg_types", .arr [.str (code t!"encode_32<int>")])]) = some ⟨code t!"x", [code t!"encode_32<int>"], 7, [], []⟩ :=
  C144_older _ _ [code t!"encode_32<int>"] _ rfl rfl rfl rfl rfl

end Verif.Json
