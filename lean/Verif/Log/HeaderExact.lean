import Verif.Log.Props
/-! # Level, module and unit in the binary log, whatever their size -/
namespace Verif.Log

/-- **C178** (part) What a reader finds, for every level, module and unit: the lowest three, seven and four bits. The
id, the arguments and the end of the record do not depend on them. -/
theorem C178_exact {s : Stmt} (ha : s.args ≠ []) (hid : s.id < 2 ^ 32) (hargs : ∀ a ∈ s.args, InType a.1 a.2) :
    ∃ bs, record s = some bs ∧ ∀ db, db.messages s.id = some (s.args.map fun a => encodeTag a.1) →
      db.modules (s.module % 128) = true → ∀ rest, readRecord db (bs ++ rest) =
        some (.catalog (s.level % 8) (s.module % 128) (s.unit % 16) s.id (s.args.map fun a => actual a.1 a.2), rest) := by
  obtain ⟨w, hw, hr, ht, hl, hu, hm, hs⟩ := catalogRecord_spec s.level s.id s.module s.unit s.args
  refine ⟨_, by rw [record, if_neg (by simpa using ha), hr], ?_⟩
  intro db hk hkm rest
  obtain ⟨t, e⟩ := leBytes_four w
  have hargs := extractArgs_packed s.args hargs rest
  have hkm' : db.modules (s.module % 2 ^ 7) = true := hkm
  have hread : readCatalog db (leBytes 4 w ++
      (leBytes 4 s.id ++ (s.args.map fun a => packBytes a.1 a.2).flatten) ++ rest) =
      some (.catalog (s.level % 8) (s.module % 128) (s.unit % 16) s.id (s.args.map fun a => actual a.1 a.2), rest) := by
    simp only [List.append_assoc, readCatalog, readWord_leBytes hw, readWord_leBytes hid, hs, hm, hk, hkm',
      hargs, hl, hu, Option.bind_eq_bind, Option.bind_some]
    simp
  rw [← hread, e]
  simp only [List.cons_append, readRecord]
  rw [if_neg (by omega), if_pos (by omega)]

/-- The level, the module and the unit of a record that was read. -/
def Rec.header : Rec → Option (Nat × Nat × Nat)
  | .short _ => none
  | .catalog l m u _ _ => some (l, m, u)

/-- **C178** (part) A reader finds the level, the module and the unit of a message with arguments exactly if the level
is less than 8, the module less than 128 and the unit less than 16. -/
theorem C178_kept_exact {s : Stmt} (ha : s.args ≠ []) (hid : s.id < 2 ^ 32) (hargs : ∀ a ∈ s.args, InType a.1 a.2)
    {db : Db} (hk : db.messages s.id = some (s.args.map fun a => encodeTag a.1))
    (hm : db.modules (s.module % 128) = true) : ∃ bs, record s = some bs ∧
      ((readRecord db bs).map (·.1.header) = some (some (s.level, s.module, s.unit)) ↔
        s.level < 8 ∧ s.module < 128 ∧ s.unit < 16) := by
  obtain ⟨bs, h1, h2⟩ := C178_exact ha hid hargs
  refine ⟨bs, h1, ?_⟩
  have h3 := h2 db hk hm []
  rw [List.append_nil] at h3
  rw [h3]
  simp only [Option.map_some, Rec.header, Option.some.injEq, Prod.mk.injEq]
  omega

/-- Two levels of an enumeration of the user's own, and two units. -/
def exLevel (l u : Nat) : Stmt := ⟨l, 77, 17, u, [(.prim .int, 5)]⟩

/-- **C178** is violated: the levels 1 and 9 of an enumeration of the user's own are logged as the same bytes, and so
are the units 2 and 18; nothing is refused. -/
theorem C178_violated_level : (record (exLevel 9 2)).isSome = true ∧ record (exLevel 9 2) = record (exLevel 1 2) ∧
    record (exLevel 1 18) = record (exLevel 1 2) := by decide +kernel

example : (exLevel 9 18).args ≠ [] ∧ (exLevel 9 18).id < 2 ^ 32 ∧ (∀ a ∈ (exLevel 9 18).args, InType a.1 a.2) := by
  refine ⟨by decide, by decide, ?_⟩
  simp [exLevel, InType, CType.under, Prim.signed, Prim.size]

end Verif.Log
