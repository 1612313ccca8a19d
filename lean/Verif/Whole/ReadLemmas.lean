import Verif.Whole.Lemmas
/-! # Reading of records -/
namespace Verif.Whole
open Verif.Symbols (Text dec codes)
open Verif.Json (J PyKey Str code dget dupdate)

theorem read_short {ldb : Log.Db} {bs rest : List Nat} {id : Nat} (h : Log.readRecord ldb bs = some (.short id, rest))
    {db : Db} {m : J} (hm : dget db.messages (id : Int) = some m) {t : Text} (ht : textOf db m = some t) :
    readRecord db bs = some (t, rest) := by
  cases bs with
  | nil => cases h
  | cons b bs =>
    rw [Log.readRecord] at h
    rw [readRecord]
    split at h
    · next hb =>
      rw [if_pos hb]
      rw [Log.readShort] at h
      rw [readShort]
      cases hw : Log.readWord (b :: bs) with
      | none => rw [hw] at h; cases h
      | some w =>
        simp only [hw, Option.bind_eq_bind, Option.bind_some] at h ⊢
        cases hd : ldb.messages (w.1 / 2 ^ 4 % 2 ^ 28) with
        | none => rw [hd] at h; cases h
        | some x =>
          simp only [hd, Option.bind_some, Option.pure_def, Option.some.injEq, Prod.mk.injEq, Log.Rec.short.injEq] at h
          rw [h.1, hm, Option.bind_some, ht, Option.map_some, h.2]
    · next hb1 =>
      rw [if_neg hb1]
      split at h
      · rw [Log.readCatalog] at h
        cases hw : Log.readWord (b :: bs) with
        | none => rw [hw] at h; cases h
        | some w =>
          simp only [hw, Option.bind_eq_bind, Option.bind_some] at h
          split at h
          · cases h
          split at h
          · cases h
          cases hi : Log.readWord w.2 with
          | none => simp [hi] at h
          | some i =>
            simp only [hi, Option.bind_some, Option.bind_eq_some_iff] at h
            obtain ⟨_, _, _, _, h⟩ := h
            cases h
      · next hb3 =>
        rw [if_neg hb3]
        split at h
        · next hb7 =>
          rw [if_pos hb7]
          rw [Log.readShort64] at h
          rw [readShort64]
          split at h
          · cases h
          next hl =>
          rw [if_neg hl]
          dsimp only at h
          cases hd : ldb.messages (Log.fromLe ((b :: bs).take 8) / 2 ^ 4 % 2 ^ 60) with
          | none => rw [hd] at h; cases h
          | some x =>
            simp only [hd, Option.bind_eq_bind, Option.bind_some, Option.pure_def, Option.some.injEq, Prod.mk.injEq,
              Log.Rec.short.injEq] at h
            rw [h.1, hm, Option.bind_some, ht, Option.map_some, h.2]
        · cases h

theorem read_catalog {ldb : Log.Db} {bs rest : List Nat} {sev mo u id : Nat} {ds : List Log.Decoded}
    (h : Log.readRecord ldb bs = some (.catalog sev mo u id ds, rest)) {names : Nat → Text} {tags : List Log.Tag}
    (hl : ldb.messages id = some tags) (hok : ∀ t ∈ tags, TagOk names t) {db : Db} {m d : J}
    (hm : dget db.messages (id : Int) = some m) (hd : dget db.modules (mo : Int) = some d) {t module out : Text}
    (ht : textOf db m = some t) (hmo : strOf d t!"string" = some module)
    (hty : (m.get t!"arg_types").bind J.arr? = some ((tags.map (Render.tagText names)).map fun a => .str (code a)))
    (hf : Render.pyFormat .out t (ds.map (Render.toPy (Json.enumName db.file) names)) = some out) :
    readRecord db bs = some (Render.severity sev ++ t!" [" ++ module ++ t!"] " ++ out, rest) := by
  have hmap : ((tags.map (Render.tagText names)).map fun a => J.str (code a)).mapM
      (fun (a : J) => a.str?.map fun s => s.map Char.ofNat) = some (tags.map (Render.tagText names)) := by
    induction tags.map (Render.tagText names) with
    | nil => rfl
    | cons a l ih =>
      rw [List.map_cons, List.mapM_cons, ih]
      simp only [J.str?, Option.map_some, map_ofNat_code]
      rfl
  cases bs with
  | nil => cases h
  | cons b bs =>
    rw [Log.readRecord] at h
    rw [readRecord]
    split at h
    · rw [Log.readShort] at h
      simp only [Option.bind_eq_bind, Option.bind_eq_some_iff] at h
      obtain ⟨_, _, _, _, h⟩ := h
      cases h
    · next hb =>
      rw [if_neg hb]
      split at h
      · next hb =>
        rw [if_pos hb]
        rw [Log.readCatalog] at h
        rw [readCatalog]
        cases hw : Log.readWord (b :: bs) with
        | none => rw [hw] at h; cases h
        | some w =>
          simp only [hw, Option.bind_eq_bind, Option.bind_some] at h ⊢
          split at h
          · cases h
          next hs =>
          rw [if_neg hs]
          split at h
          · cases h
          cases hi : Log.readWord w.2 with
          | none => simp [hi] at h
          | some i =>
            simp only [hi, Option.bind_some, Option.bind_eq_some_iff] at h
            obtain ⟨tg, h1, r, h2, h3⟩ := h
            simp only [Option.pure_def, Option.some.injEq, Prod.mk.injEq, Log.Rec.catalog.injEq] at h3
            obtain ⟨⟨e1, e2, e3, e4, e5⟩, e6⟩ := h3
            rw [e4, hl] at h1
            cases h1
            rw [e2, hd, Option.bind_some, hmo, Option.bind_some, Option.bind_some, e4, hm, Option.bind_some, ht,
              Option.bind_some, hty, Option.bind_some, hmap, Option.bind_some, extractArgs_text db.file names hok, h2,
              Option.map_some, Option.bind_some, e5, hf, Option.map_some, e1, e6]
      · split at h
        · rw [Log.readShort64] at h
          split at h
          · cases h
          simp only [Option.bind_eq_bind, Option.bind_eq_some_iff] at h
          obtain ⟨_, _, h⟩ := h
          cases h
        · cases h

/-- A record is read alone. -/
def Reads (db : Db) (bs : List Nat) (line : Text) : Prop := bs ≠ [] ∧ ∀ rest, readRecord db (bs ++ rest) = some (line, rest)

theorem readLogs_all {db : Db} {bss : List (List Nat)} {lines : List Text} (h : List.Forall₂ (Reads db) bss lines)
    (fuel : Nat) (hf : bss.flatten.length ≤ fuel) : readLogs db fuel bss.flatten = (lines, true) := by
  induction h generalizing fuel with
  | nil => cases fuel <;> rfl
  | @cons bs line bss lines h1 h2 ih =>
    rw [List.flatten_cons] at hf ⊢
    have hp := List.length_pos_iff.2 h1.1
    rw [List.length_append] at hf
    obtain ⟨n, rfl⟩ : ∃ n, fuel = n + 1 := ⟨fuel - 1, by omega⟩
    have hr := h1.2 bss.flatten
    have ih := ih n (by omega)
    cases hb : bs ++ bss.flatten with
    | nil => simp [h1.1] at hb
    | cons b r =>
      rw [hb] at hr
      rw [readLogs, hr]
      simp only [ih]

end Verif.Whole
