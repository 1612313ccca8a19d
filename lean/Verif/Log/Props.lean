import Verif.Log.HeaderLemmas

/-! # Properties of binary logging -/
namespace Verif.Log
open Verif.Bits Verif.Message

theorem readWord_leBytes {w : Nat} (hw : w < 2 ^ 32) (rest : List Nat) :
    readWord (leBytes 4 w ++ rest) = some (w, rest) := by
  rw [readWord, if_pos (by simp [leBytes_length])]
  have h1 : (leBytes 4 w ++ rest).take 4 = leBytes 4 w := List.take_left' (leBytes_length 4 w)
  have h2 : (leBytes 4 w ++ rest).drop 4 = rest := List.drop_left' (leBytes_length 4 w)
  rw [h1, h2, fromLe_leBytes, Nat.mod_eq_of_lt (by norm_num at hw ⊢; exact hw)]

theorem leBytes_four (w : Nat) : ∃ t, leBytes 4 w = w % 256 :: t := ⟨_, rfl⟩

/-- What the decoder gives for a statement whose numbers fit. -/
def got (s : Stmt) : Rec :=
  if s.args = [] then .short s.id
  else .catalog s.level s.module s.unit s.id (s.args.map fun a => actual a.1 a.2)

theorem readRecord_record {s : Stmt} (hf : Fits s) : ∃ bs, record s = some bs ∧ bs ≠ [] ∧
    ∀ db, Knows db s → ∀ rest, readRecord db (bs ++ rest) = some (got s, rest) := by
  by_cases ha : s.args = []
  · obtain ⟨w, hw, hr, ht, hi⟩ := shortRecord_spec s.id
    rw [Nat.mod_eq_of_lt (hf.short ha)] at hi
    refine ⟨leBytes 4 w, by simp [record, ha, hr], by simp [leBytes], ?_⟩
    intro db hk rest
    obtain ⟨t, e⟩ := leBytes_four w
    have hread : readShort db (leBytes 4 w ++ rest) = some (.short s.id, rest) := by
      simp only [readShort, readWord_leBytes hw, hi, hk.1, Option.bind_eq_bind, Option.bind_some]
      rfl
    rw [got, if_pos ha, ← hread, e]
    simp only [List.cons_append, readRecord]
    rw [if_pos (by omega)]
  · obtain ⟨w, hw, hr, ht, hl, hu, hm, hs⟩ := catalogRecord_spec s.level s.id s.module s.unit s.args
    rw [Nat.mod_eq_of_lt hf.level] at hl
    rw [Nat.mod_eq_of_lt hf.unit] at hu
    rw [Nat.mod_eq_of_lt hf.module] at hm
    refine ⟨_, by rw [record, if_neg (by simpa using ha), hr], by simp [leBytes], ?_⟩
    intro db hk rest
    obtain ⟨t, e⟩ := leBytes_four w
    have hargs := extractArgs_packed s.args (fun a h => (hf.args a h).1) rest
    have hread : readCatalog db (leBytes 4 w ++
        (leBytes 4 s.id ++ (s.args.map fun a => packBytes a.1 a.2).flatten) ++ rest) =
        some (got s, rest) := by
      simp only [List.append_assoc, readCatalog, readWord_leBytes hw, readWord_leBytes hf.id, hs, hm, hk.1,
        hk.2, hargs, hl, hu, Option.bind_eq_bind, Option.bind_some]
      simp [got, ha]
    rw [← hread, e]
    simp only [List.cons_append, readRecord]
    rw [if_neg (by omega), if_pos (by omega)]

/-! ## C45 -/

/-- One argument: the decoder shows the value logged exactly when it is one of those it handles. -/
theorem C45_argument {t : CType} {v : Int} (hv : InType t v) (ht : EnumOk t) (rest : List Nat) :
    extractArg (encodeTag t) (packBytes t v ++ rest) = some (shown t v, rest) ↔ Handled t v := by
  rw [extractArg_packed hv, ← actual_eq_shown hv ht]
  simp

/-- A record decodes to the statement that was logged exactly when all its arguments are handled. Missing
from the full statement: arguments that are not handled, and ids that do not fit. -/
theorem C45_record_partial {s : Stmt} (hf : Fits s) : ∃ bs, record s = some bs ∧
    ∀ db, Knows db s → ∀ rest,
      (readRecord db (bs ++ rest) = some (wanted s, rest) ↔ ∀ a ∈ s.args, Handled a.1 a.2) := by
  obtain ⟨bs, hr, -, hd⟩ := readRecord_record hf
  refine ⟨bs, hr, fun db hk rest => ?_⟩
  rw [hd db hk rest]
  by_cases ha : s.args = []
  · simp [got, wanted, ha]
  · simp only [got, wanted, ha, if_false, Option.some.injEq, Prod.mk.injEq, and_true, Rec.catalog.injEq,
      true_and, List.map_inj_left]
    exact forall₂_congr fun a h => actual_eq_shown (hf.args a h).1 (hf.args a h).2

/-- Whatever the arguments, the level, the module, the unit, the id and the number of arguments are those
of the statement, and the record ends where it was written to end. -/
theorem C45_header {s : Stmt} (hf : Fits s) (ha : s.args ≠ []) : ∃ bs, record s = some bs ∧
    ∀ db, Knows db s → ∀ rest, ∃ ds, ds.length = s.args.length ∧
      readRecord db (bs ++ rest) = some (.catalog s.level s.module s.unit s.id ds, rest) := by
  obtain ⟨bs, hr, -, hd⟩ := readRecord_record hf
  refine ⟨bs, hr, fun db hk rest => ⟨s.args.map fun a => actual a.1 a.2, by simp, ?_⟩⟩
  rw [hd db hk rest, got, if_neg ha]

/-- The length of a record: one word, or two words and the arguments in words. -/
theorem C45_length {s : Stmt} {bs : List Nat} (h : record s = some bs) :
    bs.length = if s.args = [] then 4 else 8 + (s.args.map fun a => packSize a.1).sum := by
  by_cases ha : s.args = []
  · obtain ⟨w, -, hr, -⟩ := shortRecord_spec s.id
    rw [record, if_pos (by simp [ha]), hr, Option.some.injEq] at h
    rw [if_pos ha, ← h, leBytes_length]
  · obtain ⟨w, -, hr, -⟩ := catalogRecord_spec s.level s.id s.module s.unit s.args
    rw [record, if_neg (by simpa using ha), hr, Option.some.injEq] at h
    rw [if_neg ha, ← h]
    simp only [List.length_append, leBytes_length, List.length_flatten, List.map_map, Function.comp_def,
      packBytes_length]
    omega

/-- A statement with all kinds of arguments. -/
def exStmt : Stmt := ⟨4, 77, 17, 2, [(.prim .int, -5), (.prim .ullong, 2 ^ 63), (.prim (.char true), 65),
  (.enumClass 3 .schar, -1), (.enumPlain 4 .uint, 9)]⟩

def exDb : Db := ⟨fun i => if i = 77 then some (exStmt.args.map fun a => encodeTag a.1)
  else if i = 0x12345 then some [] else none, fun m => m == 17⟩

theorem exStmt_fits : Fits exStmt where
  level := by decide
  module := by decide
  unit := by decide
  id := by decide
  short := by simp [exStmt]
  args := by
    simp [exStmt, InType, EnumOk, CType.under, Prim.signed, Prim.size]

example : ∃ bs, record exStmt = some bs ∧ readRecord exDb (bs ++ [1, 2]) = some (wanted exStmt, [1, 2]) := by
  obtain ⟨bs, hr, h⟩ := C45_record_partial exStmt_fits
  exact ⟨bs, hr, (h exDb ⟨rfl, rfl⟩ _).2 (by simp [exStmt, Handled, listed])⟩

example : wanted exStmt = .catalog 4 17 2 77 [.val (.int (-5)), .val (.int 9223372036854775808),
    .val (.chr 65), .enum 3 (.int (-1)), .enum 4 (.int 9)] := by decide

/-- A `bool` argument: `true` is decoded as -1. -/
theorem C45_violated_bool : (record ⟨0, 5, 0, 0, [(.prim .bool, 1)]⟩).map
    (decode ⟨fun _ => some [encodeTag (.prim .bool)], fun _ => true⟩) =
      some ([.catalog 0 0 0 5 [.val (.int (-1))]], true) ∧ shown (.prim .bool) 1 = .val (.int 1) := by
  decide +kernel

/-- A scoped enumeration over `char`: the value is looked up as a byte string, not as a number. -/
theorem C45_violated_enum_char : (record ⟨0, 5, 0, 0, [(.enumClass 7 (.char true), 65)]⟩).map
    (decode ⟨fun _ => some [encodeTag (.enumClass 7 (.char true))], fun _ => true⟩) =
      some ([.catalog 0 0 0 5 [.enum 7 (.chr 65)]], true) ∧
    shown (.enumClass 7 (.char true)) 65 = .enum 7 (.int 65) := by
  decide +kernel

/-- An unscoped enumeration with a negative enumerator: -1 is looked up as 4294967295. -/
theorem C45_violated_enum_negative : (record ⟨0, 5, 0, 0, [(.enumPlain 7 .int, -1)]⟩).map
    (decode ⟨fun _ => some [encodeTag (.enumPlain 7 .int)], fun _ => true⟩) =
      some ([.catalog 0 0 0 5 [.enum 7 (.int 4294967295)]], true) ∧
    shown (.enumPlain 7 .int) (-1) = .enum 7 (.int (-1)) := by
  decide +kernel

/-- A message without arguments keeps only 28 bits of its id: two ids give the same record. -/
theorem C45_violated_id (level module unit id : Nat) :
    record ⟨level, id + 2 ^ 28, module, unit, []⟩ = record ⟨level, id, module, unit, []⟩ := by
  obtain ⟨w, hw, hr, ht, hi⟩ := shortRecord_spec id
  obtain ⟨w', hw', hr', ht', hi'⟩ := shortRecord_spec (id + 2 ^ 28)
  have : w = w' := by omega
  simp only [record, List.isEmpty_nil, if_true, hr, hr', this]

/-! ## C46 -/

theorem readLogs_record {db : Db} {fuel : Nat} {bs rest : List Nat} {x : Rec}
    (h : readRecord db bs = some (x, rest)) (hb : bs ≠ []) :
    readLogs db (fuel + 1) bs = (x :: (readLogs db fuel rest).1, (readLogs db fuel rest).2) := by
  cases bs with
  | nil => exact absurd rfl hb
  | cons b r => simp only [readLogs, h]

theorem readLogs_stream {db : Db} (ss : List Stmt) (h : ∀ s ∈ ss, Fits s ∧ Knows db s) (fuel : Nat)
    (hfuel : ss.length ≤ fuel) : ∃ bss, ss.mapM record = some bss ∧ ss.length ≤ bss.flatten.length ∧
      readLogs db fuel bss.flatten = (ss.map got, true) := by
  induction ss generalizing fuel with
  | nil => exact ⟨[], rfl, Nat.le_refl _, by cases fuel <;> simp [readLogs]⟩
  | cons s ss ih =>
    obtain ⟨n, rfl⟩ : ∃ n, fuel = n + 1 := ⟨fuel - 1, by simp at hfuel; omega⟩
    obtain ⟨bs, hr, hne, hd⟩ := readRecord_record (h s List.mem_cons_self).1
    obtain ⟨bss, hrs, hl, hrd⟩ := ih (fun t ht => h t (List.mem_cons_of_mem _ ht)) n (by simpa using hfuel)
    have hpos : 0 < bs.length := List.length_pos_iff.2 hne
    refine ⟨bs :: bss, by simp [List.mapM_cons, hr, hrs], by
      rw [List.flatten_cons, List.length_append, List.length_cons]; omega, ?_⟩
    rw [List.flatten_cons, readLogs_record (hd db (h s List.mem_cons_self).2 _) (by simp [hne]), hrd]
    rfl

theorem readLogs_fuel {db : Db} (ss : List Stmt) (h : ∀ s ∈ ss, Fits s ∧ Knows db s) :
    ∃ bss, ss.mapM record = some bss ∧ decode db bss.flatten = (ss.map got, true) := by
  obtain ⟨bss, hm, hl, -⟩ := readLogs_stream ss h ss.length (Nat.le_refl _)
  obtain ⟨bss', hm', -, hr⟩ := readLogs_stream ss h bss.flatten.length hl
  rw [hm] at hm'
  cases hm'
  exact ⟨bss, hm, hr⟩

/-- The stream of any statements decodes to what each record decodes to on its own, in order, and the end
is reached. This holds whether or not the arguments are handled. -/
theorem C46_stream_partial {db : Db} (ss : List Stmt) (h : ∀ s ∈ ss, Fits s ∧ Knows db s) :
    ∃ bss recs, ss.mapM record = some bss ∧ decode db bss.flatten = (recs, true) ∧
      List.Forall₂ (fun bs r => decode db bs = ([r], true)) bss recs := by
  obtain ⟨bss, hm, hd⟩ := readLogs_fuel ss h
  refine ⟨bss, ss.map got, hm, hd, ?_⟩
  clear hd
  induction ss generalizing bss with
  | nil => cases hm; exact .nil
  | cons s ss ih =>
    obtain ⟨b1, hm1, hd1⟩ := readLogs_fuel [s] (by
      intro t ht
      rw [List.mem_singleton.mp ht]
      exact h s List.mem_cons_self)
    obtain ⟨b2, hm2, -⟩ := readLogs_fuel ss fun t ht => h t (List.mem_cons_of_mem _ ht)
    cases hr : record s with
    | none => simp [List.mapM_cons, hr] at hm1
    | some bs =>
      simp [List.mapM_cons, hr, hm2] at hm hm1
      subst hm hm1
      refine .cons (by simpa using hd1) (ih (fun t ht => h t (List.mem_cons_of_mem _ ht)) b2 hm2)

/-- With handled arguments the stream decodes to the statements. -/
theorem C46_statements_partial {db : Db} (ss : List Stmt)
    (h : ∀ s ∈ ss, Fits s ∧ Knows db s ∧ ∀ a ∈ s.args, Handled a.1 a.2) :
    ∃ bss, ss.mapM record = some bss ∧ decode db bss.flatten = (ss.map wanted, true) := by
  obtain ⟨bss, hm, hd⟩ := readLogs_fuel ss fun s hs => ⟨(h s hs).1, (h s hs).2.1⟩
  refine ⟨bss, hm, ?_⟩
  rw [hd]
  congr 1
  apply List.map_congr_left
  intro s hs
  rw [got, wanted]
  split
  · rfl
  · congr 1
    apply List.map_congr_left
    intro a ha
    exact (actual_eq_shown ((h s hs).1.args a ha).1 ((h s hs).1.args a ha).2).2 ((h s hs).2.2 a ha)

/-- Two different streams of statements with handled arguments are different bytes. -/
theorem C46_injective {db : Db} {ss ts : List Stmt}
    (hs : ∀ s ∈ ss, Fits s ∧ Knows db s ∧ ∀ a ∈ s.args, Handled a.1 a.2)
    (ht : ∀ s ∈ ts, Fits s ∧ Knows db s ∧ ∀ a ∈ s.args, Handled a.1 a.2)
    {bs cs : List (List Nat)} (hb : ss.mapM record = some bs) (hc : ts.mapM record = some cs)
    (he : bs.flatten = cs.flatten) : ss.map wanted = ts.map wanted := by
  obtain ⟨b, hb', h1⟩ := C46_statements_partial ss hs
  obtain ⟨c, hc', h2⟩ := C46_statements_partial ts ht
  rw [hb] at hb'
  rw [hc] at hc'
  cases hb'
  cases hc'
  rw [he, h2] at h1
  exact (Prod.mk.inj h1).1.symm

example : ∃ bss, [exStmt, ⟨4, 0x12345, 17, 0, []⟩, exStmt].mapM record = some bss ∧
    decode exDb bss.flatten = ([wanted exStmt, .short 0x12345, wanted exStmt], true) := by
  refine C46_statements_partial (db := exDb) [exStmt, ⟨4, 0x12345, 17, 0, []⟩, exStmt] ?_
  have h1 : Fits exStmt ∧ Knows exDb exStmt ∧ ∀ a ∈ exStmt.args, Handled a.1 a.2 :=
    ⟨exStmt_fits, ⟨rfl, rfl⟩, by simp [exStmt, Handled, listed]⟩
  intro s hs
  simp only [List.mem_cons, List.not_mem_nil, or_false] at hs
  rcases hs with rfl | rfl | rfl
  · exact h1
  · exact ⟨⟨by decide, by decide, by decide, by decide, fun _ => by decide, by simp⟩, ⟨rfl, rfl⟩, by simp⟩
  · exact h1

/-- A version record stops the decoder, and what was logged after it is lost. -/
theorem C46_violated_version : ∃ v a, versionRecord 42 [] = some v ∧
    record ⟨4, 0x12345, 17, 0, []⟩ = some a ∧ decode exDb (a ++ a) = ([.short 0x12345, .short 0x12345], true) ∧
    decode exDb (a ++ (v ++ a)) = ([.short 0x12345], false) :=
  ⟨[160, 2, 0, 0], [81, 52, 18, 0], by decide +kernel, by decide +kernel, by decide +kernel,
    by decide +kernel⟩

/-- A version record begins with the type 0. -/
theorem versionRecord_type {v : Nat} (hv : v < 2 ^ 64) (s : List Nat) :
    ∃ b r, versionRecord v s = some (b :: r) ∧ b % 16 = 0 := by
  have key : ∀ bs x, readVersion bs = some x → ∃ b r, bs = b :: r ∧ b % 16 = 0 := by
    intro bs x h
    rw [readVersion] at h
    cases bs with
    | nil => simp [fromLe] at h
    | cons b r =>
      refine ⟨b, r, rfl, ?_⟩
      by_contra hb
      have : fromLe ((b :: r).take 4) % 16 ≠ 0 := by
        rw [List.take_succ_cons, fromLe]
        omega
      simp only [if_pos this] at h
      cases h
  rw [versionRecord]
  split
  · next h =>
    obtain ⟨bs, h1, h2⟩ := readVersion_compact32 (bitWidth_le h.2)
    obtain ⟨b, r, rfl, hb⟩ := key bs _ h2
    exact ⟨b, r, h1, hb⟩
  · split
    · next h =>
      obtain ⟨bs, h1, h2⟩ := readVersion_compact64 (bitWidth_le h.2)
      obtain ⟨b, r, rfl, hb⟩ := key bs _ h2
      exact ⟨b, r, h1, hb⟩
    · obtain ⟨h, hh, -, hr, k0, -, -⟩ := normalRecord_spec v s
      cases h with
      | nil => simp at hh
      | cons b h =>
        refine ⟨b, _, hr, ?_⟩
        rw [fromLe] at k0
        omega

/-- What the program sends to the binary log: a log statement, or the version. -/
inductive Sent where
  | stmt (s : Stmt)
  | version (id : Nat) (text : List Nat)

/-- Its bytes. -/
def Sent.bytes : Sent → Option (List Nat)
  | .stmt s => record s
  | .version v t => versionRecord v t

def Sent.stmt? : Sent → Option Stmt
  | .stmt s => some s
  | .version _ _ => none

/-- C46: any sequence of statements with handled arguments and of versions decodes to the statements before the
first version, and to all of them exactly when there is no version. -/
theorem C46_exact {db : Db} (xs : List Sent)
    (h : ∀ s, Sent.stmt s ∈ xs → Fits s ∧ Knows db s ∧ ∀ a ∈ s.args, Handled a.1 a.2)
    (hv : ∀ v t, Sent.version v t ∈ xs → v < 2 ^ 64) :
    ∃ bss, xs.mapM Sent.bytes = some bss ∧ decode db bss.flatten =
      ((((xs.takeWhile (·.stmt?.isSome)).filterMap Sent.stmt?).map wanted), xs.all (·.stmt?.isSome)) := by
  have key : ∀ (fuel : Nat) (xs : List Sent),
      (∀ s, Sent.stmt s ∈ xs → Fits s ∧ Knows db s ∧ ∀ a ∈ s.args, Handled a.1 a.2) →
      (∀ v t, Sent.version v t ∈ xs → v < 2 ^ 64) →
      ∃ bss, xs.mapM Sent.bytes = some bss ∧ (bss.flatten.length ≤ fuel → readLogs db fuel bss.flatten =
      ((((xs.takeWhile (·.stmt?.isSome)).filterMap Sent.stmt?).map wanted), xs.all (·.stmt?.isSome))) := by
    intro fuel xs
    induction xs generalizing fuel with
    | nil => intro _ _; exact ⟨[], rfl, by cases fuel <;> simp [readLogs]⟩
    | cons x xs ih =>
      intro h hv
      obtain ⟨bss, hb, hr⟩ := ih (fuel - 1) (fun s hs => h s (List.mem_cons_of_mem _ hs))
        (fun v t ht => hv v t (List.mem_cons_of_mem _ ht))
      cases x with
      | stmt s =>
        obtain ⟨hf, hk, ha⟩ := h s List.mem_cons_self
        obtain ⟨bs, h1, hne, hd⟩ := readRecord_record hf
        have hpos : 0 < bs.length := List.length_pos_iff.2 hne
        have hgot : got s = wanted s := by
          rw [got, wanted]
          split
          · rfl
          · congr 1
            apply List.map_congr_left
            intro a haa
            exact (actual_eq_shown (hf.args a haa).1 (hf.args a haa).2).2 (ha a haa)
        refine ⟨bs :: bss, by simp [List.mapM_cons, Sent.bytes, h1, hb], ?_⟩
        intro hl
        rw [List.flatten_cons, List.length_append] at hl
        obtain ⟨n, rfl⟩ : ∃ n, fuel = n + 1 := ⟨fuel - 1, by omega⟩
        rw [Nat.add_sub_cancel] at hr
        have hr' := hr (by omega)
        rw [List.flatten_cons, readLogs_record (hd db hk _) (by simp [hne]), hr']
        simp [Sent.stmt?, hgot]
      | version v t =>
        obtain ⟨b, r, h1, hb0⟩ := versionRecord_type (hv v t List.mem_cons_self) t
        refine ⟨(b :: r) :: bss, by simp [List.mapM_cons, Sent.bytes, h1, hb], ?_⟩
        intro hl
        rw [List.flatten_cons, List.length_append] at hl
        obtain ⟨n, rfl⟩ : ∃ n, fuel = n + 1 := ⟨fuel - 1, by simp at hl; omega⟩
        rw [List.flatten_cons, List.cons_append, readLogs, readRecord, if_neg (by omega), if_neg (by omega), if_neg (by omega)]
        simp [Sent.stmt?]
  obtain ⟨bss, hb, -⟩ := key 0 xs h hv
  obtain ⟨bss', hb', hr⟩ := key bss.flatten.length xs h hv
  rw [hb] at hb'
  cases hb'
  exact ⟨bss, hb, hr (Nat.le_refl _)⟩

example : ([.stmt ⟨4, 0x12345, 17, 0, []⟩, .stmt ⟨4, 0x12345, 17, 0, []⟩, .version 42 [118, 49],
      .stmt ⟨4, 0x12345, 17, 0, []⟩].mapM Sent.bytes).map (fun bss => decode exDb bss.flatten) =
    some ([.short 0x12345, .short 0x12345], false) := by
  decide +kernel

/-! ## C47 -/

/-- The version record can be read back whole. Missing from the full statement: texts whose length does
not fit the length of the record. -/
theorem C47_version_partial {v : Nat} (hv : v < 2 ^ 64) (s : List Nat) (hs : s.length + 8 < 2 ^ 16) :
    ∃ bs, versionRecord v s = some bs ∧ readVersion bs = some (v, s) := by
  rw [versionRecord]
  split
  · next h =>
    rw [List.isEmpty_iff.mp h.1]
    exact readVersion_compact32 (bitWidth_le h.2)
  · split
    · next h =>
      rw [List.isEmpty_iff.mp h.1]
      exact readVersion_compact64 (bitWidth_le h.2)
    · obtain ⟨bs, hb, h⟩ := readVersion_normal hv s
      exact ⟨bs, hb, by rw [h, if_pos hs]⟩

/-- A longer text does not fit: the length in the record is taken modulo 2^16, and the record cannot be
read back. -/
theorem C47_violated_length {v : Nat} (hv : v < 2 ^ 64) (s : List Nat) (hs : 2 ^ 16 ≤ s.length + 8) :
    ∃ bs, versionRecord v s = some bs ∧ readVersion bs = none := by
  obtain ⟨bs, hb, h⟩ := readVersion_normal hv s
  refine ⟨bs, ?_, by rw [h, if_neg (by omega)]⟩
  have hne : s.isEmpty = false := by
    cases s with
    | nil => simp at hs
    | cons a s => rfl
  rw [versionRecord, if_neg (by simp [hne]), if_neg (by simp [hne]), hb]

example : ∃ bs, versionRecord 1 (List.replicate 65528 97) = some bs ∧ readVersion bs = none :=
  C47_violated_length (by decide) _ (by rw [List.length_replicate]; decide)

/-- C47: the record holds the whole build version exactly when the text is short enough. -/
theorem C47_exact {v : Nat} (hv : v < 2 ^ 64) (s : List Nat) :
    (versionRecord v s).bind readVersion = some (v, s) ↔ s.length + 8 < 2 ^ 16 := by
  constructor
  · intro h
    by_contra hs
    obtain ⟨bs, h1, h2⟩ := C47_violated_length hv s (by omega)
    rw [h1, Option.bind_some, h2] at h
    cases h
  · intro hs
    obtain ⟨bs, h1, h2⟩ := C47_version_partial hv s hs
    rw [h1, Option.bind_some, h2]

/-- No two versions share a record. -/
theorem C47_injective {v w : Nat} (hv : v < 2 ^ 64) (hw : w < 2 ^ 64) {s t : List Nat}
    (hs : s.length + 8 < 2 ^ 16) (ht : t.length + 8 < 2 ^ 16) (h : versionRecord v s = versionRecord w t) :
    v = w ∧ s = t := by
  obtain ⟨b, hb, h1⟩ := C47_version_partial hv s hs
  obtain ⟨c, hc, h2⟩ := C47_version_partial hw t ht
  rw [hb, hc, Option.some.injEq] at h
  rw [h, h2, Option.some.injEq, Prod.mk.injEq] at h1
  exact ⟨h1.1.symm, h1.2.symm⟩

example : (versionRecord (2 ^ 22 - 1) []).bind readVersion = some (2 ^ 22 - 1, []) ∧
    (versionRecord (2 ^ 54 - 1) []).bind readVersion = some (2 ^ 54 - 1, []) ∧
    (versionRecord (2 ^ 64 - 1) []).bind readVersion = some (2 ^ 64 - 1, []) ∧
    (versionRecord 7 [104, 105]).bind readVersion = some (7, [104, 105]) := by
  decide +kernel

end Verif.Log
