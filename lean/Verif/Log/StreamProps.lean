import Verif.Log.StreamSpec
import Verif.Log.Props
import Verif.Log.HeaderLemmas
import Mathlib.Tactic.Ring

/-! # Which files the decoder accepts -/
namespace Verif.Log

/-- Bytes. -/
def Bytes (bs : List Nat) : Prop := ∀ b ∈ bs, b < 256

theorem Bytes.append {p q : List Nat} (h : Bytes (p ++ q)) : Bytes p ∧ Bytes q :=
  ⟨fun b hb => h b (List.mem_append_left _ hb), fun b hb => h b (List.mem_append_right _ hb)⟩

theorem pow_bytes (n : Nat) : 256 ^ n = 2 ^ (8 * n) := by rw [Nat.pow_mul]

theorem formatSize_width (p : Prim) (n : Nat) : formatSize p n = width p n := by
  cases p <;> rfl

theorem width_pos (p : Prim) (n : Nat) : 0 < width p n := by
  cases p <;> simp only [width] <;> first | omega | (split <;> omega)

theorem signedLe_bmod {bs : List Nat} (h : Bytes bs) (hl : 0 < bs.length) :
    signedLe bs = Int.bmod (fromLe bs) (2 ^ (8 * bs.length)) := by
  have hlt := fromLe_lt bs h
  rw [pow_bytes] at hlt
  obtain ⟨k, hk⟩ : ∃ k, 8 * bs.length = k + 1 := ⟨8 * bs.length - 1, by omega⟩
  rw [signedLe, hk, Nat.add_sub_cancel]
  rw [hk] at hlt
  have hp : (2 : Nat) ^ (k + 1) = 2 * 2 ^ k := by rw [Nat.pow_succ, Nat.mul_comm]
  have hpi : (2 : Int) ^ (k + 1) = 2 * 2 ^ k := by rw [Int.pow_succ, Int.mul_comm]
  have hcast : ((2 ^ k : Nat) : Int) = (2 : Int) ^ k := by push_cast; rfl
  rw [Int.bmod_def, hp]
  have hm : ((fromLe bs : Int) % ((2 * 2 ^ k : Nat) : Int)) = fromLe bs :=
    Int.emod_eq_of_lt (by omega) (by rw [hp] at hlt; exact_mod_cast hlt)
  rw [hm]
  have hd : (((2 * 2 ^ k : Nat) : Int) + 1) / 2 = (2 ^ k : Nat) := by push_cast; omega
  rw [hd, hpi, ← hcast]
  by_cases hx : fromLe bs < 2 ^ k
  · rw [if_pos hx, if_pos (by exact_mod_cast hx)]
  · rw [if_neg hx, if_neg (by exact_mod_cast hx)]
    push_cast
    rfl

theorem bmod_small : ∀ x : Nat, x < 256 → (Int.bmod (x : Int) (2 ^ (8 * 1)) = 1 ↔ x = 1) := by
  decide +kernel

theorem convert_iff {p : Prim} {seq : List Nat} (h : Bytes seq) {v : PyVal} : convert p seq = some v ↔
    width p seq.length ≤ seq.length ∧
      v = meant p (width p seq.length) (fromLe seq % 2 ^ (8 * width p seq.length)) := by
  have hw := width_pos p seq.length
  rw [convert, formatSize_width]
  dsimp only
  by_cases hl : width p seq.length ≤ seq.length
  · have hlen : (seq.take (width p seq.length)).length = width p seq.length := by rw [List.length_take]; omega
    have hb : Bytes (seq.take (width p seq.length)) := fun b hb => h b (List.mem_of_mem_take hb)
    rw [if_pos hlen, ← pow_bytes, ← fromLe_take _ h _ hl]
    have hs := signedLe_bmod hb (by omega)
    rw [hlen] at hs
    have hlt := fromLe_lt _ hb
    rw [hlen] at hlt
    generalize hx : fromLe (seq.take (width p seq.length)) = x
    have : (if p = .bool ∧ unpack p (seq.take (width p seq.length)) = .int 1 then some (.int (-1)) else
        some (unpack p (seq.take (width p seq.length)))) = some (meant p (width p seq.length) x) := by
      by_cases hp : p = .bool
      · subst hp
        have hb := bmod_small x (by rw [← hx]; exact hlt)
        have hs' : signedLe (seq.take 1) = Int.bmod x (2 ^ (8 * 1)) := by rw [← hx]; exact hs
        have hu : unpack .bool (seq.take (width .bool seq.length)) = .int (Int.bmod x (2 ^ (8 * 1))) :=
          congrArg PyVal.int hs'
        have hm : meant .bool (width .bool seq.length) x =
          .int (if x = 1 then -1 else Int.bmod x (2 ^ (8 * 1))) := rfl
        rw [hm]
        by_cases h1 : x = 1
        · rw [if_pos h1, if_pos ⟨rfl, by rw [hu, hb.2 h1]⟩]
        · rw [if_neg h1, if_neg, hu]
          rintro ⟨-, h2⟩
          rw [hu] at h2
          exact h1 (hb.1 (PyVal.int.inj h2))
      · rw [if_neg fun h => hp h.1, ← hx]
        congr 1
        cases p <;> first | rfl | exact absurd rfl hp | exact congrArg PyVal.int hs
    rw [this]
    constructor
    · rintro h
      cases h
      exact ⟨hl, rfl⟩
    · rintro ⟨-, rfl⟩
      rfl
  · have hlen : (seq.take (width p seq.length)).length ≠ width p seq.length := by rw [List.length_take]; omega
    rw [if_neg hlen]
    constructor
    · intro h; cases h
    · exact fun h => absurd h.1 hl

theorem extractArg_iff {t : Tag} {bs : List Nat} (h : Bytes bs) {d : Decoded} {rest : List Nat} :
    extractArg t bs = some (d, rest) ↔ ArgIs t (bs.take t.size) d ∧ rest = bs.drop t.size := by
  have key : ∀ (p : Prim) (n : Nat) (f : PyVal → Decoded), ((convert p (bs.take n)).map fun v => (f v, bs.drop n)) =
      some (d, rest) ↔ (width p (bs.take n).length ≤ (bs.take n).length ∧ d = f (meant p (width p (bs.take n).length)
        (fromLe (bs.take n) % 2 ^ (8 * width p (bs.take n).length)))) ∧ rest = bs.drop n := by
    intro p n f
    have hb : Bytes (bs.take n) := fun b hb => h b (List.mem_of_mem_take hb)
    rw [Option.map_eq_some_iff]
    constructor
    · rintro ⟨v, hv, he⟩
      rw [convert_iff hb] at hv
      cases he
      exact ⟨⟨hv.1, by rw [← hv.2]⟩, rfl⟩
    · rintro ⟨⟨h1, h2⟩, h3⟩
      exact ⟨_, (convert_iff hb).2 ⟨h1, rfl⟩, by rw [h2, h3]⟩
  rw [ArgIs]
  rcases t with (p | e) | (p | e) | (p | e) | (p | e) | ⟨e, p, n⟩ <;> exact key _ _ _

theorem not_arg_nil (t : Tag) (d : Decoded) : ¬ ArgIs t [] d := by
  rintro ⟨h, -⟩
  have := width_pos t.read ([] : List Nat).length
  rw [List.length_nil] at *
  omega

theorem extractArgs_iff {ts : List Tag} {bs : List Nat} (h : Bytes bs) {ds : List Decoded} {rest : List Nat} :
    extractArgs ts bs = some (ds, rest) ↔
      (∃ p, bs = p ++ rest ∧ ArgsAre ts p ds) ∨ (rest = [] ∧ ArgsCut ts bs ds) := by
  induction ts generalizing bs ds with
  | nil =>
    rw [extractArgs]
    constructor
    · intro h
      cases h
      exact .inl ⟨[], rfl, .nil⟩
    · rintro (⟨p, rfl, hp⟩ | ⟨-, hp⟩)
      · cases hp; rfl
      · cases hp
  | cons t ts ih =>
    simp only [extractArgs, Option.bind_eq_bind, Option.bind_eq_some_iff, Option.pure_def, Option.some.injEq,
      Prod.mk.injEq]
    constructor
    · rintro ⟨⟨d, r⟩, h1, ⟨ds', r'⟩, h2, rfl, rfl⟩
      rw [extractArg_iff h] at h1
      obtain ⟨ha, rfl⟩ := h1
      have hb : Bytes (bs.drop t.size) := fun b hb => h b (List.mem_of_mem_drop hb)
      rw [ih hb] at h2
      by_cases hl : t.size ≤ bs.length
      · have hlen : (bs.take t.size).length = t.size := by rw [List.length_take]; omega
        rcases h2 with ⟨p, hp, hA⟩ | ⟨rfl, hC⟩
        · exact .inl ⟨bs.take t.size ++ p, by rw [List.append_assoc, ← hp, List.take_append_drop], .cons hlen ha hA⟩
        · refine .inr ⟨rfl, ?_⟩
          have := ArgsCut.cons hlen ha hC
          rwa [List.take_append_drop] at this
      · have ht : bs.take t.size = bs := List.take_of_length_le (by omega)
        have hd : bs.drop t.size = [] := List.drop_of_length_le (by omega)
        rw [ht] at ha
        rw [hd] at h2
        rcases h2 with ⟨p, hp, hA⟩ | ⟨rfl, hC⟩
        · rw [eq_comm, List.append_eq_nil_iff] at hp
          obtain ⟨rfl, rfl⟩ := hp
          refine .inr ⟨rfl, ?_⟩
          generalize hn : ([] : List Nat) = z at hA
          cases hA with
          | nil => exact .last (by omega) ha
          | cons hp' hd' hr' =>
            rw [eq_comm, List.append_eq_nil_iff] at hn
            rw [hn.1] at hd'
            exact absurd hd' (not_arg_nil _ _)
        · generalize hn : ([] : List Nat) = z at hC
          cases hC with
          | last h1 h2 => rw [← hn] at h2; exact absurd h2 (not_arg_nil _ _)
          | cons hp' hd' hr' =>
            rw [eq_comm, List.append_eq_nil_iff] at hn
            rw [hn.1] at hd'
            exact absurd hd' (not_arg_nil _ _)
    · rintro (⟨p, rfl, hA⟩ | ⟨rfl, hC⟩)
      · cases hA with
        | cons hl ha hr =>
          rename_i p q d ds
          refine ⟨(d, q ++ rest), ?_, (ds, rest), ?_, rfl, rfl⟩
          · rw [extractArg_iff h, List.append_assoc, ← hl, List.take_left, List.drop_left]
            exact ⟨ha, rfl⟩
          · rw [List.append_assoc] at h
            exact (ih h.append.2).2 (.inl ⟨q, rfl, hr⟩)
      · cases hC with
        | last hl ha =>
          rename_i d
          refine ⟨(d, []), ?_, ([], []), rfl, rfl, rfl⟩
          rw [extractArg_iff h, List.take_of_length_le (by omega), List.drop_of_length_le (by omega)]
          exact ⟨ha, rfl⟩
        | cons hl ha hr =>
          rename_i p q d ds
          refine ⟨(d, q), ?_, (ds, []), ?_, rfl, rfl⟩
          · rw [extractArg_iff h, ← hl, List.take_left, List.drop_left]
            exact ⟨ha, rfl⟩
          · exact (ih h.append.2).2 (.inr ⟨rfl, hr⟩)

theorem readWord_iff {bs : List Nat} {w : Nat} {rest : List Nat} :
    readWord bs = some (w, rest) ↔ ∃ p, p.length = 4 ∧ bs = p ++ rest ∧ w = fromLe p := by
  rw [readWord]
  constructor
  · intro h
    split at h
    · cases h
      exact ⟨bs.take 4, by rw [List.length_take]; omega, (List.take_append_drop 4 bs).symm, rfl⟩
    · cases h
  · rintro ⟨p, hp, rfl, rfl⟩
    rw [if_pos (by rw [List.length_append]; omega), ← hp, List.take_left, List.drop_left]


theorem readCatalog_iff {db : Db} {bs : List Nat} (h : Bytes bs) (h3 : fromLe (bs.take 4) % 16 = 3) {x : Rec}
    {rest : List Nat} : readCatalog db bs = some (x, rest) ↔
      (∃ p, bs = p ++ rest ∧ CatalogIs db ArgsAre p x) ∨ (rest = [] ∧ CatalogIs db ArgsCut bs x) := by
  constructor
  · intro hr
    rw [readCatalog] at hr
    obtain ⟨⟨w, r1⟩, hw, hr⟩ := Option.bind_eq_some_iff.1 hr
    rw [readWord_iff] at hw
    obtain ⟨p1, hp1, rfl, rfl⟩ := hw
    dsimp only at hr
    split at hr
    · cases hr
    rename_i hc
    rw [not_not] at hc
    split at hr
    · cases hr
    rename_i hm
    obtain ⟨⟨i, r2⟩, hi, hr⟩ := Option.bind_eq_some_iff.1 hr
    rw [readWord_iff] at hi
    obtain ⟨p2, hp2, rfl, rfl⟩ := hi
    obtain ⟨tags, ht, hr⟩ := Option.bind_eq_some_iff.1 hr
    obtain ⟨⟨ds, r3⟩, ha, hr⟩ := Option.bind_eq_some_iff.1 hr
    cases hr
    rw [extractArgs_iff h.append.2.append.2] at ha
    have hl := fromLe_lt _ h.append.1
    rw [hp1] at hl
    rw [← hp1, List.take_left] at h3
    have hm' : db.modules (fromLe p1 / 2 ^ 16 % 2 ^ 7) = true := by simpa using hm
    have mk : ∀ (A : List Tag → List Nat → List Decoded → Prop) (p : List Nat), A tags p ds →
        CatalogIs db A (p1 ++ (p2 ++ p)) (.catalog (fromLe p1 / 2 ^ 4 % 2 ^ 3) (fromLe p1 / 2 ^ 16 % 2 ^ 7)
          (fromLe p1 / 2 ^ 12 % 2 ^ 4) (fromLe p2) ds) := by
      intro A p hA
      refine ⟨p1, p2, p, _, _, _, fromLe p1 / 2 ^ 7 % 2 ^ 5, fromLe p1 / 2 ^ 23 % 2, fromLe p1 / 2 ^ 30, tags, ds, rfl,
        hp1, hp2, ?_, ?_, ?_, ?_, ?_, ?_, ?_, hm', ht, hA, rfl⟩ <;> omega
    rcases ha with ⟨p, rfl, hA⟩ | ⟨rfl, hC⟩
    · exact .inl ⟨p1 ++ (p2 ++ p), by simp only [List.append_assoc], mk _ _ hA⟩
    · exact .inr ⟨rfl, mk _ _ hC⟩
  · have mk : ∀ (A : List Tag → List Nat → List Decoded → Prop) (p r : List Nat), Bytes (p ++ r) →
        (∀ tags q ds, Bytes (q ++ r) → A tags q ds → extractArgs tags (q ++ r) = some (ds, r)) →
        CatalogIs db A p x → readCatalog db (p ++ r) = some (x, r) := by
      rintro A p r hb hA ⟨h, i, q, severity, module, unit, a, b, c, tags, ds, rfl, hh, hi, hv, h1, h2, h3, h4, h5, h6,
        hm, ht, hq, rfl⟩
      rw [List.append_assoc, List.append_assoc] at hb ⊢
      have e1 : readWord (h ++ (i ++ (q ++ r))) = some (fromLe h, i ++ (q ++ r)) :=
        readWord_iff.2 ⟨h, hh, rfl, rfl⟩
      have e2 : readWord (i ++ (q ++ r)) = some (fromLe i, q ++ r) := readWord_iff.2 ⟨i, hi, rfl, rfl⟩
      have e3 := hA tags q ds hb.append.2.append.2 hq
      have f1 : fromLe h / 2 ^ 24 % 2 ^ 6 = 1 := by omega
      have f2 : fromLe h / 2 ^ 16 % 2 ^ 7 = module := by omega
      have f3 : fromLe h / 2 ^ 4 % 2 ^ 3 = severity := by omega
      have f4 : fromLe h / 2 ^ 12 % 2 ^ 4 = unit := by omega
      rw [readCatalog]
      simp only [Option.bind_eq_bind, e1, Option.bind_some, f1, f2, f3, f4, hm, e2, ht, e3, ne_eq, not_true_eq_false,
        if_false, Bool.not_true, Bool.false_eq_true, Option.pure_def]
    rintro (⟨p, rfl, hc⟩ | ⟨rfl, hc⟩)
    · exact mk _ _ _ h (fun tags q ds hb hA => (extractArgs_iff hb).2 (.inl ⟨q, rfl, hA⟩)) hc
    · have := mk ArgsCut bs [] (by rwa [List.append_nil]) (fun tags q ds hb hA => by
        rw [extractArgs_iff hb]
        exact .inr ⟨rfl, by rwa [List.append_nil]⟩) hc
      rwa [List.append_nil] at this

theorem IsRec.four {db : Db} {p : List Nat} {x : Rec} (h : IsRec db p x) : 4 ≤ p.length := by
  rcases h with ⟨h, -, -⟩ | ⟨h, -, -⟩ | ⟨h, i, q, -, -, -, -, -, -, -, -, rfl, hh, -⟩
  · omega
  · omega
  · rw [List.length_append]; omega

theorem fromLe_head {b : Nat} {bs : List Nat} : fromLe (b :: bs) % 16 = b % 16 := by
  rw [fromLe]; omega

theorem fromLe_take_mod {b : Nat} {r p q : List Nat} (h : b :: r = p ++ q) (hp : 0 < p.length) :
    fromLe p % 16 = b % 16 := by
  cases p with
  | nil => cases hp
  | cons c p =>
    cases h
    exact fromLe_head

theorem readShort_iff {db : Db} {bs : List Nat} (h : Bytes bs) (h1 : fromLe (bs.take 4) % 16 = 1) {x : Rec}
    {rest : List Nat} : readShort db bs = some (x, rest) ↔ ∃ p id, bs = p ++ rest ∧ p.length = 4 ∧
      fromLe p = 1 + 2 ^ 4 * id ∧ db.messages id ≠ none ∧ x = .short id := by
  constructor
  · intro hr
    rw [readShort] at hr
    obtain ⟨⟨w, r1⟩, hw, hr⟩ := Option.bind_eq_some_iff.1 hr
    rw [readWord_iff] at hw
    obtain ⟨p, hp, rfl, rfl⟩ := hw
    obtain ⟨tags, ht, hr⟩ := Option.bind_eq_some_iff.1 hr
    cases hr
    have hl := fromLe_lt _ h.append.1
    rw [hp] at hl
    rw [← hp, List.take_left] at h1
    exact ⟨p, _, rfl, hp, by omega, by rw [ht]; exact Option.some_ne_none _, rfl⟩
  · rintro ⟨p, id, rfl, hp, hv, hm, rfl⟩
    have hl := fromLe_lt _ h.append.1
    rw [hp] at hl
    have e1 : readWord (p ++ rest) = some (fromLe p, rest) := readWord_iff.2 ⟨p, hp, rfl, rfl⟩
    have e2 : fromLe p / 2 ^ 4 % 2 ^ 28 = id := by omega
    obtain ⟨tags, ht⟩ := Option.ne_none_iff_exists'.1 hm
    rw [readShort]
    simp only [Option.bind_eq_bind, e1, Option.bind_some, e2, ht, Option.pure_def]

theorem readShort64_iff {db : Db} {bs : List Nat} (h : Bytes bs) (h1 : fromLe (bs.take 8) % 16 = 7) {x : Rec}
    {rest : List Nat} : readShort64 db bs = some (x, rest) ↔ ∃ p id, bs = p ++ rest ∧ p.length = 8 ∧
      fromLe p = 7 + 2 ^ 4 * id ∧ db.messages id ≠ none ∧ x = .short id := by
  constructor
  · intro hr
    rw [readShort64] at hr
    split at hr
    · cases hr
    rename_i hn
    have hp : (bs.take 8).length = 8 := by rw [List.length_take]; omega
    obtain ⟨tags, ht, hr⟩ := Option.bind_eq_some_iff.1 hr
    cases hr
    have hl := fromLe_lt _ (fun b hb => h b (List.mem_of_mem_take hb) : Bytes (bs.take 8))
    rw [hp] at hl
    exact ⟨bs.take 8, _, (List.take_append_drop 8 bs).symm, hp, by omega, by rw [ht]; exact Option.some_ne_none _, rfl⟩
  · rintro ⟨p, id, rfl, hp, hv, hm, rfl⟩
    have hl := fromLe_lt _ h.append.1
    rw [hp] at hl
    have e2 : fromLe p / 2 ^ 4 % 2 ^ 60 = id := by omega
    obtain ⟨tags, ht⟩ := Option.ne_none_iff_exists'.1 hm
    have hn : ¬ (p ++ rest).length < 8 := by rw [List.length_append]; omega
    rw [readShort64, if_neg hn, ← hp, List.take_left, List.drop_left]
    simp only [Option.bind_eq_bind, e2, ht, Option.bind_some, Option.pure_def]

/-- A record that is cut off in its last argument. -/
def CutRec (db : Db) (p : List Nat) (x : Rec) : Prop := CatalogIs db ArgsCut p x

theorem CatalogIs.mod {db A p x} (h : CatalogIs db A p x) {b r q} (hb : b :: r = p ++ q) : b % 16 = 3 := by
  obtain ⟨h, i, z, severity, module, unit, a, b', c, tags, ds, rfl, hh, -, hv, -⟩ := h
  rw [List.append_assoc] at hb
  have := fromLe_take_mod hb (by omega)
  omega

theorem readRecord_iff {db : Db} {bs : List Nat} (h : Bytes bs) {x : Rec} {rest : List Nat} :
    readRecord db bs = some (x, rest) ↔ (∃ p, bs = p ++ rest ∧ IsRec db p x) ∨ (rest = [] ∧ CutRec db bs x) := by
  cases bs with
  | nil =>
    constructor
    · intro h; cases h
    · rintro (⟨p, hp, hr⟩ | ⟨-, hr⟩)
      · have := hr.four
        have := congrArg List.length hp
        rw [List.length_append, List.length_nil] at this
        omega
      · obtain ⟨h, i, q, -, -, -, -, -, -, -, -, hn, hh, -⟩ := hr
        have := congrArg List.length hn
        rw [List.length_append, List.length_nil] at this
        omega
  | cons b r =>
    have m4 : fromLe ((b :: r).take 4) % 16 = b % 16 := fromLe_head
    have m8 : fromLe ((b :: r).take 8) % 16 = b % 16 := fromLe_head
    have shortM : ∀ {p id k q}, b :: r = p ++ q → 4 ≤ p.length → k < 16 → fromLe p = k + 2 ^ 4 * id → b % 16 = k := by
      intro p id k q hb hp hk hv
      have := fromLe_take_mod hb (by omega)
      omega
    rw [readRecord]
    split
    · rename_i hb
      rw [readShort_iff h (m4.trans hb)]
      constructor
      · rintro ⟨p, id, hp, hl, hv, hm, rfl⟩
        exact .inl ⟨p, hp, .short hl hv hm⟩
      · rintro (⟨p, hp, hr⟩ | ⟨-, hr⟩)
        · cases hr with
          | short hl hv hm => exact ⟨p, _, hp, hl, hv, hm, rfl⟩
          | short64 hl hv hm =>
            have := shortM hp (by omega) (by omega) hv
            omega
          | catalog hc =>
            have := hc.mod hp
            omega
        · have := CatalogIs.mod hr (List.append_nil _).symm
          omega
    split
    · rename_i hb
      rw [readCatalog_iff h (m4.trans hb)]
      refine or_congr (exists_congr fun p => and_congr_right fun hp => ⟨.catalog, fun hr => ?_⟩) Iff.rfl
      cases hr with
      | short hl hv hm =>
        have := shortM hp (by omega) (by omega) hv
        omega
      | short64 hl hv hm =>
        have := shortM hp (by omega) (by omega) hv
        omega
      | catalog hc => exact hc
    split
    · rename_i hb
      rw [readShort64_iff h (m8.trans hb)]
      constructor
      · rintro ⟨p, id, hp, hl, hv, hm, rfl⟩
        exact .inl ⟨p, hp, .short64 hl hv hm⟩
      · rintro (⟨p, hp, hr⟩ | ⟨-, hr⟩)
        · cases hr with
          | short64 hl hv hm => exact ⟨p, _, hp, hl, hv, hm, rfl⟩
          | short hl hv hm =>
            have := shortM hp (by omega) (by omega) hv
            omega
          | catalog hc =>
            have := hc.mod hp
            omega
        · have := CatalogIs.mod hr (List.append_nil _).symm
          omega
    · constructor
      · intro h; cases h
      · rintro (⟨p, hp, hr⟩ | ⟨-, hr⟩)
        · cases hr with
          | short hl hv hm =>
            have := shortM hp (by omega) (by omega) hv
            omega
          | short64 hl hv hm =>
            have := shortM hp (by omega) (by omega) hv
            omega
          | catalog hc =>
            have := hc.mod hp
            omega
        · have := CatalogIs.mod hr (List.append_nil _).symm
          omega

/-! ### Whole files -/

/-- What the decoder accepts: complete records, and at the end perhaps one that is cut off. -/
inductive Accepted (db : Db) : List Nat → List Rec → Prop
  | nil : Accepted db [] []
  | cut {p x} : CutRec db p x → Accepted db p [x]
  | cons {p q x xs} : IsRec db p x → Accepted db q xs → Accepted db (p ++ q) (x :: xs)

/-- No record at the front. -/
def Unreadable (db : Db) (q : List Nat) : Prop :=
  q ≠ [] ∧ (∀ p r x, q = p ++ r → ¬ IsRec db p x) ∧ ∀ x, ¬ CutRec db q x

theorem CutRec.ne {db p x} (h : CutRec db p x) : p ≠ [] := by
  obtain ⟨h, i, q, -, -, -, -, -, -, -, -, rfl, hh, -⟩ := h
  intro hn
  have := congrArg List.length hn
  rw [List.length_append, List.length_nil] at this
  omega

theorem readLogs_good {db : Db} {bs : List Nat} {rs : List Rec} (ha : Accepted db bs rs) (h : Bytes bs) {fuel : Nat}
    (hf : bs.length ≤ fuel) : readLogs db fuel bs = (rs, true) := by
  induction ha generalizing fuel with
  | nil => cases fuel <;> rfl
  | @cut p x hc =>
    have hr := (readRecord_iff h (rest := [])).2 (.inr ⟨rfl, hc⟩)
    cases p with
    | nil => exact absurd rfl hc.ne
    | cons b r =>
      cases fuel with
      | zero => cases hf
      | succ fuel =>
        rw [readLogs, hr]
        cases fuel <;> rfl
  | @cons p q x xs hp hq ih =>
    have h4 := hp.four
    have hr := (readRecord_iff h).2 (.inl ⟨p, rfl, hp⟩)
    cases p with
    | nil => cases h4
    | cons b r =>
      cases fuel with
      | zero => rw [List.cons_append] at hf; cases hf
      | succ fuel =>
        rw [List.cons_append] at hr hf ⊢
        rw [readLogs, hr]
        dsimp only
        rw [ih h.append.2 (by rw [List.length_cons, List.length_append] at hf; omega)]

theorem readLogs_bad {db : Db} {bs q : List Nat} {rs : List Rec} (ha : Stream db bs rs) (hq : Unreadable db q)
    (h : Bytes (bs ++ q)) {fuel : Nat} (hf : (bs ++ q).length ≤ fuel) : readLogs db fuel (bs ++ q) = (rs, false) := by
  induction ha generalizing fuel with
  | nil =>
    rw [List.nil_append] at *
    have hn : readRecord db q = none := by
      rw [Option.eq_none_iff_forall_ne_some]
      rintro ⟨x, rest⟩ hr
      rcases (readRecord_iff h).1 hr with ⟨p, hp, hr⟩ | ⟨-, hr⟩
      · exact hq.2.1 p rest x hp hr
      · exact hq.2.2 x hr
    cases q with
    | nil => exact absurd rfl hq.1
    | cons b r =>
      cases fuel with
      | zero => cases hf
      | succ fuel => rw [readLogs, hn]
  | @cons p q' x xs hp hs ih =>
    have h4 := hp.four
    rw [List.append_assoc] at h hf ⊢
    have hr := (readRecord_iff h).2 (.inl ⟨p, rfl, hp⟩)
    cases p with
    | nil => cases h4
    | cons b r =>
      cases fuel with
      | zero => cases hf
      | succ fuel =>
        rw [List.cons_append] at hr hf ⊢
        rw [readLogs, hr]
        dsimp only
        rw [ih h.append.2 (by rw [List.length_cons, List.length_append] at hf; omega)]

/-- Every file is of one of the two kinds. -/
theorem accepted_or (db : Db) (bs : List Nat) (h : Bytes bs) : (∃ rs, Accepted db bs rs) ∨
    ∃ p q rs, bs = p ++ q ∧ Stream db p rs ∧ Unreadable db q := by
  induction hn : bs.length using Nat.strongRecOn generalizing bs with
  | ind n ih =>
    by_cases h0 : bs = []
    · subst h0
      exact .inl ⟨[], .nil⟩
    by_cases hc : ∃ x, CutRec db bs x
    · obtain ⟨x, hc⟩ := hc
      exact .inl ⟨[x], .cut hc⟩
    by_cases hr : ∃ p r x, bs = p ++ r ∧ IsRec db p x
    · obtain ⟨p, r, x, rfl, hr⟩ := hr
      have h4 := hr.four
      rcases ih r.length (by rw [← hn, List.length_append]; omega) r h.append.2 rfl with ⟨rs, ha⟩ | ⟨p', q, rs, rfl, hs, hu⟩
      · exact .inl ⟨_, .cons hr ha⟩
      · exact .inr ⟨p ++ p', q, _, (List.append_assoc ..).symm, .cons hr hs, hu⟩
    · exact .inr ⟨[], bs, [], rfl, .nil, h0, fun p r x hp hx => hr ⟨p, r, x, hp, hx⟩, fun x hx => hc ⟨x, hx⟩⟩

/-- **C171** The decoder goes through a file without an error exactly if it is a sequence of complete records, the
last of which may be cut off in its last argument, and what it prints is what the bytes stand for. -/
theorem C171_exact (db : Db) (bs : List Nat) (h : Bytes bs) (rs : List Rec) :
    decode db bs = (rs, true) ↔ Accepted db bs rs := by
  constructor
  · intro hd
    rcases accepted_or db bs h with ⟨rs', ha⟩ | ⟨p, q, rs', rfl, hs, hu⟩
    · rw [decode, readLogs_good ha h (Nat.le_refl _)] at hd
      cases hd
      exact ha
    · rw [decode, readLogs_bad hs hu h (Nat.le_refl _)] at hd
      cases hd
  · exact fun ha => readLogs_good ha h (Nat.le_refl _)

/-- **C171** It stops with an error exactly if the file goes on, after complete records, with something that is
neither a record nor a cut one; and it prints the records before. -/
theorem C171_stops (db : Db) (bs : List Nat) (h : Bytes bs) (rs : List Rec) :
    decode db bs = (rs, false) ↔ ∃ p q, bs = p ++ q ∧ Stream db p rs ∧ Unreadable db q := by
  constructor
  · intro hd
    rcases accepted_or db bs h with ⟨rs', ha⟩ | ⟨p, q, rs', rfl, hs, hu⟩
    · rw [decode, readLogs_good ha h (Nat.le_refl _)] at hd
      cases hd
    · rw [decode, readLogs_bad hs hu h (Nat.le_refl _)] at hd
      cases hd
      exact ⟨p, q, rfl, hs, hu⟩
  · rintro ⟨p, q, rfl, hs, hu⟩
    exact readLogs_bad hs hu h (Nat.le_refl _)

theorem ArgsCut.last_tag {ts : List Tag} {p : List Nat} {ds : List Decoded} (h : ArgsCut ts p ds) :
    ∃ t, ts.getLast? = some t ∧ ∃ n < t.size, width t.read n ≤ n := by
  induction h with
  | @last t p d h1 h2 => exact ⟨t, rfl, p.length, h1, h2.1⟩
  | @cons t ts p q d ds h1 h2 h3 ih =>
    obtain ⟨t', ht, hn⟩ := ih
    refine ⟨t', ?_, hn⟩
    cases ts with
    | nil => cases ht
    | cons => rw [List.getLast?_cons_cons]; exact ht

/-- The last argument of a message fills its place: no number of bytes below the size of the place is enough. -/
def Fills (t : Tag) : Prop := ∀ n < t.size, n < width t.read n

/-- **C171** When the last argument of every message of the catalog fills its place, the decoder goes through exactly
the sequences of complete records, so a file that is cut inside a record is noticed. -/
theorem C171_complete_partial (db : Db) (bs : List Nat) (h : Bytes bs)
    (hf : ∀ id tags t, db.messages id = some tags → tags.getLast? = some t → Fills t) (rs : List Rec) :
    decode db bs = (rs, true) ↔ Stream db bs rs := by
  rw [C171_exact db bs h]
  have hc : ∀ p x, ¬ CutRec db p x := by
    rintro p x ⟨h, i, q, severity, module, unit, a, b, c, tags, ds, -, -, -, -, -, -, -, -, -, -, -, ht, hA, -⟩
    obtain ⟨t, h1, n, hn, hw⟩ := hA.last_tag
    have := hf _ _ t ht h1 n hn
    omega
  constructor
  · intro ha
    induction ha with
    | nil => exact .nil
    | cut h' => exact absurd h' (hc _ _)
    | cons h1 _ ih => exact .cons h1 (ih h.append.2)
  · intro ha
    induction ha with
    | nil => exact .nil
    | cons h1 _ ih => exact .cons h1 (ih h.append.2)

/-- A catalog with one message that has one `long` of eight bytes, one with a `short`, one with an `int`. -/
def cutDb : Db where
  messages := fun id => if id = 1 then some [.e64 (.prim (.long 8))] else if id = 2 then some [.e32 (.prim .short)] else
    if id = 3 then some [.e32 (.prim .int)] else none
  modules := fun _ => true

/-- A record is not the beginning of another one. -/
theorem IsRec.unique {db : Db} {p q r : List Nat} {x y : Rec} (h : Bytes (p ++ r)) (hp : IsRec db p x)
    (hq : IsRec db q y) (he : ∃ z, p ++ r = q ++ z) : p = q ∧ x = y := by
  obtain ⟨z, he⟩ := he
  have h1 := (readRecord_iff h).2 (.inl ⟨p, rfl, hp⟩)
  have h2 := (readRecord_iff h).2 (.inl ⟨q, he, hq⟩)
  rw [h1] at h2
  cases h2
  exact ⟨List.append_cancel_right he, rfl⟩

/-- **C171** When the last argument of every message fills its place, a file that ends inside a record is noticed: the
complete records before are printed, and then there is an error. -/
theorem C171_cut_partial (db : Db) (bs q r : List Nat) (rs : List Rec) (x : Rec) (h : Bytes (bs ++ (q ++ r)))
    (hf : ∀ id tags t, db.messages id = some tags → tags.getLast? = some t → Fills t)
    (hs : Stream db bs rs) (hx : IsRec db (q ++ r) x) (hq : q ≠ []) (hr : r ≠ []) :
    decode db (bs ++ q) = (rs, false) := by
  have hb : Bytes (bs ++ q) := by rw [← List.append_assoc] at h; exact h.append.1
  rw [C171_stops db _ hb]
  refine ⟨bs, q, rfl, hs, hq, ?_, ?_⟩
  · rintro p z y rfl hy
    have := (IsRec.unique (r := []) (by rw [List.append_nil]; exact h.append.2) hx hy
      ⟨z ++ r, by rw [List.append_nil, List.append_assoc]⟩).1
    have := congrArg List.length this
    simp only [List.length_append] at this
    exact hr (List.length_eq_zero_iff.1 (by omega))
  · rintro y ⟨h, i, q, severity, module, unit, a, b, c, tags, ds, -, -, -, -, -, -, -, -, -, -, -, ht, hA, -⟩
    obtain ⟨t, h1, n, hn, hw⟩ := hA.last_tag
    have := hf _ _ t ht h1 n hn
    omega

/-- **C171 violated** A file that is cut inside an eight-byte `long` is read without an error, and with another value:
the record holds `2^32 + 5`, after five of the eight bytes the decoder prints `5`. -/
theorem C171_violated_cut :
    decode cutDb [3, 0, 0, 1, 1, 0, 0, 0, 5, 0, 0, 0, 1, 0, 0, 0] = ([.catalog 0 0 0 1 [.val (.int (2 ^ 32 + 5))]], true) ∧
    decode cutDb [3, 0, 0, 1, 1, 0, 0, 0, 5, 0, 0, 0, 1] = ([.catalog 0 0 0 1 [.val (.int 5)]], true) ∧
    ¬ ∃ rs, Stream cutDb [3, 0, 0, 1, 1, 0, 0, 0, 5, 0, 0, 0, 1] rs := by
  refine ⟨by decide +kernel, by decide +kernel, ?_⟩
  rintro ⟨rs, hs⟩
  generalize hb : [3, 0, 0, 1, 1, 0, 0, 0, 5, 0, 0, 0, 1] = bs at hs
  cases hs with
  | nil => cases hb
  | @cons p q x xs hp hq =>
    have h1 := (readRecord_iff (db := cutDb) (bs := p ++ q) (by rw [← hb, Bytes]; decide)).2 (.inl ⟨p, rfl, hp⟩)
    have h2 : readRecord cutDb [3, 0, 0, 1, 1, 0, 0, 0, 5, 0, 0, 0, 1] =
      some (.catalog 0 0 0 1 [.val (.int 5)], []) := by decide +kernel
    rw [← hb, h2] at h1
    obtain rfl : [] = q := (Prod.mk.inj (Option.some.inj h1)).2
    rw [List.append_nil] at hb
    subst hb
    cases hp with
    | short hl => cases hl
    | short64 hl => cases hl
    | catalog hc =>
      obtain ⟨h, i, q, -, -, -, -, -, -, tags, ds, he, hh, hi, -, -, -, -, -, -, -, -, ht, hA, -⟩ := hc
      obtain ⟨rfl, he'⟩ := List.append_inj (s₁ := [3, 0, 0, 1]) (t₁ := [1, 0, 0, 0, 5, 0, 0, 0, 1]) he hh.symm
      obtain ⟨rfl, rfl⟩ := List.append_inj (s₁ := [1, 0, 0, 0]) (t₁ := [5, 0, 0, 0, 1]) he' hi.symm
      cases ht
      generalize hz : [5, 0, 0, 0, 1] = z at hA
      cases hA with
      | @cons t ts p q d ds hl _ hr =>
        cases hr
        rw [List.append_nil] at hz
        subst hz
        cases hl

/-- The file that ends inside an `int` is noticed. -/
example : decode cutDb [3, 0, 0, 1, 3, 0, 0, 0, 5, 0, 0] = ([], false) := by decide +kernel

/-- A `short` takes four bytes of the file, of which two are enough. -/
example : decode cutDb [3, 0, 0, 1, 2, 0, 0, 0, 5, 0] = ([.catalog 0 0 0 2 [.val (.int 5)]], true) := by
  decide +kernel

/-- Records of all three kinds. -/
example : Stream cutDb ([17, 0, 0, 0] ++ ([23, 0, 0, 0, 0, 0, 0, 0] ++ ([3, 0, 0, 1, 3, 0, 0, 0, 255, 255, 255, 255] ++ [])))
    [.short 1, .short 1, .catalog 0 0 0 3 [.val (.int (-1))]] := by
  refine .cons (.short rfl rfl (by decide)) (.cons (.short64 rfl rfl (by decide)) (.cons (.catalog ?_) .nil))
  refine ⟨[3, 0, 0, 1], [3, 0, 0, 0], [255, 255, 255, 255], 0, 0, 0, 0, 0, 0, _, _, rfl, rfl, rfl, rfl, by decide, by decide,
    by decide, by decide, by decide, by decide, rfl, rfl, ?_, rfl⟩
  exact ArgsAre.cons (p := [255, 255, 255, 255]) (q := []) rfl ⟨by decide, by decide +kernel⟩ .nil

/-- `int` fills its place, `short` and an eight-byte `long` do not. -/
example : Fills (.e32 (.prim .int)) ∧ ¬ Fills (.e32 (.prim .short)) ∧ ¬ Fills (.e64 (.prim (.long 8))) := by
  refine ⟨?_, fun h => absurd (h 2 (by decide)) (by decide), fun h => absurd (h 5 (by decide)) (by decide)⟩
  intro n hn
  exact hn

end Verif.Log
