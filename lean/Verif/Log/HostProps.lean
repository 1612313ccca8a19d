import Verif.Log.HostModel
import Verif.Log.StreamProps

/-! # Records on hosts of either byte order -/
namespace Verif.Log
open Verif.Bits Verif.Message

theorem leBytes_fromLe {bs : List Nat} (h : Bytes bs) : leBytes bs.length (fromLe bs) = bs := by
  induction bs with
  | nil => rfl
  | cons b bs ih =>
    have hb := h b List.mem_cons_self
    rw [List.length_cons, leBytes, fromLe]
    have h1 : (b + 256 * fromLe bs) % 256 = b := by omega
    have h2 : (b + 256 * fromLe bs) / 256 = fromLe bs := by omega
    rw [h1, h2, ih fun x hx => h x (List.mem_cons_of_mem _ hx)]

theorem leBytes_reverse (n x : Nat) : leBytes n (fromLe (leBytes n x).reverse) = (leBytes n x).reverse := by
  have h : Bytes (leBytes n x).reverse := fun b hb => leBytes_lt n x b (List.mem_reverse.1 hb)
  have := leBytes_fromLe h
  rwa [List.length_reverse, leBytes_length] at this

theorem hostPack_eq (big : Bool) (n x : Nat) : hostPack big n x = leBytes n x := by
  cases big
  · rfl
  · rw [hostPack, hostBytes, toLe, if_pos rfl, if_pos rfl, leBytes_reverse, List.reverse_reverse]

theorem toLe_toLe (big : Bool) (n x : Nat) : hostPack big n (toLe big n x) = hostBytes big n x := by
  rw [hostPack_eq]
  cases big
  · rfl
  · rw [toLe, if_pos rfl, leBytes_reverse, hostBytes, if_pos rfl]

theorem hostBytes_length (big : Bool) (n x : Nat) : (hostBytes big n x).length = n := by
  cases big
  · exact leBytes_length n x
  · rw [hostBytes, if_pos rfl, List.length_reverse, leBytes_length]

theorem hostMemory_length (big : Bool) (r : List (BitVec 32)) : (hostMemory big r).length = 4 * r.length := by
  induction r with
  | nil => rfl
  | cons w r ih =>
    rw [hostMemory, List.flatMap_cons, List.length_append, hostBytes_length, List.length_cons]
    rw [hostMemory] at ih
    omega

theorem sum_packSize (as : List (CType × Int)) : (as.map fun a => packSize a.1).sum % 4 = 0 := by
  induction as with
  | nil => rfl
  | cons a as ih =>
    simp only [List.map_cons, List.sum_cons]
    rcases packSize_cases a.1 with h | h <;> omega

theorem catalogOn_words (level id m u : Nat) (args : List (CType × Int)) : ∃ w, w < 2 ^ 32 ∧ ∀ big,
    catalogOn big level id m u args =
      some (hostBytes big 4 w ++ (hostBytes big 4 id ++ (args.map fun a => packBytes a.1 a.2).flatten)) := by
  have hsz : storageSize 32 catalogFields = 1 := by decide
  have h4 := sum_packSize args
  generalize hn : 1 + (4 + (args.map fun a => packSize a.1).sum + 3) / 4 = n
  have L : Layout 32 n catalogFields := layout_grow catalog_layout (by omega)
  obtain ⟨r, hr, hlen, -⟩ := C17_construction L [(fSeverity, level), (fModule, m), (fUnit, u)] (by
    simp [catalogFields, fSeverity, fModule, fUnit, typeF, subtypeF])
  obtain ⟨w, r', rfl⟩ : ∃ w r', r = w :: r' := by
    cases r with
    | nil => simp at hlen; omega
    | cons w r' => exact ⟨w, r', rfl⟩
  refine ⟨w.toNat, w.isLt, fun big => ?_⟩
  have hmem : hostMemory big (w :: r') = hostBytes big 4 w.toNat ++ hostMemory big r' := by simp [hostMemory]
  have hargs : (args.map fun a => hostPack big (packSize a.1) (a.2 % (2 ^ (8 * packSize a.1) : Int)).toNat) =
      args.map fun a => packBytes a.1 a.2 := List.map_congr_left fun a _ => hostPack_eq ..
  simp only [catalogOn, hsz, hn, hr, Option.bind_eq_bind, Option.bind_some, hmem, hargs, toLe_toLe]
  have hp := packAll_spec (hostBytes big 4 id :: args.map fun a => packBytes a.1 a.2) (by
    intro c hc
    rcases List.mem_cons.mp hc with rfl | hc
    · rw [hostBytes_length]
    · obtain ⟨a, -, rfl⟩ := List.mem_map.mp hc
      rw [packBytes_length]
      rcases packSize_cases a.1 with h | h <;> rw [h])
    (hostBytes big 4 w.toNat) (hostMemory big r') (by
      rw [hostMemory_length]
      simp only [List.length_cons] at hlen
      simp only [List.map_cons, hostBytes_length, List.sum_cons, List.map_map, Function.comp_def,
        packBytes_length]
      omega)
  rw [hostBytes_length] at hp
  simpa using hp

theorem shortOn_word (id : Nat) : ∃ w, w < 2 ^ 32 ∧ ∀ big, shortOn big id = some (hostBytes big 4 w) := by
  obtain ⟨r, hr, hlen, -⟩ := C17_construction short_layout [(fPayload, id)] (by simp [shortFields, fPayload])
  obtain ⟨w, rfl⟩ := List.length_eq_one_iff.mp hlen
  refine ⟨w.toNat, w.isLt, fun big => ?_⟩
  rw [shortOn, show storageSize 32 shortFields = 1 from by decide, hr]
  simp [hostMemory]

theorem recordOn_little (s : Stmt) : recordOn false s = record s := by
  rw [recordOn, record]
  have hm : ∀ {W : Nat} (r : List (BitVec W)), hostMemory false r = memory r := fun _ => rfl
  congr 1

theorem hostWords_append (big : Bool) (x : Nat) (bs : List Nat) : byValue big (hostBytes big 4 x ++ bs) =
    leBytes 4 x ++ byValue big bs := by
  obtain ⟨a, b, c, d, h⟩ : ∃ a b c d, leBytes 4 x = [a, b, c, d] := ⟨_, _, _, _, rfl⟩
  have hb : Bytes (leBytes 4 x) := leBytes_lt 4 x
  have hle := leBytes_fromLe hb
  rw [leBytes_length, h] at hle
  rw [hostBytes, h]
  cases big
  · change leBytes 4 (fromLe [a, b, c, d]) ++ _ = _
    rw [hle]
    rfl
  · change leBytes 4 (fromLe [a, b, c, d]) ++ _ = _
    rw [hle]
    rfl

theorem byValue_swapped {bs : List Nat} (h : Bytes bs) : byValue true bs = swapped bs := by
  induction bs using swapped.induct with
  | case1 a b c d bs ih =>
    have hb : Bytes [d, c, b, a] := by
      intro x hx
      apply h
      simp only [List.mem_cons, List.not_mem_nil, or_false] at hx ⊢
      tauto
    have := leBytes_fromLe hb
    rw [swapped, byValue, hostWords, List.flatMap_cons, if_pos rfl]
    rw [byValue] at ih
    rw [ih fun x hx => h x (by simp [hx])]
    change leBytes 4 _ ++ _ = _
    rw [show leBytes 4 (fromLe [d, c, b, a]) = [d, c, b, a] from this]
    rfl
  | case2 bs hbs =>
    rw [swapped.eq_2 _ hbs, byValue, hostWords.eq_2 _ _ hbs]
    rfl

theorem packed_bytes (args : List (CType × Int)) : Bytes (args.map fun a => packBytes a.1 a.2).flatten := by
  intro b hb
  obtain ⟨l, hl, hb⟩ := List.mem_flatten.1 hb
  obtain ⟨a, -, rfl⟩ := List.mem_map.1 hl
  exact leBytes_lt _ _ b hb

theorem byValue_little {bs : List Nat} (h : Bytes bs) (h4 : bs.length % 4 = 0) : byValue false bs = bs := by
  induction bs using swapped.induct with
  | case1 a b c d bs ih =>
    have hb : Bytes [a, b, c, d] := by
      intro x hx
      apply h
      simp only [List.mem_cons, List.not_mem_nil, or_false] at hx ⊢
      tauto
    have hw : leBytes 4 (fromLe [a, b, c, d]) = [a, b, c, d] := leBytes_fromLe hb
    rw [byValue, hostWords, List.flatMap_cons, if_neg (by decide), hw]
    rw [byValue] at ih
    rw [ih (fun x hx => h x (by simp [hx])) (by simp only [List.length_cons] at h4; omega)]
    rfl
  | case2 bs hbs =>
    rcases bs with - | ⟨a, - | ⟨b, - | ⟨c, - | ⟨d, bs⟩⟩⟩⟩
    · rfl
    · simp at h4
    · simp at h4
    · simp at h4
    · exact absurd rfl (hbs a b c d bs)

theorem packed_length (args : List (CType × Int)) : (args.map fun a => packBytes a.1 a.2).flatten.length % 4 = 0 := by
  rw [List.length_flatten, List.map_map]
  have : (List.length ∘ fun a : CType × Int => packBytes a.1 a.2) = fun a => packSize a.1 :=
    funext fun a => packBytes_length ..
  rw [this]
  exact sum_packSize args

/-- The record of a statement on either kind of host. -/
theorem recordOn_words (s : Stmt) : ∃ w, ∀ big, recordOn big s = some (hostBytes big 4 w ++
    if s.args = [] then [] else hostBytes big 4 s.id ++ (s.args.map fun a => packBytes a.1 a.2).flatten) := by
  by_cases h : s.args = []
  · obtain ⟨w, -, hw⟩ := shortOn_word s.id
    refine ⟨w, fun big => ?_⟩
    rw [recordOn, if_pos (List.isEmpty_iff.2 h), hw, if_pos h, List.append_nil]
  · obtain ⟨w, -, hw⟩ := catalogOn_words s.level s.id s.module s.unit s.args
    refine ⟨w, fun big => ?_⟩
    rw [recordOn, if_neg (fun h' => h (List.isEmpty_iff.1 h')), hw, if_neg h]

theorem record_words {s : Stmt} {bs : List Nat} (h : record s = some bs) : ∃ w, (bs = leBytes 4 w ++
    if s.args = [] then [] else leBytes 4 s.id ++ (s.args.map fun a => packBytes a.1 a.2).flatten) ∧
    recordOn true s = some ((leBytes 4 w).reverse ++
      if s.args = [] then [] else (leBytes 4 s.id).reverse ++ (s.args.map fun a => packBytes a.1 a.2).flatten) := by
  obtain ⟨w, hw⟩ := recordOn_words s
  refine ⟨w, ?_, hw true⟩
  rw [← recordOn_little, hw false] at h
  exact (Option.some.inj h).symm

/-- **C172** On a little-endian host, the memory of a record and its words written by value are the same bytes. -/
theorem C172_little_partial {s : Stmt} {bs : List Nat} (h : record s = some bs) :
    recordOn false s = some bs ∧ byValue false bs = bs := by
  refine ⟨(recordOn_little s).trans h, ?_⟩
  obtain ⟨w, rfl, -⟩ := record_words h
  have hb : ∀ x, Bytes (leBytes 4 x) := leBytes_lt 4
  split
  · rw [List.append_nil]
    exact byValue_little (hb w) (by rw [leBytes_length])
  · have h4 := packed_length s.args
    refine byValue_little ?_ (by simp only [List.length_append, leBytes_length]; omega)
    intro b hx
    rcases List.mem_append.1 hx with hx | hx
    · exact hb w b hx
    · rcases List.mem_append.1 hx with hx | hx
      · exact hb _ b hx
      · exact packed_bytes _ b hx

theorem swapped_four (x : Nat) (bs : List Nat) : swapped (leBytes 4 x ++ bs) = (leBytes 4 x).reverse ++ swapped bs := rfl

theorem byValue_four (x : Nat) (bs : List Nat) : byValue true ((leBytes 4 x).reverse ++ bs) =
    leBytes 4 x ++ byValue true bs := hostWords_append true x bs

/-- **C172** On a big-endian host, let `bs` be the bytes of the record which the decoder expects. The memory of the
record has the first two words turned around. If the words are written by value, the words after the first two are
turned around. -/
theorem C172_big_exact {s : Stmt} {bs : List Nat} (h : record s = some bs) :
    ∃ mem, recordOn true s = some mem ∧ mem = swapped (bs.take 8) ++ bs.drop 8 ∧
      byValue true mem = bs.take 8 ++ swapped (bs.drop 8) := by
  obtain ⟨w, rfl, hr⟩ := record_words h
  refine ⟨_, hr, ?_, ?_⟩
  · by_cases ha : s.args = []
    · rw [if_pos ha, if_pos ha]
      rfl
    · rw [if_neg ha, if_neg ha, ← List.append_assoc, ← List.append_assoc]
      rfl
  · by_cases ha : s.args = []
    · rw [if_pos ha, if_pos ha, byValue_four]
      rfl
    · rw [if_neg ha, if_neg ha, byValue_four, byValue_four, byValue_swapped (packed_bytes _)]
      rfl

/-- **C172** So on a big-endian host a destination that writes the values of the words gives the right bytes for a
statement without arguments. -/
theorem C172_big_short_partial {s : Stmt} {bs : List Nat} (h : record s = some bs) (ha : s.args = []) :
    ∃ mem, recordOn true s = some mem ∧ byValue true mem = bs := by
  obtain ⟨mem, h1, -, h2⟩ := C172_big_exact h
  refine ⟨mem, h1, ?_⟩
  obtain ⟨w, rfl, -⟩ := record_words h
  rw [h2, if_pos ha]
  rfl

theorem byValue_memory (big : Bool) (r : List (BitVec 32)) : byValue big (hostMemory big r) = memory r := by
  induction r with
  | nil => rfl
  | cons w r ih =>
    change byValue big (hostBytes big 4 w.toNat ++ hostMemory big r) = _
    rw [hostWords_append, ih]
    rfl

theorem hostMemory_byte (big : Bool) (r : List (BitVec 8)) : hostMemory big r = memory r := by
  cases big
  · rfl
  · rfl

/-- **C172** The version: a destination that writes the values of the elements which it gets, words or bytes, gives
the same bytes on hosts of either byte order. -/
theorem C172_version_partial (big : Bool) (version : Nat) (s : List Nat) :
    (versionOn big version s).map (Sum.elim (byValue big) id) = versionRecord version s := by
  rw [versionOn, versionRecord]
  split
  · rw [Option.map_map]
    exact congrArg (fun f => Option.map f _) (funext fun r => byValue_memory big r)
  · split
    · rw [Option.map_map]
      exact congrArg (fun f => Option.map f _) (funext fun r => byValue_memory big r)
    · rw [Option.map_map, normalOn, normalRecord]
      simp only [hostMemory_byte, hostPack_eq]
      exact congrFun Option.map_id _

/-- A short version and a long one, on a big-endian host. -/
example : versionOn true 5 [] = some (.inl [0, 0, 0, 80]) ∧
    versionOn true 5 [65] = some (.inr (((versionRecord 5 [65]).getD []))) ∧ versionRecord 5 [65] ≠ none := by
  decide +kernel

/-- A catalog with a message without arguments and one with an `unsigned int`. -/
def hostDb : Db where
  messages := fun id => if id = 5 then some [] else if id = 6 then some [.u32 (.prim .uint)] else none
  modules := fun _ => true

/-- `"…"_sc` without arguments, and with the argument `81 * 2^24`. -/
def hostShort : Stmt := ⟨0, 5, 0, 0, []⟩
def hostArg : Stmt := ⟨0, 6, 0, 0, [(.prim .uint, 81 * 2 ^ 24)]⟩

theorem Stream.single {db : Db} {bs : List Nat} {x : Rec} (h : Stream db bs [x]) : IsRec db bs x := by
  generalize hx : [x] = xs at h
  cases h with
  | nil => cases hx
  | @cons p q y ys h1 h2 =>
    cases hx
    generalize hy : ([] : List Rec) = ys at h2
    cases h2 with
    | nil => rwa [List.append_nil]
    | cons => cases hy

/-- **C172 violated** On a big-endian host, no way of turning each word into four bytes makes both statements
readable. -/
theorem C172_violated_any (f : Nat → List Nat) (hf : ∀ w, (f w).length = 4 ∧ Bytes (f w)) :
    ¬ ((∃ mem, recordOn true hostShort = some mem ∧
        decode hostDb ((hostWords true mem).flatMap f) = ([.short 5], true)) ∧
      ∃ mem, recordOn true hostArg = some mem ∧
        decode hostDb ((hostWords true mem).flatMap f) =
          ([.catalog 0 0 0 6 [.val (.int (81 * 2 ^ 24))]], true)) := by
  rintro ⟨⟨m1, h1, d1⟩, m2, h2, d2⟩
  have e1 : recordOn true hostShort = some [0, 0, 0, 81] := by decide +kernel
  have e2 : recordOn true hostArg = some [1, 0, 0, 3, 0, 0, 0, 6, 0, 0, 0, 81] := by decide +kernel
  cases e1.symm.trans h1
  cases e2.symm.trans h2
  have w1 : hostWords true [0, 0, 0, 81] = [81] := by decide +kernel
  have w2 : hostWords true [1, 0, 0, 3, 0, 0, 0, 6, 0, 0, 0, 81] = [16777219, 6, 81] := by decide +kernel
  rw [w1] at d1
  rw [w2] at d2
  simp only [List.flatMap_cons, List.flatMap_nil, List.append_nil] at d1 d2
  have hdb : ∀ id tags t, hostDb.messages id = some tags → tags.getLast? = some t → Fills t := by
    intro id tags t ht hl
    simp only [hostDb] at ht
    split at ht
    · cases ht; cases hl
    · split at ht
      · cases ht
        cases hl
        intro n hn
        exact hn
      · cases ht
  have hb2 : Bytes (f 16777219 ++ (f 6 ++ f 81)) := by
    intro b hb
    rcases List.mem_append.1 hb with hb | hb
    · exact (hf _).2 b hb
    · rcases List.mem_append.1 hb with hb | hb
      · exact (hf _).2 b hb
      · exact (hf _).2 b hb
  have s1 := (C171_complete_partial hostDb _ (hf 81).2 hdb _).1 d1
  have s2 := (C171_complete_partial hostDb _ hb2 hdb _).1 d2
  have v1 : fromLe (f 81) = 81 := by
    have hr := s1.single
    have hl := (hf 81).1
    generalize hx : Rec.short 5 = x at hr
    cases hr with
    | short _ h2 => cases hx; exact h2
    | short64 h1 => omega
    | catalog h =>
      obtain ⟨h, i, q, sv, mo, un, a, b, c, tags, ds, -, -, -, -, -, -, -, -, -, -, -, -, -, hy⟩ := h
      rw [← hx] at hy
      cases hy
  have v2 : fromLe (f 81) = 81 * 2 ^ 24 := by
    have hr := s2.single
    generalize hx : Rec.catalog 0 0 0 6 [.val (.int (81 * 2 ^ 24))] = x at hr
    cases hr with
    | short => cases hx
    | short64 => cases hx
    | catalog h =>
      obtain ⟨h, i, q, sv, mo, un, a, b, c, tags, ds, he, hh, hi, -, -, -, -, -, -, -, -, ht, hA, hy⟩ := h
      rw [← hx] at hy
      have he' := (List.append_inj he ((hf _).1.trans hh.symm)).2
      obtain ⟨-, rfl⟩ := List.append_inj he' ((hf _).1.trans hi.symm)
      injection hy with _ _ _ h6 hd
      rw [← h6] at ht
      cases ht
      subst hd
      generalize hq : f 81 = q at hA
      have hql := (hf 81).1
      have hqb := fromLe_lt _ (hf 81).2
      rw [hq] at hql hqb
      generalize hts : [Tag.u32 (TagSpec.prim Prim.uint)] = ts at hA
      cases hA with
      | @cons t ts p r d ds h1 h2 h3 =>
        cases hts
        generalize hts : ([] : List Tag) = ts at h3
        cases h3 with
        | nil =>
          rw [List.append_nil] at *
          have := h2.2
          injection this with this
          injection this with this
          simp only [Tag.read, width] at this
          rw [hql] at hqb
          omega
  omega

/-- The two statements on a big-endian host: what the decoder expects, the memory, and the words by value. -/
example : record hostShort = some [81, 0, 0, 0] ∧ recordOn true hostShort = some [0, 0, 0, 81] ∧
    byValue true [0, 0, 0, 81] = [81, 0, 0, 0] := by decide +kernel
example : record hostArg = some [3, 0, 0, 1, 6, 0, 0, 0, 0, 0, 0, 81] ∧
    recordOn true hostArg = some [1, 0, 0, 3, 0, 0, 0, 6, 0, 0, 0, 81] ∧
    byValue true [1, 0, 0, 3, 0, 0, 0, 6, 0, 0, 0, 81] = [3, 0, 0, 1, 6, 0, 0, 0, 81, 0, 0, 0] := by decide +kernel
/-- Both would be decoded on a little-endian host. -/
example : decode hostDb [81, 0, 0, 0, 3, 0, 0, 1, 6, 0, 0, 0, 0, 0, 0, 81] =
    ([.short 5, .catalog 0 0 0 6 [.val (.int (81 * 2 ^ 24))]], true) := by decide +kernel

end Verif.Log
