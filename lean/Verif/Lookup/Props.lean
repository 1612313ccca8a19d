import Verif.Lookup.TableLemmas
import Verif.Lookup.CoeffLemmas

/-!
# Properties of lookup tables: C27, C28, C29, C69, C70, C71
-/
namespace Verif.Lookup

variable {W : Nat} {V : Type}

theorem values_unique {es : List (Entry W V)} (h : DistinctKeys es) :
    ∀ a ∈ es, ∀ b ∈ es, a.key = b.key → a = b := by
  unfold DistinctKeys at h
  exact fun a ha b hb hab => List.inj_on_of_nodup_map h ha hb hab

theorem countP_withMask (m : BitVec W) (es : List (Entry W V)) (v : Nat) :
    es.countP (fun x => hash m x.key == v) = (withMask m (es.map (·.key))).count v := by
  unfold withMask
  rw [List.count, List.map_map, List.countP_map]
  rfl

theorem calcMask_run {keys : List (BitVec W)} {maxLen : Nat} {m : BitVec W} {p : Nat}
    (hk : keys.Nodup) (h : calcMask keys maxLen = some (m, p)) :
    countLongestRun (withMask m keys) = p ∧ (p = 0 ∨ (1 < maxLen ∧ p ≤ maxLen)) := by
  obtain ⟨m', p', h1, h2, h3⟩ := calcMask_total keys maxLen hk
  rw [h] at h1
  obtain ⟨rfl, rfl⟩ := Prod.mk.inj (Option.some.inj h1)
  exact ⟨h2, h3⟩

theorem distinct_iff (es : List (Entry W V)) :
    keysAreUnique (es.map (·.key.toNat)) = true ↔ DistinctKeys es := by
  rw [keysAreUnique_iff]
  have : es.map (·.key.toNat) = (es.map (·.key)).map BitVec.toNat := by simp
  rw [this, nodup_toNat]
  rfl

/-- Building a table from the mask found: it exists and answers like the map. -/
theorem buildTable_spec {indirect : Bool} {maxLen : Nat}
    {srt : (BitVec W → Nat) → List (Entry W V) → List (Entry W V)} (hsrt : IsSort srt) (d : V)
    {es : List (Entry W V)} (hd : DistinctKeys es) (h64 : es.length < 2 ^ 64)
    (hmode : indirect = true ∨ maxLen = 1) {m : BitVec W} {p : Nat}
    (hc : calcMask (es.map (·.key)) maxLen = some (m, p)) (h31 : popcount m < 31) :
    ∃ t, buildTable indirect srt d es m (p + 1) = .ok t ∧
      ∀ key, ∃ r, t.lookup key = some r ∧ Answers d es key r := by
  obtain ⟨hrun, hp⟩ := calcMask_run hd hc
  unfold buildTable
  rw [if_neg (by omega)]
  cases hes : es with
  | nil =>
    refine ⟨.empty d, by simp, fun key => ⟨d, rfl, ⟨by simp, fun _ => rfl⟩⟩⟩
  | cons e0 es0 =>
    rw [← hes]
    have hne : es ≠ [] := by rw [hes]; simp
    have hemp : es.isEmpty = false := by rw [hes]; rfl
    simp only [hemp, Bool.false_eq_true, if_false]
    cases indirect with
    | true =>
      simp only [if_true]
      obtain ⟨hperm, hsorted⟩ := hsrt (hash m) es
      have hcount : ∀ v, (srt (hash m) es).countP (fun x => hash m x.key == v) =
          (withMask m (es.map (·.key))).count v := by
        intro v
        rw [hperm.countP_eq, countP_withMask]
      obtain ⟨v, hv1, hv2⟩ := exists_count_run (withMask m (es.map (·.key)))
        (by simp [withMask, hne])
      obtain ⟨t, h1, h2, h3⟩ := indirect_answers (hash m) (2 ^ popcount m) (p + 1)
        (fun k => hash_lt m k) d (srt (hash m) es) hsorted
        (fun h0 => hne (by rw [h0] at hperm; exact hperm.symm.eq_nil))
        (fun a ha b hb hab => by
          rw [values_unique hd a (hperm.mem_iff.1 ha) b (hperm.mem_iff.1 hb) hab])
        ⟨v, by
          unfold withMask at hv1
          obtain ⟨k, hk, rfl⟩ := List.mem_map.1 hv1
          obtain ⟨e, he, rfl⟩ := List.mem_map.1 hk
          exact List.mem_map.2 ⟨e, hperm.mem_iff.2 he, rfl⟩,
          by rw [hcount, hv2, hrun]; exact Nat.le_refl _⟩
        (fun v => by rw [hcount, ← hrun]; exact count_le_run _ v)
        (by rw [hperm.length_eq]; exact h64)
      rw [h1]
      refine ⟨_, rfl, ?_⟩
      intro key
      obtain ⟨i, hi, r, hr, ha⟩ := h3 key
      refine ⟨r, ?_, ha.of_perm (fun e => hperm.mem_iff)⟩
      simp only [Table.lookup, hi, Option.bind_eq_bind, Option.bind_some]
      exact hr
    | false =>
      have hmax : maxLen = 1 := by simpa using hmode
      have hp0 : p = 0 := by omega
      have hnod : (es.map (fun e => hash m e.key)).Nodup := by
        rw [List.nodup_iff_count_le_one]
        intro v
        have := count_le_run (withMask m (es.map (·.key))) v
        rw [hrun, hp0] at this
        simpa [withMask, List.map_map, Function.comp_def] using this
      obtain ⟨s, h1, h2, h3⟩ := direct_answers (hash m) (2 ^ popcount m) (fun k => hash_lt m k) d
        es hnod
      simp only [Bool.false_eq_true, if_false]
      rw [h1]
      refine ⟨_, rfl, ?_⟩
      intro key
      obtain ⟨e, he, ha⟩ := h3 key
      refine ⟨_, ?_, ha⟩
      simp only [Table.lookup, he, Option.bind_eq_bind, Option.bind_some]
      split <;> rfl

/-! ## C27 -/

/-- Linear search answers like the map. -/
theorem C27_linear (maxSize : Nat) (d : V) (es : List (Entry W V)) (hd : DistinctKeys es)
    (t : Table W V) (h : makeLinear maxSize d es = .ok t) (key : BitVec W) :
    ∃ r, t.lookup key = some r ∧ Answers d es key r := by
  unfold makeLinear at h
  split at h
  · obtain rfl := Made.ok.inj h
    refine ⟨_, rfl, ?_⟩
    have huniq := values_unique hd
    have aux : ∀ (l : List (Entry W V)) (r0 : V), (∀ e ∈ l, e ∈ es) →
        (∀ e ∈ l, e.key = key →
          l.foldl (fun r e => if key = e.key then e.value else r) r0 = e.value) ∧
        ((∀ e ∈ l, e.key ≠ key) →
          l.foldl (fun r e => if key = e.key then e.value else r) r0 = r0) := by
      intro l
      induction l with
      | nil => intro r0 _; exact ⟨by simp, fun _ => rfl⟩
      | cons x xs ih =>
        intro r0 hsub
        have hxs : ∀ e ∈ xs, e ∈ es := fun e he => hsub e (List.mem_cons_of_mem _ he)
        rw [List.foldl_cons]
        constructor
        · intro e he hk
          by_cases hin : ∃ y ∈ xs, y.key = key
          · obtain ⟨y, hy, hyk⟩ := hin
            rw [(ih _ hxs).1 y hy hyk, huniq y (hxs y hy) e (hsub e he) (by rw [hyk, hk])]
          · have hno : ∀ y ∈ xs, y.key ≠ key := fun y hy hh => hin ⟨y, hy, hh⟩
            rw [(ih _ hxs).2 hno]
            rcases List.mem_cons.1 he with rfl | he
            · rw [if_pos hk.symm]
            · exact absurd hk (hno e he)
        · intro hno
          rw [(ih _ hxs).2 (fun y hy => hno y (List.mem_cons_of_mem _ hy)),
            if_neg (fun hk => hno x List.mem_cons_self hk.symm)]
    exact ⟨(aux es d (fun e he => he)).1, (aux es d (fun e he => he)).2⟩
  · exact absurd h (by simp)

/-- Every table of the hashing strategy answers like the map, directly or indirectly and for every
search length, whichever order `std::sort` gives to entries of one bucket. -/
theorem C27_pext (indirect : Bool) (maxLen : Nat)
    (srt : (BitVec W → Nat) → List (Entry W V) → List (Entry W V)) (hsrt : IsSort srt) (d : V)
    (es : List (Entry W V)) (h64 : es.length < 2 ^ 64) (t : Table W V)
    (h : makePext indirect maxLen srt d es = .ok t) (key : BitVec W) :
    ∃ r, t.lookup key = some r ∧ Answers d es key r := by
  unfold makePext at h
  split at h
  · exact absurd h (by simp)
  · rename_i hmode
    split at h
    · exact absurd h (by simp)
    · rename_i hu
      have hd : DistinctKeys es := (distinct_iff es).1 (by simpa using hu)
      split at h
      · exact absurd h (by simp)
      · rename_i m p hc
        by_cases h31 : popcount m < 31
        · obtain ⟨t', h1, h2⟩ := buildTable_spec (indirect := indirect) hsrt d hd h64
            (by cases indirect <;> simp_all) hc h31
          rw [h1] at h
          obtain rfl := Made.ok.inj h
          exact h2 key
        · unfold buildTable at h
          rw [if_pos (by omega)] at h
          exact absurd h (by simp)

/-- A table made by `lookup::make` answers like the map. -/
theorem C27_make (srt : (BitVec W → Nat) → List (Entry W V) → List (Entry W V)) (hsrt : IsSort srt)
    (d : V) (es : List (Entry W V)) (h64 : es.length < 2 ^ 64) (t : Table W V)
    (h : make srt d es = .ok t) (key : BitVec W) :
    ∃ r, t.lookup key = some r ∧ Answers d es key r := by
  unfold make strategies at h
  have hpx : ∀ t', makePext true 2 srt d es = .ok t' → DistinctKeys es := by
    intro t' ht
    unfold makePext at ht
    split at ht
    · exact absurd ht (by simp)
    · split at ht
      · exact absurd ht (by simp)
      · rename_i hu
        exact (distinct_iff es).1 (by simpa using hu)
  have hnf : makePext true 2 srt d es ≠ .failed := by
    unfold makePext buildTable
    simp only [Bool.not_true, Bool.false_and, Bool.false_eq_true, if_false]
    split
    · simp
    · split
      · simp
      · split
        · simp
        · split
          · simp
          · simp only [if_true]
            split <;> simp
  cases hp : makePext true 2 srt d es with
  | failed => exact absurd hp hnf
  | rejected => rw [hp] at h; simp at h
  | ok t' =>
    rw [hp] at h
    by_cases hl : es.length ≤ 4
    · have hml : makeLinear 4 d es = .ok (.linear d es) := by simp [makeLinear, hl]
      rw [hml] at h
      simp [firstOk] at h
      rw [← h]
      exact C27_linear 4 d es (hpx t' hp) _ hml key
    · have hml : makeLinear 4 d es = .failed := by simp [makeLinear, hl]
      rw [hml] at h
      simp [firstOk] at h
      rw [← h]
      exact C27_pext true 2 srt hsrt d es h64 t' hp key

/-- A table is made for every set of entries with distinct keys of at most 30 bits. For wider keys
the only obstacle is a mask of more than 30 bits. -/
theorem C27_made (srt : (BitVec W → Nat) → List (Entry W V) → List (Entry W V)) (hsrt : IsSort srt)
    (d : V) (es : List (Entry W V)) (h64 : es.length < 2 ^ 64) (hd : DistinctKeys es)
    (hW : W ≤ 30 ∨ ∀ m p, calcMask (es.map (·.key)) 2 = some (m, p) → popcount m ≤ 30) :
    ∃ t, make srt d es = .ok t := by
  obtain ⟨m, p, hc, _, _⟩ := calcMask_total (W := W) _ 2 (show (es.map (·.key)).Nodup from hd)
  have h31 : popcount m < 31 := by
    rcases hW with hW | hW
    · have := popcount_le m
      omega
    · have := hW m p hc
      omega
  obtain ⟨t, h1, _⟩ := buildTable_spec (indirect := true) hsrt d hd h64 (Or.inl rfl) hc h31
  have hp : makePext true 2 srt d es = .ok t := by
    unfold makePext
    have hu := (distinct_iff es).2 hd
    simp only [Bool.not_true, Bool.false_and, Bool.false_eq_true, if_false, hu, hc]
    exact h1
  unfold make strategies
  rw [hp]
  by_cases hl : es.length ≤ 4
  · exact ⟨.linear d es, by simp [makeLinear, hl, firstOk]⟩
  · exact ⟨t, by simp [makeLinear, hl, firstOk]⟩

/-- One function that sorts by hash. -/
def insBy (h : BitVec W → Nat) (x : Entry W V) : List (Entry W V) → List (Entry W V)
  | [] => [x]
  | y :: ys => if h x.key ≤ h y.key then x :: y :: ys else y :: insBy h x ys

/-- One function that sorts by hash. -/
def sortBy (h : BitVec W → Nat) : List (Entry W V) → List (Entry W V)
  | [] => []
  | x :: xs => insBy h x (sortBy h xs)

/-- The hypothesis about the sorting function can be met. -/
theorem isSort_sortBy : IsSort (sortBy (W := W) (V := V)) := by
  intro h es
  have hperm : ∀ (x : Entry W V) l, (insBy h x l).Perm (x :: l) := by
    intro x l
    induction l with
    | nil => exact List.Perm.refl _
    | cons y ys ih =>
      unfold insBy
      split
      · exact List.Perm.refl _
      · exact (List.Perm.cons y ih).trans (List.Perm.swap x y ys)
  have hins : ∀ (x : Entry W V) l, l.Pairwise (fun a b => h a.key ≤ h b.key) →
      (insBy h x l).Pairwise (fun a b => h a.key ≤ h b.key) := by
    intro x l
    induction l with
    | nil => intro _; simp [insBy]
    | cons y ys ih =>
      intro hl
      rw [List.pairwise_cons] at hl
      unfold insBy
      split
      · rename_i hxy
        rw [List.pairwise_cons, List.pairwise_cons]
        refine ⟨?_, hl⟩
        intro z hz
        rcases List.mem_cons.1 hz with rfl | hz
        · exact hxy
        · exact Nat.le_trans hxy (hl.1 z hz)
      · rw [List.pairwise_cons]
        refine ⟨?_, ih hl.2⟩
        intro z hz
        rcases List.mem_cons.1 ((hperm x ys).mem_iff.1 hz) with rfl | hz
        · omega
        · exact hl.1 z hz
  induction es with
  | nil => exact ⟨List.Perm.refl _, by simp [sortBy]⟩
  | cons x xs ih =>
    exact ⟨(hperm x _).trans (List.Perm.cons x ih.1), hins x _ ih.2⟩

/-- Eight keys for which the second phase accepts a bucket of three. -/
def keys8 : List (BitVec 8) := [236, 100, 206, 207, 222, 13, 143, 11]

/-- Entries with these keys. -/
def entries8 : List (Entry 8 Nat) := (keys8.zipIdx 1).map (fun p => ⟨p.1, p.2⟩)

/-- `makePext` gives a table. -/
def Made.table : Made W V → Option (Table W V)
  | .ok t => some t
  | _ => none

example : ((make sortBy 0 entries8).table.bind (·.lookup 222)) = some 5 := by decide +kernel
example : ((make sortBy 0 entries8).table.bind (·.lookup 0)) = some 0 := by decide +kernel
example : ((makePext false 1 sortBy 7 entries8).table.bind (·.lookup 11)) = some 8 := by
  decide +kernel
example : ((makePext false 1 sortBy 7 entries8).table.bind (·.lookup 12)) = some 7 := by
  decide +kernel
example : DistinctKeys entries8 ∧ entries8.length < 2 ^ 64 := by
  unfold DistinctKeys
  decide +kernel

/-! ## C28 -/

/-- No lookup in a table of the hashing strategy reads outside the tables. -/
theorem C28_pext (indirect : Bool) (maxLen : Nat)
    (srt : (BitVec W → Nat) → List (Entry W V) → List (Entry W V)) (hsrt : IsSort srt) (d : V)
    (es : List (Entry W V)) (h64 : es.length < 2 ^ 64) (t : Table W V)
    (h : makePext indirect maxLen srt d es = .ok t) (key : BitVec W) : t.lookup key ≠ none := by
  obtain ⟨r, hr, _⟩ := C27_pext indirect maxLen srt hsrt d es h64 t h key
  rw [hr]
  simp

/-- No lookup in a table made by `lookup::make` reads outside the tables. -/
theorem C28_make (srt : (BitVec W → Nat) → List (Entry W V) → List (Entry W V)) (hsrt : IsSort srt)
    (d : V) (es : List (Entry W V)) (h64 : es.length < 2 ^ 64) (t : Table W V)
    (h : make srt d es = .ok t) (key : BitVec W) : t.lookup key ≠ none := by
  obtain ⟨r, hr, _⟩ := C27_make srt hsrt d es h64 t h key
  rw [hr]
  simp

example : ((make sortBy 0 entries8).table.map (fun t =>
    (List.range 256).all (fun k => (t.lookup (BitVec.ofNat 8 k)).isSome))) = some true := by
  decide +kernel

/-! ## C29 -/

/-- Mask reduction ends for every list of keys, also with duplicates. -/
theorem C29_terminates (keys : List (BitVec W)) (maxLen : Nat) : calcMask keys maxLen ≠ none := by
  unfold calcMask
  have aux : ∀ fuel (m : BitVec W) p, popcount m < fuel → phase2 keys maxLen fuel m p ≠ none := by
    intro fuel
    induction fuel with
    | zero => intro m p h; omega
    | succ fuel ih =>
      intro m p h
      rw [phase2]
      split
      · rename_i hc
        dsimp only
        split
        · have hlt := popcount_removeCheapest m keys (by omega)
          exact ih _ _ (by omega)
        · simp
      · simp
  exact aux _ _ _ (Nat.lt_succ_of_le (popcount_le _))

/-- Without a second phase, different keys get different slots. -/
theorem C29_separates (keys : List (BitVec W)) (hk : keys.Nodup) (maxLen : Nat) (hm : maxLen ≤ 1)
    (m : BitVec W) (p : Nat) (h : calcMask keys maxLen = some (m, p)) :
    p = 0 ∧ ∀ a ∈ keys, ∀ b ∈ keys, hash m a = hash m b → a = b := by
  obtain ⟨hrun, hp⟩ := calcMask_run hk h
  have hp0 : p = 0 := by omega
  refine ⟨hp0, ?_⟩
  have hnod : (keys.map (hash m)).Nodup := by
    rw [List.nodup_iff_count_le_one]
    intro v
    have := count_le_run (withMask m keys) v
    rw [hrun, hp0] at this
    exact this
  exact fun a ha b hb hab => List.inj_on_of_nodup_map hnod ha hb hab

/-- The second phase starts from a mask that keeps all keys apart. -/
theorem C29_first_phase (keys : List (BitVec W)) (hk : keys.Nodup) :
    ∀ a ∈ keys, ∀ b ∈ keys, hash (phase1 keys W (BitVec.allOnes W)) a =
      hash (phase1 keys W (BitVec.allOnes W)) b → a = b := by
  have hnod := phase1_unique keys W (BitVec.allOnes W) (by
    rw [withMask_allOnes]
    exact (nodup_toNat _).2 hk)
  exact fun a ha b hb hab => List.inj_on_of_nodup_map hnod ha hb hab

/-- No slot of an indirect table is shared by more keys than the table's search length, and some slot
is shared by as many. -/
theorem C29_search_length (maxLen : Nat)
    (srt : (BitVec W → Nat) → List (Entry W V) → List (Entry W V)) (d : V)
    (es : List (Entry W V)) (m : BitVec W) (d' : V) (len w : Nat) (tab : List Nat)
    (st : List (Entry W V))
    (h : makePext true maxLen srt d es = .ok (.indirect m d' len w tab st)) :
    (∀ s, sharing (hash m) (es.map (·.key)) s ≤ len) ∧
      ∃ s, sharing (hash m) (es.map (·.key)) s = len := by
  unfold makePext at h
  simp only [Bool.not_true, Bool.false_and, Bool.false_eq_true, if_false] at h
  split at h
  · exact absurd h (by simp)
  · rename_i hu
    have hd : DistinctKeys es := (distinct_iff es).1 (by simpa using hu)
    split at h
    · exact absurd h (by simp)
    · rename_i m0 p hc
      obtain ⟨hrun, _⟩ := calcMask_run hd hc
      have hsh : ∀ s, sharing (hash m0) (es.map (·.key)) s =
          (withMask m0 (es.map (·.key))).count s := by
        intro s
        unfold sharing withMask
        rw [List.count, List.countP_map (f := hash m0)]
        rfl
      unfold buildTable at h
      dsimp only at h
      split at h
      · exact absurd h (by simp)
      · split at h
        · exact absurd h (by simp)
        · rename_i hne
          simp only [if_true] at h
          split at h
          · obtain ⟨rfl, _, rfl, _, _, _⟩ := Table.indirect.inj (Made.ok.inj h)
            constructor
            · intro s
              rw [hsh, ← hrun]
              exact count_le_run _ s
            · obtain ⟨v, _, hv⟩ := exists_count_run (withMask m0 (es.map (·.key))) (by
                simpa [withMask] using hne)
              exact ⟨v, by rw [hsh, hv, hrun]⟩
          · exact absurd h (by simp)

/-- The search length and the mask of a table. -/
def Table.searchLen : Table W V → Option Nat
  | .indirect _ _ len _ _ _ => some len
  | _ => none

example : ((makePext true 2 sortBy 0 entries8).table.bind Table.searchLen) = some 3 := by
  decide +kernel
example : keys8.Nodup := by decide +kernel
example : calcMask keys8 1 = some (95, 0) := by decide +kernel

/-! ## C69 -/

/-- C69 fails: a table with the maximal search length 2 may probe three entries. -/
theorem C69_violated :
    ((makePext true 2 sortBy 0 entries8).table.bind Table.searchLen) = some 3 := by decide +kernel

/-- C69 (partial): the search length exceeds the configured maximum by at most one, and it is one
when the maximum is at most one. -/
theorem C69_bound_partial (maxLen : Nat)
    (srt : (BitVec W → Nat) → List (Entry W V) → List (Entry W V)) (d : V)
    (es : List (Entry W V)) (t : Table W V) (len : Nat)
    (h : makePext true maxLen srt d es = .ok t) (hl : t.searchLen = some len) :
    len ≤ maxLen + 1 ∧ (maxLen ≤ 1 → len = 1) := by
  unfold makePext at h
  simp only [Bool.not_true, Bool.false_and, Bool.false_eq_true, if_false] at h
  split at h
  · exact absurd h (by simp)
  · rename_i hu
    have hd : DistinctKeys es := (distinct_iff es).1 (by simpa using hu)
    split at h
    · exact absurd h (by simp)
    · rename_i m0 p hc
      obtain ⟨_, hp⟩ := calcMask_run hd hc
      unfold buildTable at h
      dsimp only at h
      split at h
      · exact absurd h (by simp)
      · split at h
        · obtain rfl := Made.ok.inj h
          simp [Table.searchLen] at hl
        · simp only [if_true] at h
          split at h
          · obtain rfl := Made.ok.inj h
            simp only [Table.searchLen, Option.some.injEq] at hl
            omega
          · exact absurd h (by simp)

/-! ## C70 -/

/-- Hashing a key never leaves the range of `int`: for 8-bit and 16-bit keys, whose product is
computed in `int`, and every mask. -/
theorem C70_no_overflow (m v : BitVec W) (hW : W = 8 ∨ W = 16 ∨ W = 32 ∨ W = 64) :
    pextOverflows m v = false := by
  unfold pextOverflows
  by_cases hlt : W < 32
  · have hv := (v &&& m).isLt
    have hc := coefficient_lt m (by omega)
    simp only [hlt, decide_true, Bool.true_and, decide_eq_false_iff_not, Nat.not_le]
    have h1 : (v &&& m).toNat * (coefficient m).toNat < 2 ^ W * 2 ^ (W - 1) :=
      Nat.mul_lt_mul'' hv hc
    rw [← Nat.pow_add] at h1
    refine Nat.lt_of_lt_of_le h1 (Nat.pow_le_pow_right (by omega) (by omega))
  · simp [hlt]

/-- Every bit that is set in the multiplier exists, and the shift amount is below the width. -/
theorem C70_bits_exist (m : BitVec W) (hW : 0 < W) :
    (∀ p ∈ multiplierBits m, p.2 ≤ p.1 ∧ p.1 - p.2 < W) ∧
      (gapBits m < W ∨ m = 0) := by
  constructor
  · intro p hp
    obtain ⟨h1, h2, h3⟩ := stretch_bounds m p hp
    omega
  · by_cases hz : popcount m = 0
    · right
      apply BitVec.eq_of_getLsbD_eq
      intro i hi
      unfold popcount at hz
      rw [List.countP_eq_zero] at hz
      have := hz i (List.mem_range.2 hi)
      simpa using this
    · left
      unfold gapBits
      omega

example : pextOverflows (0x8001 : BitVec 16) 0xffff = false ∧
    (0xffff &&& 0x8001 : BitVec 16).toNat * (coefficient (0x8001 : BitVec 16)).toNat = 0x2000c001 := by
  decide +kernel

/-! ## C71 -/

/-- `lookup::make` does not accept two entries with one key, whatever the number of entries. -/
theorem C71_duplicates_rejected
    (srt : (BitVec W → Nat) → List (Entry W V) → List (Entry W V)) (d : V) (es : List (Entry W V))
    (hd : ¬ DistinctKeys es) : make srt d es = .rejected := by
  have hu : keysAreUnique (es.map (·.key.toNat)) = false := by
    by_contra hc
    exact hd ((distinct_iff es).1 (by simpa using hc))
  have hp : makePext true 2 srt d es = .rejected := by
    unfold makePext
    simp [hu]
  unfold make strategies
  rw [hp]
  simp

example : ¬ DistinctKeys ([⟨1, 10⟩, ⟨2, 20⟩, ⟨1, 30⟩] : List (Entry 8 Nat)) := by
  unfold DistinctKeys
  decide

/-- The linear strategy used on its own accepts them, and the last one wins. -/
theorem C71_linear_last (maxSize : Nat) (d : V) (es : List (Entry W V)) (e : Entry W V)
    (rest : List (Entry W V)) (key : BitVec W) (he : e.key = key)
    (hrest : ∀ x ∈ rest, x.key ≠ key) (hlen : (es ++ e :: rest).length ≤ maxSize) :
    ∃ t, makeLinear maxSize d (es ++ e :: rest) = .ok t ∧ t.lookup key = some e.value := by
  refine ⟨_, by rw [makeLinear, if_pos hlen], ?_⟩
  simp only [Table.lookup, Option.some.injEq]
  rw [List.foldl_append, List.foldl_cons, if_pos he.symm]
  generalize e.value = r
  clear hlen
  induction rest with
  | nil => rfl
  | cons x xs ih =>
    rw [List.foldl_cons, if_neg (fun hk => hrest x List.mem_cons_self hk.symm)]
    exact ih (fun y hy => hrest y (List.mem_cons_of_mem _ hy))

example : (makeLinear 4 0 ([⟨1, 10⟩, ⟨2, 20⟩, ⟨1, 30⟩] : List (Entry 8 Nat))).table.bind
    (·.lookup 1) = some 30 := by decide

end Verif.Lookup
