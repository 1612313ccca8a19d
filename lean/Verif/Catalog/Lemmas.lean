import Verif.Catalog.Spec

/-! # Lemmas about the catalog generator -/
namespace Verif.Catalog

/-! ## Dictionaries -/

/-- The keys are distinct and those of the values. -/
structure WF (key : Key) (d : Dict) : Prop where
  nodup : (d.map (·.1)).Nodup
  keys : ∀ e ∈ d, e.1 = key.of e.2

theorem mem_set {d : Dict} {k : Nat} {v : Item} {e : Nat × Item} (h : e ∈ d.set k v) :
    e = (k, v) ∨ (e ∈ d ∧ e.1 ≠ k) ∨ e ∈ d := by
  induction d with
  | nil => exact .inl (by simpa [Dict.set] using h)
  | cons x d ih =>
    rw [Dict.set] at h
    split at h
    · rcases List.mem_cons.mp h with h | h
      · exact .inl h
      · exact .inr (.inr (List.mem_cons_of_mem _ h))
    · rcases List.mem_cons.mp h with h | h
      · exact .inr (.inr (h ▸ List.mem_cons_self))
      · rcases ih h with h | h | h
        · exact .inl h
        · exact .inr (.inr (List.mem_cons_of_mem _ h.1))
        · exact .inr (.inr (List.mem_cons_of_mem _ h))

theorem get?_set (d : Dict) (k : Nat) (v : Item) (k' : Nat) :
    (d.set k v).get? k' = if k' = k then some v else d.get? k' := by
  induction d with
  | nil =>
    by_cases h : k' = k
    · simp [Dict.set, Dict.get?, h]
    · simp [Dict.set, Dict.get?, h, Ne.symm h]
  | cons x d ih =>
    rw [Dict.set]
    split
    · next hx =>
      by_cases h : k' = k
      · simp [Dict.get?, h]
      · simp [Dict.get?, h, hx, Ne.symm h]
    · next hx =>
      simp only [Dict.get?, List.find?_cons] at ih ⊢
      by_cases h : x.1 = k'
      · simp [h, show k' ≠ k from fun e => hx (h.trans e)]
      · simp [h, ih]

theorem keys_set (d : Dict) (k : Nat) (v : Item) :
    (d.set k v).map (·.1) = if k ∈ d.map (·.1) then d.map (·.1) else d.map (·.1) ++ [k] := by
  induction d with
  | nil => simp [Dict.set]
  | cons x d ih =>
    rw [Dict.set]
    split
    · next h => simp [h]
    · next h =>
      simp only [List.map_cons, ih, List.mem_cons]
      by_cases hk : k ∈ d.map (·.1)
      · simp [hk]
      · simp [hk, Ne.symm h]

theorem wf_set {key : Key} {d : Dict} (h : WF key d) (m : Item) : WF key (d.set (key.of m) m) := by
  constructor
  · rw [keys_set]
    split
    · exact h.nodup
    · next hk =>
      rw [List.nodup_append]
      refine ⟨h.nodup, by simp, ?_⟩
      intro a ha b hb
      rw [List.mem_singleton] at hb
      rintro rfl
      exact hk (hb ▸ ha)
  · intro e he
    rcases mem_set he with h1 | h1 | h1
    · rw [h1]
    · exact h.keys e h1.1
    · exact h.keys e h1

theorem wf_addAll {key : Key} {d : Dict} (h : WF key d) (ms : List Item) : WF key (d.addAll key ms) := by
  induction ms generalizing d with
  | nil => exact h
  | cons m ms ih => exact ih (wf_set h m)

theorem wf_nil (key : Key) : WF key [] := ⟨by simp, by simp⟩

/-- The last value given for a key, or the one of before. -/
theorem get?_addAll (key : Key) (d : Dict) (ms : List Item) (k : Nat) :
    (d.addAll key ms).get? k =
      match ms.reverse.find? fun m => key.of m = k with
      | some m => some m
      | none => d.get? k := by
  induction ms generalizing d with
  | nil => rfl
  | cons m ms ih =>
    rw [Dict.addAll, ih, List.reverse_cons, List.find?_append]
    cases ms.reverse.find? fun m => key.of m = k with
    | some x => rfl
    | none =>
      rw [get?_set]
      by_cases h : key.of m = k
      · simp [h]
      · simp [h, Ne.symm h]

theorem get?_of_mem {key : Key} {d : Dict} (h : WF key d) {e : Nat × Item} (he : e ∈ d) :
    d.get? e.1 = some e.2 := by
  induction d with
  | nil => cases he
  | cons x d ih =>
    have hn := h.nodup
    rw [List.map_cons, List.nodup_cons] at hn
    rcases List.mem_cons.mp he with rfl | he
    · simp [Dict.get?]
    · have hne : x.1 ≠ e.1 := fun hx => hn.1 (hx ▸ List.mem_map_of_mem he)
      have := ih ⟨hn.2, fun y hy => h.keys y (List.mem_cons_of_mem _ hy)⟩ he
      simpa [Dict.get?, hne] using this

theorem get?_value {key : Key} {d : Dict} (h : WF key d) {x : Item} (hx : x ∈ d.values) :
    d.get? (key.of x) = some x := by
  obtain ⟨e, he, rfl⟩ := List.mem_map.mp hx
  rw [← h.keys e he]
  exact get?_of_mem h he

theorem value_of_get? {key : Key} {d : Dict} (h : WF key d) {k : Nat} {x : Item} (hx : d.get? k = some x) :
    x ∈ d.values ∧ key.of x = k := by
  rw [Dict.get?, Option.map_eq_some_iff] at hx
  obtain ⟨e, he, rfl⟩ := hx
  have h1 := List.mem_of_find?_eq_some he
  have h2 := List.find?_some he
  exact ⟨List.mem_map_of_mem h1, by rw [← h.keys e h1]; simpa using h2⟩

/-- A value of the dictionary comes from the list or was there before. -/
theorem values_addAll {key : Key} {d : Dict} (h : WF key d) (ms : List Item) {x : Item}
    (hx : x ∈ (d.addAll key ms).values) : x ∈ ms ∨ x ∈ d.values := by
  have hg := get?_value (wf_addAll h ms) hx
  rw [get?_addAll] at hg
  cases hf : ms.reverse.find? fun m => key.of m = key.of x with
  | some m =>
    rw [hf] at hg
    cases hg
    exact .inl (List.mem_reverse.mp (List.mem_of_find?_eq_some hf))
  | none =>
    rw [hf] at hg
    exact .inr (value_of_get? h hg).1

/-- Each key of the list is there. -/
theorem addAll_has (key : Key) (d : Dict) (ms : List Item) {m : Item} (hm : m ∈ ms) :
    ∃ x ∈ ms, (d.addAll key ms).get? (key.of m) = some x ∧ key.of x = key.of m := by
  rw [get?_addAll]
  cases hf : ms.reverse.find? fun x => key.of x = key.of m with
  | some x =>
    exact ⟨x, List.mem_reverse.mp (List.mem_of_find?_eq_some hf), rfl, by simpa using List.find?_some hf⟩
  | none =>
    have := List.find?_eq_none.mp hf m (List.mem_reverse.mpr hm)
    simp at this

theorem addAll_old (key : Key) (d : Dict) (ms : List Item) {k : Nat} (h : ∀ m ∈ ms, key.of m ≠ k) :
    (d.addAll key ms).get? k = d.get? k := by
  rw [get?_addAll]
  cases hf : ms.reverse.find? fun x => key.of x = k with
  | some x =>
    have h1 := List.mem_reverse.mp (List.mem_of_find?_eq_some hf)
    exact absurd (by simpa using List.find?_some hf) (h x h1)
  | none => rfl

/-! ## Unique messages -/

theorem mem_unique {key : Key} {items : List Item} {x : Item} (h : x ∈ unique key items) : x ∈ items := by
  rcases values_addAll (wf_nil key) items h with h | h
  · exact h
  · cases h

theorem unique_has (key : Key) {items : List Item} {i : Item} (h : i ∈ items) :
    ∃ x ∈ unique key items, key.of x = key.of i := by
  obtain ⟨x, -, hx, hk⟩ := addAll_has key [] items h
  exact ⟨x, (value_of_get? (wf_addAll (wf_nil key) items) hx).1, hk⟩

theorem unique_nodup (key : Key) (items : List Item) : ((unique key items).map key.of).Nodup := by
  have h := wf_addAll (wf_nil key) items
  have hm : (unique key items).map key.of = (Dict.addAll key [] items).map (·.1) := by
    rw [unique, Dict.values, List.map_map]
    apply List.map_congr_left
    intro e he
    exact (h.keys e he).symm
  rw [hm]
  exact h.nodup

theorem unique_inj {key : Key} {items : List Item} {x y : Item} (hx : x ∈ unique key items)
    (hy : y ∈ unique key items) (h : key.of x = key.of y) : x = y := by
  have h1 := get?_value (wf_addAll (wf_nil key) items) hx
  have h2 := get?_value (wf_addAll (wf_nil key) items) hy
  rw [h, h2] at h1
  exact (Option.some.inj h1).symm

/-! ## Sorting -/

theorem insert_perm (x : Item) (xs : List Item) : (insert x xs).Perm (x :: xs) := by
  induction xs with
  | nil => exact .refl _
  | cons y ys ih =>
    rw [insert]
    split
    · exact (ih.cons y).trans (.swap x y ys)
    · exact .refl _

theorem sort_perm (xs : List Item) : (sort xs).Perm xs := by
  induction xs with
  | nil => exact .refl _
  | cons x xs ih => exact (insert_perm x (sort xs)).trans (ih.cons x)

/-! ## Searching -/

theorem search_le (p : Nat → Bool) (n fuel : Nat) : n ≤ search p n fuel := by
  induction fuel generalizing n with
  | zero => exact Nat.le_refl n
  | succ fuel ih =>
    rw [search]
    split
    · exact Nat.le_trans (Nat.le_succ n) (ih (n + 1))
    · exact Nat.le_refl n

theorem search_free (p : Nat → Bool) (n fuel : Nat) (h : ∀ k, n + fuel ≤ k → p k = false) :
    p (search p n fuel) = false := by
  induction fuel generalizing n with
  | zero => exact h n (by omega)
  | succ fuel ih =>
    rw [search]
    split
    · exact ih (n + 1) fun k hk => h k (by omega)
    · next hp => simpa using hp

theorem search_least (p : Nat → Bool) (n fuel k : Nat) (h1 : n ≤ k) (h2 : k < search p n fuel) :
    p k = true := by
  induction fuel generalizing n with
  | zero => rw [search] at h2; omega
  | succ fuel ih =>
    rw [search] at h2
    split at h2
    · next hp =>
      by_cases hk : k = n
      · rw [hk]; exact hp
      · exact ih (n + 1) (by omega) h2
    · omega

theorem le_sum_of_mem {x : Nat} {xs : List Nat} (h : x ∈ xs) : x ≤ xs.sum := by
  induction xs with
  | nil => cases h
  | cons y ys ih =>
    rw [List.sum_cons]
    rcases List.mem_cons.mp h with rfl | h
    · omega
    · have := ih h
      omega

theorem taken_bound (st : Dict) (res : List (Nat × Nat)) (k : Nat) (h : bound st res ≤ k) :
    taken st res k = false := by
  rw [taken, Bool.or_eq_false_iff]
  constructor
  · rw [List.any_eq_false]
    intro m hm
    have := le_sum_of_mem (List.mem_map_of_mem (f := fun m : Item => m.id.toNat + 1) hm)
    rw [bound] at h
    have hne : m.id ≠ (k : Int) := by
      intro e
      rw [e] at this
      simp only [Int.toNat_natCast] at this
      omega
    simpa using hne
  · rw [contains, List.any_eq_false]
    intro x hx
    have := le_sum_of_mem (List.mem_map_of_mem (f := fun x : Nat × Nat => x.2 + 1) hx)
    rw [bound] at h
    simp only [Bool.and_eq_true, decide_eq_true_eq, not_and]
    omega

theorem nextId_le (st : Dict) (res : List (Nat × Nat)) (n : Nat) : n ≤ nextId st res n := search_le _ _ _

theorem nextId_free (st : Dict) (res : List (Nat × Nat)) (n : Nat) : taken st res (nextId st res n) = false :=
  search_free _ _ _ fun k hk => taken_bound st res k (by omega)

theorem nextId_least (st : Dict) (res : List (Nat × Nat)) (n k : Nat) (h1 : n ≤ k)
    (h2 : k < nextId st res n) : taken st res k = true := search_least _ _ _ _ h1 h2

/-! ## The loop -/

/-- Where an item of the result comes from. -/
theorem loop_mem {key : Key} {st : Dict} {res : List (Nat × Nat)} {n : Nat} {is : List Item} {o : Item}
    (h : o ∈ assignLoop key st res n is) : ∃ i ∈ is, o = { i with id := o.id } ∧
      ((∃ s, st.get? (key.of i) = some s ∧ o.id = s.id) ∨
       (st.get? (key.of i) = none ∧ ∃ k, n ≤ k ∧ o.id = (k : Int) ∧ taken st res k = false)) := by
  induction is generalizing n with
  | nil => cases h
  | cons i is ih =>
    rw [assignLoop] at h
    cases hg : st.get? (key.of i) with
    | some s =>
      rw [hg] at h
      rcases List.mem_cons.mp h with rfl | h
      · exact ⟨i, List.mem_cons_self, rfl, .inl ⟨s, hg, rfl⟩⟩
      · obtain ⟨j, hj, r⟩ := ih h
        exact ⟨j, List.mem_cons_of_mem _ hj, r⟩
    | none =>
      rw [hg] at h
      rcases List.mem_cons.mp h with rfl | h
      · exact ⟨i, List.mem_cons_self, rfl, .inr ⟨hg, _, nextId_le st res n, rfl, nextId_free st res n⟩⟩
      · obtain ⟨j, hj, e, r⟩ := ih h
        refine ⟨j, List.mem_cons_of_mem _ hj, e, ?_⟩
        rcases r with r | ⟨r1, k, r2, r3⟩
        · exact .inl r
        · exact .inr ⟨r1, k, Nat.le_trans (Nat.le_succ_of_le (nextId_le st res n)) r2, r3⟩

/-- Every item is in the result. -/
theorem loop_has {key : Key} {st : Dict} {res : List (Nat × Nat)} {n : Nat} {is : List Item} {i : Item}
    (h : i ∈ is) : ∃ o ∈ assignLoop key st res n is, o = { i with id := o.id } := by
  induction is generalizing n with
  | nil => cases h
  | cons j is ih =>
    rw [assignLoop]
    cases hg : st.get? (key.of j) with
    | some s =>
      rcases List.mem_cons.mp h with rfl | h
      · exact ⟨_, List.mem_cons_self, rfl⟩
      · obtain ⟨o, ho, r⟩ := ih (n := n) h
        exact ⟨o, List.mem_cons_of_mem _ ho, r⟩
    | none =>
      rcases List.mem_cons.mp h with rfl | h
      · exact ⟨_, List.mem_cons_self, rfl⟩
      · obtain ⟨o, ho, r⟩ := ih (n := nextId st res n + 1) h
        exact ⟨o, List.mem_cons_of_mem _ ho, r⟩

theorem loop_map_key (key : Key) (st : Dict) (res : List (Nat × Nat)) (n : Nat) (is : List Item) :
    (assignLoop key st res n is).map (fun o => (o.text, o.args, o.origId, o.extra)) =
      is.map fun o => (o.text, o.args, o.origId, o.extra) := by
  induction is generalizing n with
  | nil => rfl
  | cons i is ih =>
    rw [assignLoop]
    cases st.get? (key.of i) with
    | some s => simp only [List.map_cons, ih]
    | none => simp only [List.map_cons, ih]

/-- The ids differ when those in the dictionary do. -/
theorem loop_distinct {key : Key} {st : Dict} {res : List (Nat × Nat)} {n : Nat} {is : List Item}
    (hwf : WF key st) (hst : ∀ a ∈ st.values, ∀ b ∈ st.values, a.id = b.id → key.of a = key.of b)
    (hk : (is.map key.of).Nodup) :
    (assignLoop key st res n is).Pairwise fun a b => a.id ≠ b.id := by
  have hnew : ∀ k, taken st res k = false → ∀ s ∈ st.values, s.id ≠ (k : Int) := by
    intro k hk s hs
    rw [taken, Bool.or_eq_false_iff, List.any_eq_false] at hk
    simpa using hk.1 s hs
  induction is generalizing n with
  | nil => exact .nil
  | cons i is ih =>
    rw [List.map_cons, List.nodup_cons] at hk
    rw [assignLoop]
    cases hg : st.get? (key.of i) with
    | some s =>
      refine .cons ?_ (ih hk.2)
      intro o ho
      obtain ⟨j, hj, -, r⟩ := loop_mem ho
      dsimp only
      obtain ⟨hs, hsk⟩ := value_of_get? hwf hg
      rcases r with ⟨t, ht, e⟩ | ⟨-, k, -, e, hf⟩
      · rw [e]
        intro he
        obtain ⟨ht', htk⟩ := value_of_get? hwf ht
        have := hst s hs t ht' he
        exact hk.1 (by rw [← hsk, this, htk]; exact List.mem_map_of_mem hj)
      · rw [e]
        exact hnew k hf s hs
    | none =>
      refine .cons ?_ (ih hk.2)
      intro o ho
      obtain ⟨j, hj, -, r⟩ := loop_mem ho
      dsimp only
      rcases r with ⟨t, ht, e⟩ | ⟨-, k, hle, e, -⟩
      · rw [e]
        exact fun h => hnew _ (nextId_free st res n) t (value_of_get? hwf ht).1 h.symm
      · rw [e]
        intro h
        have : nextId st res n = k := by exact_mod_cast h
        omega

theorem unique_sorted_nodup (key : Key) (items : List Item) :
    ((sort (unique key items)).map key.of).Nodup :=
  ((sort_perm _).map key.of).nodup_iff.mpr (unique_nodup key items)

theorem wf_withExplicit {key : Key} {st : Dict} (h : WF key st) (items : List Item) :
    WF key (withExplicit key items st) := wf_addAll h _

theorem wf_readStable (key : Key) (files : List (List Item)) : WF key (readStable key files) :=
  wf_addAll (wf_nil key) _

end Verif.Catalog
