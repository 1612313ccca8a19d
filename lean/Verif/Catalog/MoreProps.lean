import Verif.Catalog.Props

/-! # Order of the input, new ids, definitions, lists of arguments -/
namespace Verif.Catalog

/-! ## C77 -/

theorem textLt_trans {a b c : Text} (h1 : textLt a b = true) (h2 : textLt b c = true) :
    textLt a c = true := by
  induction a generalizing b c with
  | nil =>
    cases b with
    | nil => cases c <;> simp [textLt] at h1
    | cons y b => cases c with
      | nil => simp [textLt] at h2
      | cons z c => rfl
  | cons x a ih =>
    cases b with
    | nil => simp [textLt] at h1
    | cons y b =>
      cases c with
      | nil => simp [textLt] at h2
      | cons z c =>
        simp only [textLt] at h1 h2 ⊢
        split at h1
        · split at h2
          · rw [if_pos (by omega)]
          · split at h2
            · cases h2
            · rw [if_pos (by omega)]
        · split at h1
          · cases h1
          · split at h2
            · rw [if_pos (by omega)]
            · split at h2
              · cases h2
              · rw [if_neg (by omega), if_neg (by omega)]
                exact ih h1 h2

theorem textLt_asymm {a b : Text} (h : textLt a b = true) : textLt b a = false := by
  induction a generalizing b with
  | nil => cases b <;> rfl
  | cons x a ih =>
    cases b with
    | nil => simp [textLt] at h
    | cons y b =>
      simp only [textLt] at h ⊢
      split at h
      · rw [if_neg (by omega), if_pos (by omega)]
      · split at h
        · cases h
        · rw [if_neg (by omega), if_neg (by omega)]
          exact ih h

theorem textLt_total {a b : Text} (h : a ≠ b) : textLt a b = true ∨ textLt b a = true := by
  induction a generalizing b with
  | nil =>
    cases b with
    | nil => exact absurd rfl h
    | cons y b => exact .inl rfl
  | cons x a ih =>
    cases b with
    | nil => exact .inr rfl
    | cons y b =>
      simp only [textLt]
      by_cases h1 : x < y
      · exact .inl (by rw [if_pos h1])
      · by_cases h2 : y < x
        · exact .inr (by rw [if_pos h2])
        · have hxy : x = y := by omega
          have := ih (b := b) fun e => h (by rw [hxy, e])
          rw [if_neg h1, if_neg h2, if_neg h2, if_neg h1]
          exact this

theorem insert_comm_lt {x y : Item} (h : textLt x.text y.text = true) (l : List Item) :
    insert x (insert y l) = insert y (insert x l) := by
  have hyx := textLt_asymm h
  induction l with
  | nil => simp [insert, h, hyx]
  | cons w l ih =>
    by_cases hwx : textLt w.text x.text = true
    · have hwy := textLt_trans hwx h
      simp [insert, hwx, hwy, ih]
    · by_cases hwy : textLt w.text y.text = true
      · simp [insert, hwx, hwy, h]
      · simp [insert, hwx, hwy, h, hyx]

theorem insert_comm {x y : Item} (h : x.text = y.text → x = y) (l : List Item) :
    insert x (insert y l) = insert y (insert x l) := by
  by_cases hxy : x.text = y.text
  · rw [h hxy]
  · rcases textLt_total hxy with h1 | h1
    · exact insert_comm_lt h1 l
    · exact (insert_comm_lt h1 l).symm

theorem sort_eq_foldr (l : List Item) : sort l = l.foldr insert [] := by
  induction l with
  | nil => rfl
  | cons x l ih => rw [sort, ih, List.foldr_cons]

/-- Sorting does not depend on the order when the texts differ. -/
theorem sort_congr {l1 l2 : List Item} (hp : l1.Perm l2)
    (h : ∀ a ∈ l1, ∀ b ∈ l1, a.text = b.text → a = b) : sort l1 = sort l2 := by
  rw [sort_eq_foldr, sort_eq_foldr]
  exact hp.foldr_eq' (fun x hx y hy z => (insert_comm (h x hx y hy) z).symm) []

theorem mem_unique_iff {key : Key} {l : List Item} (hc : NoCollision key l)
    (h : ∀ a ∈ l, ∀ b ∈ l, a.text = b.text → a = b) {x : Item} : x ∈ unique key l ↔ x ∈ l := by
  refine ⟨mem_unique, fun hx => ?_⟩
  obtain ⟨y, hy, hk⟩ := unique_has key hx
  rw [← h y (mem_unique hy) x hx (hc y (mem_unique hy) x hx hk).1]
  exact hy

theorem unique_perm {key : Key} {l1 l2 : List Item} (hp : l1.Perm l2) (hc : NoCollision key l1)
    (h : ∀ a ∈ l1, ∀ b ∈ l1, a.text = b.text → a = b) : (unique key l1).Perm (unique key l2) := by
  have hc2 : NoCollision key l2 := fun a ha b hb => hc a (hp.mem_iff.2 ha) b (hp.mem_iff.2 hb)
  have h2 : ∀ a ∈ l2, ∀ b ∈ l2, a.text = b.text → a = b := fun a ha b hb =>
    h a (hp.mem_iff.2 ha) b (hp.mem_iff.2 hb)
  have nd : ∀ l, (unique key l).Nodup := by
    intro l
    have := unique_nodup key l
    rw [List.Nodup, List.pairwise_map] at this
    exact this.imp fun h e => h (by rw [e])
  rw [List.perm_ext_iff_of_nodup (nd l1) (nd l2)]
  intro x
  rw [mem_unique_iff hc h, mem_unique_iff hc2 h2, hp.mem_iff]

/-- The ids given depend only on what the dictionary answers. -/
theorem nextId_congr {s1 s2 : Dict} {res : List (Nat × Nat)} (h : ∀ k, taken s1 res k = taken s2 res k)
    (n : Nat) : nextId s1 res n = nextId s2 res n := by
  have key : ∀ s1 s2 : Dict, (∀ k, taken s1 res k = taken s2 res k) →
      nextId s1 res n ≤ nextId s2 res n := by
    intro s1 s2 h
    rcases Nat.lt_or_ge (nextId s2 res n) (nextId s1 res n) with hlt | hge
    · have h1 := nextId_least s1 res n (nextId s2 res n) (nextId_le s2 res n) hlt
      rw [h, nextId_free] at h1
      cases h1
    · exact hge
  exact Nat.le_antisymm (key s1 s2 h) (key s2 s1 fun k => (h k).symm)

theorem assignLoop_congr {key : Key} {s1 s2 : Dict} {res : List (Nat × Nat)}
    (hg : ∀ k, s1.get? k = s2.get? k) (ht : ∀ k, taken s1 res k = taken s2 res k) (n : Nat)
    (is : List Item) : assignLoop key s1 res n is = assignLoop key s2 res n is := by
  induction is generalizing n with
  | nil => rfl
  | cons i is ih =>
    rw [assignLoop, assignLoop, hg]
    cases s2.get? (key.of i) with
    | some s => simp only [ih]
    | none => simp only [ih, nextId_congr ht]

theorem withExplicit_get {key : Key} {l1 l2 : List Item} {st : Dict} (hp : l1.Perm l2)
    (hn : (l1.map key.of).Nodup) (k : Nat) :
    (withExplicit key l1 st).get? k = (withExplicit key l2 st).get? k := by
  have hf : ∀ l : List Item, (l.map key.of).Nodup →
      ∀ m, (l.reverse.find? fun m => key.of m = k) = some m ↔ m ∈ l ∧ key.of m = k := by
    intro l hl m
    constructor
    · intro h
      exact ⟨List.mem_reverse.mp (List.mem_of_find?_eq_some h), by simpa using List.find?_some h⟩
    · rintro ⟨hm, hk⟩
      cases hx : l.reverse.find? fun m => key.of m = k with
      | none => simpa [hk] using List.find?_eq_none.mp hx m (List.mem_reverse.mpr hm)
      | some x =>
        have h1 := List.mem_reverse.mp (List.mem_of_find?_eq_some hx)
        have h2 : key.of x = k := by simpa using List.find?_some hx
        congr 1
        have hinj : ∀ (l : List Item), (l.map key.of).Nodup → ∀ a ∈ l, ∀ b ∈ l,
            key.of a = key.of b → a = b := by
          intro l hl
          induction l with
          | nil => intro a ha; cases ha
          | cons x l ih =>
            rw [List.map_cons, List.nodup_cons] at hl
            intro a ha b hb hab
            rcases List.mem_cons.mp ha with rfl | ha
            · rcases List.mem_cons.mp hb with rfl | hb
              · rfl
              · exact absurd (hab ▸ List.mem_map_of_mem hb) hl.1
            · rcases List.mem_cons.mp hb with e | hb
              · exact absurd (e ▸ hab ▸ List.mem_map_of_mem ha) hl.1
              · exact ih hl.2 a ha b hb hab
        exact hinj l hl x h1 m hm (h2.trans hk.symm)
  have hpf := hp.filter fun m : Item => m.id ≠ -1
  have hn1 : ((l1.filter fun m => m.id ≠ -1).map key.of).Nodup := hn.sublist (List.filter_sublist.map key.of)
  have hn2 : ((l2.filter fun m => m.id ≠ -1).map key.of).Nodup := (hpf.map key.of).nodup_iff.mp hn1
  rw [withExplicit, withExplicit, get?_addAll, get?_addAll]
  have : (List.find? (fun m => decide (key.of m = k)) (l1.filter fun m => m.id ≠ -1).reverse) =
      List.find? (fun m => decide (key.of m = k)) (l2.filter fun m => m.id ≠ -1).reverse := by
    apply Option.ext
    intro m
    rw [hf _ hn1, hf _ hn2, hpf.mem_iff]
  rw [this]

/-- When messages with the same text are the same message, the order of the symbols in the input does not
matter: every message gets the same id. Missing from the full statement: messages with the same text and
different arguments. -/
theorem C77_order_partial (key : Key) {l1 l2 : List Item} (hp : l1.Perm l2) (f : List Item)
    (res : List (Nat × Nat)) (forget : Bool) (hc : NoCollision key l1)
    (h : ∀ a ∈ l1, ∀ b ∈ l1, a.text = b.text → a = b) :
    (run key [f] res forget l1).1 = (run key [f] res forget l2).1 := by
  rw [run_fst, run_fst]
  have hu := unique_perm hp hc h
  have hg := fun k => withExplicit_get (st := readStable key [f]) hu (unique_nodup key l1) k
  have hw1 := wf_withExplicit (key := key) (wf_readStable key [f]) (unique key l1)
  have hw2 := wf_withExplicit (key := key) (wf_readStable key [f]) (unique key l2)
  have ht : ∀ k, taken (withExplicit key (unique key l1) (readStable key [f])) res k =
      taken (withExplicit key (unique key l2) (readStable key [f])) res k := by
    intro k
    simp only [taken]
    congr 1
    rw [Bool.eq_iff_iff, List.any_eq_true, List.any_eq_true]
    constructor
    · rintro ⟨m, hm, e⟩
      have := get?_value hw1 hm
      rw [hg] at this
      exact ⟨m, (value_of_get? hw2 this).1, e⟩
    · rintro ⟨m, hm, e⟩
      have := get?_value hw2 hm
      rw [← hg] at this
      exact ⟨m, (value_of_get? hw1 this).1, e⟩
  rw [assignLoop_congr hg ht]
  congr 1
  exact sort_congr hu fun a ha b hb => h a (mem_unique ha) b (mem_unique hb)

example : (run (msgKey exHash) [[]] [] false [item [1] [] (-1), item [2] [[9]] (-1), item [0] [] 1]).1.map
      (fun o => (o.text, o.id)) = [([0], 1), ([1], 0), ([2], 2)] ∧
    (run (msgKey exHash) [[]] [] false [item [2] [[9]] (-1), item [0] [] 1, item [1] [] (-1)]).1.map
      (fun o => (o.text, o.id)) = [([0], 1), ([1], 0), ([2], 2)] := by
  decide +kernel

/-- Two messages with the same text and different arguments: which one gets the lower id depends on the
order of the symbols. -/
theorem C77_violated_same_text :
    (run (msgKey exHash) [[]] [] false [item [1] [[8]] (-1), item [1] [[9]] (-1)]).1.map
      (fun o => (o.args, o.id)) = [([[8]], 0), ([[9]], 1)] ∧
    (run (msgKey exHash) [[]] [] false [item [1] [[9]] (-1), item [1] [[8]] (-1)]).1.map
      (fun o => (o.args, o.id)) = [([[9]], 0), ([[8]], 1)] := by
  decide +kernel

/-! ## C78 -/

theorem loop_dense {key : Key} {st : Dict} {res : List (Nat × Nat)} {n : Nat} {is : List Item} {o : Item}
    (ho : o ∈ assignLoop key st res n is) (hn : st.get? (key.of o) = none) (k : Nat) (h1 : n ≤ k)
    (h2 : (k : Int) < o.id) : taken st res k = true ∨ ∃ p ∈ assignLoop key st res n is, p.id = (k : Int) := by
  induction is generalizing n with
  | nil => cases ho
  | cons i is ih =>
    rw [assignLoop] at ho ⊢
    cases hg : st.get? (key.of i) with
    | some s =>
      rw [hg] at ho
      rcases List.mem_cons.mp ho with rfl | ho
      · have : st.get? (key.of i) = none := hn
        rw [hg] at this
        cases this
      · rcases ih ho h1 with h | ⟨p, hp, e⟩
        · exact .inl h
        · exact .inr ⟨p, List.mem_cons_of_mem _ hp, e⟩
    | none =>
      rw [hg] at ho
      rcases Nat.lt_trichotomy k (nextId st res n) with hlt | heq | hgt
      · exact .inl (nextId_least st res n k h1 hlt)
      · exact .inr ⟨_, List.mem_cons_self, by dsimp only; rw [heq]⟩
      · rcases List.mem_cons.mp ho with rfl | ho
        · dsimp only at h2
          omega
        · rcases ih ho (by omega) with h | ⟨p, hp, e⟩
          · exact .inl h
          · exact .inr ⟨p, List.mem_cons_of_mem _ hp, e⟩

/-- A message that is neither in the stable file nor has an explicit id gets an id that is not reserved,
and all smaller ids are reserved, recorded, explicit or given to another message. -/
theorem C78_new_ids (key : Key) (f items : List Item) (res : List (Nat × Nat)) (forget : Bool)
    (hc : NoCollision key (f ++ items)) {o : Item} (ho : o ∈ (run key [f] res forget items).1)
    (hnew : ∀ y ∈ f, ¬ same y o) (hno : ∀ i ∈ items, same i o → i.id = -1) :
    ∃ K : Nat, o.id = (K : Int) ∧ (∀ iv ∈ res, ¬ (iv.1 ≤ K ∧ K ≤ iv.2)) ∧
      ∀ k < K, (∃ iv ∈ res, iv.1 ≤ k ∧ k ≤ iv.2) ∨ (∃ x ∈ f ++ explicit items, x.id = (k : Int)) ∨
        ∃ p ∈ (run key [f] res forget items).1, p.id = (k : Int) := by
  rw [run_fst] at ho ⊢
  obtain ⟨i, hi, he, hr⟩ := loop_mem ho
  have hwf := wf_withExplicit (key := key) (wf_readStable key [f]) (unique key items)
  have hio := same_of_eq_id he
  have hii := mem_unique ((sort_perm _).mem_iff.mp hi)
  have hnone : (withExplicit key (unique key items) (readStable key [f])).get? (key.of i) = none := by
    cases hg : (withExplicit key (unique key items) (readStable key [f])).get? (key.of i) with
    | none => rfl
    | some s =>
      obtain ⟨hsv, hsk⟩ := value_of_get? hwf hg
      rcases List.mem_append.mp (stable_values hsv) with hs | hs
      · have := hc s (List.mem_append_left _ hs) i (List.mem_append_right _ hii) hsk
        exact absurd (same_trans this (same_symm hio)) (hnew s hs)
      · rw [mem_explicit] at hs
        have := hc s (List.mem_append_right _ hs.1) i (List.mem_append_right _ hii) hsk
        exact absurd (hno s hs.1 (same_trans this (same_symm hio))) hs.2
  rcases hr with ⟨s, hg, -⟩ | ⟨-, K, -, e, hf⟩
  · rw [hnone] at hg
    cases hg
  · refine ⟨K, e, ?_, ?_⟩
    · rw [taken, Bool.or_eq_false_iff, contains] at hf
      intro iv hiv
      simpa using List.any_eq_false.mp hf.2 iv hiv
    · intro k hk
      have hno' : (withExplicit key (unique key items) (readStable key [f])).get? (key.of o) = none := by
        rw [of_eq_of_same hio]
        exact hnone
      rcases loop_dense ho hno' k (Nat.zero_le k) (by omega) with h | h
      · rw [taken, Bool.or_eq_true, List.any_eq_true, contains, List.any_eq_true] at h
        rcases h with ⟨m, hm, hid⟩ | ⟨iv, hiv, h⟩
        · exact .inr (.inl ⟨m, stable_values hm, by simpa using hid⟩)
        · exact .inl ⟨iv, hiv, by simpa using h⟩
      · exact .inr (.inr h)

example : (run (msgKey exHash) [[item [9] [] 1]] [(2, 3), (6, 6)] false
    [item [1] [] (-1), item [2] [] (-1), item [3] [] 5, item [4] [] (-1)]).1.map (·.id) = [0, 4, 5, 7] := by
  decide +kernel

/-! ## C79 -/

/-- When symbols of the same message have the same C++ type, every symbol gets a definition. Missing from
the full statement: symbols that differ only in tags, in named arguments or in the explicit id. -/
theorem C79_defined_partial (key : Key) (f items : List Item) (res : List (Nat × Nat)) (forget : Bool)
    (hc : NoCollision key items)
    (h : ∀ a ∈ items, ∀ b ∈ items, same a b → a.cppType = b.cppType) :
    ∀ i ∈ items, ∃ o ∈ (run key [f] res forget items).1, o.cppType = i.cppType := by
  rw [run_fst]
  intro i hi
  obtain ⟨x, hx, hk⟩ := unique_has key hi
  obtain ⟨o, ho, he⟩ := loop_has (key := key)
    (st := withExplicit key (unique key items) (readStable key [f])) (res := res) (n := 0)
    ((sort_perm (unique key items)).mem_iff.mpr hx)
  refine ⟨o, ho, ?_⟩
  rw [← h x (mem_unique hx) i hi (hc x (mem_unique hx) i hi hk), he]
  rfl

example : ((run (msgKey exHash) [[item [1] [] 4]] [] false [item [1] [] (-1), item [2] [] (-1), item [1] [] (-1)]).1.map
    Item.cppType) = [([1], [], -1, 0), ([2], [], -1, 0)] := by
  decide +kernel

/-- The same text logged with and without a tag: only the last one is defined, the program does not
link. -/
theorem C79_violated_tags : ∃ a b : Item, a.cppType ≠ b.cppType ∧ same a b ∧
    (run (msgKey exHash) [[]] [] false [a, b]).1.map Item.cppType = [b.cppType] :=
  ⟨⟨[1], [], -1, -1, 0⟩, ⟨[1], [], -1, -1, 5⟩, by decide +kernel, by decide +kernel, by decide +kernel⟩

/-- Likewise with two explicit ids. -/
theorem C79_violated_ids : ∃ a b : Item, a.cppType ≠ b.cppType ∧ same a b ∧
    (run (msgKey exHash) [[]] [] false [a, b]).1.map Item.cppType = [b.cppType] :=
  ⟨⟨[1], [], 3, 3, 0⟩, ⟨[1], [], 4, 4, 0⟩, by decide +kernel, by decide +kernel, by decide +kernel⟩

/-- With any hash function: a message whose text is the type of its only argument collides with every other
such message (the hash of the text is combined with the same hash), and only one of them is defined. -/
theorem C79_violated_hash (hash : Text → Nat) : ∃ a b : Item, ¬ same a b ∧
    (run (msgKey hash) [[]] [] false [a, b]).1.map Item.cppType = [b.cppType] := by
  refine ⟨⟨[1], [[1]], -1, -1, 0⟩, ⟨[2], [[2]], -1, -1, 0⟩, by decide, ?_⟩
  simp [run, readInput, assignIds, unique, Dict.addAll, Dict.set, Key.of, msgKey, Dict.values, sort, insert,
    withExplicit, assignLoop, readStable, Dict.get?, Item.cppType]

/-- The same collision gives the id of a stable message to a new one, with any hash function. -/
theorem C49_violated_hash (hash : Text → Nat) : ∃ a b : Item, ¬ same a b ∧ b.id = -1 ∧
    (run (msgKey hash) [[a]] [] false [b]).1 = [{ b with id := a.id }] := by
  refine ⟨⟨[1], [[1]], 7, 7, 0⟩, ⟨[2], [[2]], -1, -1, 0⟩, by decide, rfl, ?_⟩
  simp [run, readInput, assignIds, unique, Dict.addAll, Dict.set, Key.of, msgKey, Dict.values, sort, insert,
    withExplicit, assignLoop, readStable, Dict.get?]

/-! ## C81 -/

/-- An explicit id is the id the message gets, when all symbols of the message have that explicit id.
Missing from the full statement: symbols of one message with different explicit ids or without one. -/
theorem C81_explicit_partial (key : Key) (f items : List Item) (res : List (Nat × Nat)) (forget : Bool)
    (hc : NoCollision key items) {i : Item} (_hi : i ∈ items) (hid : i.id ≠ -1)
    (hone : ∀ j ∈ items, same j i → j.id = i.id) :
    ∀ o ∈ (run key [f] res forget items).1, same o i → o.id = i.id := by
  rw [run_fst]
  intro o ho hs
  obtain ⟨j, hj, he, hr⟩ := loop_mem ho
  have hji := same_trans (same_symm (same_of_eq_id he)) hs
  have hj' := (sort_perm _).mem_iff.mp hj
  have hjid : j.id = i.id := hone j (mem_unique hj') hji
  obtain ⟨s, hg, hsm⟩ : ∃ s, (withExplicit key (unique key items) (readStable key [f])).get? (key.of j) = some s ∧
      s ∈ explicit (unique key items) ∧ key.of s = key.of j := by
    have hm : j ∈ (unique key items).filter fun m => m.id ≠ -1 := by
      rw [List.mem_filter]
      exact ⟨hj', by simpa [hjid] using hid⟩
    obtain ⟨x, h1, h2, h3⟩ := addAll_has key (readStable key [f]) _ hm
    exact ⟨x, h2, h1, h3⟩
  rw [hg] at hr
  rcases hr with ⟨t, ht, e⟩ | ⟨hn, -⟩
  · cases ht
    rw [e]
    have hsu := (mem_explicit.mp hsm.1).1
    refine hone s (mem_unique hsu) (same_trans ?_ hji)
    exact hc s (mem_unique hsu) j (mem_unique hj') hsm.2
  · cases hn

example : (run (msgKey exHash) [[item [1] [] 4]] [(5, 9)] false [item [1] [] 7, item [2] [] (-1), item [1] [] 7]).1.map
    (·.id) = [7, 0] := by
  decide +kernel

/-- The explicit id is lost when the same message is also logged without one. -/
theorem C81_violated_mixed :
    (run (msgKey exHash) [[]] [] false [item [1] [] 7, item [1] [] (-1)]).1.map (·.id) = [0] := by
  decide +kernel

/-! ## C82 -/

/-- The catalog that is written has every message of the build with its id; when old ids are forgotten,
nothing else; otherwise also every message of the stable catalog that has no explicit id, with its id; and
nothing that is in neither. -/
theorem C82_written (key : Key) (f items : List Item) (res : List (Nat × Nat)) :
    (∀ forget, ∀ o ∈ (run key [f] res forget items).1, ∃ x ∈ (run key [f] res forget items).2, same x o ∧ x.id = o.id) ∧
    (∀ x ∈ (run key [f] res true items).2, ∃ o ∈ (run key [f] res true items).1, same x o ∧ x.id = o.id) ∧
    (∀ x ∈ (run key [f] res false items).2, ∃ o ∈ (run key [f] res false items).1 ++ f ++ explicit items,
      same x o ∧ x.id = o.id) ∧
    (NoCollision key (f ++ items) → ∀ x ∈ f, (∀ y ∈ f, same y x → y.id = x.id) →
      (∀ i ∈ items, same i x → i.id = -1) →
      ∃ y ∈ (run key [f] res false items).2, same y x ∧ y.id = x.id) := by
  have hj : ∀ i : Item, same i.json i ∧ i.json.id = i.id := fun i => ⟨⟨rfl, rfl⟩, rfl⟩
  refine ⟨?_, ?_, ?_, ?_⟩
  · intro forget o ho
    exact ⟨o.json, mem_appendStable.mpr (.inl (List.mem_map_of_mem ho)), hj o⟩
  · intro x hx
    rcases mem_appendStable.mp hx with h | ⟨m, hm, -⟩
    · obtain ⟨o, ho, rfl⟩ := List.mem_map.mp h
      exact ⟨o, ho, hj o⟩
    · cases hm
  · intro x hx
    rcases mem_appendStable.mp hx with h | ⟨m, hm, rfl⟩
    · obtain ⟨o, ho, rfl⟩ := List.mem_map.mp h
      exact ⟨o, List.mem_append_left _ (List.mem_append_left _ ho), hj o⟩
    · refine ⟨m, ?_, hj m⟩
      rcases List.mem_append.mp (stable_values hm) with h | h
      · exact List.mem_append_left _ (List.mem_append_right _ h)
      · exact List.mem_append_right _ h
  · intro hc x hx hone hexp
    obtain ⟨s, hg, hid⟩ := stable_get hx hc hone hexp
    obtain ⟨hsv, hsk⟩ := value_of_get? (wf_withExplicit (wf_readStable key [f]) _) hg
    refine ⟨s.json, mem_appendStable.mpr (.inr ⟨s, hsv, rfl⟩), same_trans (hj s).1 ?_, hid⟩
    refine hc s ?_ x (List.mem_append_left _ hx) hsk
    rcases List.mem_append.mp (stable_values hsv) with h | h
    · exact List.mem_append_left _ h
    · exact List.mem_append_right _ (mem_explicit.mp h).1

example : ((run (msgKey exHash) [[item [1] [] 4, item [3] [] 2]] [] false [item [1] [] (-1), item [2] [] (-1)]).2.map
      fun x => (x.text, x.id)) = [([1], 4), ([2], 0), ([3], 2)] ∧
    ((run (msgKey exHash) [[item [1] [] 4, item [3] [] 2]] [] true [item [1] [] (-1), item [2] [] (-1)]).2.map
      fun x => (x.text, x.id)) = [([1], 4), ([2], 0)] := by
  decide +kernel

/-! ## C80 -/

section split
variable {lt gt comma space : Nat}

theorem findSplit_nested (hl : lt ≠ gt) {a : Text} (h : Nested lt gt a) (n : Int) (hn : 0 < n) (s : Text) :
    findSplit lt gt comma n (a ++ s) =
      (a ++ (findSplit lt gt comma n s).1, (findSplit lt gt comma n s).2) := by
  induction h generalizing n s with
  | nil => rfl
  | @char c t h1 h2 _ ih =>
    rw [List.cons_append, findSplit, if_neg h2, if_neg h1, if_neg (by omega)]
    simp only [ih n hn s, List.cons_append]
  | @block t u _ _ ih1 ih2 =>
    rw [List.cons_append, findSplit, if_neg hl, if_pos rfl]
    simp only [List.append_assoc, List.cons_append, ih1 (n + 1) (by omega)]
    rw [findSplit, if_pos rfl]
    simp only [show n + 1 - 1 = n from by omega, ih2 n hn s]

theorem findSplit_arg (hl : lt ≠ gt) {a : Text} (h : Arg lt gt comma a) (s : Text) :
    findSplit lt gt comma 0 (a ++ s) =
      (a ++ (findSplit lt gt comma 0 s).1, (findSplit lt gt comma 0 s).2) := by
  induction h generalizing s with
  | nil => rfl
  | @char c t h1 h2 h3 _ ih =>
    rw [List.cons_append, findSplit, if_neg h2, if_neg h1, if_neg (fun h => h3 h.1)]
    simp only [ih s, List.cons_append]
  | @block t u hn _ ih =>
    rw [List.cons_append, findSplit, if_neg hl, if_pos rfl]
    simp only [List.append_assoc, List.cons_append, findSplit_nested hl hn (0 + 1) (by omega)]
    rw [findSplit, if_pos rfl]
    simp only [show (0 : Int) + 1 - 1 = 0 from by omega, ih s]

/-- No space at the ends. -/
def Trimmed (space : Nat) (a : Text) : Prop :=
  a ≠ [] ∧ a.head? ≠ some space ∧ a.getLast? ≠ some space

theorem strip_trimmed {a : Text} (h : Trimmed space a) : strip space a = a := by
  obtain ⟨h1, h2, h3⟩ := h
  have e1 : a.dropWhile (· = space) = a := by
    cases a with
    | nil => rfl
    | cons x a =>
      have : x ≠ space := fun e => h2 (by rw [e]; rfl)
      simp [this]
  have e2 : a.reverse.dropWhile (· = space) = a.reverse := by
    have h3' : a.reverse.head? ≠ some space := by rwa [List.head?_reverse]
    cases hr : a.reverse with
    | nil => rfl
    | cons x b =>
      rw [hr] at h3'
      have : x ≠ space := fun e => h3' (by rw [e]; rfl)
      simp [this]
  rw [strip, e1, e2, List.reverse_reverse]

theorem strip_space (a : Text) : strip space (space :: a) = strip space a := by
  simp [strip]

theorem splitArgs_join (hc1 : comma ≠ lt) (hc2 : comma ≠ gt) (hs1 : space ≠ lt) (hs2 : space ≠ gt)
    (hs3 : space ≠ comma) (hl : lt ≠ gt) (a : Text) (as : List Text)
    (h : ∀ x ∈ a :: as, Arg lt gt comma x ∧ Trimmed space x) (fuel : Nat)
    (hf : (join comma space (a :: as)).length ≤ fuel) :
    splitArgs lt gt comma space fuel (join comma space (a :: as)) = a :: as ∧
    splitArgs lt gt comma space (fuel + 1) (space :: join comma space (a :: as)) = a :: as := by
  induction as generalizing a fuel with
  | nil =>
    obtain ⟨ha, ht⟩ := h a List.mem_cons_self
    have hfs : findSplit lt gt comma 0 a = (a, none) := by
      have := findSplit_arg (comma := comma) hl ha []
      simpa [findSplit] using this
    simp only [join] at hf ⊢
    obtain ⟨x, b, rfl⟩ : ∃ x b, a = x :: b := by
      cases a with
      | nil => exact absurd rfl ht.1
      | cons x b => exact ⟨x, b, rfl⟩
    obtain ⟨fuel, rfl⟩ : ∃ m, fuel = m + 1 := ⟨fuel - 1, by simp at hf; omega⟩
    constructor
    · simp only [splitArgs, hfs, strip_trimmed ht]
    · have : findSplit lt gt comma 0 (space :: x :: b) = (space :: x :: b, none) := by
        rw [findSplit, if_neg hs2, if_neg hs1, if_neg (fun h => hs3 h.1)]
        simp only [hfs]
      simp only [splitArgs, this, strip_space, strip_trimmed ht]
  | cons c as ih =>
    obtain ⟨ha, ht⟩ := h a List.mem_cons_self
    have hj : join comma space (a :: c :: as) = a ++ comma :: space :: join comma space (c :: as) := rfl
    have hcomma : findSplit lt gt comma 0 (comma :: space :: join comma space (c :: as)) =
        ([], some (space :: join comma space (c :: as))) := by
      rw [findSplit, if_neg hc2, if_neg hc1, if_pos ⟨rfl, rfl⟩]
    have hfs : findSplit lt gt comma 0 (join comma space (a :: c :: as)) =
        (a, some (space :: join comma space (c :: as))) := by
      rw [hj, findSplit_arg hl ha, hcomma, List.append_nil]
    have hlen : (join comma space (c :: as)).length + 2 ≤ fuel := by
      rw [hj] at hf
      simp only [List.length_append, List.length_cons] at hf
      omega
    obtain ⟨m, rfl⟩ : ∃ m, fuel = m + 2 := ⟨fuel - 2, by omega⟩
    have hne : ∃ x b, join comma space (a :: c :: as) = x :: b := by
      rw [hj]
      cases a with
      | nil => exact absurd rfl ht.1
      | cons x b => exact ⟨_, _, rfl⟩
    obtain ⟨x, b, hxb⟩ := hne
    constructor
    · rw [hxb] at hfs ⊢
      rw [splitArgs, hfs]
      dsimp only
      rw [strip_trimmed ht]
      · rw [(ih c (fun y hy => h y (List.mem_cons_of_mem _ hy)) m (by omega)).2]
      · exact fun e => by cases e
    · have : findSplit lt gt comma 0 (space :: join comma space (a :: c :: as)) =
          (space :: a, some (space :: join comma space (c :: as))) := by
        rw [findSplit, if_neg hs2, if_neg hs1, if_neg (fun h => hs3 h.1)]
        simp only [hfs]
      rw [splitArgs, this]
      dsimp only
      rw [strip_space, strip_trimmed ht]
      · rw [(ih c (fun y hy => h y (List.mem_cons_of_mem _ hy)) (m + 1) (by omega)).2]
      · exact fun e => by cases e

end split

/-- A list of argument types, written with commas between, is read back, with commas inside angle
brackets left alone; 60, 62, 44 and 32 are `<`, `>`, the comma and the space. -/
theorem C80_split (args : List Text) (h : ∀ a ∈ args, Arg 60 62 44 a ∧ Trimmed 32 a) :
    splitArgs 60 62 44 32 (join 44 32 args).length (join 44 32 args) = args := by
  cases args with
  | nil => rfl
  | cons a as =>
    exact (splitArgs_join (by decide) (by decide) (by decide) (by decide) (by decide) (by decide) a as h _
      (Nat.le_refl _)).1

/-- `a<b, c>` and `d`. -/
example : (Arg 60 62 44 [97, 60, 98, 44, 32, 99, 62] ∧ Trimmed 32 [97, 60, 98, 44, 32, 99, 62]) ∧
    splitArgs 60 62 44 32 20 (join 44 32 [[97, 60, 98, 44, 32, 99, 62], [100]]) =
      [[97, 60, 98, 44, 32, 99, 62], [100]] := by
  refine ⟨⟨?_, by decide, by decide, by decide⟩, by decide⟩
  refine .char (by decide) (by decide) (by decide) (.block (s := [98, 44, 32, 99]) (t := []) ?_ .nil)
  exact .char (by decide) (by decide) (.char (by decide) (by decide) (.char (by decide) (by decide)
    (.char (by decide) (by decide) .nil)))

end Verif.Catalog
