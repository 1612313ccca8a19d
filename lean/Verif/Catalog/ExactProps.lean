import Verif.Catalog.MoreProps

/-! # Exactly which ids and definitions the catalog generator gives -/
namespace Verif.Catalog

/-- The symbol of the message `i` that is listed last. -/
def lastSame (items : List Item) (i : Item) : Option Item := items.reverse.find? fun j => same j i

/-- The id that the program or the stable file asks for: the explicit id of the symbol listed last; when that
symbol has none, the id of the last entry for the message in the stable file. -/
def asked (f items : List Item) (i : Item) : Option Int :=
  (lastSame items i).bind fun j => if j.id ≠ -1 then some j.id else (lastSame f i).map (·.id)

theorem find_congr {p q : Item → Bool} {l : List Item} (h : ∀ m ∈ l, p m = q m) : l.find? p = l.find? q := by
  induction l with
  | nil => rfl
  | cons a l ih =>
    rw [List.find?_cons, List.find?_cons, h a List.mem_cons_self, ih fun m hm => h m (List.mem_cons_of_mem _ hm)]

theorem find_same {key : Key} {l : List Item} {i : Item} (h : ∀ m ∈ l, key.of m = key.of i → same m i) :
    (l.reverse.find? fun m => key.of m = key.of i) = lastSame l i := by
  rw [lastSame]
  refine find_congr fun m hm => ?_
  rw [List.mem_reverse] at hm
  rw [Bool.eq_iff_iff]
  simp only [decide_eq_true_eq]
  exact ⟨h m hm, of_eq_of_same⟩

theorem lastSame_congr {l : List Item} {a b : Item} (h : same a b) : lastSame l a = lastSame l b := by
  rw [lastSame, lastSame]
  congr 1
  funext j
  rw [decide_eq_decide]
  exact ⟨fun x => same_trans x h, fun x => same_trans x (same_symm h)⟩

theorem asked_congr {f items : List Item} {a b : Item} (h : same a b) : asked f items a = asked f items b := by
  rw [asked, asked, lastSame_congr h, lastSame_congr h]

/-- The messages kept are the symbols listed last. -/
theorem lastSame_unique {key : Key} {items : List Item} (hc : NoCollision key items) {j : Item}
    (hj : j ∈ unique key items) : lastSame items j = some j := by
  have h := get?_value (wf_addAll (wf_nil key) items) hj
  rw [get?_addAll, find_same fun m hm => hc m hm j (mem_unique hj)] at h
  cases hl : lastSame items j with
  | none => rw [hl] at h; cases h
  | some x => rw [hl] at h; exact h

theorem unique_lastSame {key : Key} {items : List Item} (hc : NoCollision key items) {i j : Item}
    (hi : i ∈ items) (h : lastSame items i = some j) : j ∈ unique key items := by
  obtain ⟨x, hx, hk⟩ := unique_has key hi
  have hs := hc x (mem_unique hx) i hi hk
  rw [← lastSame_congr hs, lastSame_unique hc hx] at h
  cases h
  exact hx

/-- The dictionary of fixed ids has what is asked for. -/
theorem get_asked {key : Key} {f items : List Item} (hc : NoCollision key (f ++ items)) {j : Item}
    (hj : j ∈ unique key items) :
    ((withExplicit key (unique key items) (readStable key [f])).get? (key.of j)).map (·.id) =
      asked f items j := by
  have hci : NoCollision key items := fun a ha b hb =>
    hc a (List.mem_append_right _ ha) b (List.mem_append_right _ hb)
  rw [asked, lastSame_unique hci hj, Option.bind_some]
  by_cases hid : j.id = -1
  · rw [if_neg (by simpa using hid), withExplicit, addAll_old]
    · have : (readStable key [f]).get? (key.of j) = lastSame f j := by
        have h1 : readStable key [f] = Dict.addAll key [] f := rfl
        rw [h1, get?_addAll, find_same fun m hm =>
          hc m (List.mem_append_left _ hm) j (List.mem_append_right _ (mem_unique hj))]
        cases lastSame f j <;> rfl
      rw [this]
    · intro m hm hk
      rw [List.mem_filter] at hm
      rw [unique_inj hm.1 hj hk] at hm
      simp [hid] at hm
  · rw [if_pos hid]
    have hm : j ∈ (unique key items).filter fun m => m.id ≠ -1 := by
      rw [List.mem_filter]
      exact ⟨hj, by simpa using hid⟩
    obtain ⟨x, h1, h2, h3⟩ := addAll_has key (readStable key [f]) _ hm
    rw [withExplicit, h2, unique_inj (List.mem_filter.1 h1).1 hj h3]
    rfl

/-! ## C81, C49 -/

/-- C81, C49: the id of a message is the explicit id of the symbol listed last, or, when that one has none,
the id in the stable file; a message that has neither gets a natural number that is not reserved and that no
other message of the program asks for. -/
theorem C81_exact (key : Key) (f items : List Item) (res : List (Nat × Nat)) (forget : Bool)
    (hc : NoCollision key (f ++ items)) {i o : Item}
    (ho : o ∈ (run key [f] res forget items).1) (hs : same o i) :
    (∀ x, asked f items i = some x → o.id = x) ∧
    (asked f items i = none → ∃ k : Nat, o.id = (k : Int) ∧ contains res k = false ∧
      ∀ j ∈ items, asked f items j ≠ some (k : Int)) := by
  rw [run_fst] at ho
  obtain ⟨j, hj, he, hr⟩ := loop_mem ho
  have hj' := (sort_perm _).mem_iff.mp hj
  have hji := same_trans (same_symm (same_of_eq_id he)) hs
  have hg := get_asked hc hj'
  rw [asked_congr hji] at hg
  have hci : NoCollision key items := fun a ha b hb =>
    hc a (List.mem_append_right _ ha) b (List.mem_append_right _ hb)
  rcases hr with ⟨s, h1, h2⟩ | ⟨h1, k, -, h2, h3⟩
  · rw [h1] at hg
    rw [← hg]
    refine ⟨fun x hx => ?_, fun hx => (by cases hx)⟩
    cases hx
    exact h2
  · rw [h1] at hg
    rw [← hg]
    refine ⟨fun x hx => (by cases hx), fun _ => ⟨k, h2, ?_, ?_⟩⟩
    · rw [taken, Bool.or_eq_false_iff] at h3
      exact h3.2
    · intro m hm ha
      obtain ⟨x, hx, hk⟩ := unique_has key hm
      have hxm := hci x (mem_unique hx) m hm hk
      rw [← asked_congr hxm, ← get_asked hc hx, Option.map_eq_some_iff] at ha
      obtain ⟨s, hs1, hs2⟩ := ha
      rw [taken, Bool.or_eq_false_iff, List.any_eq_false] at h3
      exact h3.1 s (value_of_get? (wf_withExplicit (wf_readStable key [f]) _) hs1).1 (by simpa using hs2)

example : NoCollision (msgKey exHash) ([item [1] [] 4, item [3] [] 0] ++
      [item [1] [] 7, item [2] [] (-1), item [3] [] 9, item [1] [] (-1), item [3] [] 8]) ∧
    (run (msgKey exHash) [[item [1] [] 4, item [3] [] 0]] [] false
      [item [1] [] 7, item [2] [] (-1), item [3] [] 9, item [1] [] (-1), item [3] [] 8]).1.map
      (fun o => (o.text, o.id, asked [item [1] [] 4, item [3] [] 0]
        [item [1] [] 7, item [2] [] (-1), item [3] [] 9, item [1] [] (-1), item [3] [] 8] o)) =
    [([1], 4, some 4), ([2], 0, none), ([3], 8, some 8)] := by
  unfold NoCollision
  decide +kernel

/-- The ids differ when those that the dictionary has for the items do. -/
theorem loop_distinct' {key : Key} {st : Dict} {res : List (Nat × Nat)} {n : Nat} {is : List Item}
    (hwf : WF key st) (hst : ∀ a ∈ is, ∀ b ∈ is, ∀ s t, st.get? (key.of a) = some s →
      st.get? (key.of b) = some t → s.id = t.id → key.of a = key.of b)
    (hk : (is.map key.of).Nodup) :
    (assignLoop key st res n is).Pairwise fun a b => a.id ≠ b.id := by
  have hnew : ∀ k, taken st res k = false → ∀ s ∈ st.values, s.id ≠ (k : Int) := by
    intro k hk s hs
    rw [taken, Bool.or_eq_false_iff, List.any_eq_false] at hk
    simpa using hk.1 s hs
  induction is generalizing n with
  | nil => exact .nil
  | cons i is ih =>
    rw [List.map_cons, List.nodup_cons] at hk
    have ih := fun n => ih (n := n) (fun a ha b hb => hst a (List.mem_cons_of_mem _ ha) b (List.mem_cons_of_mem _ hb)) hk.2
    rw [assignLoop]
    cases hg : st.get? (key.of i) with
    | some s =>
      refine .cons ?_ (ih _)
      intro o ho
      obtain ⟨j, hj, -, r⟩ := loop_mem ho
      dsimp only
      rcases r with ⟨t, ht, e⟩ | ⟨-, k, -, e, hf⟩
      · rw [e]
        intro he
        have := hst i List.mem_cons_self j (List.mem_cons_of_mem _ hj) s t hg ht he
        exact hk.1 (by rw [this]; exact List.mem_map_of_mem hj)
      · rw [e]
        exact hnew k hf s (value_of_get? hwf hg).1
    | none =>
      refine .cons ?_ (ih _)
      intro o ho
      obtain ⟨j, hj, -, r⟩ := loop_mem ho
      dsimp only
      rcases r with ⟨t, ht, e⟩ | ⟨-, k, hle, e, -⟩
      · rw [e]
        exact fun h => hnew _ (nextId_free st res n) t (value_of_get? hwf ht).1 h.symm
      · rw [e]
        intro h
        have : nextId st res n = k := by exact_mod_cast h
        omega

/-! ## C48 -/

/-- C48: the ids of the messages differ exactly when no two different messages ask for the same. -/
theorem C48_exact (key : Key) (f items : List Item) (res : List (Nat × Nat)) (forget : Bool)
    (hc : NoCollision key (f ++ items)) :
    ((run key [f] res forget items).1.Pairwise fun a b => a.id ≠ b.id) ↔
      ∀ i ∈ items, ∀ j ∈ items, ∀ x, asked f items i = some x → asked f items j = some x → same i j := by
  have hci : NoCollision key items := fun a ha b hb =>
    hc a (List.mem_append_right _ ha) b (List.mem_append_right _ hb)
  constructor
  · intro h i hi j hj x hx hy
    obtain ⟨a, ha, hai⟩ := (C48_complete key f items res forget hci).1 i hi
    obtain ⟨b, hb, hbj⟩ := (C48_complete key f items res forget hci).1 j hj
    have h1 := (C81_exact key f items res forget hc ha hai).1 x hx
    have h2 := (C81_exact key f items res forget hc hb hbj).1 x hy
    rw [pairwise_eq h ha hb (h1.trans h2.symm)] at hai
    exact same_trans (same_symm hai) hbj
  · intro h
    rw [run_fst]
    have hwf := wf_withExplicit (wf_readStable key [f]) (unique key items)
    have hst : ∀ a ∈ unique key items, ∀ b ∈ unique key items, ∀ s t,
        (withExplicit key (unique key items) (readStable key [f])).get? (key.of a) = some s →
        (withExplicit key (unique key items) (readStable key [f])).get? (key.of b) = some t →
        s.id = t.id → key.of a = key.of b := by
      intro a ha b hb s t h1 h2 he
      have g1 := get_asked hc ha
      have g2 := get_asked hc hb
      rw [h1] at g1
      rw [h2] at g2
      refine of_eq_of_same (h a (mem_unique ha) b (mem_unique hb) s.id g1.symm ?_)
      rw [← g2, he]
      rfl
    exact loop_distinct' hwf (fun a ha b hb => hst a ((sort_perm _).mem_iff.mp ha) b ((sort_perm _).mem_iff.mp hb))
      (unique_sorted_nodup key items)

example : ¬ (∀ i ∈ [item [1] [] (-1), item [2] [] 0], ∀ j ∈ [item [1] [] (-1), item [2] [] 0], ∀ x,
    asked [item [1] [] 0] [item [1] [] (-1), item [2] [] 0] i = some x →
    asked [item [1] [] 0] [item [1] [] (-1), item [2] [] 0] j = some x → same i j) := by
  intro h
  exact absurd (h (item [1] [] (-1)) (by simp) (item [2] [] 0) (by simp) 0 (by decide +kernel) (by decide +kernel))
    (by decide)

/-! ## C79 -/

/-- C79: a symbol is defined exactly when the symbol of the same message that is listed last has the same C++
type. -/
theorem C79_exact (key : Key) (f items : List Item) (res : List (Nat × Nat)) (forget : Bool)
    (hc : NoCollision key items) {i : Item} (hi : i ∈ items) :
    (∃ o ∈ (run key [f] res forget items).1, o.cppType = i.cppType) ↔
      (lastSame items i).map Item.cppType = some i.cppType := by
  rw [run_fst]
  constructor
  · rintro ⟨o, ho, ht⟩
    obtain ⟨j, hj, he, -⟩ := loop_mem ho
    have hj' := (sort_perm _).mem_iff.mp hj
    have hjo : j.cppType = o.cppType := by rw [he]; rfl
    have hs : same j i := by
      have := hjo.trans ht
      simp only [Item.cppType, Prod.mk.injEq] at this
      exact ⟨this.1, this.2.1⟩
    rw [← lastSame_congr hs, lastSame_unique hc hj', Option.map_some, hjo, ht]
  · intro h
    rw [Option.map_eq_some_iff] at h
    obtain ⟨j, hj, ht⟩ := h
    obtain ⟨o, ho, he⟩ := loop_has (key := key)
      (st := withExplicit key (unique key items) (readStable key [f])) (res := res) (n := 0)
      ((sort_perm (unique key items)).mem_iff.mpr (unique_lastSame hc hi hj))
    refine ⟨o, ho, ?_⟩
    rw [← ht, he]
    rfl

example : ((run (msgKey exHash) [[]] [] false [⟨[1], [], -1, -1, 0⟩, ⟨[2], [], -1, -1, 0⟩, ⟨[1], [], -1, -1, 5⟩]).1.map
    Item.cppType) = [([1], [], -1, 5), ([2], [], -1, 0)] := by
  decide +kernel

end Verif.Catalog
