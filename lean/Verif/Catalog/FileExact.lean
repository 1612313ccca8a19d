import Verif.Catalog.ExactProps
import Verif.Catalog.FileProps

/-! # Exactly when each id has one entry in the JSON file -/
namespace Verif.Catalog

/-- The recorded entry of a message is found. -/
theorem get_lastSame {key : Key} {f : List Item} {i : Item} (hc : ∀ m ∈ f, key.of m = key.of i → same m i) :
    (readStable key [f]).get? (key.of i) = lastSame f i := by
  rw [readStable, get?_addAll]
  simp only [List.foldl_cons, List.foldl_nil]
  rw [find_same hc]
  cases lastSame f i <;> rfl

theorem one_entry (key : Key) (f items : List Item) (res : List (Nat × Nat))
    (hc : NoCollision key (f ++ items)) (hno : ∀ i ∈ items, i.id = -1)
    (hd : ∀ i ∈ items, ∀ s j, lastSame f i = some s → lastSame items i = some j → j.extra = s.extra)
    (h : EachIdOnce f) : EachIdOnce (run key [f] res false items).2 := by
  have hw' := withExplicit_none (key := key) hno (readStable key [f])
  have h2 : (run key [f] res false items).2 =
      appendStable ((run key [f] res false items).1.map Item.json) (readStable key [f]).values := by
    rw [run]
    simp only [Bool.false_eq_true, if_false, hw']
  have hval : ∀ s ∈ (readStable key [f]).values, s ∈ f := by
    intro s hs
    rcases values_addAll (wf_nil key) _ hs with h | h
    · exact h
    · cases h
  have hex : explicit items = [] := by
    rw [explicit, List.filter_eq_nil_iff]
    intro m hm
    simp [hno m hm]
  have hout : (run key [f] res false items).1.Pairwise fun a b => a.id ≠ b.id := by
    refine C48_unique_partial key f items res false ?_
    rw [hex, List.append_nil]
    intro a ha b hb hab
    rw [pairwise_eq h ha hb hab]
    exact ⟨rfl, rfl⟩
  -- an entry of the build and a recorded one
  have hmix : ∀ o ∈ (run key [f] res false items).1, ∀ x ∈ (readStable key [f]).values, o.id = x.id → o.json = x.json := by
    intro o ho x hx hid
    rw [run_fst, hw'] at ho
    obtain ⟨i, hi, he, hr⟩ := loop_mem ho
    have hi' : i ∈ items := mem_unique ((sort_perm _).mem_iff.1 hi)
    rcases hr with ⟨s, hs, e⟩ | ⟨_, k, _, e, ht⟩
    · obtain ⟨hsv, hsk⟩ := value_of_get? (wf_readStable key [f]) hs
      have hsx : s = x := pairwise_eq h (hval s hsv) (hval x hx) (by rw [← e, hid])
      subst hsx
      have hsame := hc s (List.mem_append_left _ (hval s hsv)) i (List.mem_append_right _ hi') hsk
      have hu := (sort_perm _).mem_iff.1 hi
      have hextra := hd i hi' s i (by rw [← get_lastSame fun m hm => hc m (List.mem_append_left _ hm) i (List.mem_append_right _ hi'), hs])
        (lastSame_unique (fun a ha b hb => hc a (List.mem_append_right _ ha) b (List.mem_append_right _ hb)) hu)
      rw [he, Item.json, Item.json, ← hid]
      simp only [hsame.1, hsame.2, hextra]
    · rw [taken, Bool.or_eq_false_iff, List.any_eq_false] at ht
      exact absurd (by rw [← hid, e]; simp) (ht.1 x hx)
  rw [h2]
  apply append_pairwise
  · rw [EachIdOnce, List.pairwise_map]
    exact hout
  · have key1 : ∀ a, (a ∈ (run key [f] res false items).1.map Item.json ∨ ∃ m ∈ (readStable key [f]).values, a = m.json) →
        ∃ o, (o ∈ (run key [f] res false items).1 ∨ o ∈ (readStable key [f]).values) ∧ a = o.json ∧ a.id = o.id := by
      rintro a (ha | ⟨m, hm, rfl⟩)
      · obtain ⟨o, ho, rfl⟩ := List.mem_map.1 ha
        exact ⟨o, .inl ho, rfl, rfl⟩
      · exact ⟨m, .inr hm, rfl, rfl⟩
    intro a ha b hb hab
    obtain ⟨x, hx, rfl, hxi⟩ := key1 a ha
    obtain ⟨y, hy, rfl, hyi⟩ := key1 b hb
    rw [hxi, hyi] at hab
    rcases hx with hx | hx <;> rcases hy with hy | hy
    · rw [pairwise_eq hout hx hy hab]
    · exact hmix x hx y hy hab
    · exact (hmix y hy x hx hab.symm).symm
    · rw [pairwise_eq h (hval x hx) (hval y hy) hab]

/-- **C148** One build without explicit ids, from a file in which each id has one entry: so it is in the new file
exactly if the tags, named arguments and the like of each message, in the symbol that is listed last, are those of
the last entry for it in the old file. -/
theorem C148_exact (key : Key) (f items : List Item) (res : List (Nat × Nat))
    (hc : NoCollision key (f ++ items)) (hno : ∀ i ∈ items, i.id = -1) (h : EachIdOnce f) :
    EachIdOnce (run key [f] res false items).2 ↔
      ∀ i ∈ items, ∀ old new, lastSame f i = some old → lastSame items i = some new → new.extra = old.extra := by
  refine ⟨fun ho i hi s j hs hj => ?_, fun hd => one_entry key f items res hc hno hd h⟩
  have hci : NoCollision key items := fun a ha b hb => hc a (List.mem_append_right _ ha) b (List.mem_append_right _ hb)
  have hw' := withExplicit_none (key := key) hno (readStable key [f])
  have hju := unique_lastSame hci hi hj
  obtain ⟨o, hom, he⟩ := loop_has (key := key) (st := readStable key [f]) (res := res) (n := 0)
    ((sort_perm _).mem_iff.2 hju)
  have hsame : same j i := by
    have := List.find?_some hj
    simpa using this
  have hg : (readStable key [f]).get? (key.of j) = some s := by
    rw [of_eq_of_same hsame, get_lastSame fun m hm => hc m (List.mem_append_left _ hm) i (List.mem_append_right _ hi), hs]
  obtain ⟨hsv, hsk⟩ := value_of_get? (wf_readStable key [f]) hg
  have hid : o.id = s.id := by
    obtain ⟨i', hi', he', hr⟩ := loop_mem hom
    have e : i' = j := by
      refine unique_inj ((sort_perm _).mem_iff.1 hi') hju (of_eq_of_same ⟨?_, ?_⟩)
      · have e1 : o.text = i'.text := by rw [he']
        have e2 : o.text = j.text := by rw [he]
        rw [← e1, e2]
      · have e1 : o.args = i'.args := by rw [he']
        have e2 : o.args = j.args := by rw [he]
        rw [← e1, e2]
    subst e
    rcases hr with ⟨s', hs', e⟩ | ⟨hn, _⟩
    · rw [hg] at hs'
      cases hs'
      exact e
    · rw [hg] at hn
      cases hn
  have h2 : (run key [f] res false items).2 =
      appendStable ((run key [f] res false items).1.map Item.json) (readStable key [f]).values := by
    rw [run]
    simp only [Bool.false_eq_true, if_false, hw']
  rw [h2] at ho
  have m1 : o.json ∈ appendStable ((run key [f] res false items).1.map Item.json) (readStable key [f]).values := by
    rw [mem_appendStable]
    refine .inl (List.mem_map_of_mem ?_)
    rw [run_fst, hw']
    exact hom
  have m2 : s.json ∈ appendStable ((run key [f] res false items).1.map Item.json) (readStable key [f]).values :=
    mem_appendStable.2 (.inr ⟨s, hsv, rfl⟩)
  have e := pairwise_eq ho m1 m2 hid
  have e1 : o.json.extra = s.json.extra := by rw [e]
  have e2 : o.extra = j.extra := by rw [he]
  exact e2.symm.trans e1

/-- **C150**, what the option to forget old ids does for all stable files: the ids are those of a build without the
option, and the JSON file lists the messages of the build with these ids, and nothing else. -/
theorem C150_exact (key : Key) (f items : List Item) (res : List (Nat × Nat)) :
    (run key [f] res true items).1 = (run key [f] res false items).1 ∧
    ∀ x, x ∈ (run key [f] res true items).2 ↔ ∃ o ∈ (run key [f] res false items).1, x = { o with origId := o.id } := by
  refine ⟨rfl, fun x => ?_⟩
  rw [run]
  simp only [if_true]
  rw [mem_appendStable]
  simp only [List.mem_map, List.not_mem_nil, false_and, exists_false, or_false]
  exact ⟨fun ⟨o, ho, e⟩ => ⟨o, ho, e.symm⟩, fun ⟨o, ho, e⟩ => ⟨o, ho, e.symm⟩⟩

/-- A message whose tags did not change, and one whose tags changed. -/
example : EachIdOnce (run (msgKey exHash) [[item [1] [] 0]] [] false [item [1] [] (-1)]).2 := by unfold EachIdOnce; decide
example : ¬ EachIdOnce (run (msgKey exHash) [[item [1] [] 0]] [] false [{ item [1] [] (-1) with extra := 5 }]).2 := by
  rw [C148_exact _ _ _ _ (by unfold NoCollision; decide) (by decide) (by unfold EachIdOnce; decide)]
  intro h
  exact absurd (h _ List.mem_cons_self _ _ rfl rfl) (by decide)

end Verif.Catalog
