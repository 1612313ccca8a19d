import Verif.Catalog.Props

/-! # The entries of the JSON output, and forgetting of old ids -/
namespace Verif.Catalog

/-! ## C148 -/

/-- Each id has one entry. -/
def EachIdOnce (json : List Item) : Prop := json.Pairwise fun a b => a.id ≠ b.id

/-- The JSON outputs of a history of builds. -/
def catalogs : List Item → List Run → List (List Item)
  | _, [] => []
  | json, r :: rs =>
    let x := run r.key [json] r.reserved false r.items
    x.2 :: catalogs x.2 rs

theorem append_pairwise {out ms : List Item} (ho : EachIdOnce out)
    (h : ∀ a, (a ∈ out ∨ ∃ m ∈ ms, a = m.json) → ∀ b, (b ∈ out ∨ ∃ m ∈ ms, b = m.json) → a.id = b.id → a = b) :
    EachIdOnce (appendStable out ms) := by
  induction ms generalizing out with
  | nil => exact ho
  | cons m ms ih =>
    rw [appendStable]
    by_cases hm : m.json ∈ out
    · rw [if_pos hm]
      refine ih ho fun a ha b hb => h a ?_ b ?_
      · exact ha.imp_right fun ⟨x, hx, e⟩ => ⟨x, List.mem_cons_of_mem _ hx, e⟩
      · exact hb.imp_right fun ⟨x, hx, e⟩ => ⟨x, List.mem_cons_of_mem _ hx, e⟩
    · rw [if_neg hm]
      have up : ∀ {a}, (a ∈ out ++ [m.json] ∨ ∃ x ∈ ms, a = x.json) → a ∈ out ∨ ∃ x ∈ m :: ms, a = x.json := by
        rintro a (ha | ⟨x, hx, e⟩)
        · rcases List.mem_append.1 ha with ha | ha
          · exact .inl ha
          · exact .inr ⟨m, List.mem_cons_self, List.mem_singleton.1 ha⟩
        · exact .inr ⟨x, List.mem_cons_of_mem _ hx, e⟩
      refine ih ?_ fun a ha b hb => h a (up ha) b (up hb)
      refine List.pairwise_append.2 ⟨ho, List.pairwise_singleton _ _, ?_⟩
      intro a ha b hb hid
      rw [List.mem_singleton] at hb
      subst hb
      exact hm (h a (.inl ha) m.json (.inr ⟨m, List.mem_cons_self, rfl⟩) hid ▸ ha)

theorem withExplicit_none {key : Key} {items : List Item} (h : ∀ i ∈ items, i.id = -1) (st : Dict) :
    withExplicit key (unique key items) st = st := by
  rw [withExplicit]
  have : (unique key items).filter (fun m => m.id ≠ -1) = [] := by
    rw [List.filter_eq_nil_iff]
    intro m hm
    simp [h m (mem_unique hm)]
  rw [this]
  rfl

/-- The entries of a file are as the script writes them. -/
def Written (json : List Item) : Prop := ∀ x ∈ json, x.origId = x.id

/-- No message of the build differs from its recorded entry in tags, named arguments and the like. -/
def SameDetails (json items : List Item) : Prop := ∀ x ∈ json, ∀ i ∈ items, same x i → i.extra = x.extra

/-- One build, from a file in which each id has one entry: so it is in the new file. Missing from the full
statement: messages whose tags or named arguments change, and explicit ids. -/
theorem C148_one_entry_partial (key : Key) (f items : List Item) (res : List (Nat × Nat))
    (hc : NoCollision key (f ++ items)) (hno : ∀ i ∈ items, i.id = -1) (hw : Written f) (hd : SameDetails f items)
    (h : EachIdOnce f) : EachIdOnce (run key [f] res false items).2 := by
  have hw' := withExplicit_none (key := key) hno (readStable key [f])
  have h2 : (run key [f] res false items).2 =
      appendStable ((run key [f] res false items).1.map Item.json) (readStable key [f]).values := by
    rw [run]
    simp only [Bool.false_eq_true, if_false, hw']
  have hval : ∀ s ∈ (readStable key [f]).values, s ∈ f := by
    intro s hs
    rcases values_addAll (wf_nil key) _ hs with h | h
    · exact h
    · cases h
  have hex : explicit items = [] := by
    rw [explicit, List.filter_eq_nil_iff]
    intro m hm
    simp [hno m hm]
  have hout : (run key [f] res false items).1.Pairwise fun a b => a.id ≠ b.id := by
    refine C48_unique_partial key f items res false ?_
    rw [hex, List.append_nil]
    intro a ha b hb hab
    rw [pairwise_eq h ha hb hab]
    exact ⟨rfl, rfl⟩
  -- an entry of the build and a recorded one
  have hmix : ∀ o ∈ (run key [f] res false items).1, ∀ x ∈ (readStable key [f]).values, o.id = x.id → o.json = x.json := by
    intro o ho x hx hid
    rw [run_fst, hw'] at ho
    obtain ⟨i, hi, he, hr⟩ := loop_mem ho
    have hi' : i ∈ items := mem_unique ((sort_perm _).mem_iff.1 hi)
    rcases hr with ⟨s, hs, e⟩ | ⟨_, k, _, e, ht⟩
    · obtain ⟨hsv, hsk⟩ := value_of_get? (wf_readStable key [f]) hs
      have hsx : s = x := pairwise_eq h (hval s hsv) (hval x hx) (by rw [← e, hid])
      subst hsx
      have hsame := hc s (List.mem_append_left _ (hval s hsv)) i (List.mem_append_right _ hi') hsk
      have hextra := hd s (hval s hsv) i hi' hsame
      rw [he, Item.json, Item.json, ← hid]
      simp only [hsame.1, hsame.2, hextra]
    · rw [taken, Bool.or_eq_false_iff, List.any_eq_false] at ht
      exact absurd (by rw [← hid, e]; simp) (ht.1 x hx)
  rw [h2]
  apply append_pairwise
  · rw [EachIdOnce, List.pairwise_map]
    exact hout
  · have key1 : ∀ a, (a ∈ (run key [f] res false items).1.map Item.json ∨ ∃ m ∈ (readStable key [f]).values, a = m.json) →
        ∃ o, (o ∈ (run key [f] res false items).1 ∨ o ∈ (readStable key [f]).values) ∧ a = o.json ∧ a.id = o.id := by
      rintro a (ha | ⟨m, hm, rfl⟩)
      · obtain ⟨o, ho, rfl⟩ := List.mem_map.1 ha
        exact ⟨o, .inl ho, rfl, rfl⟩
      · exact ⟨m, .inr hm, rfl, rfl⟩
    intro a ha b hb hab
    obtain ⟨x, hx, rfl, hxi⟩ := key1 a ha
    obtain ⟨y, hy, rfl, hyi⟩ := key1 b hb
    rw [hxi, hyi] at hab
    rcases hx with hx | hx <;> rcases hy with hy | hy
    · rw [pairwise_eq hout hx hy hab]
    · exact hmix x hx y hy hab
    · exact (hmix y hy x hx hab.symm).symm
    · rw [pairwise_eq h (hval x hx) (hval y hy) hab]

/-- Where the entries come from. -/
theorem run_from (key : Key) (f items : List Item) (res : List (Nat × Nat)) {x : Item}
    (hx : x ∈ (run key [f] res false items).2) :
    x.origId = x.id ∧ ∃ y ∈ f ++ items, same x y ∧ x.extra = y.extra := by
  rw [run] at hx
  simp only [Bool.false_eq_true, if_false] at hx
  rw [mem_appendStable] at hx
  rcases hx with hx | ⟨m, hm, rfl⟩
  · obtain ⟨o, ho, rfl⟩ := List.mem_map.1 hx
    obtain ⟨i, hi, he, _⟩ := loop_mem ho
    refine ⟨rfl, i, List.mem_append_right _ (mem_unique ((sort_perm _).mem_iff.1 hi)), ?_⟩
    rw [he]
    exact ⟨⟨rfl, rfl⟩, rfl⟩
  · refine ⟨rfl, m, ?_, ⟨rfl, rfl⟩, rfl⟩
    rcases List.mem_append.1 (stable_values hm) with h | h
    · exact List.mem_append_left _ h
    · exact List.mem_append_right _ (mem_explicit.1 h).1

/-- All builds of a history that begins without a file: in every file each id has one entry, if a message has
the same tags and named arguments in all builds, and there are no explicit ids. -/
theorem C148_history_partial (rs : List Run) (hno : ∀ i ∈ rs.flatMap (·.items), i.id = -1)
    (hc : ∀ r ∈ rs, NoCollision r.key (rs.flatMap (·.items)))
    (hd : ∀ a ∈ rs.flatMap (·.items), ∀ b ∈ rs.flatMap (·.items), same a b → a.extra = b.extra) :
    ∀ json ∈ catalogs [] rs, EachIdOnce json := by
  generalize hall : rs.flatMap (·.items) = all at hno hc hd
  have hsub : ∀ r ∈ rs, ∀ i ∈ r.items, i ∈ all := by
    intro r hr i hi
    rw [← hall]
    exact List.mem_flatMap.2 ⟨r, hr, hi⟩
  clear hall
  suffices H : ∀ f, EachIdOnce f → Written f → (∀ x ∈ f, ∃ y ∈ all, same x y ∧ x.extra = y.extra) →
      ∀ json ∈ catalogs f rs, EachIdOnce json from
    H [] .nil (fun _ h => by cases h) (fun _ h => by cases h)
  induction rs with
  | nil => intro f _ _ _ json hj; cases hj
  | cons r rs ih =>
    intro f h1 h2 h3 json hj
    have hit := hsub r List.mem_cons_self
    have g1 : EachIdOnce (run r.key [f] r.reserved false r.items).2 := by
      refine C148_one_entry_partial r.key f r.items r.reserved ?_ (fun i hi => hno i (hit i hi)) h2 ?_ h1
      · have lift : ∀ a ∈ f ++ r.items, ∃ y ∈ all, same a y := by
          intro a ha
          rcases List.mem_append.1 ha with ha | ha
          · obtain ⟨y, hy, hs, _⟩ := h3 a ha
            exact ⟨y, hy, hs⟩
          · exact ⟨a, hit a ha, rfl, rfl⟩
        intro a ha b hb hab
        obtain ⟨y, hy, hay⟩ := lift a ha
        obtain ⟨z, hz, hbz⟩ := lift b hb
        rw [of_eq_of_same hay, of_eq_of_same hbz] at hab
        exact same_trans hay (same_trans (hc r List.mem_cons_self y hy z hz hab) (same_symm hbz))
      · intro x hx i hi hs
        obtain ⟨y, hy, hxy, he⟩ := h3 x hx
        rw [he]
        exact hd i (hit i hi) y hy (same_trans (same_symm hs) hxy)
    rw [catalogs] at hj
    rcases List.mem_cons.1 hj with rfl | hj
    · exact g1
    · refine ih (fun r hr => hc r (List.mem_cons_of_mem _ hr)) (fun r hr => hsub r (List.mem_cons_of_mem _ hr)) _ g1
        (fun x hx => (run_from r.key f r.items r.reserved hx).1) (fun x hx => ?_) json hj
      obtain ⟨y, hy, hs, he⟩ := (run_from r.key f r.items r.reserved hx).2
      rcases List.mem_append.1 hy with hy | hy
      · obtain ⟨z, hz, hs', he'⟩ := h3 y hy
        exact ⟨z, hz, same_trans hs hs', he.trans he'⟩
      · exact ⟨y, hit y hy, hs, he⟩

/-- Three builds; a message goes and comes back. -/
example : NoCollision (msgKey exHash) [item [1] [] (-1), item [2] [] (-1), item [3] [] (-1)] ∧ (catalogs [] [⟨msgKey exHash, [(1, 1)], [item [1] [] (-1), item [2] [] (-1)]⟩,
      ⟨msgKey exHash, [(1, 1)], [item [2] [] (-1), item [3] [] (-1)]⟩,
      ⟨msgKey exHash, [(1, 1)], [item [1] [] (-1)]⟩]).map (fun o => o.map fun i => (i.text, i.id)) =
    [[([1], 0), ([2], 2)], [([2], 2), ([3], 3), ([1], 0)], [([1], 0), ([2], 2), ([3], 3)]] := by
  unfold NoCollision
  decide +kernel

/-- A message that gets another tag has two entries with its id. -/
theorem C148_violated_tags :
    (run (msgKey exHash) [[item [1] [] 0]] [] false [{ item [1] [] (-1) with extra := 5 }]).2.map
      (fun o => (o.text, o.id, o.extra)) = [([1], 0, 5), ([1], 0, 0)] := by
  decide +kernel

/-! ## C150 -/

/-- What a build without a stable file would do. -/
def fresh (key : Key) (res : List (Nat × Nat)) (items : List Item) : List Item × List Item := run key [] res true items

/-- The file that is written lists the messages of the build and no others. -/
theorem C150_listed_partial (key : Key) (f items : List Item) (res : List (Nat × Nat)) (h : NoCollision key items) :
    (∀ i ∈ items, ∃ x ∈ (run key [f] res true items).2, same x i) ∧
    (∀ x ∈ (run key [f] res true items).2, ∃ i ∈ items, same x i) := by
  have h2 : (run key [f] res true items).2 = (run key [f] res true items).1.map Item.json := rfl
  obtain ⟨h3, h4⟩ := C48_complete key f items res true h
  constructor
  · intro i hi
    obtain ⟨o, ho, hs⟩ := h3 i hi
    rw [h2]
    exact ⟨o.json, List.mem_map_of_mem ho, hs⟩
  · intro x hx
    rw [h2] at hx
    obtain ⟨o, ho, rfl⟩ := List.mem_map.1 hx
    exact h4 o ho

theorem search_eq {p q : Nat → Bool} (h : ∀ k, p k = q k) (n : Nat) {a b : Nat} (ha : ∀ k, n + a ≤ k → p k = false)
    (hb : ∀ k, n + b ≤ k → q k = false) : search p n a = search q n b := by
  have h1 := search_free p n a ha
  have h2 := search_free q n b hb
  rcases Nat.lt_trichotomy (search p n a) (search q n b) with hlt | heq | hlt
  · have := search_least q n b _ (search_le p n a) hlt
    rw [← h, h1] at this; cases this
  · exact heq
  · have := search_least p n a _ (search_le q n b) hlt
    rw [h, h2] at this; cases this

theorem loop_fresh {key : Key} {st : Dict} {res : List (Nat × Nat)} {is : List Item}
    (hg : ∀ i ∈ is, st.get? (key.of i) = none) (ht : ∀ k, taken st res k = taken [] res k) (n : Nat) :
    assignLoop key st res n is = assignLoop key [] res n is := by
  induction is generalizing n with
  | nil => rfl
  | cons i is ih =>
    have hn : nextId st res n = nextId [] res n :=
      search_eq ht n (fun k hk => taken_bound st res k (by omega)) fun k hk => taken_bound [] res k (by omega)
    rw [assignLoop, assignLoop, hg i List.mem_cons_self, hn]
    simp only [Dict.get?, List.find?_nil, Option.map_none]
    rw [ih fun j hj => hg j (List.mem_cons_of_mem _ hj)]

/-- The stable file makes no difference when it has no message of the build and all its ids are reserved.
Missing from the full statement: it makes none. -/
theorem C150_forgotten_partial (key : Key) (f items : List Item) (res : List (Nat × Nat))
    (hno : ∀ i ∈ items, i.id = -1) (hf : ∀ x ∈ f, ∀ i ∈ items, key.of x ≠ key.of i)
    (hr : ∀ x ∈ f, ∀ k : Nat, x.id = (k : Int) → contains res k = true) :
    run key [f] res true items = fresh key res items := by
  have hg : ∀ i ∈ items, (readStable key [f]).get? (key.of i) = none := by
    intro i hi
    show (Dict.addAll key [] f).get? (key.of i) = none
    rw [addAll_old key [] f fun m hm => hf m hm i hi]
    rfl
  have ht : ∀ k, taken (readStable key [f]) res k = taken [] res k := by
    intro k
    rw [Bool.eq_iff_iff, taken, taken, Bool.or_eq_true, Bool.or_eq_true]
    constructor
    · rintro (h | h)
      · rw [List.any_eq_true] at h
        obtain ⟨m, hm, he⟩ := h
        rcases values_addAll (wf_nil key) _ hm with h | h
        · exact .inr (hr m h k (by simpa using he))
        · cases h
      · exact .inr h
    · rintro (h | h)
      · cases h
      · exact .inr h
  have h1 : (run key [f] res true items).1 = (fresh key res items).1 := by
    rw [run_fst, withExplicit_none hno, fresh]
    show _ = assignLoop key (withExplicit key (unique key items) []) res 0 (sort (unique key items))
    rw [withExplicit_none hno]
    exact loop_fresh (fun i hi => hg i (mem_unique ((sort_perm _).mem_iff.1 hi))) ht 0
  have h2 : ∀ files, (run key files res true items).2 = (run key files res true items).1.map Item.json := fun _ => rfl
  refine Prod.ext h1 ?_
  rw [h2, h1, fresh, h2]

example : run (msgKey exHash) [[item [9] [] 0]] [(0, 3)] true [item [1] [] (-1)] =
      fresh (msgKey exHash) [(0, 3)] [item [1] [] (-1)] ∧
    (fresh (msgKey exHash) [(0, 3)] [item [1] [] (-1)]).2.map (fun o => (o.text, o.id)) = [([1], 4)] := by
  decide +kernel

/-- Recorded ids are used, and those of other messages are left out, with the option as well. -/
theorem C150_violated_forget :
    (run (msgKey exHash) [[item [1] [] 7]] [] true [item [1] [] (-1)]).1.map (·.id) = [7] ∧
    (run (msgKey exHash) [[item [9] [] 0]] [] true [item [1] [] (-1)]).1.map (·.id) = [1] ∧
    (fresh (msgKey exHash) [] [item [1] [] (-1)]).1.map (·.id) = [0] := by
  decide +kernel

end Verif.Catalog
