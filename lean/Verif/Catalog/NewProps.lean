import Verif.Catalog.ExactProps
import Mathlib.Data.List.Forall2
import Mathlib.Data.List.Induction
import Mathlib.Tactic.ByContra

/-! # Exactly which numbers the catalog generator gives to new messages -/
namespace Verif.Catalog

/-- The program gives this id to a message: the symbol of the message that is listed last has it. -/
def Given (items : List Item) (k : Int) : Prop :=
  k ≠ -1 ∧ ∃ i ∈ items, (lastSame items i).map Item.id = some k

/-- The stable file holds this id for a message: the last entry of the message has it, and the program does not
give the message another one. -/
def Held (f items : List Item) (k : Int) : Prop :=
  ∃ x ∈ f, (lastSame f x).map Item.id = some k ∧ ∀ j, lastSame items x = some j → j.id = -1

/-- A number that new messages may get. -/
def Free (f items : List Item) (res : List (Nat × Nat)) (k : Nat) : Prop :=
  (∀ iv ∈ res, ¬ (iv.1 ≤ k ∧ k ≤ iv.2)) ∧ ¬ Given items k ∧ ¬ Held f items k

theorem lastSame_mem {l : List Item} {i j : Item} (h : lastSame l i = some j) : j ∈ l ∧ same j i := by
  have h1 := List.mem_of_find?_eq_some h
  have h2 := List.find?_some h
  exact ⟨List.mem_reverse.1 h1, of_decide_eq_true h2⟩

theorem lastSame_some {l : List Item} {i : Item} (h : i ∈ l) : ∃ j, lastSame l i = some j := by
  cases hl : lastSame l i with
  | some j => exact ⟨j, rfl⟩
  | none =>
    rw [lastSame, List.find?_eq_none] at hl
    exact absurd (decide_eq_true (p := same i i) ⟨rfl, rfl⟩) (hl i (List.mem_reverse.2 h))

theorem readStable_get {key : Key} {f : List Item} (hc : NoCollision key f) {x : Item} (hx : x ∈ f) :
    (readStable key [f]).get? (key.of x) = lastSame f x := by
  have h1 : readStable key [f] = Dict.addAll key [] f := rfl
  rw [h1, get?_addAll, find_same fun m hm => hc m hm x hx]
  cases lastSame f x <;> rfl

/-- What the generator of ids passes over. -/
theorem taken_free {key : Key} {f items : List Item} (hc : NoCollision key (f ++ items)) (res : List (Nat × Nat))
    (k : Nat) : taken (withExplicit key (unique key items) (readStable key [f])) res k = false ↔
      Free f items res k := by
  have hci : NoCollision key items := fun a ha b hb =>
    hc a (List.mem_append_right _ ha) b (List.mem_append_right _ hb)
  have hcf : NoCollision key f := fun a ha b hb =>
    hc a (List.mem_append_left _ ha) b (List.mem_append_left _ hb)
  have hwf := wf_readStable key [f]
  have hv : (∃ s ∈ (withExplicit key (unique key items) (readStable key [f])).values, s.id = (k : Int)) ↔
      Given items k ∨ Held f items k := by
    constructor
    · rintro ⟨s, hs, hk⟩
      have hg := get?_value (wf_withExplicit hwf _) hs
      rw [withExplicit, get?_addAll] at hg
      cases hl : ((unique key items).filter fun m => m.id ≠ -1).reverse.find? fun m => key.of m = key.of s with
      | some m =>
        rw [hl] at hg
        cases hg
        have hm := List.mem_filter.1 (List.mem_reverse.1 (List.mem_of_find?_eq_some hl))
        refine .inl ⟨by omega, s, mem_unique hm.1, ?_⟩
        rw [lastSame_unique hci hm.1, Option.map_some, hk]
      | none =>
        rw [hl] at hg
        have hsf : s ∈ f := by
          rcases values_addAll (wf_nil key) _ (value_of_get? hwf hg).1 with h | h
          · exact h
          · cases h
        rw [readStable_get hcf hsf] at hg
        change lastSame f s = some s at hg
        refine .inr ⟨s, hsf, by rw [hg, Option.map_some, hk], fun j hj => ?_⟩
        by_contra hn
        have hju := unique_lastSame hci (lastSame_mem hj).1
          (by rw [lastSame_congr (lastSame_mem hj).2]; exact hj)
        rw [List.find?_eq_none] at hl
        refine hl j (List.mem_reverse.2 (List.mem_filter.2 ⟨hju, by simpa using hn⟩)) ?_
        exact decide_eq_true (of_eq_of_same (lastSame_mem hj).2)
    · rintro (⟨hne, i, hi, h⟩ | ⟨x, hx, h, hno⟩)
      · rw [Option.map_eq_some_iff] at h
        obtain ⟨j, hj, hid⟩ := h
        have hju := unique_lastSame hci hi hj
        have hg := get_asked hc hju
        rw [asked, lastSame_unique hci hju, Option.bind_some, if_pos (by rw [hid]; exact hne),
          Option.map_eq_some_iff] at hg
        obtain ⟨s, hs, he⟩ := hg
        exact ⟨s, (value_of_get? (wf_withExplicit hwf _) hs).1, by rw [he, hid]⟩
      · rw [Option.map_eq_some_iff] at h
        obtain ⟨s, hs, hid⟩ := h
        refine ⟨s, (value_of_get? (wf_withExplicit hwf _) (k := key.of x) ?_).1, hid⟩
        rw [withExplicit, addAll_old, readStable_get hcf hx, hs]
        intro m hm hk
        rw [List.mem_filter] at hm
        have hmi := mem_unique hm.1
        have hsm := hc m (List.mem_append_right _ hmi) x (List.mem_append_left _ hx) hk
        have := hno m (by rw [← lastSame_congr hsm]; exact lastSame_unique hci hm.1)
        simp [this] at hm
  rw [taken, Bool.or_eq_false_iff, List.any_eq_false, Free, contains, List.any_eq_false]
  constructor
  · rintro ⟨h1, h2⟩
    refine ⟨fun iv hiv h => h2 iv hiv (by simpa using h), fun h => ?_, fun h => ?_⟩
    · obtain ⟨s, hs, e⟩ := hv.2 (.inl h)
      exact h1 s hs (by simpa using e)
    · obtain ⟨s, hs, e⟩ := hv.2 (.inr h)
      exact h1 s hs (by simpa using e)
  · rintro ⟨h1, h2, h3⟩
    refine ⟨fun s hs h => ?_, fun iv hiv h => h1 iv hiv (by simpa using h)⟩
    rcases hv.1 ⟨s, hs, by simpa using h⟩ with h | h
    · exact h2 h
    · exact h3 h

/-- The new items of the loop, in order: their numbers grow, none is taken, and none is passed over. -/
theorem loop_new {key : Key} {st : Dict} {res : List (Nat × Nat)} {n : Nat} (is : List Item) :
    ∃ ks : List Nat, ((assignLoop key st res n is).filter fun o => (st.get? (key.of o)).isNone).map Item.id =
        ks.map (fun k : Nat => (k : Int)) ∧ ks.Pairwise (· < ·) ∧ (∀ k ∈ ks, n ≤ k ∧ taken st res k = false) ∧
      ∀ k ∈ ks, ∀ m < k, n ≤ m → taken st res m = false → m ∈ ks := by
  induction is generalizing n with
  | nil => exact ⟨[], rfl, .nil, by simp, by simp⟩
  | cons i is ih =>
    rw [assignLoop]
    cases hg : st.get? (key.of i) with
    | some s =>
      obtain ⟨ks, h1, h2⟩ := ih (n := n)
      refine ⟨ks, ?_, h2⟩
      dsimp only
      rw [List.filter_cons_of_neg, h1]
      have : key.of { i with id := s.id } = key.of i := rfl
      rw [this, hg]
      simp
    | none =>
      obtain ⟨ks, h1, h2, h3, h4⟩ := ih (n := nextId st res n + 1)
      have hle := nextId_le st res n
      refine ⟨nextId st res n :: ks, ?_, .cons (fun k hk => ?_) h2, ?_, ?_⟩
      · dsimp only
        rw [List.filter_cons_of_pos, List.map_cons, h1, List.map_cons]
        have : key.of { i with id := (nextId st res n : Int) } = key.of i := rfl
        rw [this, hg]
        rfl
      · have := (h3 k hk).1
        omega
      · intro k hk
        rcases List.mem_cons.1 hk with rfl | hk
        · exact ⟨hle, nextId_free st res n⟩
        · exact ⟨by have := (h3 k hk).1; omega, (h3 k hk).2⟩
      · intro k hk m hm hn hf
        by_cases hlt : m < nextId st res n
        · rw [nextId_least st res n m hn hlt] at hf
          cases hf
        · by_cases he : m = nextId st res n
          · exact he ▸ List.mem_cons_self
          · rcases List.mem_cons.1 hk with rfl | hk
            · omega
            · exact List.mem_cons_of_mem _ (h4 k hk m hm (by omega) hf)

/-! ## C78 -/

theorem asked_none_iff {key : Key} {f items : List Item} (hc : NoCollision key (f ++ items)) {res : List (Nat × Nat)}
    {forget : Bool} {o : Item} (ho : o ∈ (run key [f] res forget items).1) :
    ((withExplicit key (unique key items) (readStable key [f])).get? (key.of o)).map Item.id =
      asked f items o := by
  rw [run_fst] at ho
  obtain ⟨j, hj, he, -⟩ := loop_mem ho
  have hs := same_of_eq_id he
  rw [of_eq_of_same hs, asked_congr hs]
  exact get_asked hc ((sort_perm _).mem_iff.mp hj)

/-- C78: the messages for which neither the program nor the stable file asks an id get, in the order of the output,
the smallest numbers that are free: not reserved, not given by the program to a message, not held by the stable
file for a message. -/
theorem C78_exact (key : Key) (f items : List Item) (res : List (Nat × Nat)) (forget : Bool)
    (hc : NoCollision key (f ++ items)) :
    ∃ ks : List Nat, ((run key [f] res forget items).1.filter fun o => (asked f items o).isNone).map Item.id =
        ks.map (fun k : Nat => (k : Int)) ∧ ks.Pairwise (· < ·) ∧ (∀ k ∈ ks, Free f items res k) ∧
      ∀ k ∈ ks, ∀ m < k, Free f items res m → m ∈ ks := by
  obtain ⟨ks, h1, h2, h3, h4⟩ := loop_new (key := key)
    (st := withExplicit key (unique key items) (readStable key [f])) (res := res) (n := 0)
    (sort (unique key items))
  refine ⟨ks, ?_, h2, fun k hk => (taken_free hc res k).1 (h3 k hk).2,
    fun k hk m hm hf => h4 k hk m hm (Nat.zero_le _) ((taken_free hc res m).2 hf)⟩
  rw [← h1, ← run_fst key f res forget items]
  congr 1
  refine List.filter_congr fun o ho => ?_
  rw [← asked_none_iff hc ho, Option.isNone_map]

example : NoCollision (msgKey exHash) ([item [1] [] 1, item [3] [] 0, item [9] [] 4] ++
      [item [8] [] (-1), item [3] [] 7, item [5] [] (-1), item [4] [] (-1)]) ∧
    (run (msgKey exHash) [[item [1] [] 1, item [3] [] 0, item [9] [] 4]] [(2, 2)] false
      [item [8] [] (-1), item [3] [] 7, item [5] [] (-1), item [4] [] (-1)]).1.map (fun o => (o.text, o.id)) =
    [([3], 7), ([4], 0), ([5], 3), ([8], 5)] := by
  unfold NoCollision
  decide +kernel

/-! ## C49 -/

/-- C49: a message of the program that has an entry in the stable file keeps the id of its last entry exactly
when the symbol of the message that is listed last has no explicit id or the same one; and the id of an entry
goes to a message for which none is asked only if the program gives the message of the entry another id. -/
theorem C49_exact (key : Key) (f items : List Item) (res : List (Nat × Nat)) (forget : Bool)
    (hc : NoCollision key (f ++ items)) {x : Item} (hx : lastSame f x = some x) :
    (∀ o ∈ (run key [f] res forget items).1, same o x →
      (o.id = x.id ↔ ∃ j, lastSame items x = some j ∧ (j.id = -1 ∨ j.id = x.id))) ∧
    (∀ o ∈ (run key [f] res forget items).1, asked f items o = none → o.id = x.id →
      ∃ j, lastSame items x = some j ∧ j.id ≠ -1 ∧ j.id ≠ x.id) := by
  have hci : NoCollision key items := fun a ha b hb =>
    hc a (List.mem_append_right _ ha) b (List.mem_append_right _ hb)
  constructor
  · intro o ho hs
    have hask := (C81_exact key f items res forget hc ho hs).1
    obtain ⟨i, hi, hoi⟩ := (C48_complete key f items res forget hci).2 o ho
    obtain ⟨j, hj⟩ := lastSame_some hi
    rw [← lastSame_congr hoi, lastSame_congr hs] at hj
    have ha : asked f items x = some (if j.id ≠ -1 then j.id else x.id) := by
      rw [asked, hj, Option.bind_some, hx]
      split <;> rfl
    rw [hask _ ha]
    constructor
    · intro h
      refine ⟨j, hj, ?_⟩
      by_cases hid : j.id = -1
      · exact .inl hid
      · rw [if_pos hid] at h
        exact .inr h
    · rintro ⟨j', hj', h⟩
      rw [hj] at hj'
      cases hj'
      rcases h with h | h
      · rw [if_neg (by simpa using h)]
      · rw [h]; split <;> rfl
  · intro o ho hn hid
    obtain ⟨ks, h1, -, h3, -⟩ := C78_exact key f items res forget hc
    have hm : o.id ∈ ks.map (fun k : Nat => (k : Int)) := by
      rw [← h1]
      exact List.mem_map_of_mem (List.mem_filter.2 ⟨ho, by rw [hn]; rfl⟩)
    obtain ⟨k, hk, he⟩ := List.mem_map.1 hm
    obtain ⟨-, hg, hh⟩ := h3 k hk
    have hnot : ¬ ∀ j, lastSame items x = some j → j.id = -1 := fun h =>
      hh ⟨x, (lastSame_mem hx).1, by rw [hx, Option.map_some, he, hid], h⟩
    by_contra hcon
    refine hnot fun j hj => ?_
    by_contra hne
    refine hcon ⟨j, hj, hne, fun h => ?_⟩
    refine hg ⟨by omega, j, (lastSame_mem hj).1, ?_⟩
    rw [lastSame_congr (lastSame_mem hj).2, hj, Option.map_some, h, he, hid]

example : lastSame [item [1] [] 1, item [3] [] 5, item [3] [] 0] (item [3] [] 0) = some (item [3] [] 0) ∧
    (run (msgKey exHash) [[item [1] [] 1, item [3] [] 5, item [3] [] 0]] [] false
      [item [3] [] 7, item [4] [] (-1), item [3] [] (-1)]).1.map (fun o => (o.text, o.id)) =
    [([3], 0), ([4], 2)] ∧
    (run (msgKey exHash) [[item [1] [] 1, item [3] [] 5, item [3] [] 0]] [] false
      [item [3] [] (-1), item [4] [] (-1), item [3] [] 7]).1.map (fun o => (o.text, o.id)) =
    [([3], 7), ([4], 0)] := by
  decide +kernel

/-! ## C77 -/

/-- Where the first symbol of the message stands. -/
def firstAt (items : List Item) (i : Item) : Nat := items.findIdx fun j => same j i

/-- The order of the messages: by text, and by the first symbol when the texts are the same. -/
def Earlier (items : List Item) (a b : Item) : Prop :=
  textLt a.text b.text = true ∨ (a.text = b.text ∧ firstAt items a < firstAt items b)

theorem firstAt_congr {l : List Item} {a b : Item} (h : same a b) : firstAt l a = firstAt l b := by
  rw [firstAt, firstAt]
  congr 1
  funext j
  rw [decide_eq_decide]
  exact ⟨fun x => same_trans x h, fun x => same_trans x (same_symm h)⟩

theorem addAll_append (key : Key) (d : Dict) (l : List Item) (m : Item) :
    Dict.addAll key d (l ++ [m]) = (Dict.addAll key d l).set (key.of m) m := by
  induction l generalizing d with
  | nil => rfl
  | cons a l ih => exact ih _

theorem keys_mem {key : Key} {l : List Item} {k : Nat} (h : k ∈ (Dict.addAll key [] l).map (·.1)) :
    ∃ m ∈ l, key.of m = k := by
  obtain ⟨e, he, rfl⟩ := List.mem_map.1 h
  have hw := wf_addAll (wf_nil key) l
  refine ⟨e.2, ?_, (hw.keys e he).symm⟩
  rcases values_addAll (wf_nil key) l (List.mem_map_of_mem he) with h | h
  · exact h
  · cases h

theorem findIdx_old {p : Item → Bool} {l : List Item} (m : Item) (h : ∃ x ∈ l, p x = true) :
    (l ++ [m]).findIdx p = l.findIdx p := by
  rw [List.findIdx_append, if_pos (List.findIdx_lt_length_of_exists h)]

/-- The keys of a dictionary stand in the order in which they were first put in. -/
theorem keys_order (key : Key) (l : List Item) : ((Dict.addAll key [] l).map (·.1)).Pairwise
    fun a b => (l.findIdx fun m => key.of m = a) < l.findIdx fun m => key.of m = b := by
  induction l using List.reverseRecOn with
  | nil => exact .nil
  | append_singleton l m ih =>
    rw [addAll_append, keys_set]
    have hold : ∀ k ∈ (Dict.addAll key [] l).map (·.1),
        ((l ++ [m]).findIdx fun m => key.of m = k) = l.findIdx fun m => key.of m = k := by
      intro k hk
      obtain ⟨x, hx, he⟩ := keys_mem hk
      exact findIdx_old m ⟨x, hx, decide_eq_true he⟩
    have ih' := List.Pairwise.imp_of_mem (S := fun a b => ((l ++ [m]).findIdx fun m => key.of m = a) <
      (l ++ [m]).findIdx fun m => key.of m = b) (fun {a b} ha hb h => by rw [hold a ha, hold b hb]; exact h) ih
    split
    · exact ih'
    · rename_i hn
      rw [List.pairwise_append]
      refine ⟨ih', List.pairwise_singleton _ _, fun a ha b hb => ?_⟩
      rw [List.mem_singleton] at hb
      subst hb
      rw [hold a ha]
      obtain ⟨x, hx, he⟩ := keys_mem ha
      have h1 := List.findIdx_lt_length_of_exists (xs := l) (p := fun m => decide (key.of m = a))
        ⟨x, hx, decide_eq_true he⟩
      refine Nat.lt_of_lt_of_le h1 ?_
      rw [List.findIdx_append, if_neg]
      · omega
      · intro hlt
        obtain ⟨y, hy, hp⟩ := List.findIdx_lt_length.1 hlt
        have hp : key.of y = key.of m := by simpa using hp
        obtain ⟨z, -, hz, -⟩ := addAll_has key [] l hy
        refine hn ?_
        rw [Dict.get?, Option.map_eq_some_iff] at hz
        obtain ⟨e, he, -⟩ := hz
        have h2 := List.find?_some he
        rw [← hp, ← of_decide_eq_true h2]
        exact List.mem_map_of_mem (List.mem_of_find?_eq_some he)

theorem findIdx_congr {p q : Item → Bool} {l : List Item} (h : ∀ m ∈ l, p m = q m) :
    l.findIdx p = l.findIdx q := by
  induction l with
  | nil => rfl
  | cons a l ih =>
    rw [List.findIdx_cons, List.findIdx_cons, h a List.mem_cons_self, ih fun m hm => h m (List.mem_cons_of_mem _ hm)]

theorem unique_order {key : Key} {l : List Item} (hc : NoCollision key l) :
    (unique key l).Pairwise fun a b => firstAt l a < firstAt l b := by
  have h := keys_order key l
  have hw := wf_addAll (wf_nil key) l
  have hm : (unique key l).map key.of = (Dict.addAll key [] l).map (·.1) := by
    rw [unique, Dict.values, List.map_map]
    exact List.map_congr_left fun e he => (hw.keys e he).symm
  rw [← hm, List.pairwise_map] at h
  refine h.imp_of_mem fun {a b} ha hb h => ?_
  have hf : ∀ x ∈ unique key l, (l.findIdx fun m => key.of m = key.of x) = firstAt l x := by
    intro x hx
    rw [firstAt]
    have hp : ∀ m ∈ l, decide (key.of m = key.of x) = decide (same m x) := fun m hm => by
      rw [decide_eq_decide]
      exact ⟨hc m hm x (mem_unique hx), of_eq_of_same⟩
    exact findIdx_congr hp
  rw [hf a ha, hf b hb] at h
  exact h

theorem textLt_irrefl (a : Text) : textLt a a = false := by
  cases h : textLt a a with
  | false => rfl
  | true => rw [textLt_asymm h] at h; cases h

theorem earlier_of_not {items : List Item} {x y z : Item} (h : ¬ textLt y.text x.text = true)
    (hz : z = y ∨ Earlier items y z) (hq : firstAt items x < firstAt items z) : Earlier items x z := by
  have hyz : y.text = z.text ∨ textLt y.text z.text = true := by
    rcases hz with rfl | h | h
    · exact .inl rfl
    · exact .inr h
    · exact .inl h.1
  have hxz : ¬ textLt z.text x.text = true := by
    rcases hyz with e | e
    · rwa [← e]
    · exact fun h' => h (textLt_trans e h')
  by_cases e : x.text = z.text
  · exact .inr ⟨e, hq⟩
  · exact .inl ((textLt_total e).resolve_right hxz)

theorem insert_order {items : List Item} {x : Item} {l : List Item} (hl : l.Pairwise (Earlier items))
    (hq : ∀ y ∈ l, firstAt items x < firstAt items y) : (insert x l).Pairwise (Earlier items) := by
  induction l with
  | nil => exact List.pairwise_singleton _ _
  | cons y ys ih =>
    rw [insert]
    rw [List.pairwise_cons] at hl
    split
    · rename_i h
      refine .cons (fun z hz => ?_) (ih hl.2 fun y hy => hq y (List.mem_cons_of_mem _ hy))
      rcases List.mem_cons.1 ((insert_perm x ys).mem_iff.1 hz) with rfl | hz
      · exact .inl h
      · exact hl.1 z hz
    · rename_i h
      refine .cons (fun z hz => ?_) (List.pairwise_cons.2 hl)
      refine earlier_of_not h ?_ (hq z hz)
      rcases List.mem_cons.1 hz with rfl | hz
      · exact .inl rfl
      · exact .inr (hl.1 z hz)

theorem sort_order {items l : List Item} (h : l.Pairwise fun a b => firstAt items a < firstAt items b) :
    (sort l).Pairwise (Earlier items) := by
  induction l with
  | nil => exact .nil
  | cons x l ih =>
    rw [List.pairwise_cons] at h
    exact insert_order (ih h.2) fun y hy => h.1 y ((sort_perm l).mem_iff.1 hy)

/-- The output is in this order. -/
theorem run_order {key : Key} {f items : List Item} {res : List (Nat × Nat)} {forget : Bool}
    (hc : NoCollision key items) : (run key [f] res forget items).1.Pairwise (Earlier items) := by
  have h := sort_order (unique_order hc)
  rw [run_fst]
  generalize withExplicit key (unique key items) (readStable key [f]) = st
  generalize sort (unique key items) = l at h
  have hm := loop_map_key key st res 0 l
  generalize assignLoop key st res 0 l = out at hm
  clear hc
  induction l generalizing out with
  | nil =>
    cases out with
    | nil => exact .nil
    | cons a out => cases hm
  | cons x l ih =>
    cases out with
    | nil => exact .nil
    | cons a out =>
      rw [List.map_cons, List.map_cons, List.cons.injEq] at hm
      rw [List.pairwise_cons] at h
      refine .cons (fun b hb => ?_) (ih h.2 out hm.2)
      have hb' : (b.text, b.args, b.origId, b.extra) ∈ l.map fun o => (o.text, o.args, o.origId, o.extra) := by
        rw [← hm.2]
        exact List.mem_map_of_mem hb
      obtain ⟨y, hy, e⟩ := List.mem_map.1 hb'
      have e1 := hm.1
      simp only [Prod.mk.injEq] at e e1
      have := h.1 y hy
      rw [Earlier, firstAt_congr (b := a) ⟨e1.1.symm, e1.2.1.symm⟩, firstAt_congr (b := b) ⟨e.1, e.2.1⟩, e.1,
        ← e1.1] at this
      exact this

theorem earlier_asymm {items : List Item} {a b : Item} (h : Earlier items a b) : ¬ Earlier items b a := by
  rintro (h' | h')
  · rcases h with h | h
    · rw [textLt_asymm h] at h'
      cases h'
    · rw [h.1, textLt_irrefl] at h'
      cases h'
  · rcases h with h | h
    · rw [h'.1, textLt_irrefl] at h
      cases h
    · omega

theorem pairwise_iff {α : Type} {R S : α → α → Prop} (ha : ∀ a b, S a b → ¬ S b a) (hi : ∀ a b, R a b → ¬ R b a)
    {l : List α} (hr : l.Pairwise R) (hs : l.Pairwise S) {a b : α} (hm : a ∈ l) (hm' : b ∈ l) :
    R a b ↔ S a b := by
  induction l with
  | nil => cases hm
  | cons x l ih =>
    rw [List.pairwise_cons] at hr hs
    rcases List.mem_cons.1 hm with rfl | hx
    · rcases List.mem_cons.1 hm' with rfl | hy
      · exact ⟨fun h => absurd h (hi _ _ h), fun h => absurd h (ha _ _ h)⟩
      · exact ⟨fun _ => hs.1 b hy, fun _ => hr.1 b hy⟩
    · rcases List.mem_cons.1 hm' with rfl | hy
      · exact ⟨fun h => absurd (hr.1 a hx) (hi _ _ h), fun h => absurd (hs.1 a hx) (ha _ _ h)⟩
      · exact ih hr.2 hs.2 hx hy

/-- C77: of two messages for which no id is asked, the one with the smaller text gets the lower id; when the texts
are the same it is the one whose first symbol is listed first. With `C78_exact`, which says which numbers they
get, and `C81_exact`, which says what the others get, this gives every id as a function of the list of symbols. -/
theorem C77_exact (key : Key) (f items : List Item) (res : List (Nat × Nat)) (forget : Bool)
    (hc : NoCollision key (f ++ items)) {a b : Item} (ha : a ∈ (run key [f] res forget items).1)
    (hb : b ∈ (run key [f] res forget items).1) (hna : asked f items a = none) (hnb : asked f items b = none) :
    a.id < b.id ↔ textLt a.text b.text = true ∨ (a.text = b.text ∧ firstAt items a < firstAt items b) := by
  have hci : NoCollision key items := fun a ha b hb =>
    hc a (List.mem_append_right _ ha) b (List.mem_append_right _ hb)
  obtain ⟨ks, h1, h2, -, -⟩ := C78_exact key f items res forget hc
  have hp : (((run key [f] res forget items).1.filter fun o => (asked f items o).isNone).map Item.id).Pairwise
      (· < ·) := by
    rw [h1, List.pairwise_map]
    exact h2.imp fun h => by exact_mod_cast h
  rw [List.pairwise_map] at hp
  exact pairwise_iff (S := Earlier items) (fun _ _ => earlier_asymm) (fun _ _ => Int.lt_asymm) hp
    ((run_order hci).filter _) (List.mem_filter.2 ⟨ha, by rw [hna]; rfl⟩) (List.mem_filter.2 ⟨hb, by rw [hnb]; rfl⟩)

example : ((run (msgKey exHash) [[]] [] false [item [2] [[9]] (-1), item [1] [] (-1), item [2] [[8]] (-1),
      item [2] [[9]] (-1)]).1.map fun o => (o.text, o.args, o.id)) =
    [([1], [], 0), ([2], [[9]], 1), ([2], [[8]], 2)] := by
  decide +kernel

theorem free_asked {f l : List Item} {res : List (Nat × Nat)} {k : Nat} : Free f l res k ↔
    (∀ iv ∈ res, ¬ (iv.1 ≤ k ∧ k ≤ iv.2)) ∧ (∀ i ∈ l, asked f l i ≠ some (k : Int)) ∧
      ∀ x ∈ f, (lastSame f x).map Item.id = some (k : Int) → lastSame l x ≠ none := by
  rw [Free]
  constructor
  · rintro ⟨h1, h2, h3⟩
    refine ⟨h1, fun i hi h => ?_, fun x hx hk hn => h3 ⟨x, hx, hk, fun j hj => by rw [hn] at hj; cases hj⟩⟩
    obtain ⟨j, hj⟩ := lastSame_some hi
    rw [asked, hj, Option.bind_some] at h
    by_cases hid : j.id = -1
    · rw [if_neg (by simpa using hid)] at h
      obtain ⟨x, hx, hxk⟩ := Option.map_eq_some_iff.1 h
      have hm := lastSame_mem hx
      refine h3 ⟨x, hm.1, by rw [lastSame_congr hm.2, hx, Option.map_some, hxk], fun j' hj' => ?_⟩
      rw [lastSame_congr hm.2, hj] at hj'
      cases hj'
      exact hid
    · rw [if_pos hid] at h
      exact h2 ⟨by omega, i, hi, by rw [hj, Option.map_some]; exact h⟩
  · rintro ⟨h1, h2, h3⟩
    refine ⟨h1, ?_, ?_⟩
    · rintro ⟨hne, i, hi, h⟩
      obtain ⟨j, hj, hk⟩ := Option.map_eq_some_iff.1 h
      refine h2 i hi ?_
      rw [asked, hj, Option.bind_some, if_pos (by rw [hk]; exact hne), hk]
    · rintro ⟨x, hx, hk, hno⟩
      cases hl : lastSame l x with
      | none => exact h3 x hx hk hl
      | some j =>
        have hm := lastSame_mem hl
        refine h2 j hm.1 ?_
        rw [asked_congr hm.2, asked, hl, Option.bind_some, if_neg (by simpa using hno j hl), hk]

/-- Lists that have the smallest numbers with a property, in order. -/
theorem least_unique {F : Nat → Prop} {n : Nat} {l1 l2 : List Nat} (hl : l1.length = l2.length)
    (p1 : l1.Pairwise (· < ·)) (p2 : l2.Pairwise (· < ·)) (h1 : ∀ k ∈ l1, n ≤ k ∧ F k) (h2 : ∀ k ∈ l2, n ≤ k ∧ F k)
    (c1 : ∀ k ∈ l1, ∀ m < k, n ≤ m → F m → m ∈ l1) (c2 : ∀ k ∈ l2, ∀ m < k, n ≤ m → F m → m ∈ l2) : l1 = l2 := by
  induction l1 generalizing l2 n with
  | nil =>
    cases l2 with
    | nil => rfl
    | cons b l2 => cases hl
  | cons a l1 ih =>
    cases l2 with
    | nil => cases hl
    | cons b l2 =>
      rw [List.pairwise_cons] at p1 p2
      have ha := h1 a List.mem_cons_self
      have hb := h2 b List.mem_cons_self
      have hab : a = b := by
        rcases Nat.lt_trichotomy a b with h | h | h
        · rcases List.mem_cons.1 (c2 b List.mem_cons_self a h ha.1 ha.2) with h' | h'
          · exact h'
          · have := p2.1 a h'
            omega
        · exact h
        · rcases List.mem_cons.1 (c1 a List.mem_cons_self b h hb.1 hb.2) with h' | h'
          · exact h'.symm
          · have := p1.1 b h'
            omega
      subst hab
      rw [ih (n := a + 1) (by simpa using hl) p1.2 p2.2
        (fun k hk => ⟨p1.1 k hk, (h1 k (List.mem_cons_of_mem _ hk)).2⟩)
        (fun k hk => ⟨p2.1 k hk, (h2 k (List.mem_cons_of_mem _ hk)).2⟩)
        (fun k hk m hm hn hF => ?_) (fun k hk m hm hn hF => ?_)]
      · rcases List.mem_cons.1 (c1 k (List.mem_cons_of_mem _ hk) m hm (by omega) hF) with h | h
        · omega
        · exact h
      · rcases List.mem_cons.1 (c2 k (List.mem_cons_of_mem _ hk) m hm (by omega) hF) with h | h
        · omega
        · exact h

/-- Lists sorted by a strict order with the same members up to `e` agree up to `e`. -/
theorem sorted_forall₂ {R : Item → Item → Prop} (hasym : ∀ a b, R a b → ¬ R b a)
    (hcongr : ∀ a b a' b', same a a' → same b b' → R a b → R a' b') {l1 l2 : List Item}
    (p1 : l1.Pairwise R) (p2 : l2.Pairwise R) (h12 : ∀ a ∈ l1, ∃ b ∈ l2, same a b)
    (h21 : ∀ b ∈ l2, ∃ a ∈ l1, same a b) : List.Forall₂ same l1 l2 := by
  induction l1 generalizing l2 with
  | nil =>
    cases l2 with
    | nil => exact .nil
    | cons b l2 =>
      obtain ⟨a, ha, -⟩ := h21 b List.mem_cons_self
      cases ha
  | cons a l1 ih =>
    cases l2 with
    | nil =>
      obtain ⟨b, hb, -⟩ := h12 a List.mem_cons_self
      cases hb
    | cons b l2 =>
      rw [List.pairwise_cons] at p1 p2
      have hirr : ∀ x y, same x y → ¬ R x y := fun x y hxy h =>
        hasym _ _ h (hcongr _ _ _ _ hxy (same_symm hxy) h)
      have hab : same a b := by
        obtain ⟨b', hb', s1⟩ := h12 a List.mem_cons_self
        obtain ⟨a', ha', s2⟩ := h21 b List.mem_cons_self
        rcases List.mem_cons.1 hb' with rfl | hb'
        · exact s1
        rcases List.mem_cons.1 ha' with rfl | ha'
        · exact s2
        exact absurd (hcongr _ _ _ _ (same_symm s2) (same_symm s1) (p2.1 b' hb')) (hasym _ _ (p1.1 a' ha'))
      refine .cons hab (ih p1.2 p2.2 (fun x hx => ?_) fun y hy => ?_)
      · obtain ⟨y, hy, hs⟩ := h12 x (List.mem_cons_of_mem _ hx)
        rcases List.mem_cons.1 hy with rfl | hy
        · exact absurd (p1.1 x hx) (hirr _ _ (same_trans hab (same_symm hs)))
        · exact ⟨y, hy, hs⟩
      · obtain ⟨x, hx, hs⟩ := h21 y (List.mem_cons_of_mem _ hy)
        rcases List.mem_cons.1 hx with rfl | hx
        · exact absurd (p2.1 y hy) (hirr _ _ (same_trans (same_symm hab) hs))
        · exact ⟨x, hx, hs⟩

theorem forall₂_id {n1 n2 : List Item} (h : List.Forall₂ same n1 n2)
    (s : n1.Pairwise fun a b => textLt a.text b.text = true) (e : n1.map Item.id = n2.map Item.id) {o1 o2 : Item}
    (h1 : o1 ∈ n1) (h2 : o2 ∈ n2) (hs : same o1 o2) : o1.id = o2.id := by
  induction h with
  | nil => cases h1
  | cons hab hrest ih =>
    rename_i a b r1 r2
    rw [List.pairwise_cons] at s
    rw [List.map_cons, List.map_cons, List.cons.injEq] at e
    rcases List.mem_cons.1 h1 with rfl | m1
    · rcases List.mem_cons.1 h2 with rfl | m2
      · exact e.1
      · obtain ⟨i, hi, he⟩ := List.getElem_of_mem m2
        have hg := List.forall₂_iff_get.1 hrest
        have hi1 : i < r1.length := by rw [hg.1]; exact hi
        have hx := hg.2 i hi1 hi
        rw [List.get_eq_getElem, List.get_eq_getElem] at hx
        have := s.1 r1[i] (List.getElem_mem _)
        rw [hx.1, he, hs.1, textLt_irrefl] at this
        cases this
    · rcases List.mem_cons.1 h2 with rfl | m2
      · have := s.1 o1 m1
        rw [hab.1, hs.1, textLt_irrefl] at this
        cases this
      · exact ih s.2 e.2 m1 m2

/-- C77: the ids are the same for two lists of symbols of the same messages, in any order and with any repetitions,
when both ask for the same ids and no two different messages for which none is asked have the same text. Missing
from the full statement: the other cases. -/
theorem C77_ids_partial (key : Key) (f l1 l2 : List Item) (res : List (Nat × Nat)) (forget : Bool)
    (hc1 : NoCollision key (f ++ l1)) (hc2 : NoCollision key (f ++ l2))
    (h12 : ∀ i ∈ l1, ∃ j ∈ l2, same i j) (h21 : ∀ j ∈ l2, ∃ i ∈ l1, same i j)
    (ha : ∀ i ∈ l1, asked f l1 i = asked f l2 i)
    (ht : ∀ i ∈ l1, ∀ j ∈ l1, asked f l1 i = none → asked f l1 j = none → i.text = j.text → same i j)
    {o1 o2 : Item} (ho1 : o1 ∈ (run key [f] res forget l1).1) (ho2 : o2 ∈ (run key [f] res forget l2).1)
    (hs : same o1 o2) : o1.id = o2.id := by
  have hci1 : NoCollision key l1 := fun a ha b hb =>
    hc1 a (List.mem_append_right _ ha) b (List.mem_append_right _ hb)
  have hci2 : NoCollision key l2 := fun a ha b hb =>
    hc2 a (List.mem_append_right _ ha) b (List.mem_append_right _ hb)
  have out1 : ∀ o ∈ (run key [f] res forget l1).1, ∃ i ∈ l1, same o i :=
    (C48_complete key f l1 res forget hci1).2
  have out2 : ∀ o ∈ (run key [f] res forget l2).1, ∃ i ∈ l1, same o i := fun o ho => by
    obtain ⟨j, hj, h⟩ := (C48_complete key f l2 res forget hci2).2 o ho
    obtain ⟨i, hi, h'⟩ := h21 j hj
    exact ⟨i, hi, same_trans h (same_symm h')⟩
  have hask : ∀ x, (∃ i ∈ l1, same x i) → asked f l1 x = asked f l2 x := by
    rintro x ⟨i, hi, h⟩
    rw [asked_congr h, asked_congr (items := l2) h]
    exact ha i hi
  cases hx : asked f l1 o1 with
  | some x =>
    rw [(C81_exact key f l1 res forget hc1 ho1 ⟨rfl, rfl⟩).1 x hx]
    rw [(C81_exact key f l2 res forget hc2 ho2 ⟨rfl, rfl⟩).1 x]
    rw [← asked_congr hs, ← hask o1 (out1 o1 ho1), hx]
  | none =>
    have hF : ∀ k, Free f l1 res k ↔ Free f l2 res k := by
      intro k
      rw [free_asked, free_asked]
      refine and_congr Iff.rfl (and_congr ⟨fun h j hj => ?_, fun h i hi => ?_⟩ (forall_congr' fun x =>
        forall_congr' fun _ => forall_congr' fun _ => ?_))
      · obtain ⟨i, hi, hij⟩ := h21 j hj
        rw [← asked_congr hij, ← ha i hi]
        exact h i hi
      · obtain ⟨j, hj, hij⟩ := h12 i hi
        rw [ha i hi, asked_congr hij]
        exact h j hj
      · have : ∀ l l' : List Item, (∀ i ∈ l, ∃ j ∈ l', same i j) → lastSame l x ≠ none → lastSame l' x ≠ none := by
          intro l l' hll h
          obtain ⟨j, hj⟩ := Option.ne_none_iff_exists'.1 h
          obtain ⟨j', hj', hjj⟩ := hll j (lastSame_mem hj).1
          obtain ⟨y, hy⟩ := lastSame_some hj'
          rw [lastSame_congr (same_trans (same_symm hjj) (lastSame_mem hj).2)] at hy
          rw [hy]
          exact Option.some_ne_none y
        exact ⟨this l1 l2 h12, this l2 l1 fun j hj => by
          obtain ⟨i, hi, h⟩ := h21 j hj
          exact ⟨i, hi, same_symm h⟩⟩
    obtain ⟨k1, e1, q1, f1, c1⟩ := C78_exact key f l1 res forget hc1
    obtain ⟨k2, e2, q2, f2, c2⟩ := C78_exact key f l2 res forget hc2
    have strict : ∀ l : List Item, NoCollision key l → (∀ o ∈ (run key [f] res forget l).1, ∃ i ∈ l1, same o i) →
        (∀ i, (∃ j ∈ l1, same i j) → asked f l i = asked f l1 i) →
        ((run key [f] res forget l).1.filter fun o => (asked f l o).isNone).Pairwise
          fun a b => textLt a.text b.text = true := by
      intro l hcl hin hal
      have h48 : (run key [f] res forget l).1.Pairwise (Earlier l) := run_order hcl
      refine (h48.filter _).imp_of_mem fun {a b} hma hmb h => ?_
      rcases h with h | ⟨he, hlt⟩
      · exact h
      · rw [List.mem_filter, Option.isNone_iff_eq_none] at hma hmb
        obtain ⟨i, hi, hai⟩ := hin a hma.1
        obtain ⟨j, hj, hbj⟩ := hin b hmb.1
        have hsij := ht i hi j hj (by rw [← asked_congr hai, ← hal a ⟨i, hi, hai⟩, hma.2])
          (by rw [← asked_congr hbj, ← hal b ⟨j, hj, hbj⟩, hmb.2]) (by rw [← hai.1, ← hbj.1, he])
        rw [firstAt_congr (same_trans (same_trans hai hsij) (same_symm hbj))] at hlt
        omega
    have s1 := strict l1 hci1 out1 fun _ _ => rfl
    have s2 := strict l2 hci2 out2 fun i hi => (hask i hi).symm
    have hfa := sorted_forall₂ (R := fun a b => textLt a.text b.text = true)
      (fun a b h h' => by rw [textLt_asymm h] at h'; cases h')
      (fun a b a' b' h h' hr => by rw [← h.1, ← h'.1]; exact hr) s1 s2
      (fun a hma => by
        rw [List.mem_filter, Option.isNone_iff_eq_none] at hma
        obtain ⟨i, hi, hai⟩ := out1 a hma.1
        obtain ⟨j, hj, hij⟩ := h12 i hi
        obtain ⟨b, hb, hbj⟩ := (C48_complete key f l2 res forget hci2).1 j hj
        have hab := same_trans (same_trans hai hij) (same_symm hbj)
        refine ⟨b, List.mem_filter.2 ⟨hb, ?_⟩, hab⟩
        rw [Option.isNone_iff_eq_none, ← asked_congr hab, ← hask a ⟨i, hi, hai⟩, hma.2])
      (fun b hmb => by
        rw [List.mem_filter, Option.isNone_iff_eq_none] at hmb
        obtain ⟨i, hi, hbi⟩ := out2 b hmb.1
        obtain ⟨a, hma, hai⟩ := (C48_complete key f l1 res forget hci1).1 i hi
        have hab := same_trans hai (same_symm hbi)
        refine ⟨a, List.mem_filter.2 ⟨hma, ?_⟩, hab⟩
        rw [Option.isNone_iff_eq_none, hask a ⟨i, hi, hai⟩, asked_congr hab, hmb.2])
    have hk : k1 = k2 := by
      refine least_unique (F := Free f l1 res) (n := 0) ?_ q1 q2 (fun k hk => ⟨Nat.zero_le _, f1 k hk⟩)
        (fun k hk => ⟨Nat.zero_le _, (hF k).2 (f2 k hk)⟩) (fun k hk m hm _ hf => c1 k hk m hm hf)
        (fun k hk m hm _ hf => c2 k hk m hm ((hF m).1 hf))
      have h1 := congrArg List.length e1
      have h2 := congrArg List.length e2
      rw [List.length_map, List.length_map] at h1 h2
      rw [← h1, ← h2]
      exact hfa.length_eq
    rw [← e2.trans (congrArg _ hk.symm)] at e1
    have hm1 : o1 ∈ (run key [f] res forget l1).1.filter fun o => (asked f l1 o).isNone :=
      List.mem_filter.2 ⟨ho1, by rw [hx]; rfl⟩
    have hm2 : o2 ∈ (run key [f] res forget l2).1.filter fun o => (asked f l2 o).isNone :=
      List.mem_filter.2 ⟨ho2, by rw [← asked_congr hs, ← hask o1 (out1 o1 ho1), hx]; rfl⟩
    exact forall₂_id hfa s1 e1 hm1 hm2 hs

example : NoCollision (msgKey exHash) ([item [2] [] 4] ++ [item [2] [[9]] (-1), item [1] [] (-1), item [2] [[8]] 6,
      item [2] [] 4, item [2] [[9]] (-1)]) ∧
    ((run (msgKey exHash) [[item [2] [] 4]] [] false [item [2] [[9]] (-1), item [1] [] (-1), item [2] [[8]] 6,
      item [2] [] 4, item [2] [[9]] (-1)]).1.map fun o => (o.text, o.args, o.id)) =
      [([1], [], 0), ([2], [[9]], 1), ([2], [[8]], 6), ([2], [], 4)] ∧
    ((run (msgKey exHash) [[item [2] [] 4]] [] false [item [2] [] (-1), item [2] [[8]] 6, item [2] [[9]] (-1),
      item [1] [] (-1)]).1.map fun o => (o.text, o.args, o.id)) =
      [([1], [], 0), ([2], [], 4), ([2], [[8]], 6), ([2], [[9]], 1)] := by
  unfold NoCollision
  decide +kernel

end Verif.Catalog
