import Verif.Lookup.Lemmas
import Mathlib.Tactic.Set

/-!
# Lemmas about the storage and the tables
-/
namespace Verif.Lookup

variable {W : Nat} {V : Type}

/-! ## The rotation -/

theorem endOfLongest_spec (h : BitVec W → Nat) (L : Nat) (es : List (Entry W V)) :
    ∀ prev len (pre : List (Entry W V)),
      (∀ x ∈ pre, h x.key ≤ prev) → pre.countP (fun x => h x.key == prev) = len →
      es.Pairwise (fun a b => h a.key ≤ h b.key) → (∀ x ∈ es, prev ≤ h x.key) →
      (∃ v, prev ≤ v ∧ L ≤ (pre ++ es).countP (fun x => h x.key == v)) →
      ∃ hl, (∀ x ∈ pre ++ es.take (endOfLongest h L prev len es), h x.key ≤ hl) ∧
        L ≤ (pre ++ es.take (endOfLongest h L prev len es)).countP (fun x => h x.key == hl) ∧
        ∀ y ∈ es.drop (endOfLongest h L prev len es), hl < h y.key := by
  induction es with
  | nil =>
    intro prev len pre hpre hlen _ _ hv
    obtain ⟨v, hv1, hv2⟩ := hv
    refine ⟨prev, ?_, ?_, ?_⟩
    · simpa using hpre
    · simp only [List.take_nil, List.append_nil] at *
      by_cases he : v = prev
      · rw [← he]; exact hv2
      · have h0 : pre.countP (fun x => h x.key == v) = 0 := by
          rw [List.countP_eq_zero]
          intro x hx
          have := hpre x hx
          simp
          omega
        omega
    · simp
  | cons e es ih =>
    intro prev len pre hpre hlen hs hge hv
    have hs1 := (List.pairwise_cons.1 hs).1
    have hs2 := (List.pairwise_cons.1 hs).2
    rw [endOfLongest]
    have happ : pre ++ e :: es = (pre ++ [e]) ++ es := by simp
    by_cases he : h e.key = prev
    · rw [if_pos he]
      have hih := ih (h e.key) (len + 1) (pre ++ [e]) ?_ ?_ hs2 ?_ ?_
      · obtain ⟨hl, h1, h2, h3⟩ := hih
        refine ⟨hl, ?_, ?_, ?_⟩
        · rw [List.take_succ_cons]
          intro x hx
          exact h1 x (by simpa using hx)
        · rw [List.take_succ_cons]
          simpa using h2
        · rw [List.drop_succ_cons]
          exact h3
      · intro x hx
        rcases List.mem_append.1 hx with hx | hx
        · rw [he]; exact hpre x hx
        · rw [List.mem_singleton.1 hx]
          exact Nat.le_refl _
      · rw [List.countP_append, List.countP_singleton, he, hlen]
        simp
      · exact hs1
      · obtain ⟨v, hv1, hv2⟩ := hv
        exact ⟨v, by omega, by rw [← happ]; exact hv2⟩
    · have hgt : prev < h e.key := by
        have := hge e List.mem_cons_self
        omega
      rw [if_neg he]
      by_cases hL : L ≤ len
      · rw [if_pos hL]
        refine ⟨prev, ?_, ?_, ?_⟩
        · simpa using hpre
        · simpa [hlen] using hL
        · rw [List.drop_zero]
          intro y hy
          rcases List.mem_cons.1 hy with rfl | hy
          · exact hgt
          · have := hs1 y hy
            omega
      · rw [if_neg hL]
        have hih := ih (h e.key) 1 (pre ++ [e]) ?_ ?_ hs2 ?_ ?_
        · obtain ⟨hl, h1, h2, h3⟩ := hih
          refine ⟨hl, ?_, ?_, ?_⟩
          · rw [List.take_succ_cons]
            intro x hx
            exact h1 x (by simpa using hx)
          · rw [List.take_succ_cons]
            simpa using h2
          · rw [List.drop_succ_cons]
            exact h3
        · intro x hx
          rcases List.mem_append.1 hx with hx | hx
          · have := hpre x hx
            omega
          · rw [List.mem_singleton.1 hx]
            exact Nat.le_refl _
        · rw [List.countP_append, List.countP_singleton]
          have h0 : pre.countP (fun x => h x.key == h e.key) = 0 := by
            rw [List.countP_eq_zero]
            intro x hx
            have := hpre x hx
            simp
            omega
          rw [h0]
          simp
        · exact hs1
        · obtain ⟨v, hv1, hv2⟩ := hv
          refine ⟨v, ?_, by rw [← happ]; exact hv2⟩
          by_contra hlt
          have hz : (e :: es).countP (fun x => h x.key == v) = 0 := by
            rw [List.countP_eq_zero]
            intro x hx
            have : h e.key ≤ h x.key := by
              rcases List.mem_cons.1 hx with rfl | hx
              · exact Nat.le_refl _
              · exact hs1 x hx
            simp
            omega
          rw [List.countP_append, hz] at hv2
          by_cases hvp : v = prev
          · rw [hvp, hlen] at hv2
            omega
          · have h0 : pre.countP (fun x => h x.key == v) = 0 := by
              rw [List.countP_eq_zero]
              intro x hx
              have := hpre x hx
              simp
              omega
            omega

/-- The storage is two sorted pieces, with the longest bucket at the end of the second. -/
theorem rotateLongest_spec (h : BitVec W → Nat) (L : Nat) (s : List (Entry W V))
    (hs : s.Pairwise (fun a b => h a.key ≤ h b.key)) (hne : s ≠ [])
    (hv : ∃ v, v ∈ s.map (fun x => h x.key) ∧ L ≤ s.countP (fun x => h x.key == v)) :
    ∃ A B hl, s = A ++ B ∧ rotateLongest h L s = B ++ A ∧ (∀ x ∈ A, h x.key ≤ hl) ∧
      L ≤ A.countP (fun x => h x.key == hl) ∧ ∀ y ∈ B, hl < h y.key := by
  cases s with
  | nil => exact absurd rfl hne
  | cons e es =>
    have hs1 := (List.pairwise_cons.1 hs).1
    have hs2 := (List.pairwise_cons.1 hs).2
    obtain ⟨v, hv1, hv2⟩ := hv
    have hmin : h e.key ≤ v := by
      obtain ⟨x, hx, rfl⟩ := List.mem_map.1 hv1
      rcases List.mem_cons.1 hx with rfl | hx
      · exact Nat.le_refl _
      · exact hs1 x hx
    obtain ⟨hl, h1, h2, h3⟩ := endOfLongest_spec h L es (h e.key) 1 [e] (by simp) (by simp) hs2 hs1
      ⟨v, hmin, by simpa using hv2⟩
    refine ⟨e :: es.take (endOfLongest h L (h e.key) 1 es),
      es.drop (endOfLongest h L (h e.key) 1 es), hl, ?_, ?_, ?_, ?_, h3⟩
    · rw [List.cons_append, List.take_append_drop]
    · simp [rotateLongest]
    · exact h1
    · exact h2

/-- A sorted list in three pieces. -/
theorem sorted_split (h : BitVec W → Nat) (s : Nat) (X : List (Entry W V))
    (hs : X.Pairwise (fun a b => h a.key ≤ h b.key)) :
    X = X.filter (fun x => h x.key < s) ++
      (X.filter (fun x => h x.key == s) ++ X.filter (fun x => s < h x.key)) := by
  induction X with
  | nil => rfl
  | cons x xs ih =>
    have hs1 := (List.pairwise_cons.1 hs).1
    have hs2 := (List.pairwise_cons.1 hs).2
    have ih := ih hs2
    rcases Nat.lt_trichotomy (h x.key) s with hlt | heq | hgt
    · simp only [List.filter_cons, hlt, decide_true, if_true, List.cons_append, beq_iff_eq,
        if_neg (Nat.ne_of_lt hlt), decide_eq_true_eq, if_neg (Nat.lt_asymm hlt)]
      rw [← ih]
    · have h0 : xs.filter (fun x => h x.key < s) = [] := by
        rw [List.filter_eq_nil_iff]
        intro y hy
        have := hs1 y hy
        simp
        omega
      rw [h0, List.nil_append] at ih
      simp only [List.filter_cons, heq, decide_eq_true_eq, Nat.lt_irrefl, if_false, beq_self_eq_true,
        if_true, h0, List.nil_append, List.cons_append]
      rw [← ih]
    · have h0 : xs.filter (fun x => h x.key < s) = [] := by
        rw [List.filter_eq_nil_iff]
        intro y hy
        have := hs1 y hy
        simp
        omega
      have h1 : xs.filter (fun x => h x.key == s) = [] := by
        rw [List.filter_eq_nil_iff]
        intro y hy
        have := hs1 y hy
        simp
        omega
      rw [h0, h1, List.nil_append, List.nil_append] at ih
      simp only [List.filter_cons, decide_eq_true_eq, if_neg (Nat.lt_asymm hgt), beq_iff_eq,
        if_neg (Nat.ne_of_gt hgt), if_pos hgt, h0, h1, List.nil_append]
      rw [← ih]

/-! ## The lookup table -/

/-- `i` is the first place in `storage` of an entry with slot `s`. -/
def FirstAt (h : BitVec W → Nat) (storage : List (Entry W V)) (s i : Nat) : Prop :=
  (∃ e, storage[i]? = some e ∧ h e.key = s) ∧
    ∀ k < i, ∀ e, storage[k]? = some e → h e.key ≠ s

theorem fillTable_spec (h : BitVec W → Nat) (w : Nat) (storage : List (Entry W V))
    (hw : storage.length < 2 ^ w) (N : Nat) (hN : ∀ k, h k < N) (idx : Nat) :
    ∀ t : List Nat, t.length = N → idx < storage.length →
      ∃ t', fillTable h w storage (idx + 2) idx t = some t' ∧ t'.length = N ∧
        (∀ j ≤ idx, ∀ e, storage[j]? = some e →
          ∃ i, t'[h e.key]? = some i ∧ FirstAt h storage (h e.key) i) ∧
        (∀ s, (∀ j ≤ idx, ∀ e, storage[j]? = some e → h e.key ≠ s) → t'[s]? = t[s]?) := by
  induction idx with
  | zero =>
    intro t ht hidx
    obtain ⟨e0, he0⟩ : ∃ e0, storage[0]? = some e0 := ⟨storage[0], by simp [hidx]⟩
    have hslot : h e0.key < t.length := by rw [ht]; exact hN _
    have hwrap : ¬ (0 + (2 ^ w - 1)) % 2 ^ w < storage.length := by
      rw [Nat.mod_eq_of_lt (by omega)]
      omega
    refine ⟨t.set (h e0.key) 0, ?_, ?_, ?_, ?_⟩
    · rw [fillTable]
      simp only [if_pos hidx, he0, Option.bind_eq_bind, Option.bind_some, if_pos hslot]
      rw [fillTable, if_neg hwrap]
    · simp [ht]
    · intro j hj e he
      have hj0 : j = 0 := by omega
      subst hj0
      rw [he0] at he
      obtain rfl := Option.some.inj he
      refine ⟨0, by simp [hslot], ⟨⟨e0, he0, rfl⟩, ?_⟩⟩
      intro k hk
      omega
    · intro s hs
      have := hs 0 (Nat.le_refl _) e0 he0
      rw [List.getElem?_set_ne this]
  | succ idx ih =>
    intro t ht hidx
    obtain ⟨e0, he0⟩ : ∃ e0, storage[idx + 1]? = some e0 := ⟨storage[idx + 1], by simp [hidx]⟩
    have hslot : h e0.key < t.length := by rw [ht]; exact hN _
    have hstep : (idx + 1 + (2 ^ w - 1)) % 2 ^ w = idx := by
      have : idx + 1 + (2 ^ w - 1) = idx + 2 ^ w := by omega
      rw [this, Nat.add_mod_right]
      exact Nat.mod_eq_of_lt (by omega)
    obtain ⟨t', h1, h2, h3, h4⟩ := ih (t.set (h e0.key) (idx + 1)) (by simp [ht]) (by omega)
    refine ⟨t', ?_, h2, ?_, ?_⟩
    · rw [fillTable]
      simp only [if_pos hidx, he0, Option.bind_eq_bind, Option.bind_some, if_pos hslot, hstep]
      exact h1
    · intro j hj e he
      by_cases hjl : j ≤ idx
      · exact h3 j hjl e he
      · have hje : j = idx + 1 := by omega
        subst hje
        rw [he0] at he
        obtain rfl := Option.some.inj he
        by_cases hex : ∃ k, k ≤ idx ∧ ∃ e', storage[k]? = some e' ∧ h e'.key = h e0.key
        · obtain ⟨k, hk, e', he', hh⟩ := hex
          rw [← hh]
          exact h3 k hk e' he'
        · have hno : ∀ k ≤ idx, ∀ e', storage[k]? = some e' → h e'.key ≠ h e0.key :=
            fun k hk e' he' hh => hex ⟨k, hk, e', he', hh⟩
          refine ⟨idx + 1, ?_, ⟨⟨e0, he0, rfl⟩, fun k hk e' he' => hno k (by omega) e' he'⟩⟩
          rw [h4 _ hno, List.getElem?_set_self hslot]
    · intro s hs
      rw [h4 s (fun j hj e he => hs j (by omega) e he)]
      exact List.getElem?_set_ne (hs (idx + 1) (Nat.le_refl _) e0 he0)

/-! ## Probing -/

theorem probe_spec (d : V) (w : Nat) (storage : List (Entry W V)) (key : BitVec W)
    (hw : storage.length < 2 ^ w)
    (hd : ∀ a ∈ storage, ∀ b ∈ storage, a.key = b.key → a.value = b.value) (n : Nat) :
    ∀ i, i + n ≤ storage.length → ∃ r, probe d w storage key n i = some r ∧
      Answers d ((storage.drop i).take n) key r := by
  induction n with
  | zero =>
    intro i _
    exact ⟨d, rfl, ⟨by simp, fun _ => rfl⟩⟩
  | succ n ih =>
    intro i hi
    have hlt : i < storage.length := by omega
    have hdrop : storage.drop i = storage[i] :: storage.drop (i + 1) :=
      List.drop_eq_getElem_cons hlt
    have hget : storage[i]? = some storage[i] := by simp [hlt]
    rw [probe, hdrop, List.take_succ_cons]
    simp only [hget, Option.bind_eq_bind, Option.bind_some]
    by_cases hk : key = storage[i].key
    · rw [if_pos hk]
      refine ⟨_, rfl, ⟨?_, ?_⟩⟩
      · intro e he hek
        have hm : e ∈ storage := by
          rcases List.mem_cons.1 he with rfl | he
          · exact List.getElem_mem hlt
          · exact List.mem_of_mem_drop (List.mem_of_mem_take he)
        exact hd _ (List.getElem_mem hlt) _ hm (by rw [hek, hk])
      · intro hab
        exact absurd hk.symm (hab _ List.mem_cons_self)
    · rw [if_neg hk]
      have hmod : (i + 1) % 2 ^ w = i + 1 := Nat.mod_eq_of_lt (by omega)
      rw [hmod]
      obtain ⟨r, h1, h2⟩ := ih (i + 1) (by omega)
      refine ⟨r, h1, ⟨?_, ?_⟩⟩
      · intro e he hek
        rcases List.mem_cons.1 he with rfl | he
        · exact absurd hek.symm hk
        · exact h2.present e he hek
      · intro hab
        exact h2.absent (fun e he => hab e (List.mem_cons_of_mem _ he))

theorem firstAt_split (h : BitVec W → Nat) (P Q : List (Entry W V)) (s i : Nat) (q : Entry W V)
    (hP : ∀ x ∈ P, h x.key ≠ s) (hq : Q[0]? = some q) (hqs : h q.key = s)
    (hf : FirstAt h (P ++ Q) s i) : i = P.length := by
  obtain ⟨⟨e, he, hes⟩, hmin⟩ := hf
  rcases Nat.lt_trichotomy i P.length with hlt | heq | hgt
  · rw [List.getElem?_append_left hlt] at he
    exact absurd hes (hP e (List.mem_of_getElem? he))
  · exact heq
  · exfalso
    refine hmin P.length hgt q ?_ hqs
    rw [List.getElem?_append_right (Nat.le_refl _), Nat.sub_self]
    exact hq

/-! ## The direct table -/

theorem fillDirect_spec (h : BitVec W → Nat) (N : Nat) (hN : ∀ k, h k < N)
    (es : List (Entry W V)) : ∀ s : List (Entry W V), s.length = N →
      (es.map (fun e => h e.key)).Nodup →
      ∃ s', fillDirect h es s = some s' ∧ s'.length = N ∧
        (∀ e ∈ es, s'[h e.key]? = some e) ∧
        (∀ k, (∀ e ∈ es, h e.key ≠ k) → s'[k]? = s[k]?) := by
  induction es with
  | nil =>
    intro s hs _
    exact ⟨s, rfl, hs, by simp, fun _ _ => rfl⟩
  | cons e es ih =>
    intro s hs hn
    rw [List.map_cons, List.nodup_cons] at hn
    have hslot : h e.key < s.length := by rw [hs]; exact hN _
    obtain ⟨s', h1, h2, h3, h4⟩ := ih (s.set (h e.key) e) (by simp [hs]) hn.2
    refine ⟨s', ?_, h2, ?_, ?_⟩
    · rw [fillDirect, if_pos hslot]
      exact h1
    · intro x hx
      rcases List.mem_cons.1 hx with rfl | hx
      · rw [h4 _ (fun y hy hh => hn.1 (List.mem_map.2 ⟨y, hy, hh⟩)), List.getElem?_set_self hslot]
      · exact h3 x hx
    · intro k hk
      rw [h4 k (fun y hy => hk y (List.mem_cons_of_mem _ hy))]
      exact List.getElem?_set_ne (hk e List.mem_cons_self)

/-! ## Whole tables -/

theorem Answers.of_perm {d : V} {es es' : List (Entry W V)} {key : BitVec W} {r : V}
    (hp : ∀ e, e ∈ es ↔ e ∈ es') (h : Answers d es key r) : Answers d es' key r :=
  ⟨fun e he hk => h.present e ((hp e).2 he) hk,
    fun hn => h.absent (fun e he => hn e ((hp e).1 he))⟩

theorem lt_two_pow_uintFor (n : Nat) (h : n < 2 ^ 64) : n < 2 ^ uintFor n := by
  unfold uintFor
  split
  · assumption
  · split
    · assumption
    · split
      · assumption
      · exact h

/-- Reading an indirect table. -/
theorem indirect_answers (h : BitVec W → Nat) (N L : Nat) (hN : ∀ k, h k < N) (d : V)
    (s : List (Entry W V)) (hs : s.Pairwise (fun a b => h a.key ≤ h b.key)) (hne : s ≠ [])
    (hd : ∀ a ∈ s, ∀ b ∈ s, a.key = b.key → a.value = b.value)
    (hv : ∃ v, v ∈ s.map (fun x => h x.key) ∧ L ≤ s.countP (fun x => h x.key == v))
    (hmax : ∀ v, s.countP (fun x => h x.key == v) ≤ L) (h64 : s.length < 2 ^ 64) :
    ∃ t, fillTable h (uintFor (rotateLongest h L s).length) (rotateLongest h L s)
        ((rotateLongest h L s).length + 1)
        (((rotateLongest h L s).length - 1) % 2 ^ uintFor (rotateLongest h L s).length)
        (List.replicate N 0) = some t ∧ t.length = N ∧
      ∀ key, ∃ i, t[h key]? = some i ∧ ∃ r,
        probe d (uintFor (rotateLongest h L s).length) (rotateLongest h L s) key L i = some r ∧
          Answers d s key r := by
  obtain ⟨A, B, hl, hsplit, hrot, hA, hL, hB⟩ := rotateLongest_spec h L s hs hne hv
  rw [hrot]
  have hlen : (B ++ A).length = s.length := by
    rw [hsplit, List.length_append, List.length_append, Nat.add_comm]
  have hmem : ∀ e, e ∈ B ++ A ↔ e ∈ s := by
    intro e
    rw [hsplit, List.mem_append, List.mem_append, or_comm]
  have hpos : 0 < s.length := List.length_pos_iff.2 hne
  have hw : (B ++ A).length < 2 ^ uintFor (B ++ A).length :=
    lt_two_pow_uintFor _ (by rw [hlen]; exact h64)
  have hAlen : L ≤ A.length := Nat.le_trans hL List.countP_le_length
  have hmod : ((B ++ A).length - 1) % 2 ^ uintFor (B ++ A).length = (B ++ A).length - 1 :=
    Nat.mod_eq_of_lt (by omega)
  obtain ⟨t, h1, h2, h3, h4⟩ := fillTable_spec h (uintFor (B ++ A).length) (B ++ A) hw N hN
    ((B ++ A).length - 1) (List.replicate N 0) (by simp) (by omega)
  have hfuel : (B ++ A).length - 1 + 2 = (B ++ A).length + 1 := by omega
  rw [hfuel] at h1
  rw [hmod]
  refine ⟨t, h1, h2, ?_⟩
  intro key
  have hd' : ∀ a ∈ B ++ A, ∀ b ∈ B ++ A, a.key = b.key → a.value = b.value :=
    fun a ha b hb => hd a ((hmem a).1 ha) b ((hmem b).1 hb)
  have hAB := hs
  rw [hsplit, List.pairwise_append] at hAB
  obtain ⟨hsA, hsB, _⟩ := hAB
  -- from the window to all entries
  have finish : ∀ i, i + L ≤ (B ++ A).length →
      (∀ e ∈ B ++ A, e.key = key → e ∈ ((B ++ A).drop i).take L) →
      ∃ r, probe d (uintFor (B ++ A).length) (B ++ A) key L i = some r ∧ Answers d s key r := by
    intro i hi hwin
    obtain ⟨r, hr1, hr2⟩ := probe_spec d _ (B ++ A) key hw hd' L i hi
    refine ⟨r, hr1, ⟨?_, ?_⟩⟩
    · intro e he hk
      exact hr2.present e (hwin e ((hmem e).2 he) hk) hk
    · intro hn
      exact hr2.absent (fun e he =>
        hn e ((hmem e).1 (List.mem_of_mem_drop (List.mem_of_mem_take he))))
  by_cases hex : ∃ e ∈ B ++ A, h e.key = h key
  · obtain ⟨e, he, hek⟩ := hex
    obtain ⟨j, hj, hje⟩ := List.getElem_of_mem he
    have hjget : (B ++ A)[j]? = some e := by rw [List.getElem?_eq_getElem hj, hje]
    obtain ⟨i, hi, hfirst⟩ := h3 j (by omega) e hjget
    rw [hek] at hi hfirst
    refine ⟨i, hi, finish i ?_ ?_⟩
    all_goals
      rcases List.mem_append.1 he with heB | heA
    -- the bucket is in B
    · have hBs := sorted_split h (h key) B hsB
      set P := B.filter (fun x => h x.key < h key) with hP
      set E := B.filter (fun x => h x.key == h key) with hE
      set R := B.filter (fun x => h key < h x.key) with hR
      have heE : e ∈ E := by rw [hE]; exact List.mem_filter.2 ⟨heB, by simp [hek]⟩
      have hEpos : 0 < E.length := List.length_pos_of_mem heE
      have hst : B ++ A = P ++ (E ++ (R ++ A)) := by
        conv_lhs => rw [hBs]
        simp only [List.append_assoc]
      have hii : i = P.length := by
        rw [hst] at hfirst
        refine firstAt_split h P _ _ i E[0] ?_ ?_ ?_ hfirst
        · intro x hx
          have := (List.mem_filter.1 hx).2
          simp at this
          omega
        · rw [List.getElem?_append_left hEpos]
          simp [hEpos]
        · have := (List.mem_filter.1 (List.getElem_mem hEpos)).2
          simpa using this
      rw [hst, hii]
      simp only [List.length_append]
      omega
    · have hAs := sorted_split h (h key) A hsA
      set P := A.filter (fun x => h x.key < h key) with hP
      set E := A.filter (fun x => h x.key == h key) with hE
      set R := A.filter (fun x => h key < h x.key) with hR
      have heE : e ∈ E := by rw [hE]; exact List.mem_filter.2 ⟨heA, by simp [hek]⟩
      have hEpos : 0 < E.length := List.length_pos_of_mem heE
      have hst : B ++ A = (B ++ P) ++ (E ++ R) := by
        conv_lhs => rw [hAs]
        simp only [List.append_assoc]
      have hle : h key ≤ hl := by rw [← hek]; exact hA e heA
      have hii : i = (B ++ P).length := by
        rw [hst] at hfirst
        refine firstAt_split h (B ++ P) _ _ i E[0] ?_ ?_ ?_ hfirst
        · intro x hx
          rcases List.mem_append.1 hx with hx | hx
          · have := hB x hx
            omega
          · have := (List.mem_filter.1 hx).2
            simp at this
            omega
        · rw [List.getElem?_append_left hEpos]
          simp [hEpos]
        · have := (List.mem_filter.1 (List.getElem_mem hEpos)).2
          simpa using this
      have hER : L ≤ E.length + R.length := by
        rcases Nat.lt_or_ge (h key) hl with hlt | hge
        · have : A.countP (fun x => h x.key == hl) ≤ R.length := by
            rw [hR, ← List.countP_eq_length_filter]
            apply List.countP_mono_left
            intro x _ hx
            simp at hx
            simp
            omega
          omega
        · have : A.countP (fun x => h x.key == hl) = E.length := by
            rw [hE, ← List.countP_eq_length_filter]
            have : h key = hl := by omega
            rw [this]
          omega
      rw [hst, hii]
      simp only [List.length_append]
      omega
    · have hBs := sorted_split h (h key) B hsB
      set P := B.filter (fun x => h x.key < h key) with hP
      set E := B.filter (fun x => h x.key == h key) with hE
      set R := B.filter (fun x => h key < h x.key) with hR
      have heE : e ∈ E := by rw [hE]; exact List.mem_filter.2 ⟨heB, by simp [hek]⟩
      have hEpos : 0 < E.length := List.length_pos_of_mem heE
      have hst : B ++ A = P ++ (E ++ (R ++ A)) := by
        conv_lhs => rw [hBs]
        simp only [List.append_assoc]
      have hii : i = P.length := by
        rw [hst] at hfirst
        refine firstAt_split h P _ _ i E[0] ?_ ?_ ?_ hfirst
        · intro x hx
          have := (List.mem_filter.1 hx).2
          simp at this
          omega
        · rw [List.getElem?_append_left hEpos]
          simp [hEpos]
        · have := (List.mem_filter.1 (List.getElem_mem hEpos)).2
          simpa using this
      have hEL : E.length ≤ L := by
        have := hmax (h key)
        rw [hsplit, List.countP_append] at this
        rw [hE, ← List.countP_eq_length_filter]
        omega
      intro x hx hxk
      rw [hst, hii, List.drop_left, List.take_append, List.take_of_length_le hEL]
      apply List.mem_append_left
      rcases List.mem_append.1 hx with hxB | hxA
      · rw [hE]
        exact List.mem_filter.2 ⟨hxB, by simp [hxk]⟩
      · exfalso
        have h1 := hA x hxA
        have h2 := hB e heB
        rw [hxk] at h1
        omega
    · have hAs := sorted_split h (h key) A hsA
      set P := A.filter (fun x => h x.key < h key) with hP
      set E := A.filter (fun x => h x.key == h key) with hE
      set R := A.filter (fun x => h key < h x.key) with hR
      have heE : e ∈ E := by rw [hE]; exact List.mem_filter.2 ⟨heA, by simp [hek]⟩
      have hEpos : 0 < E.length := List.length_pos_of_mem heE
      have hst : B ++ A = (B ++ P) ++ (E ++ R) := by
        conv_lhs => rw [hAs]
        simp only [List.append_assoc]
      have hle : h key ≤ hl := by rw [← hek]; exact hA e heA
      have hii : i = (B ++ P).length := by
        rw [hst] at hfirst
        refine firstAt_split h (B ++ P) _ _ i E[0] ?_ ?_ ?_ hfirst
        · intro x hx
          rcases List.mem_append.1 hx with hx | hx
          · have := hB x hx
            omega
          · have := (List.mem_filter.1 hx).2
            simp at this
            omega
        · rw [List.getElem?_append_left hEpos]
          simp [hEpos]
        · have := (List.mem_filter.1 (List.getElem_mem hEpos)).2
          simpa using this
      have hEL : E.length ≤ L := by
        have := hmax (h key)
        rw [hsplit, List.countP_append] at this
        rw [hE, ← List.countP_eq_length_filter]
        omega
      intro x hx hxk
      rw [hst, hii, List.drop_left, List.take_append, List.take_of_length_le hEL]
      apply List.mem_append_left
      rcases List.mem_append.1 hx with hxB | hxA
      · exfalso
        have := hB x hxB
        rw [hxk] at this
        omega
      · rw [hE]
        exact List.mem_filter.2 ⟨hxA, by simp [hxk]⟩
  · have hno : ∀ e ∈ B ++ A, h e.key ≠ h key := fun e he hh => hex ⟨e, he, hh⟩
    refine ⟨0, ?_, finish 0 ?_ ?_⟩
    · rw [h4 (h key) (fun j _ e he => hno e (List.mem_of_getElem? he))]
      simp [hN]
    · rw [List.length_append]
      omega
    · intro e he hk
      exact absurd (by rw [hk]) (hno e he)

/-- Reading a direct table. -/
theorem direct_answers (h : BitVec W → Nat) (N : Nat) (hN : ∀ k, h k < N) (d : V)
    (es : List (Entry W V)) (hn : (es.map (fun e => h e.key)).Nodup) :
    ∃ s, fillDirect h es (List.replicate N ⟨0, d⟩) = some s ∧ s.length = N ∧
      ∀ key, ∃ e, s[h key]? = some e ∧
        Answers d es key (if key = e.key then e.value else d) := by
  obtain ⟨s, h1, h2, h3, h4⟩ := fillDirect_spec h N hN es (List.replicate N ⟨0, d⟩) (by simp) hn
  refine ⟨s, h1, h2, ?_⟩
  intro key
  by_cases hex : ∃ e ∈ es, h e.key = h key
  · obtain ⟨e, he, hek⟩ := hex
    have hg := h3 e he
    rw [hek] at hg
    have huniq : ∀ x ∈ es, x.key = key → x = e := by
      intro x hx hk
      have h5 := h3 x hx
      rw [hk, hg] at h5
      exact (Option.some.inj h5).symm
    refine ⟨e, hg, ⟨?_, ?_⟩⟩
    · intro x hx hk
      obtain rfl := huniq x hx hk
      rw [if_pos hk.symm]
    · intro hnone
      rw [if_neg (fun hk => hnone e he hk.symm)]
  · have hno : ∀ e ∈ es, h e.key ≠ h key := fun e he hh => hex ⟨e, he, hh⟩
    refine ⟨⟨0, d⟩, ?_, ⟨?_, ?_⟩⟩
    · rw [h4 (h key) hno]
      simp [hN]
    · intro x hx hk
      exact absurd (by rw [hk]) (hno x hx)
    · intro _
      split <;> rfl

end Verif.Lookup
