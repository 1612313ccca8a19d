import Verif.Handler.MixProps
/-!
# What an indexed service does when alternatives overlap, and what `is_match` answers

C67 and C68 fail in general. The theorems of this file say exactly what happens instead, under the
conditions of C25: a callback is called once per accepting alternative, and `is_match` looks at the
tests of the index fields only.
-/
namespace Verif.Handler
open Verif.Match

/-- The calls of an indexed service: each callback as often as it has alternatives which accept. -/
theorem called_count {G : M RLeaf → Prop} (hG : Sound G) (fields : List Field)
    (hf : fields ≠ []) (cbs : List Callback) (hc : ∀ c ∈ cbs, G c.matcher)
    (hI : Indexable fields ((build cbs).map (·.matcher))) (e : WMsg) :
    (handleIndexed fields cbs e.1).called =
      cbs.flatMap fun c => List.replicate ((separate c).filter (·.isMatch e.1)).length c.id := by
  rw [handleIndexed_exact hG fields hf cbs hc hI e]
  clear hI hc hG
  induction cbs with
  | nil => rfl
  | cons c cs ih =>
    have hsep : ((separate c).filter (·.isMatch e.1)).map (·.id) =
        List.replicate ((separate c).filter (·.isMatch e.1)).length c.id := by
      refine List.eq_replicate_iff.2 ⟨by simp, ?_⟩
      intro n hn
      obtain ⟨t, ht, rfl⟩ := List.mem_map.1 hn
      exact separate_id c t (List.mem_filter.1 ht).1
    simp only [build, List.flatMap_cons, List.filter_append, List.map_append] at ih ⊢
    rw [ih, hsep]

/-- C67 (partial): under the conditions of C25 a callback is called exactly once per alternative of
its matcher which accepts the message; the callbacks are called in registration order. Missing: only
once, `C67_violated`. -/
theorem C67_count_one_constant_partial (K : Field → Int) (fields : List Field)
    (hf : fields ≠ []) (cbs : List Callback) (hc : ∀ c ∈ cbs, LS (OneConst K) c.matcher)
    (hI : Indexable fields ((build cbs).map (·.matcher))) (e : WMsg) :
    (handleIndexed fields cbs e.1).called =
      cbs.flatMap fun c => List.replicate ((separate c).filter (·.isMatch e.1)).length c.id :=
  called_count (sound_oneConst K) fields hf cbs hc hI e

theorem C67_count_positive_partial (fields : List Field)
    (hf : fields ≠ []) (cbs : List Callback) (hc : ∀ c ∈ cbs, PosTree c.matcher)
    (hI : Indexable fields ((build cbs).map (·.matcher))) (e : WMsg) :
    (handleIndexed fields cbs e.1).called =
      cbs.flatMap fun c => List.replicate ((separate c).filter (·.isMatch e.1)).length c.id :=
  called_count sound_posTree fields hf cbs hc hI e

theorem C67_count_mixed_partial (K : Field → Option Int) (fields : List Field)
    (hf : fields ≠ []) (cbs : List Callback) (hc : ∀ c ∈ cbs, MixTree K c.matcher)
    (hI : Indexable fields ((build cbs).map (·.matcher))) (e : WMsg) :
    (handleIndexed fields cbs e.1).called =
      cbs.flatMap fun c => List.replicate ((separate c).filter (·.isMatch e.1)).length c.id :=
  called_count (sound_mix K) fields hf cbs hc hI e

/-- C67: two of the alternatives accept, the callback is called twice. -/
example : ((separate (exCbs[3])).filter (·.isMatch (exMsg2 3 1 true))).length = 2 ∧
    (handleIndexed [exA, exB] exCbs (exMsg2 3 1 true)).called = [1, 3, 4, 4] := by decide +kernel

/-! ## C68 -/

/-- The tests `f == v` and `f != v` of index fields in a conjunction all hold. -/
def IndexTestsHold (fields : List Field) (t : M RLeaf) (e : Msg) : Prop :=
  ∀ f ∈ fields, ∀ v : Int,
    (RLeaf.rel .eq f v ∈ leaves t → e.val f = v) ∧ (RLeaf.rel .ne f v ∈ leaves t → e.val f ≠ v)

theorem leaves_indexTerms {t : M RLeaf} (hn : NoNot t) {f : Field} {k : Int}
    (h : RLeaf.rel .eq f k ∈ leaves t) : (f, k) ∈ indexTerms t := by
  induction t with
  | leaf a => simp only [leaves, List.mem_singleton] at h; subst h; simp [indexTerms]
  | and l r ihl ihr =>
    simp only [indexTerms, List.mem_append, leaves] at h ⊢
    exact h.imp (ihl hn.1) (ihr hn.2)
  | or l r ihl ihr =>
    simp only [indexTerms, List.mem_append, leaves] at h ⊢
    exact h.imp (ihl hn.1) (ihr hn.2)
  | not m ih => exact absurd hn (by simp [NoNot])
  | _ => simp [leaves] at h

theorem leaves_indexNotTerms {t : M RLeaf} (hn : NoNot t) {f : Field} {k : Int}
    (h : RLeaf.rel .ne f k ∈ leaves t) : (f, k) ∈ indexNotTerms t := by
  induction t with
  | leaf a => simp only [leaves, List.mem_singleton] at h; subst h; simp [indexNotTerms]
  | and l r ihl ihr =>
    simp only [indexNotTerms, List.mem_append, leaves] at h ⊢
    exact h.imp (ihl hn.1) (ihr hn.2)
  | or l r ihl ihr =>
    simp only [indexNotTerms, List.mem_append, leaves] at h ⊢
    exact h.imp (ihl hn.1) (ihr hn.2)
  | not m ih => exact absurd hn (by simp [NoNot])
  | _ => simp [leaves] at h

/-- A conjunction is a candidate exactly when its tests of index fields hold. -/
theorem candidate_iff (fields : List Field) (hf : fields ≠ []) (cbs : List Callback)
    (hI : Indexable fields ((build cbs).map (·.matcher))) (e : Msg) (i : Nat) (t : Callback)
    (ht : (build cbs)[i]? = some t) :
    candidates fields (build cbs) e i = true ↔ IndexTestsHold fields t.matcher e := by
  have hno : NoNot t.matcher := hI.noNot _ (List.mem_map.2 ⟨t, List.mem_of_getElem? ht, rfl⟩)
  constructor
  · intro hcand f hff v
    have h := candidate_terms fields hf cbs hI e i t ht hcand f hff
    exact ⟨fun hv => (h.1 v (leaves_indexTerms hno hv)).symm,
      fun hv he => h.2 v (leaves_indexNotTerms hno hv) he.symm⟩
  · intro h
    have hlt : i < (build cbs).length := by
      rcases Nat.lt_or_ge i (build cbs).length with h | h
      · exact h
      · rw [List.getElem?_eq_none h] at ht; cases ht
    unfold candidates
    cases fields with
    | nil => exact absurd rfl hf
    | cons f0 fs =>
      simp only [List.all_eq_true]
      intro f hff
      refine lookup_complete f (build cbs) i _ hlt ?_ ?_
      · intro k hk
        obtain ⟨c, _, hc, hk⟩ := (mem_walk _ _ _ _ _ _).1 hk
        rw [Nat.sub_zero, ht] at hc; cases hc
        exact ((h f hff k).1 (indexTerms_leaves hk)).symm
      · intro k hk
        obtain ⟨c, _, hc, hk⟩ := (mem_walk _ _ _ _ _ _).1 hk
        rw [Nat.sub_zero, ht] at hc; cases hc
        exact fun he => (h f hff k).2 (indexNotTerms_leaves hk) he.symm

/-- C68 (partial): over `Indexable` conjunctions `is_match` answers true exactly when some
alternative of some callback passes its `==` and `!=` tests of the index fields: all other tests are
ignored. Missing: the tests that are ignored, `C68_violated`. -/
theorem C68_index_tests_partial (fields : List Field) (hf : fields ≠ []) (cbs : List Callback)
    (hI : Indexable fields ((build cbs).map (·.matcher))) (e : Msg) :
    isMatchIndexed fields cbs e = true ↔
      ∃ c ∈ cbs, ∃ t ∈ separate c, IndexTestsHold fields t.matcher e := by
  simp only [isMatchIndexed, List.any_eq_true, List.mem_range]
  constructor
  · rintro ⟨i, hi, hcand⟩
    have ht := List.getElem?_eq_getElem hi
    have hmem := List.getElem_mem hi
    obtain ⟨c, hc, hct⟩ := List.mem_flatMap.1 hmem
    exact ⟨c, hc, _, hct, (candidate_iff fields hf cbs hI e i _ ht).1 hcand⟩
  · rintro ⟨c, hc, t, ht, hh⟩
    obtain ⟨i, hi⟩ := List.getElem?_of_mem (List.mem_flatMap.2 ⟨c, hc, ht⟩ : t ∈ build cbs)
    refine ⟨i, ?_, (candidate_iff fields hf cbs hI e i t hi).2 hh⟩
    rcases Nat.lt_or_ge i (build cbs).length with h | h
    · exact h
    · have hi : (build cbs)[i]? = some t := hi
      rw [List.getElem?_eq_none h] at hi; cases hi

/-- All tests of the conjunction are `==` or `!=` tests of index fields, and it is not `never`. -/
def OnlyIndexTests (fields : List Field) : M RLeaf → Prop
  | .leaf a => ∃ f ∈ fields, Selects f a
  | .and l r => OnlyIndexTests fields l ∧ OnlyIndexTests fields r
  | .always => True
  | _ => False

theorem tests_hold {fields : List Field} {t : M RLeaf} (ho : OnlyIndexTests fields t) (e : Msg)
    (h : IndexTestsHold fields t e) : eval revalLeaf t e = true := by
  induction t with
  | leaf a =>
    obtain ⟨f, hf, hs⟩ := ho
    cases a with
    | pred => exact absurd hs (by simp [Selects])
    | rel op g v =>
      cases op <;> simp only [Selects] at hs
      all_goals subst hs
      · exact decide_eq_true ((h _ hf v).1 (by simp [leaves]))
      · exact decide_eq_true ((h _ hf v).2 (by simp [leaves]))
  | and l r ihl ihr =>
    simp only [eval, Bool.and_eq_true]
    exact ⟨ihl ho.1 fun f hf v => ⟨fun hv => (h f hf v).1 (by simp [leaves, hv]),
        fun hv => (h f hf v).2 (by simp [leaves, hv])⟩,
      ihr ho.2 fun f hf v => ⟨fun hv => (h f hf v).1 (by simp [leaves, hv]),
        fun hv => (h f hf v).2 (by simp [leaves, hv])⟩⟩
  | always => rfl
  | _ => exact absurd ho (by simp [OnlyIndexTests])

theorem agrees {G : M RLeaf → Prop} (hG : Sound G) (fields : List Field)
    (hf : fields ≠ []) (cbs : List Callback) (hc : ∀ c ∈ cbs, G c.matcher)
    (hI : Indexable fields ((build cbs).map (·.matcher)))
    (ho : ∀ c ∈ cbs, ∀ t ∈ separate c, OnlyIndexTests fields t.matcher) (e : WMsg) :
    isMatchIndexed fields cbs e.1 = (handleIndexed fields cbs e.1).handled := by
  rw [Bool.eq_iff_iff]
  constructor
  · intro h
    obtain ⟨c, hcm, t, ht, hh⟩ := (C68_index_tests_partial fields hf cbs hI e.1).1 h
    rw [(C25_returns_called fields cbs e.1).1, handleIndexed_exact hG fields hf cbs hc hI e]
    intro hnil
    have hmem : t ∈ (build cbs).filter (·.isMatch e.1) :=
      List.mem_filter.2 ⟨List.mem_flatMap.2 ⟨c, hcm, ht⟩, tests_hold (ho c hcm t ht) e.1 hh⟩
    rw [List.map_eq_nil_iff] at hnil
    rw [hnil] at hmem
    cases hmem
  · exact C68_is_match_complete_partial fields cbs e.1

/-- C68 (partial): under the conditions of C25, when the matchers test the index fields only, and
only with `==` and `!=`, `is_match` and `handle` agree. Missing: other tests, `C68_violated`. -/
theorem C68_agrees_one_constant_partial (K : Field → Int) (fields : List Field)
    (hf : fields ≠ []) (cbs : List Callback) (hc : ∀ c ∈ cbs, LS (OneConst K) c.matcher)
    (hI : Indexable fields ((build cbs).map (·.matcher)))
    (ho : ∀ c ∈ cbs, ∀ t ∈ separate c, OnlyIndexTests fields t.matcher) (e : WMsg) :
    isMatchIndexed fields cbs e.1 = (handleIndexed fields cbs e.1).handled :=
  agrees (sound_oneConst K) fields hf cbs hc hI ho e

theorem C68_agrees_mixed_partial (K : Field → Option Int) (fields : List Field)
    (hf : fields ≠ []) (cbs : List Callback) (hc : ∀ c ∈ cbs, MixTree K c.matcher)
    (hI : Indexable fields ((build cbs).map (·.matcher)))
    (ho : ∀ c ∈ cbs, ∀ t ∈ separate c, OnlyIndexTests fields t.matcher) (e : WMsg) :
    isMatchIndexed fields cbs e.1 = (handleIndexed fields cbs e.1).handled :=
  agrees (sound_mix K) fields hf cbs hc hI ho e

/-- Callbacks for `a == 1 or b == 2` and for `a != 4`. -/
def exOnly : List Callback :=
  [construct 1 ((Formula.disj (.term (.rel .eq exA 1)) (.term (.rel .eq exB 2))).build relOps) [],
   construct 2 ((Formula.term (.rel .ne exA 4)).build relOps) []]

/-- C68: a case of the hypotheses, and the answers. -/
example : (∀ c ∈ exOnly, ∀ t ∈ separate c, OnlyIndexTests [exA, exB] t.matcher) ∧
    Indexable [exA, exB] ((build exOnly).map (·.matcher)) ∧
    isMatchIndexed [exA, exB] exOnly (exMsg2 4 2 false) = true ∧
    isMatchIndexed [exA, exB] exOnly (exMsg2 4 3 false) = false := by
  have hb : (build exOnly).map (·.matcher) = [eqF exA 1, eqF exB 2, neF exA 4] := by
    simp only [exOnly, Formula.build]; decide +kernel
  refine ⟨?_, ?_, ?_, ?_⟩
  · intro c hc t ht
    have : t.matcher ∈ (build exOnly).map (·.matcher) :=
      List.mem_map.2 ⟨t, List.mem_flatMap.2 ⟨c, hc, ht⟩, rfl⟩
    rw [hb] at this
    simp only [List.mem_cons, List.not_mem_nil, or_false] at this
    rcases this with h | h | h <;> rw [h] <;> simp [OnlyIndexTests, Selects]
  · rw [hb]
    refine ⟨by simp [NoNot], by simp [leaves, Selects], ?_⟩
    intro i j s t hi hj f _ v hs ht
    match i, j with
    | 0, _ => simp at hi; subst hi; simp [leaves] at hs
    | 1, _ => simp at hi; subst hi; simp [leaves] at hs
    | n + 3, _ => simp at hi
    | 2, 2 => rfl
    | 2, 0 => simp at hj; subst hj; simp [leaves] at ht
    | 2, 1 => simp at hj; subst hj; simp [leaves] at ht
    | 2, n + 3 => simp at hj
  all_goals simp only [exOnly, Formula.build]; decide +kernel

end Verif.Handler
