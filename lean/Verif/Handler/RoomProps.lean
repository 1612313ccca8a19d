import Verif.Handler.RoomModel
import Verif.Handler.Props
/-! # C176: which indexed services fit in their tables -/
namespace Verif.Handler
open Verif.Match

/-! ## Specification -/

/-- The condition has the comparison `f != v` somewhere. -/
def Excludes (f : Field) (v : Int) : M RLeaf → Prop
  | .and l r => Excludes f v l ∨ Excludes f v r
  | .or l r => Excludes f v l ∨ Excludes f v r
  | .not m => Excludes f v m
  | .leaf (.rel op g w) => op = .ne ∧ g = f ∧ w = v
  | _ => False

/-- The condition has the comparison `f == v` or `f != v` somewhere; an `==` inside a `not` does not count. -/
def Compares (f : Field) (v : Int) : M RLeaf → Prop
  | .and l r => Compares f v l ∨ Compares f v r
  | .or l r => Compares f v l ∨ Compares f v r
  | .not m => Excludes f v m
  | .leaf (.rel op g w) => (op = .eq ∨ op = .ne) ∧ g = f ∧ w = v
  | _ => False

/-- At most 256 conjunctions, in which each index field is compared with at most 512 values. -/
def Fits (fields : List Field) (ts : List Callback) : Prop :=
  ts.length ≤ 256 ∧ ∀ f ∈ fields, ∀ vs : List Int, vs.Nodup →
    (∀ v ∈ vs, ∃ t ∈ ts, Compares f v t.matcher) → vs.length ≤ 512

/-! ## Lemmas -/

theorem mem_notTerms {f : Field} {v : Int} (m : M RLeaf) : (f, v) ∈ indexNotTerms m ↔ Excludes f v m := by
  induction m with
  | and l r hl hr => simp [indexNotTerms, Excludes, hl, hr]
  | or l r hl hr => simp [indexNotTerms, Excludes, hl, hr]
  | not m h => simp [indexNotTerms, Excludes, h]
  | always => simp [indexNotTerms, Excludes]
  | never => simp [indexNotTerms, Excludes]
  | leaf l =>
    cases l with
    | pred p => simp [indexNotTerms, Excludes]
    | rel op g w => cases op <;> simp [indexNotTerms, Excludes, eq_comm]

theorem mem_terms {f : Field} {v : Int} (m : M RLeaf) :
    (f, v) ∈ indexTerms m ∨ (f, v) ∈ indexNotTerms m ↔ Compares f v m := by
  induction m with
  | and l r hl hr =>
    simp only [indexTerms, indexNotTerms, Compares, List.mem_append, ← hl, ← hr]
    tauto
  | or l r hl hr =>
    simp only [indexTerms, indexNotTerms, Compares, List.mem_append, ← hl, ← hr]
    tauto
  | not m h => simp [indexTerms, mem_notTerms, Compares, Excludes]
  | always => simp [indexTerms, indexNotTerms, Compares]
  | never => simp [indexTerms, indexNotTerms, Compares]
  | leaf l =>
    cases l with
    | pred p => simp [indexTerms, indexNotTerms, Compares]
    | rel op g w => cases op <;> simp [indexTerms, indexNotTerms, Compares, eq_comm]

theorem walk_values (tag : M RLeaf → List (Field × Int)) (f : Field) (v : Int) (cbs : List Callback) (s : Nat) :
    (∃ i, (i, v) ∈ walk tag f s cbs) ↔ ∃ t ∈ cbs, (f, v) ∈ tag t.matcher := by
  induction cbs generalizing s with
  | nil => simp [walk]
  | cons c cs ih =>
    simp only [walk, List.mem_append, exists_or, ih, List.mem_cons, exists_eq_or_imp]
    refine or_congr ?_ Iff.rfl
    constructor
    · rintro ⟨i, hi⟩
      obtain ⟨⟨g, w⟩, hp, he⟩ := List.mem_filterMap.1 hi
      dsimp only at he
      split at he
      · next hg => cases he; cases hg; exact hp
      · cases he
    · intro h
      exact ⟨s, List.mem_filterMap.2 ⟨_, h, if_pos rfl⟩⟩

theorem walk_below (tag : M RLeaf → List (Field × Int)) (f : Field) (cbs : List Callback) (s : Nat) :
    ∀ m ∈ walk tag f s cbs, m.1 < s + cbs.length := by
  induction cbs generalizing s with
  | nil => simp [walk]
  | cons c cs ih =>
    intro m hm
    rw [walk, List.mem_append] at hm
    rw [List.length_cons]
    rcases hm with hm | hm
    · obtain ⟨p, -, he⟩ := List.mem_filterMap.1 hm
      split at he
      · cases he; dsimp only; omega
      · cases he
    · have := ih _ m hm
      omega

/-- The keys of a table. -/
def TempIndex.keys (t : TempIndex) : List Int := t.entries.map (·.1)

/-- The keys after those of `vs` were added. -/
def addKey (ks : List Int) (v : Int) : List Int := if v ∈ ks then ks else ks ++ [v]

theorem contains_keys (t : TempIndex) (k : Int) : t.contains k = true ↔ k ∈ t.keys := by
  simp [TempIndex.contains, TempIndex.keys]

theorem keys_ensure (t : TempIndex) (k : Int) : (t.ensure k).keys = addKey t.keys k := by
  unfold TempIndex.ensure addKey
  by_cases h : k ∈ t.keys
  · rw [if_pos ((contains_keys t k).2 h), if_pos h]
  · rw [if_neg (mt (contains_keys t k).1 h), if_neg h]
    simp [TempIndex.keys]

theorem keys_mapEntries (t : TempIndex) (g : Int → Bits → Bits) : (t.mapEntries g).keys = t.keys := by
  simp [TempIndex.keys, TempIndex.mapEntries]

theorem keys_positive (t : TempIndex) (m : Nat × Int) : (addPositive t m).keys = addKey t.keys m.2 := by
  rw [addPositive, keys_mapEntries, keys_ensure]

theorem keys_negative (t : TempIndex) (m : Nat × Int) : (addNegative t m).keys = addKey t.keys m.2 := by
  have : (addNegative t m).keys = ((t.ensure m.2).mapEntries fun k b =>
    if k = m.2 then (b.or t.dflt).reset m.1 else b.set m.1).keys := rfl
  rw [this, keys_mapEntries, keys_ensure]

theorem length_addKey (ks : List Int) (v : Int) : ks.length ≤ (addKey ks v).length := by
  unfold addKey; split <;> simp

theorem length_fold (ks : List Int) (vs : List Int) : ks.length ≤ (vs.foldl addKey ks).length := by
  induction vs generalizing ks with
  | nil => exact Nat.le_refl _
  | cons v vs ih => exact Nat.le_trans (length_addKey ks v) (ih _)

theorem keys_fold {step : TempIndex → Nat × Int → TempIndex} (hs : ∀ t m, (step t m).keys = addKey t.keys m.2)
    (ms : List (Nat × Int)) (t : TempIndex) : (ms.foldl step t).keys = (ms.map (·.2)).foldl addKey t.keys := by
  induction ms generalizing t with
  | nil => rfl
  | cons m ms ih => rw [List.foldl_cons, ih, hs, List.map_cons, List.foldl_cons]

theorem addKey_facts (ks vs : List Int) (hk : ks.Nodup) :
    (vs.foldl addKey ks).Nodup ∧ ∀ v, v ∈ vs.foldl addKey ks ↔ v ∈ ks ∨ v ∈ vs := by
  induction vs generalizing ks with
  | nil => exact ⟨hk, by simp⟩
  | cons w vs ih =>
    have h1 : (addKey ks w).Nodup := by
      unfold addKey
      split
      · exact hk
      · next h =>
        rw [List.nodup_append]
        exact ⟨hk, by simp, fun a ha b hb e => h (by rw [List.mem_singleton] at hb; rw [← hb, ← e]; exact ha)⟩
    have h2 : ∀ v, v ∈ addKey ks w ↔ v ∈ ks ∨ v = w := by
      intro v
      unfold addKey
      split
      · next h =>
        constructor
        · exact .inl
        · rintro (h' | rfl)
          · exact h'
          · exact h
      · simp
    obtain ⟨h3, h4⟩ := ih _ h1
    refine ⟨h3, fun v => ?_⟩
    rw [List.foldl_cons, h4, h2, List.mem_cons, or_assoc]

theorem mapM_some {α β : Type} (l : List α) (g : α → Option β) (h : α → β) (e : ∀ a ∈ l, g a = some (h a)) :
    l.mapM g = some (l.map h) := by
  induction l with
  | nil => rfl
  | cons a l ih =>
    rw [List.mapM_cons, e a (List.mem_cons_self ..), ih fun b hb => e b (List.mem_cons_of_mem _ hb)]
    rfl

theorem mapM_none {α β : Type} (l : List α) (g : α → Option β) (a : α) (ha : a ∈ l) (e : g a = none) :
    l.mapM g = none := by
  induction l with
  | nil => cases ha
  | cons b l ih =>
    rw [List.mapM_cons]
    rcases List.mem_cons.1 ha with rfl | h
    · rw [e]; rfl
    · rw [ih h]
      cases g b <;> rfl

theorem ensureIn_eq (t : TempIndex) (k : Int) (ht : t.keys.length ≤ 512) :
    t.ensureIn k = if (addKey t.keys k).length ≤ 512 then some (t.ensure k) else none := by
  have hl : t.entries.length = t.keys.length := by simp [TempIndex.keys]
  unfold TempIndex.ensureIn TempIndex.ensure addKey
  by_cases h : k ∈ t.keys
  · rw [if_pos ((contains_keys t k).2 h), if_pos h, if_pos ht, if_pos ((contains_keys t k).2 h)]
  · have h' := mt (contains_keys t k).1 h
    rw [if_neg h', if_neg h, if_neg h', hl, List.length_append]
    rfl

theorem positiveIn_eq (t : TempIndex) (m : Nat × Int) (ht : t.keys.length ≤ 512) :
    addPositiveIn t m = if m.1 < 256 ∧ (addPositive t m).keys.length ≤ 512 then some (addPositive t m) else none := by
  rw [addPositiveIn, ensureIn_eq t m.2 ht, keys_positive]
  by_cases hk : (addKey t.keys m.2).length ≤ 512
  · rw [if_pos hk, Option.bind_some, TempIndex.mapEntriesIn]
    by_cases hi : m.1 < 256
    · rw [if_pos ⟨hi, hk⟩, mapM_some (h := fun p => (p.1, if p.1 = m.2 then p.2.set m.1 else p.2))]
      · rfl
      · intro p _
        split <;> simp [Bits.setIn, callbackRoom, hi]
    · rw [if_neg (fun h => hi h.1)]
      have hm : m.2 ∈ (t.ensure m.2).keys := by
        rw [keys_ensure, addKey]; split
        · assumption
        · simp
      obtain ⟨p, hp, he⟩ := List.mem_map.1 hm
      rw [mapM_none _ _ p hp]
      · rfl
      · rw [if_pos he, Bits.setIn, callbackRoom, if_neg hi]; rfl
  · rw [if_neg hk, if_neg (fun h => hk h.2)]; rfl

theorem negativeIn_eq (t : TempIndex) (m : Nat × Int) (ht : t.keys.length ≤ 512) :
    addNegativeIn t m = if m.1 < 256 ∧ (addNegative t m).keys.length ≤ 512 then some (addNegative t m) else none := by
  rw [addNegativeIn, ensureIn_eq t m.2 ht, keys_negative]
  by_cases hk : (addKey t.keys m.2).length ≤ 512
  · rw [if_pos hk, Option.bind_some, TempIndex.mapEntriesIn]
    by_cases hi : m.1 < 256
    · rw [if_pos ⟨hi, hk⟩, mapM_some (h := fun p => (p.1, if p.1 = m.2 then (p.2.or t.dflt).reset m.1 else p.2.set m.1))]
      · rw [Option.map_some, Option.bind_some, Bits.setIn, callbackRoom, if_pos hi]
        rfl
      · intro p _
        split <;> simp [Bits.setIn, Bits.resetIn, callbackRoom, hi]
    · rw [if_neg (fun h => hi h.1)]
      have hm : m.2 ∈ (t.ensure m.2).keys := by
        rw [keys_ensure, addKey]; split
        · assumption
        · simp
      obtain ⟨p, hp, he⟩ := List.mem_map.1 hm
      rw [mapM_none _ _ p hp]
      · rfl
      · rw [if_pos he, Bits.resetIn, callbackRoom, if_neg hi]; rfl
  · rw [if_neg hk, if_neg (fun h => hk h.2)]; rfl

theorem foldIn_eq {stepIn : TempIndex → Nat × Int → Option TempIndex} {step : TempIndex → Nat × Int → TempIndex}
    (hs : ∀ t m, (step t m).keys = addKey t.keys m.2)
    (he : ∀ t m, t.keys.length ≤ 512 →
      stepIn t m = if m.1 < 256 ∧ (step t m).keys.length ≤ 512 then some (step t m) else none)
    (ms : List (Nat × Int)) (t : TempIndex) (ht : t.keys.length ≤ 512) (hm : ∀ m ∈ ms, m.1 < 256) :
    ms.foldlM stepIn t = if (ms.foldl step t).keys.length ≤ 512 then some (ms.foldl step t) else none := by
  induction ms generalizing t with
  | nil => rw [List.foldlM_nil, List.foldl_nil, if_pos ht]; rfl
  | cons m ms ih =>
    rw [List.foldlM_cons, List.foldl_cons, he t m ht]
    by_cases h : (step t m).keys.length ≤ 512
    · rw [if_pos ⟨hm m (List.mem_cons_self ..), h⟩]
      exact ih _ h fun x hx => hm x (List.mem_cons_of_mem _ hx)
    · rw [if_neg (fun x => h x.2), if_neg]
      · rfl
      · intro h'
        rw [keys_fold hs] at h'
        exact h (Nat.le_trans (length_fold _ _) h')

theorem noneOf_eq (i : Nat) (hi : i < 256) (es : List (Int × Bits)) : noneOf i es = some (es.all fun p => !p.2 i) := by
  induction es with
  | nil => rfl
  | cons p ps ih =>
    rw [noneOf, Bits.readIn, callbackRoom, if_pos hi, Option.bind_some, ih, List.all_cons]
    cases p.2 i <;> rfl

theorem noneOf_cut (i : Nat) (hi : ¬ i < 256) (es : List (Int × Bits)) (d : Bits) :
    ((noneOf i es).bind fun b => if b then d.setIn i else some d) = none := by
  cases es with
  | nil => simp [noneOf, Bits.setIn, callbackRoom, hi]
  | cons p ps => simp [noneOf, Bits.readIn, callbackRoom, hi]

theorem collectIn_fold (t : TempIndex) (n : Nat) :
    ((List.range n).foldlM (fun (d : Bits) i => (noneOf i t.entries).bind fun b => if b then d.setIn i else some d)
      t.dflt) = if n ≤ 256 then some (collectDefaults n t).dflt else none := by
  induction n with
  | zero =>
    rw [if_pos (Nat.zero_le _)]
    change some t.dflt = _
    congr 1
    funext i
    simp [collectDefaults]
  | succ n ih =>
    rw [List.range_succ, List.foldlM_append, ih]
    by_cases hn : n ≤ 256
    · rw [if_pos hn]
      rw [Option.bind_eq_bind, Option.bind_some, List.foldlM_cons]
      by_cases h : n < 256
      · rw [noneOf_eq n h, Option.bind_some, if_pos (show n + 1 ≤ 256 by omega)]
        have key : (if (t.entries.all fun p => !p.2 n) = true then (collectDefaults n t).dflt.setIn n
            else some (collectDefaults n t).dflt) = some (collectDefaults (n + 1) t).dflt := by
          by_cases ha : (t.entries.all fun p => !p.2 n) = true
          · rw [if_pos ha, Bits.setIn, callbackRoom, if_pos h]
            congr 1
            funext i
            simp only [Bits.set, collectDefaults]
            by_cases hi : i = n
            · subst hi
              rw [if_pos rfl, ha]
              simp
            · rw [if_neg hi]
              congr 2
              exact decide_eq_decide.2 (by omega)
          · rw [if_neg ha]
            congr 1
            funext i
            simp only [collectDefaults]
            by_cases hi : i = n
            · subst hi
              rw [Bool.not_eq_true] at ha
              rw [ha]
              simp
            · congr 2
              exact decide_eq_decide.2 (by omega)
        rw [key]
        rfl
      · rw [noneOf_cut n h, if_neg (by omega)]
        rfl
    · rw [if_neg hn, if_neg (by omega)]
      rfl

theorem collectIn_eq (n : Nat) (t : TempIndex) :
    collectDefaultsIn n t = if n ≤ 256 then some (collectDefaults n t) else none := by
  rw [collectDefaultsIn, collectIn_fold]
  split <;> rfl

theorem keys_collect (n : Nat) (t : TempIndex) : (collectDefaults n t).keys = t.keys := rfl

/-- The values with which the index field is compared. -/
def comparedWith (f : Field) (cbs : List Callback) : List Int :=
  ((walk indexNotTerms f 0 cbs).map (·.2)).foldl addKey (((walk indexTerms f 0 cbs).map (·.2)).foldl addKey [])

theorem createIn_eq (f : Field) (cbs : List Callback) :
    createIndexIn f cbs =
      if cbs.length ≤ 256 ∧ (comparedWith f cbs).length ≤ 512 then some (createIndex f cbs) else none := by
  rw [createIndexIn]
  by_cases hc : cbs.length ≤ 256
  · have hp : ∀ m ∈ walk indexTerms f 0 cbs, m.1 < 256 := fun m hm => by have := walk_below _ _ _ _ m hm; omega
    have hq : ∀ m ∈ walk indexNotTerms f 0 cbs, m.1 < 256 := fun m hm => by have := walk_below _ _ _ _ m hm; omega
    rw [foldIn_eq keys_positive positiveIn_eq _ _ (by simp [TempIndex.keys]) hp, keys_fold keys_positive]
    by_cases h1 : (((walk indexTerms f 0 cbs).map (·.2)).foldl addKey
        (TempIndex.keys ⟨[], Bits.empty, Bits.empty⟩)).length ≤ 512
    · rw [if_pos h1, Option.bind_some, collectIn_eq, if_pos hc, Option.bind_some,
        foldIn_eq keys_negative negativeIn_eq _ _ (by rw [keys_collect, keys_fold keys_positive]; exact h1) hq,
        keys_fold keys_negative, keys_collect, keys_fold keys_positive]
      change Option.map propagate (if (comparedWith f cbs).length ≤ 512 then _ else _) = _
      by_cases h2 : (comparedWith f cbs).length ≤ 512
      · rw [if_pos h2, if_pos ⟨hc, h2⟩]; rfl
      · rw [if_neg h2, if_neg (fun h => h2 h.2)]; rfl
    · rw [if_neg h1, if_neg]
      · rfl
      · rintro ⟨-, h⟩
        exact h1 (Nat.le_trans (length_fold _ _) h)
  · rw [if_neg (fun h => hc h.1)]
    cases (walk indexTerms f 0 cbs).foldlM addPositiveIn ⟨[], Bits.empty, Bits.empty⟩ with
    | none => rfl
    | some t => rw [Option.bind_some, collectIn_eq, if_neg hc]; rfl

theorem compared_facts (f : Field) (cbs : List Callback) :
    (comparedWith f cbs).Nodup ∧ ∀ v, v ∈ comparedWith f cbs ↔ ∃ t ∈ cbs, Compares f v t.matcher := by
  obtain ⟨h1, h2⟩ := addKey_facts [] ((walk indexTerms f 0 cbs).map (·.2)) List.nodup_nil
  obtain ⟨h3, h4⟩ := addKey_facts _ ((walk indexNotTerms f 0 cbs).map (·.2)) h1
  refine ⟨h3, fun v => ?_⟩
  rw [comparedWith, h4, h2]
  have e : ∀ tag : M RLeaf → List (Field × Int), v ∈ (walk tag f 0 cbs).map (·.2) ↔ ∃ t ∈ cbs, (f, v) ∈ tag t.matcher := by
    intro tag
    rw [← walk_values tag f v cbs 0]
    constructor
    · intro h
      obtain ⟨p, hp, rfl⟩ := List.mem_map.1 h
      exact ⟨p.1, hp⟩
    · rintro ⟨i, hi⟩
      exact List.mem_map.2 ⟨_, hi, rfl⟩
  rw [e, e]
  simp only [List.not_mem_nil, false_or, ← exists_or, ← and_or_left, mem_terms]

theorem compared_le (f : Field) (cbs : List Callback) : (comparedWith f cbs).length ≤ 512 ↔
    ∀ vs : List Int, vs.Nodup → (∀ v ∈ vs, ∃ t ∈ cbs, Compares f v t.matcher) → vs.length ≤ 512 := by
  obtain ⟨h1, h2⟩ := compared_facts f cbs
  constructor
  · intro h vs hn hv
    exact Nat.le_trans ((List.subperm_of_subset hn fun v m => (h2 v).2 (hv v m)).length_le) h
  · intro h
    exact h _ h1 fun v hv => (h2 v).1 hv

/-! ## Properties -/

/-- **C176** An indexed service that fits in its tables does what it does with tables without limits; one that does
not fit is not compiled. -/
theorem C176_exact (fields : List Field) (hf : fields ≠ []) (cbs : List Callback) (e : Msg) :
    (Fits fields (build cbs) → handleIndexedIn fields cbs e = some (handleIndexed fields cbs e)) ∧
    (¬ Fits fields (build cbs) → handleIndexedIn fields cbs e = none) := by
  constructor
  · rintro ⟨h1, h2⟩
    rw [handleIndexedIn]
    dsimp only
    rw [mapM_some (h := fun f => (f, createIndex f (build cbs)))]
    · rw [Option.map_some, handleIndexed, candidateList]
      have : ∀ i, ((fields.map fun f => (f, createIndex f (build cbs))).all fun p => p.2.lookup (e.val p.1) i) =
          candidates fields (build cbs) e i := by
        intro i
        rw [candidates]
        · rw [List.all_map]; rfl
        · exact hf
      rw [if_neg hf]
      simp only [this]
    · intro f hm
      rw [createIn_eq, if_pos ⟨h1, (compared_le f _).2 (h2 f hm)⟩]
      rfl
  · intro h
    rw [handleIndexedIn]
    dsimp only
    have ⟨f, hm, hn⟩ : ∃ f ∈ fields, ¬ ((build cbs).length ≤ 256 ∧ (comparedWith f (build cbs)).length ≤ 512) := by
      by_contra hc
      push Not at hc
      obtain ⟨g, hg⟩ := List.exists_mem_of_ne_nil _ hf
      exact h ⟨(hc g hg).1, fun f hm => (compared_le f _).1 (hc f hm).2⟩
    rw [mapM_none _ _ f hm]
    · rfl
    · rw [createIn_eq, if_neg hn]; rfl

theorem split_ne (m : M RLeaf) : 0 < (splitOr m).length := by
  induction m with
  | or l r hl hr => rw [splitOr, List.length_append]; omega
  | _ => simp [splitOr]

theorem build_length (cbs : List Callback) : cbs.length ≤ (build cbs).length := by
  induction cbs with
  | nil => exact Nat.le_refl _
  | cons c cs ih =>
    have h := split_ne (sop relOps (all relOps [c.matcher]))
    have ih' : cs.length ≤ (cs.flatMap separate).length := ih
    rw [build, List.flatMap_cons, List.length_append, separate, List.length_map, List.length_cons]
    omega

/-- So no indexed service has more than 256 callbacks. -/
theorem C176_callbacks (fields : List Field) (hf : fields ≠ []) (cbs : List Callback) (h : 256 < cbs.length) (e : Msg) :
    handleIndexedIn fields cbs e = none := by
  refine (C176_exact fields hf cbs e).2 fun hh => ?_
  have := build_length cbs
  have := hh.1
  omega

/-- Two callbacks that fit. -/
example : Fits [exA] (build [⟨1, eqF exA 1⟩, ⟨2, .leaf (.pred 0)⟩]) ∧
    handleIndexedIn [exA] [⟨1, eqF exA 1⟩, ⟨2, .leaf (.pred 0)⟩] (exMsg2 1 2 true) = some ⟨[1, 2], true, false⟩ := by
  have e : ∀ r, handleIndexedIn [exA] [⟨1, eqF exA 1⟩, ⟨2, .leaf (.pred 0)⟩] (exMsg2 1 2 true) = r →
      r ≠ none → Fits [exA] (build [⟨1, eqF exA 1⟩, ⟨2, .leaf (.pred 0)⟩]) := by
    intro r hr hn
    by_contra h
    exact hn (hr ▸ (C176_exact [exA] (by simp) _ _).2 h)
  have h : handleIndexedIn [exA] [⟨1, eqF exA 1⟩, ⟨2, .leaf (.pred 0)⟩] (exMsg2 1 2 true) =
    some ⟨[1, 2], true, false⟩ := by decide +kernel
  exact ⟨e _ h (by simp), h⟩

/-- One callback for `f == 0 or … or f == n`. -/
def exMany : Nat → M RLeaf
  | 0 => eqF exA 0
  | n + 1 => .or (exMany n) (eqF exA (n + 1))

/-- A condition with 40 alternatives is 40 conjunctions; with 257 it does not fit. -/
example : (build [⟨1, exMany 39⟩]).length = 40 := by decide +kernel
example : ¬ Fits [exA] (build [⟨1, exMany 256⟩]) := by
  intro h
  have := h.1
  revert this
  decide +kernel

end Verif.Handler
