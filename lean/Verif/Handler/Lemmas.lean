import Verif.Handler.Spec
import Verif.Match.Props
/-!
# Lemmas about the index construction
-/
namespace Verif.Handler
open Verif.Match
set_option linter.unusedSectionVars false

/-! ### The fold of `handle` -/

theorem foldl_step (e : Msg) (cs : List Callback) (o : List Nat × Bool) :
    cs.foldl (step e) o =
      (o.1 ++ (cs.filter (·.isMatch e)).map (·.id), o.2 || cs.any (·.isMatch e)) := by
  induction cs generalizing o with
  | nil => simp
  | cons c cs ih =>
    rw [List.foldl_cons, ih]
    by_cases h : c.isMatch e <;> simp [step, h]

/-! ### `walk` -/

theorem mem_walk (tag : M RLeaf → List (Field × Int)) (f : Field) (cbs : List Callback)
    (s i : Nat) (v : Int) :
    (i, v) ∈ walk tag f s cbs ↔
      ∃ c, s ≤ i ∧ cbs[i - s]? = some c ∧ (f, v) ∈ tag c.matcher := by
  induction cbs generalizing s with
  | nil => simp [walk]
  | cons c cs ih =>
    simp only [walk, List.mem_append, List.mem_filterMap, ih (s + 1)]
    constructor
    · rintro (⟨⟨g, w⟩, hp, hq⟩ | ⟨c', h1, h2, h3⟩)
      · split at hq
        · next hg =>
          simp only [Option.some.injEq, Prod.mk.injEq] at hq
          obtain ⟨rfl, rfl⟩ := hq
          simp only at hg
          exact ⟨c, Nat.le_refl _, by simp, hg ▸ hp⟩
        · cases hq
      · refine ⟨c', by omega, ?_, h3⟩
        have : i - s = (i - (s + 1)) + 1 := by omega
        rw [this, List.getElem?_cons_succ, h2]
    · rintro ⟨c', h1, h2, h3⟩
      by_cases hi : i = s
      · subst hi
        simp at h2
        subst h2
        exact .inl ⟨(f, v), h3, by simp⟩
      · refine .inr ⟨c', by omega, ?_, h3⟩
        have : i - s = (i - (s + 1)) + 1 := by omega
        rw [this, List.getElem?_cons_succ] at h2
        exact h2

/-! ### Positive terms -/

theorem mem_ensure (t : TempIndex) (k : Int) (p : Int × Bits) :
    p ∈ (t.ensure k).entries ↔ p ∈ t.entries ∨ (t.contains k = false ∧ p = (k, Bits.empty)) := by
  unfold TempIndex.ensure
  split <;> simp_all

theorem contains_iff (t : TempIndex) (k : Int) :
    t.contains k = true ↔ ∃ p ∈ t.entries, p.1 = k := by
  simp [TempIndex.contains]

theorem contains_false (t : TempIndex) (k : Int) :
    t.contains k = false ↔ ∀ p ∈ t.entries, p.1 ≠ k := by
  rw [← Bool.not_eq_true, contains_iff]
  constructor
  · intro h p hp hk; exact h ⟨p, hp, hk⟩
  · rintro h ⟨p, hp, hk⟩; exact h p hp hk

theorem ensure_dflt (t : TempIndex) (k : Int) : (t.ensure k).dflt = t.dflt := by
  unfold TempIndex.ensure; split <;> rfl

theorem ensure_neg (t : TempIndex) (k : Int) : (t.ensure k).neg = t.neg := by
  unfold TempIndex.ensure; split <;> rfl

theorem ensure_keys (t : TempIndex) (k v : Int) :
    (∃ p ∈ (t.ensure k).entries, p.1 = v) ↔ (∃ p ∈ t.entries, p.1 = v) ∨ v = k := by
  constructor
  · rintro ⟨p, hp, rfl⟩
    rcases (mem_ensure t k p).1 hp with h | ⟨_, rfl⟩
    · exact .inl ⟨p, h, rfl⟩
    · exact .inr rfl
  · rintro (⟨p, hp, rfl⟩ | rfl)
    · exact ⟨p, (mem_ensure t k p).2 (.inl hp), rfl⟩
    · by_cases h : t.contains v
      · obtain ⟨p, hp, rfl⟩ := (contains_iff t v).1 h
        exact ⟨p, (mem_ensure t _ p).2 (.inl hp), rfl⟩
      · exact ⟨(v, Bits.empty), (mem_ensure t _ _).2 (.inr ⟨by simpa using h, rfl⟩), rfl⟩

theorem mapEntries_keys (t : TempIndex) (g : Int → Bits → Bits) (v : Int) :
    (∃ p ∈ (t.mapEntries g).entries, p.1 = v) ↔ ∃ p ∈ t.entries, p.1 = v := by
  simp [TempIndex.mapEntries]

theorem mem_mapEntries (t : TempIndex) (g : Int → Bits → Bits) (p : Int × Bits) :
    p ∈ (t.mapEntries g).entries ↔ ∃ b, (p.1, b) ∈ t.entries ∧ p.2 = g p.1 b := by
  simp only [TempIndex.mapEntries, List.mem_map]
  constructor
  · rintro ⟨q, hq, rfl⟩; exact ⟨q.2, hq, rfl⟩
  · rintro ⟨b, hb, hp⟩; exact ⟨(p.1, b), hb, by rw [← hp]⟩

/-- State after the positive terms `ps`. -/
structure PosInv (ps : List (Nat × Int)) (t : TempIndex) : Prop where
  bit : ∀ p ∈ t.entries, ∀ i, p.2 i = true ↔ (i, p.1) ∈ ps
  key : ∀ v, (∃ p ∈ t.entries, p.1 = v) ↔ ∃ i, (i, v) ∈ ps
  dflt : t.dflt = Bits.empty
  neg : t.neg = Bits.empty

theorem posInv_step {ps : List (Nat × Int)} {t : TempIndex} (h : PosInv ps t) (m : Nat × Int) :
    PosInv (ps ++ [m]) (addPositive t m) where
  bit := by
    intro p hp i
    obtain ⟨b, hb, hp2⟩ := (mem_mapEntries _ _ p).1 hp
    have hbits : b i = true ↔ (i, p.1) ∈ ps := by
      rcases (mem_ensure t m.2 _).1 hb with hb | ⟨hc, hb⟩
      · exact h.bit _ hb i
      · simp only [Prod.mk.injEq] at hb
        rw [hb.2]
        simp only [Bits.empty, Bool.false_eq_true, false_iff]
        intro hm
        obtain ⟨q, hq, hk⟩ := (h.key p.1).2 ⟨i, hm⟩
        exact (contains_false t m.2).1 hc q hq (hk.trans hb.1)
    rw [hp2]
    split
    · next hk =>
      simp only [Bits.set]
      split
      · next hi => subst hi; simp [hk]
      · next hi =>
        rw [hbits]; simp only [List.mem_append, List.mem_singleton]
        constructor
        · exact .inl
        · rintro (h | h)
          · exact h
          · exact absurd (congrArg Prod.fst h) hi
    · next hk =>
      rw [hbits]; simp only [List.mem_append, List.mem_singleton]
      constructor
      · exact .inl
      · rintro (h | h)
        · exact h
        · exact absurd (congrArg Prod.snd h) hk
  key := by
    intro v
    rw [addPositive, mapEntries_keys, ensure_keys, h.key]
    constructor
    · rintro (⟨i, hi⟩ | rfl)
      · exact ⟨i, by simp [hi]⟩
      · exact ⟨m.1, by simp⟩
    · rintro ⟨i, hi⟩
      simp only [List.mem_append, List.mem_singleton] at hi
      rcases hi with hi | hi
      · exact .inl ⟨i, hi⟩
      · exact .inr (congrArg Prod.snd hi)
  dflt := by rw [addPositive]; show (t.ensure m.2).dflt = _; rw [ensure_dflt, h.dflt]
  neg := by rw [addPositive]; show (t.ensure m.2).neg = _; rw [ensure_neg, h.neg]

theorem posInv_fold {ps : List (Nat × Int)} {t : TempIndex} (h : PosInv ps t)
    (qs : List (Nat × Int)) : PosInv (ps ++ qs) (qs.foldl addPositive t) := by
  induction qs generalizing ps t with
  | nil => simpa
  | cons q qs ih =>
    have := ih (posInv_step h q)
    simpa using this

theorem posInv (qs : List (Nat × Int)) :
    PosInv qs (qs.foldl addPositive ⟨[], Bits.empty, Bits.empty⟩) := by
  have : PosInv [] ⟨[], Bits.empty, Bits.empty⟩ := ⟨by simp, by simp, rfl, rfl⟩
  simpa using posInv_fold this qs

/-! ### Negative terms -/

/-- Callback `i` is a default of the index: it has no positive term. -/
def Dft (n : Nat) (ps : List (Nat × Int)) (i : Nat) : Prop := i < n ∧ ∀ v, (i, v) ∉ ps

/-- State after all positive terms `ps` and the negative terms `ns`. -/
structure NegInv (n : Nat) (ps ns : List (Nat × Int)) (t : TempIndex) : Prop where
  pos : ∀ p ∈ t.entries, ∀ i, (i, p.1) ∈ ps → (i, p.1) ∉ ns → p.2 i = true
  dft : ∀ p ∈ t.entries, ∀ i, Dft n ps i → (i, p.1) ∉ ns →
    ((∃ k, (i, k) ∈ ns) ∨ (∃ j, (j, p.1) ∈ ns)) → p.2 i = true
  key : ∀ v, (∃ p ∈ t.entries, p.1 = v) ↔ (∃ i, (i, v) ∈ ps) ∨ ∃ i, (i, v) ∈ ns
  dflt : ∀ i, t.dflt i = true ↔ Dft n ps i
  neg : ∀ i, t.neg i = true ↔ ∃ k, (i, k) ∈ ns

theorem negInv_start {ps : List (Nat × Int)} {t : TempIndex} (h : PosInv ps t) (n : Nat) :
    NegInv n ps [] (collectDefaults n t) where
  pos p hp i hi _ := (h.bit p hp i).2 hi
  dft := by simp
  key v := by simpa [collectDefaults] using h.key v
  dflt i := by
    simp only [collectDefaults, h.dflt, Bits.empty, Bool.false_or, Bool.and_eq_true,
      decide_eq_true_eq, List.all_eq_true, Bool.not_eq_true']
    constructor
    · rintro ⟨hn, ha⟩
      refine ⟨hn, fun v hv => ?_⟩
      obtain ⟨p, hp, hk⟩ := (h.key v).2 ⟨i, hv⟩
      have := (h.bit p hp i).2 (hk ▸ hv)
      rw [ha p hp] at this
      cases this
    · rintro ⟨hn, ha⟩
      refine ⟨hn, fun p hp => ?_⟩
      rw [← Bool.not_eq_true, h.bit p hp i]
      exact ha p.1
  neg i := by simp [collectDefaults, h.neg, Bits.empty]

theorem mem_addNegative (t : TempIndex) (m : Nat × Int) (p : Int × Bits) :
    p ∈ (addNegative t m).entries ↔ ∃ b, (p.1, b) ∈ (t.ensure m.2).entries ∧
      p.2 = if p.1 = m.2 then (b.or t.dflt).reset m.1 else b.set m.1 := by
  exact mem_mapEntries (t.ensure m.2)
    (fun k b => if k = m.2 then (b.or t.dflt).reset m.1 else b.set m.1) p

theorem negInv_step {n : Nat} {ps ns : List (Nat × Int)} {t : TempIndex} (h : NegInv n ps ns t)
    (m : Nat × Int) : NegInv n ps (ns ++ [m]) (addNegative t m) where
  pos := by
    intro p hp i hi hn
    obtain ⟨b, hb, hp2⟩ := (mem_addNegative t m p).1 hp
    have hn1 : (i, p.1) ∉ ns := fun h => hn (by simp [h])
    have hn2 : (i, p.1) ≠ m := fun h => hn (by simp [h])
    have hbi : b i = true := by
      rcases (mem_ensure t m.2 _).1 hb with hb | ⟨hc, hb⟩
      · exact h.pos _ hb i hi hn1
      · simp only [Prod.mk.injEq] at hb
        obtain ⟨q, hq, hk⟩ := (h.key p.1).2 (.inl ⟨i, hi⟩)
        exact absurd (hk.trans hb.1) ((contains_false t m.2).1 hc q hq)
    rw [hp2]
    split
    · next hk =>
      have : i ≠ m.1 := fun hi' => hn2 (by rw [hk, hi'])
      simp [Bits.reset, Bits.or, this, hbi]
    · simp [Bits.set, hbi]
  dft := by
    intro p hp i hd hn hor
    obtain ⟨b, hb, hp2⟩ := (mem_addNegative t m p).1 hp
    have hn1 : (i, p.1) ∉ ns := fun h => hn (by simp [h])
    have hn2 : (i, p.1) ≠ m := fun h => hn (by simp [h])
    rw [hp2]
    split
    · next hk =>
      have : i ≠ m.1 := fun hi' => hn2 (by rw [hk, hi'])
      simp [Bits.reset, Bits.or, this, (h.dflt i).2 hd]
    · next hk =>
      by_cases him : i = m.1
      · simp [Bits.set, him]
      · simp only [Bits.set, if_neg him]
        rcases (mem_ensure t m.2 _).1 hb with hb | ⟨_, hb⟩
        · refine h.dft _ hb i hd hn1 ?_
          rcases hor with ⟨k, hk'⟩ | ⟨j, hj⟩
          · simp only [List.mem_append, List.mem_singleton] at hk'
            rcases hk' with hk' | hk'
            · exact .inl ⟨k, hk'⟩
            · exact absurd (congrArg Prod.fst hk') him
          · simp only [List.mem_append, List.mem_singleton] at hj
            rcases hj with hj | hj
            · exact .inr ⟨j, hj⟩
            · exact absurd (congrArg Prod.snd hj) hk
        · exact absurd (congrArg Prod.fst hb) hk
  key := by
    intro v
    refine (mapEntries_keys (t.ensure m.2)
      (fun k b => if k = m.2 then (b.or t.dflt).reset m.1 else b.set m.1) v).trans ?_
    rw [ensure_keys, h.key]
    constructor
    · rintro ((h | ⟨i, hi⟩) | rfl)
      · exact .inl h
      · exact .inr ⟨i, by simp [hi]⟩
      · exact .inr ⟨m.1, by simp⟩
    · rintro (h | ⟨i, hi⟩)
      · exact .inl (.inl h)
      · simp only [List.mem_append, List.mem_singleton] at hi
        rcases hi with hi | hi
        · exact .inl (.inr ⟨i, hi⟩)
        · exact .inr (congrArg Prod.snd hi)
  dflt i := by
    show (t.ensure m.2).dflt i = true ↔ _
    rw [ensure_dflt, h.dflt]
  neg i := by
    show t.neg.set m.1 i = true ↔ _
    simp only [Bits.set]
    split
    · next hi => subst hi; exact ⟨fun _ => ⟨m.2, by simp⟩, fun _ => rfl⟩
    · next hi =>
      rw [h.neg]
      constructor
      · rintro ⟨k, hk⟩; exact ⟨k, by simp [hk]⟩
      · rintro ⟨k, hk⟩
        simp only [List.mem_append, List.mem_singleton] at hk
        rcases hk with hk | hk
        · exact ⟨k, hk⟩
        · exact absurd (congrArg Prod.fst hk) hi

theorem negInv_fold {n : Nat} {ps ns : List (Nat × Int)} {t : TempIndex} (h : NegInv n ps ns t)
    (qs : List (Nat × Int)) : NegInv n ps (ns ++ qs) (qs.foldl addNegative t) := by
  induction qs generalizing ns t with
  | nil => simpa
  | cons q qs ih => simpa using ih (negInv_step h q)

/-- The set bits are justified. -/
def Justified (n : Nat) (ps ns : List (Nat × Int)) (t : TempIndex) : Prop :=
  ∀ p ∈ t.entries, ∀ i, p.2 i = true → (i, p.1) ∈ ps ∨ (Dft n ps i ∧ (i, p.1) ∉ ns)

/-- Conditions under which the index is exact: a negated callback has no other term, and no two
callbacks negate the same key. -/
structure Clean (n : Nat) (ps ns : List (Nat × Int)) : Prop where
  lt : ∀ i v, (i, v) ∈ ns → i < n
  noPos : ∀ i v w, (i, v) ∈ ns → (i, w) ∉ ps
  one : ∀ i v w, (i, v) ∈ ns → (i, w) ∈ ns → v = w
  key : ∀ i j v, (i, v) ∈ ns → (j, v) ∈ ns → i = j

theorem justified_step {n : Nat} {ps all : List (Nat × Int)} (hc : Clean n ps all)
    {ns : List (Nat × Int)} {t : TempIndex} (h : NegInv n ps ns t) (m : Nat × Int)
    (hsub : ∀ x ∈ ns, x ∈ all) (hm : m ∈ all)
    (hj : Justified n ps ns t) : Justified n ps (ns ++ [m]) (addNegative t m) := by
  intro p hp i hbit
  obtain ⟨b, hb, hp2⟩ := (mem_addNegative t m p).1 hp
  rw [hp2] at hbit
  have hm' : (m.1, m.2) ∈ all := hm
  have hdm : Dft n ps m.1 := ⟨hc.lt _ _ hm', fun v => hc.noPos _ _ _ hm'⟩
  split at hbit
  · next hk =>
    simp only [Bits.reset] at hbit
    split at hbit
    · cases hbit
    · next hi =>
      simp only [Bits.or, Bool.or_eq_true] at hbit
      rcases hbit with hbit | hbit
      · rcases (mem_ensure t m.2 _).1 hb with hb | ⟨_, hb⟩
        · rcases hj _ hb i hbit with h1 | ⟨h1, h2⟩
          · exact .inl h1
          · refine .inr ⟨h1, ?_⟩
            simp only [List.mem_append, List.mem_singleton, not_or]
            exact ⟨h2, fun h => hi (congrArg Prod.fst h)⟩
        · simp only [Prod.mk.injEq] at hb
          rw [hb.2] at hbit; cases hbit
      · refine .inr ⟨(h.dflt i).1 hbit, ?_⟩
        intro hmem
        have : (i, m.2) ∈ all := by
          simp only [List.mem_append, List.mem_singleton] at hmem
          rcases hmem with hmem | hmem
          · exact hk ▸ hsub _ hmem
          · exact absurd (congrArg Prod.fst hmem) hi
        exact hi (hc.key _ _ _ this hm')
  · next hk =>
    simp only [Bits.set] at hbit
    split at hbit
    · next hi =>
      subst hi
      refine .inr ⟨hdm, ?_⟩
      intro hmem
      have : (m.1, p.1) ∈ all := by
        simp only [List.mem_append, List.mem_singleton] at hmem
        rcases hmem with hmem | hmem
        · exact hsub _ hmem
        · rw [hmem]; exact hm
      exact hk (hc.one _ _ _ this hm')
    · next hi =>
      rcases (mem_ensure t m.2 _).1 hb with hb | ⟨_, hb⟩
      · rcases hj _ hb i hbit with h1 | ⟨h1, h2⟩
        · exact .inl h1
        · refine .inr ⟨h1, ?_⟩
          simp only [List.mem_append, List.mem_singleton, not_or]
          exact ⟨h2, fun h => hi (congrArg Prod.fst h)⟩
      · exact absurd (congrArg Prod.fst hb) hk

theorem justified_fold {n : Nat} {ps all : List (Nat × Int)} (hc : Clean n ps all)
    (qs : List (Nat × Int)) {ns : List (Nat × Int)} {t : TempIndex} (h : NegInv n ps ns t)
    (hsub : ∀ x ∈ ns, x ∈ all) (hq : ∀ x ∈ qs, x ∈ all) (hj : Justified n ps ns t) :
    Justified n ps (ns ++ qs) (qs.foldl addNegative t) := by
  induction qs generalizing ns t with
  | nil => simpa
  | cons q qs ih =>
    have hq0 := hq q (by simp)
    have := ih (negInv_step h q) (by
      intro x hx
      simp only [List.mem_append, List.mem_singleton] at hx
      rcases hx with hx | rfl
      · exact hsub x hx
      · exact hq0) (fun x hx => hq x (by simp [hx])) (justified_step hc h q hsub hq0 hj)
    simpa using this

/-! ### The finished index -/

theorem lookup_cases (t : TempIndex) (v : Int) (i : Nat) :
    (∃ p ∈ t.entries, p.1 = v ∧ t.lookup v i = p.2 i) ∨
      ((∀ p ∈ t.entries, p.1 ≠ v) ∧ t.lookup v i = t.dflt i) := by
  unfold TempIndex.lookup
  cases hp : t.entries.find? (fun p => p.1 == v) with
  | some p =>
    exact .inl ⟨p, List.mem_of_find?_eq_some hp, by simpa using List.find?_some hp, rfl⟩
  | none =>
    exact .inr ⟨by simpa using hp, rfl⟩

/-- The index of field `f` over `cbs`, before the last step. -/
def midIndex (f : Field) (cbs : List Callback) : TempIndex :=
  (walk indexNotTerms f 0 cbs).foldl addNegative
    (collectDefaults cbs.length
      ((walk indexTerms f 0 cbs).foldl addPositive ⟨[], Bits.empty, Bits.empty⟩))

theorem createIndex_eq (f : Field) (cbs : List Callback) :
    createIndex f cbs = propagate (midIndex f cbs) := rfl

theorem midIndex_inv (f : Field) (cbs : List Callback) :
    NegInv cbs.length (walk indexTerms f 0 cbs) (walk indexNotTerms f 0 cbs) (midIndex f cbs) := by
  have := negInv_fold (negInv_start (posInv (walk indexTerms f 0 cbs)) cbs.length)
    (walk indexNotTerms f 0 cbs)
  simpa [midIndex] using this

theorem midIndex_justified (f : Field) (cbs : List Callback)
    (hc : Clean cbs.length (walk indexTerms f 0 cbs) (walk indexNotTerms f 0 cbs)) :
    Justified cbs.length (walk indexTerms f 0 cbs) (walk indexNotTerms f 0 cbs)
      (midIndex f cbs) := by
  have hp := posInv (walk indexTerms f 0 cbs)
  have := justified_fold hc (walk indexNotTerms f 0 cbs) (negInv_start hp cbs.length)
    (by simp) (fun x hx => hx) (fun p hm i hb => .inl ((hp.bit p hm i).1 hb))
  simpa [midIndex] using this

/-- The index offers every callback whose terms on the field hold. -/
theorem lookup_complete (f : Field) (cbs : List Callback) (i : Nat) (v : Int)
    (hi : i < cbs.length)
    (hp : ∀ k, (i, k) ∈ walk indexTerms f 0 cbs → k = v)
    (hn : ∀ k, (i, k) ∈ walk indexNotTerms f 0 cbs → k ≠ v) :
    (createIndex f cbs).lookup v i = true := by
  have h := midIndex_inv f cbs
  rw [createIndex_eq]
  have hnv : (i, v) ∉ walk indexNotTerms f 0 cbs := fun hm => hn v hm rfl
  rcases lookup_cases (propagate (midIndex f cbs)) v i with ⟨p, hpm, hk, hl⟩ | ⟨hk, hl⟩
  · rw [hl]
    obtain ⟨b, hb, hp2⟩ := (mem_mapEntries _ _ p).1 hpm
    rw [hp2]
    simp only [Bits.or, Bool.or_eq_true, Bool.and_eq_true, Bool.not_eq_true']
    by_cases hpos : ∃ k, (i, k) ∈ walk indexTerms f 0 cbs
    · obtain ⟨k, hk'⟩ := hpos
      have := hp k hk'
      subst this
      exact .inl (h.pos _ hb i (hk ▸ hk') (hk ▸ hnv))
    · have hd : Dft cbs.length (walk indexTerms f 0 cbs) i := ⟨hi, fun k hk => hpos ⟨k, hk⟩⟩
      by_cases hneg : ∃ k, (i, k) ∈ walk indexNotTerms f 0 cbs
      · exact .inl (h.dft _ hb i hd (hk ▸ hnv) (.inl hneg))
      · refine .inr ⟨(h.dflt i).2 hd, ?_⟩
        rw [← Bool.not_eq_true, h.neg]; exact hneg
  · rw [hl]
    show (midIndex f cbs).dflt i = true
    rw [h.dflt]
    refine ⟨hi, fun k hk' => ?_⟩
    have := hp k hk'
    subst this
    obtain ⟨p, hpm, hpk⟩ := (h.key k).2 (.inl ⟨i, hk'⟩)
    obtain ⟨q, hq, hqk⟩ := (mapEntries_keys (midIndex f cbs)
      (fun _ b => b.or (fun i => (midIndex f cbs).dflt i && !(midIndex f cbs).neg i)) k).2 ⟨p, hpm, hpk⟩
    exact hk q hq hqk

/-- With clean terms the index offers nothing else. -/
theorem lookup_sound (f : Field) (cbs : List Callback) (i : Nat) (v : Int)
    (hc : Clean cbs.length (walk indexTerms f 0 cbs) (walk indexNotTerms f 0 cbs))
    (hone : ∀ k l, (i, k) ∈ walk indexTerms f 0 cbs → (i, l) ∈ walk indexTerms f 0 cbs → k = l)
    (h : (createIndex f cbs).lookup v i = true) :
    (∀ k, (i, k) ∈ walk indexTerms f 0 cbs → k = v) ∧
      (∀ k, (i, k) ∈ walk indexNotTerms f 0 cbs → k ≠ v) := by
  have hI := midIndex_inv f cbs
  have hJ := midIndex_justified f cbs hc
  rw [createIndex_eq] at h
  have fromDft : Dft cbs.length (walk indexTerms f 0 cbs) i →
      (i, v) ∉ walk indexNotTerms f 0 cbs →
      (∀ k, (i, k) ∈ walk indexTerms f 0 cbs → k = v) ∧
      (∀ k, (i, k) ∈ walk indexNotTerms f 0 cbs → k ≠ v) :=
    fun hd hn => ⟨fun k hk => absurd hk (hd.2 k), fun k hk hkv => hn (hkv ▸ hk)⟩
  rcases lookup_cases (propagate (midIndex f cbs)) v i with ⟨p, hpm, hk, hl⟩ | ⟨hk, hl⟩
  · rw [hl] at h
    obtain ⟨b, hb, hp2⟩ := (mem_mapEntries _ _ p).1 hpm
    rw [hp2] at h
    simp only [Bits.or, Bool.or_eq_true, Bool.and_eq_true, Bool.not_eq_true'] at h
    rcases h with h | ⟨hd, hn⟩
    · rcases hJ _ hb i h with h1 | ⟨h1, h2⟩
      · simp only [hk] at h1
        exact ⟨fun k hk' => hone _ _ hk' h1, fun k hk' _ => hc.noPos _ _ _ hk' h1⟩
      · exact fromDft h1 (by simpa only [hk] using h2)
    · refine fromDft ((hI.dflt i).1 hd) fun hm => ?_
      rw [← Bool.not_eq_true, hI.neg] at hn
      exact hn ⟨v, hm⟩
  · rw [hl] at h
    have hd : (midIndex f cbs).dflt i = true := h
    refine fromDft ((hI.dflt i).1 hd) fun hm => ?_
    obtain ⟨p, hpm, hpk⟩ := (hI.key v).2 (.inr ⟨i, hm⟩)
    obtain ⟨q, hq, hqk⟩ := (mapEntries_keys (midIndex f cbs)
      (fun _ b => b.or (fun i => (midIndex f cbs).dflt i && !(midIndex f cbs).neg i)) v).2 ⟨p, hpm, hpk⟩
    exact hk q hq hqk

end Verif.Handler
