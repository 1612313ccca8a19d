import Verif.Results.Lemmas
/-!
# Lemmas on what the script stores
-/
namespace Verif.Results

variable {α : Type} {Num : Type} {py : Py Num}

/-! ## Dictionaries -/

/-- The keys. -/
def Dict.keys (d : Dict α) : List (Option Text) := d.map Prod.fst

theorem get_put (d : Dict α) (k : Option Text) (v : α) (k' : Option Text) :
    (d.put k v).get k' = if k' = k then some v else d.get k' := by
  induction d with
  | nil => simp only [Dict.put, Dict.get, eq_comm]
  | cons p d ih =>
    obtain ⟨q, w⟩ := p
    simp only [Dict.put]
    by_cases h : q = k
    · subst h
      simp only [if_true, Dict.get]
      by_cases h' : q = k'
      · simp [h']
      · simp [h', Ne.symm h']
    · simp only [if_neg h, Dict.get, ih]
      by_cases h' : q = k'
      · subst h'; simp [h]
      · simp [h']

theorem keys_put (d : Dict α) (k : Option Text) (v : α) :
    (d.put k v).keys = if k ∈ d.keys then d.keys else d.keys ++ [k] := by
  induction d with
  | nil => rfl
  | cons p d ih =>
    obtain ⟨q, w⟩ := p
    simp only [Dict.put]
    by_cases h : q = k
    · subst h; simp [Dict.keys]
    · rw [if_neg h]
      have e : ∀ (v : α) (d : Dict α), Dict.keys ((q, v) :: d) = q :: Dict.keys d := fun _ _ => rfl
      rw [e, ih, e]
      by_cases hk : k ∈ Dict.keys d <;> simp [hk, Ne.symm h]

theorem get_isSome (d : Dict α) (k : Option Text) : (d.get k).isSome ↔ k ∈ d.keys := by
  induction d with
  | nil => simp [Dict.get, Dict.keys]
  | cons p d ih =>
    obtain ⟨q, w⟩ := p
    simp only [Dict.get, Dict.keys, List.map_cons, List.mem_cons]
    by_cases h : q = k
    · simp [h]
    · rw [if_neg h, ih]; simp [Ne.symm h, Dict.keys]

theorem get_of_mem {d : Dict α} (h : d.keys.Nodup) {p : Option Text × α} (hp : p ∈ d) :
    d.get p.1 = some p.2 := by
  induction d with
  | nil => simp at hp
  | cons q d ih =>
    obtain ⟨k, v⟩ := q
    have h' : k ∉ Dict.keys d ∧ (Dict.keys d).Nodup := List.nodup_cons.1 h
    rcases List.mem_cons.1 hp with rfl | hp
    · simp [Dict.get]
    · have : k ≠ p.1 := fun e => h'.1 (e ▸ List.mem_map_of_mem hp)
      rw [Dict.get, if_neg this, ih h'.2 hp]

theorem map_dict {β : Type} {d : Dict (Dict α)} (h : d.keys.Nodup) (f : Option Text → Dict α → β) :
    (d.map fun p => f p.1 p.2) = d.keys.map fun k => f k ((d.get k).getD []) := by
  rw [Dict.keys, List.map_map]
  refine List.map_congr_left fun p hp => ?_
  rw [Function.comp_apply, get_of_mem h hp, Option.getD_some]

/-! ## Each text once -/

theorem mem_firsts {l : List Text} {x : Text} : x ∈ firsts l ↔ x ∈ l := by
  induction l with
  | nil => simp [firsts]
  | cons t l ih =>
    simp only [firsts, List.mem_cons, List.mem_filter, ih, decide_eq_true_eq]
    by_cases h : x = t <;> simp [h]

theorem firsts_nodup (l : List Text) : (firsts l).Nodup := by
  induction l with
  | nil => simp [firsts]
  | cons t l ih =>
    rw [firsts, List.nodup_cons]
    exact ⟨by simp, ih.filter _⟩

theorem firsts_concat (l : List Text) (x : Text) :
    firsts (l ++ [x]) = if x ∈ l then firsts l else firsts l ++ [x] := by
  induction l with
  | nil => simp [firsts]
  | cons t l ih =>
    rw [List.cons_append, firsts, ih]
    by_cases h : x ∈ l
    · simp [h, firsts]
    · by_cases h' : x = t
      · subst h'; simp [h, firsts]
      · simp [h, h', firsts]

theorem firsts_replicate (n : Nat) (t : Text) (l : List Text) :
    firsts (List.replicate (n + 1) t ++ l) = firsts (t :: l) := by
  induction n with
  | zero => rfl
  | succ n ih =>
    rw [List.replicate_succ, List.cons_append, firsts, ih, firsts]
    simp

theorem firsts_append (a : List Text) {b c : List Text} (h : firsts b = firsts c) :
    firsts (a ++ b) = firsts (a ++ c) := by
  induction a with
  | nil => exact h
  | cons x a ih => rw [List.cons_append, List.cons_append, firsts, ih, firsts]

/-! ## What is stored -/

/-- What is stored for a data set and an algorithm. -/
def look (data : Dict (Dict (Entry Num))) (d a : Option Text) : Option (Entry Num) :=
  (data.get d).bind fun r => r.get a

/-- An entry with a further time. -/
def Entry.add (e : Entry Num) (ns : Num) (name : Text) : Entry Num :=
  if inText "chained".toList name then { e with chained := some ns }
  else if inText "independent".toList name then { e with independent := some ns }
  else e

theorem look_eq (data : Dict (Dict (Entry Num))) (d a : Option Text) :
    look data d a = ((data.get d).getD []).get a := by
  rw [look]
  cases data.get d <;> rfl

theorem look_store (data : Dict (Dict (Entry Num))) (x : Rec Num) (d a : Option Text) :
    look (store data x) d a =
      if d = some x.dataset ∧ a = some x.algorithm then
        some (((look data d a).getD { size := x.size }).add x.ns x.name)
      else look data d a := by
  have e : store data x = data.put (some x.dataset)
      (((data.get (some x.dataset)).getD []).put (some x.algorithm)
        (((look data (some x.dataset) (some x.algorithm)).getD { size := x.size }).add x.ns x.name)) := by
    rw [look_eq]; rfl
  rw [e, look_eq, get_put]
  by_cases hd : d = some x.dataset
  · subst hd
    rw [if_pos rfl, Option.getD_some, get_put]
    by_cases ha : a = some x.algorithm
    · subst ha
      simp
    · rw [if_neg ha, if_neg fun h => ha h.2, look_eq]
  · rw [if_neg hd, if_neg fun h => hd h.1, look_eq]

theorem keys_store (data : Dict (Dict (Entry Num))) (x : Rec Num) :
    (store data x).keys =
      if some x.dataset ∈ data.keys then data.keys else data.keys ++ [some x.dataset] :=
  keys_put _ _ _

/-- Measurements for a data set and an algorithm. -/
def Rec.is (d a : Option Text) (x : Rec Num) : Bool := some x.dataset = d ∧ some x.algorithm = a

/-- The measurement is of dependent lookups. -/
def Rec.chained (x : Rec Num) : Bool := within "chained".toList x.name

/-- The measurement is of independent lookups. -/
def Rec.independent (x : Rec Num) : Bool := within "independent".toList x.name && !x.chained

theorem keys_foldl (l : List (Rec Num)) :
    (l.foldl store []).keys = (firsts (l.map Rec.dataset)).map some := by
  induction l using List.reverseRecOn with
  | nil => rfl
  | append_singleton l x ih =>
    rw [List.foldl_append, List.foldl_cons, List.foldl_nil, keys_store, ih, List.map_append,
      List.map_singleton, firsts_concat]
    have : some x.dataset ∈ (firsts (l.map Rec.dataset)).map some ↔ x.dataset ∈ l.map Rec.dataset := by
      rw [List.mem_map, ← mem_firsts]; simp
    by_cases h : x.dataset ∈ l.map Rec.dataset
    · rw [if_pos (this.2 h), if_pos h]
    · rw [if_neg (fun h' => h (this.1 h')), if_neg h, List.map_append, List.map_singleton]

/-- What measurements of one data set and one algorithm leave. -/
def summary : List (Rec Num) → Option (Entry Num)
  | [] => none
  | m :: ms => some ⟨m.size, (((m :: ms).filter Rec.chained).map Rec.ns).getLast?,
      (((m :: ms).filter Rec.independent).map Rec.ns).getLast?⟩

theorem summary_concat (l : List (Rec Num)) (x : Rec Num) :
    summary (l ++ [x]) = some (((summary l).getD { size := x.size }).add x.ns x.name) := by
  have hc : inText "chained".toList x.name = x.chained := inText_eq _ _
  have hi : inText "independent".toList x.name = within "independent".toList x.name := inText_eq _ _
  have hind : x.independent = (within "independent".toList x.name && !x.chained) := rfl
  have hlast : ∀ (p : Rec Num → Bool), (((l ++ [x]).filter p).map Rec.ns).getLast? =
      if p x then some x.ns else ((l.filter p).map Rec.ns).getLast? := by
    intro p
    rw [List.filter_append]
    cases h : p x <;> simp [h]
  have key : ∀ (sz : Option Nat), (⟨sz, (((l ++ [x]).filter Rec.chained).map Rec.ns).getLast?,
      (((l ++ [x]).filter Rec.independent).map Rec.ns).getLast?⟩ : Entry Num) =
      (⟨sz, ((l.filter Rec.chained).map Rec.ns).getLast?,
        ((l.filter Rec.independent).map Rec.ns).getLast?⟩ : Entry Num).add x.ns x.name := by
    intro sz
    rw [hlast, hlast, Entry.add, hc, hi, hind]
    cases x.chained <;> cases within "independent".toList x.name <;> simp
  cases l with
  | nil =>
    rw [List.nil_append, summary]
    simp only [summary, Option.getD_none]
    exact congrArg some (key x.size)
  | cons m ms =>
    rw [List.cons_append, summary]
    simp only [summary, Option.getD_some]
    exact congrArg some (key m.size)

theorem look_foldl (l : List (Rec Num)) (d a : Option Text) :
    look (l.foldl store []) d a = summary (l.filter (Rec.is d a)) := by
  induction l using List.reverseRecOn with
  | nil => rfl
  | append_singleton l x ih =>
    rw [List.foldl_append, List.foldl_cons, List.foldl_nil, look_store, ih, List.filter_append]
    by_cases h : d = some x.dataset ∧ a = some x.algorithm
    · have hx : x.is d a = true := by simp [Rec.is, h.1, h.2]
      rw [if_pos h, List.filter_cons_of_pos hx, List.filter_nil, summary_concat]
    · have hx : ¬ x.is d a = true := by
        simp only [Rec.is, decide_eq_true_eq]
        exact fun h' => h ⟨h'.1.symm, h'.2.symm⟩
      rw [if_neg h, List.filter_cons_of_neg hx, List.filter_nil, List.append_nil]

/-! ## The measurements of runs -/

theorem recs_ne_nil (r : Run) : r.recs py ≠ [] ↔ r.measured py = true := by
  unfold Run.recs Run.measured
  induction r.rows with
  | nil => simp
  | cons row rows ih =>
    cases h : time py row <;> simp [h, ih]

theorem recs_dataset {r : Run} {x : Rec Num} (h : x ∈ r.recs py) :
    x.dataset = r.dataset ∧ x.algorithm = r.algorithm ∧ x.size = py.int r.size := by
  obtain ⟨row, _, hr⟩ := List.mem_filterMap.1 h
  obtain ⟨v, _, rfl⟩ := Option.map_eq_some_iff.1 hr
  exact ⟨rfl, rfl, rfl⟩

theorem recs_filter_is (r : Run) (d a : Text) :
    (r.recs py).filter (Rec.is (some d) (some a)) =
      if r.dataset = d ∧ r.algorithm = a then r.recs py else [] := by
  by_cases h : r.dataset = d ∧ r.algorithm = a
  · rw [if_pos h, List.filter_eq_self]
    intro x hx
    have := recs_dataset hx
    simp [Rec.is, this, h]
  · rw [if_neg h, List.filter_eq_nil_iff]
    intro x hx
    have := recs_dataset hx
    simp only [Rec.is, this.1, this.2.1, Option.some.injEq, decide_eq_true_eq]
    exact h

theorem recs_kind (r : Run) (p : Rec Num → Bool) (kind : List Text → Bool)
    (h : ∀ d a s v row, p ⟨d, a, s, v, nameOf row⟩ = kind row) :
    ((r.recs py).filter p).map Rec.ns = (r.rows.filter kind).filterMap (time py) := by
  unfold Run.recs
  induction r.rows with
  | nil => rfl
  | cons row rows ih =>
    cases ht : time py row with
    | none =>
      rw [List.filterMap_cons_none (by simp [ht]), ih]
      cases hk : kind row <;> simp [hk, ht]
    | some v =>
      rw [List.filterMap_cons_some (b := ⟨r.dataset, r.algorithm, py.int r.size, v, nameOf row⟩)
        (by simp [ht]), List.filter_cons, h]
      cases hk : kind row
      · simp only [Bool.false_eq_true, if_false, ih, List.filter_cons, hk]
      · simp only [if_true, List.map_cons, ih, List.filter_cons, hk, List.filterMap_cons, ht]

theorem runs_kind (runs : List Run) (d a : Text) (p : Rec Num → Bool) (kind : List Text → Bool)
    (h : ∀ d a s v row, p ⟨d, a, s, v, nameOf row⟩ = kind row) :
    (((runs.flatMap (Run.recs py)).filter (Rec.is (some d) (some a))).filter p).map Rec.ns =
      times py kind runs d a := by
  unfold times
  induction runs with
  | nil => rfl
  | cons r runs ih =>
    rw [List.flatMap_cons, List.filter_append, List.filter_append, List.map_append, ih, recs_filter_is]
    by_cases hr : r.dataset = d ∧ r.algorithm = a
    · rw [if_pos hr, List.filter_cons_of_pos (by simpa using hr), List.flatMap_cons, recs_kind r p kind h]
    · rw [if_neg hr, List.filter_cons_of_neg (by simpa using hr)]
      rfl

theorem runs_size (runs : List Run) (hok : ∀ r ∈ runs, r.Ok py) (d a : Text) :
    (summary ((runs.flatMap (Run.recs py)).filter (Rec.is (some d) (some a)))).map Entry.size =
      (sizes py runs d a).head?.map some := by
  unfold sizes
  induction runs with
  | nil => rfl
  | cons r runs ih =>
    have ih := ih fun r hr => hok r (by simp [hr])
    rw [List.flatMap_cons, List.filter_append, recs_filter_is]
    by_cases hr : r.dataset = d ∧ r.algorithm = a
    · rw [if_pos hr]
      by_cases hm : r.measured py = true
      · obtain ⟨n, hn⟩ := Option.isSome_iff_exists.1 (hok r (by simp)).size.2.2
        rw [List.filter_cons_of_pos (by simp [hr, hm]), List.filterMap_cons_some (f := fun r : Run => py.int r.size) hn]
        cases he : r.recs py with
        | nil => exact absurd he ((recs_ne_nil r).2 hm)
        | cons m ms =>
          have := (recs_dataset (py := py) (r := r) (x := m) (by rw [he]; simp)).2.2
          simp [summary, this, hn]
      · rw [List.filter_cons_of_neg (by simp [hm]), ← ih]
        have : r.recs py = [] := by
          by_contra h
          exact hm ((recs_ne_nil r).1 h)
        rw [this, List.nil_append]
    · rw [if_neg hr, List.nil_append, ih, List.filter_cons_of_neg]
      simpa using fun h1 h2 => absurd ⟨h1, h2⟩ hr

theorem runs_names (runs : List Run) :
    firsts ((runs.flatMap (Run.recs py)).map Rec.dataset) = rowNames py runs := by
  unfold rowNames
  induction runs with
  | nil => rfl
  | cons r runs ih =>
    have hrep : (r.recs py).map Rec.dataset = List.replicate (r.recs py).length r.dataset := by
      rw [List.eq_replicate_iff]
      refine ⟨by simp, fun t ht => ?_⟩
      obtain ⟨x, hx, rfl⟩ := List.mem_map.1 ht
      exact (recs_dataset hx).1
    rw [List.flatMap_cons, List.map_append, firsts_append _ ih, hrep]
    by_cases hm : r.measured py = true
    · rw [List.filter_cons_of_pos hm, List.map_cons]
      cases hl : (r.recs py).length with
      | zero => exact absurd (List.length_eq_zero_iff.1 hl) ((recs_ne_nil r).2 hm)
      | succ n => exact firsts_replicate n _ _
    · have : r.recs py = [] := by
        by_contra h
        exact hm ((recs_ne_nil r).1 h)
      rw [List.filter_cons_of_neg hm, this]
      rfl

/-! ## Sorted names -/

theorem before_iff (s t : Text) : before s t = true ↔ s < t := by
  induction s generalizing t with
  | nil => cases t <;> simp [before]
  | cons a s ih =>
    cases t with
    | nil => simp [before]
    | cons b t =>
      simp only [before, Bool.or_eq_true, Bool.and_eq_true, decide_eq_true_eq, beq_iff_eq, ih,
        List.cons_lt_cons_iff]
      exact Iff.rfl

theorem mem_insertSorted {t x : Text} {l : List Text} : x ∈ insertSorted t l ↔ x = t ∨ x ∈ l := by
  induction l with
  | nil => simp [insertSorted]
  | cons u us ih =>
    rw [insertSorted]
    split
    · rename_i h; subst h; simp
    · split
      · simp
      · simp only [List.mem_cons, ih]
        constructor
        · rintro (h | h | h) <;> simp [h]
        · rintro (h | h | h) <;> simp [h]

theorem insertSorted_sorted (t : Text) {l : List Text} (h : l.Pairwise (· < ·)) :
    (insertSorted t l).Pairwise (· < ·) := by
  induction l with
  | nil => simp [insertSorted]
  | cons u us ih =>
    have h' := List.pairwise_cons.1 h
    rw [insertSorted]
    split
    · exact h
    · split
      · rename_i hb
        have hb := (before_iff _ _).1 hb
        refine List.pairwise_cons.2 ⟨fun x hx => ?_, h⟩
        rcases List.mem_cons.1 hx with rfl | hx
        · exact hb
        · exact List.lt_trans hb (h'.1 x hx)
      · rename_i hne hb
        refine List.pairwise_cons.2 ⟨fun x hx => ?_, ih h'.2⟩
        rcases mem_insertSorted.1 hx with rfl | hx
        · have hb : ¬ x < u := fun h => hb ((before_iff _ _).2 h)
          rcases List.le_iff_lt_or_eq.1 (List.not_lt.1 hb) with h | h
          · exact h
          · exact absurd h.symm hne
        · exact h'.1 x hx

theorem sortedSet_some (ts : List Text) :
    ∃ as : List Text, sortedSet (ts.map some) = some (as.map some) ∧ as.Pairwise (· < ·) ∧
      ∀ a, a ∈ as ↔ a ∈ ts := by
  cases ts with
  | nil => exact ⟨[], rfl, .nil, fun a => by simp⟩
  | cons t ts =>
    refine ⟨(t :: ts).foldr insertSorted [], ?_, ?_, ?_⟩
    · have hm : ((t :: ts).map some).mapM id = some (t :: ts) := by
        generalize t :: ts = l
        induction l with
        | nil => rfl
        | cons x l ih => simp [ih]
      rw [sortedSet, if_neg (by simp), hm, Option.map_some]
    · generalize t :: ts = l
      induction l with
      | nil => exact .nil
      | cons x l ih => exact insertSorted_sorted x ih
    · intro a
      generalize t :: ts = l
      induction l with
      | nil => simp
      | cons x l ih => rw [List.foldr_cons, mem_insertSorted, ih, List.mem_cons]

end Verif.Results
