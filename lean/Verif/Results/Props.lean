import Verif.Results.DataLemmas
/-!
# Tables of the benchmark results (C163)

`Run.lines` is the output of one benchmark program with a data set and an algorithm; a result file is
the output of several. In a line of measurements the first cell is the time of one operation and the
name comes behind four cells (`nanobench` without counters).
-/
namespace Verif.Results

variable {Num : Type} {py : Py Num}

theorem summary_chained (l : List (Rec Num)) :
    (summary l).bind Entry.chained = ((l.filter Rec.chained).map Rec.ns).getLast? := by
  cases l <;> rfl

theorem summary_independent (l : List (Rec Num)) :
    (summary l).bind Entry.independent = ((l.filter Rec.independent).map Rec.ns).getLast? := by
  cases l <;> rfl

theorem algorithms_keys (l : List (Rec Num)) :
    ∃ ts : List Text, ((l.foldl store []).flatMap fun d => d.2.map Prod.fst) = ts.map some ∧
      ∀ a, a ∈ ts ↔ ∃ x ∈ l, x.algorithm = a := by
  have hnd : (l.foldl store []).keys.Nodup := by
    rw [keys_foldl]
    exact List.Pairwise.map _ (fun a b h => by simpa using h) (firsts_nodup _)
  have hk : ∀ k, k ∈ ((l.foldl store []).flatMap fun d => d.2.map Prod.fst) ↔
      ∃ x ∈ l, some x.algorithm = k := by
    intro k
    rw [List.mem_flatMap]
    constructor
    · rintro ⟨p, hp, hk⟩
      have h1 : (look (l.foldl store []) p.1 k).isSome := by
        rw [look, get_of_mem hnd hp, Option.bind_some]
        exact (get_isSome _ _).2 hk
      rw [look_foldl] at h1
      cases hf : l.filter (Rec.is p.1 k) with
      | nil => rw [hf] at h1; cases h1
      | cons x xs =>
        have hx : x ∈ l.filter (Rec.is p.1 k) := by rw [hf]; simp
        rw [List.mem_filter] at hx
        refine ⟨x, hx.1, ?_⟩
        have := hx.2
        simp only [Rec.is, decide_eq_true_eq] at this
        exact this.2
    · rintro ⟨x, hx, rfl⟩
      have h1 : (look (l.foldl store []) (some x.dataset) (some x.algorithm)).isSome := by
        rw [look_foldl]
        have : x ∈ l.filter (Rec.is (some x.dataset) (some x.algorithm)) :=
          List.mem_filter.2 ⟨hx, by simp [Rec.is]⟩
        cases hf : l.filter (Rec.is (some x.dataset) (some x.algorithm)) with
        | nil => rw [hf] at this; cases this
        | cons y ys => rfl
      rw [look] at h1
      cases hg : (l.foldl store []).get (some x.dataset) with
      | none => rw [hg] at h1; cases h1
      | some row =>
        rw [hg, Option.bind_some, get_isSome] at h1
        have hmem : ∀ (d : Dict (Dict (Entry Num))) (k : Option Text) (v : Dict (Entry Num)),
            d.get k = some v → (k, v) ∈ d := by
          intro d k v
          induction d with
          | nil => intro h; cases h
          | cons q d ih =>
            obtain ⟨q, w⟩ := q
            rw [Dict.get]
            split
            · rename_i h; rintro ⟨rfl⟩; simp [h]
            · intro h; exact List.mem_cons.2 (.inr (ih h))
        exact ⟨_, hmem _ _ _ hg, h1⟩
  refine ⟨((l.foldl store []).flatMap fun d => d.2.map Prod.fst).filterMap id, ?_, fun a => ?_⟩
  · generalize ((l.foldl store []).flatMap fun d => d.2.map Prod.fst) = ks at hk ⊢
    have hall : ∀ k ∈ ks, k.isSome := fun k h => by
      obtain ⟨x, _, rfl⟩ := (hk k).1 h
      rfl
    clear hk
    induction ks with
    | nil => rfl
    | cons k ks ih =>
      obtain ⟨t, rfl⟩ := Option.isSome_iff_exists.1 (hall k (by simp))
      simp only [List.filterMap_cons, id, List.map_cons]
      rw [← ih fun k h => hall k (by simp [h])]
  · rw [List.mem_filterMap]
    constructor
    · rintro ⟨k, h, rfl⟩
      obtain ⟨x, hx, h'⟩ := (hk _).1 h
      exact ⟨x, hx, Option.some.inj h'⟩
    · rintro ⟨x, hx, rfl⟩
      exact ⟨_, (hk _).2 ⟨x, hx, rfl⟩, rfl⟩

/-- C163: the tables have exactly the data sets and algorithms of runs with times; a cell has the last
time of its kind for the data set and the algorithm, and the size of the first run with times. -/
theorem C163_exact (runs : List Run) (h : ∀ r ∈ runs, r.Ok py) :
    ∃ t as, tables py (runs.flatMap Run.lines) = some t ∧ Columns py runs as ∧
      Is t.chained (rowNames py runs) as (fun d a => lastTime (times py isChained runs d a)) ∧
      Is t.independent (rowNames py runs) as (fun d a => lastTime (times py isIndependent runs d a)) ∧
      Is t.size (rowNames py runs) as (fun d a => firstSize (sizes py runs d a)) := by
  obtain ⟨ts, h1, h2⟩ := algorithms_keys (runs.flatMap (Run.recs py))
  obtain ⟨as, h3, h4, h5⟩ := sortedSet_some ts
  have hnd : ((runs.flatMap (Run.recs py)).foldl store []).keys.Nodup := by
    rw [keys_foldl]
    exact List.Pairwise.map _ (fun a b h => by simpa using h) (firsts_nodup _)
  have htab : ∀ (cell : Option (Entry Num) → Cell Num),
      Is (table ((runs.flatMap (Run.recs py)).foldl store []) (as.map some) cell) (rowNames py runs) as
        (fun d a => cell (summary ((runs.flatMap (Run.recs py)).filter (Rec.is (some d) (some a))))) := by
    intro cell
    have e := map_dict hnd fun (k : Option Text) (r : Dict (Entry Num)) =>
      Cell.name (Num := Num) k :: (as.map some).map fun a => cell (r.get a)
    rw [Is, table, e, keys_foldl, runs_names]
    refine congrArg₂ List.cons (by simp) ?_
    rw [List.map_map]
    refine List.map_congr_left fun d _ => ?_
    simp only [Function.comp_apply, List.map_map]
    refine congrArg _ (List.map_congr_left fun a _ => ?_)
    rw [Function.comp_apply, ← look_eq, look_foldl]
  have hIs : ∀ {t : List (List (Cell Num))} {ds as : List Text} {c c' : Text → Text → Cell Num},
      Is t ds as c → (∀ d a, c d a = c' d a) → Is t ds as c' := by
    intro t ds as c c' h e
    rwa [← show c = c' from funext fun d => funext fun a => e d a]
  have htime : ∀ (o : Option Num), timeCell o = o.elim .empty .time := fun o => by cases o <;> rfl
  refine ⟨⟨table _ (as.map some) fun e => timeCell (e.bind Entry.chained),
    table _ (as.map some) fun e => timeCell (e.bind Entry.independent),
    table _ (as.map some) fun e => e.elim .empty (fun e => .size e.size)⟩, as, ?_, ⟨h4, fun a => ?_⟩, hIs (htab fun e => timeCell (e.bind Entry.chained)) fun d a => ?_,
    hIs (htab fun e => timeCell (e.bind Entry.independent)) fun d a => ?_,
    hIs (htab fun e => e.elim .empty (fun e => .size e.size)) fun d a => ?_⟩
  · rw [tables, parseFile_runs runs h, Option.bind_some, makeTables, h1, h3]
    rfl
  · rw [h5, h2]
    constructor
    · rintro ⟨x, hx, rfl⟩
      obtain ⟨r, hr, hxr⟩ := List.mem_flatMap.1 hx
      exact ⟨r, hr, (recs_ne_nil r).1 (List.ne_nil_of_mem hxr), (recs_dataset hxr).2.1.symm⟩
    · rintro ⟨r, hr, hm, rfl⟩
      obtain ⟨x, hx⟩ := List.exists_mem_of_ne_nil _ ((recs_ne_nil (py := py) r).2 hm)
      exact ⟨x, List.mem_flatMap.2 ⟨r, hr, hx⟩, (recs_dataset hx).2.1⟩
  · rw [summary_chained, runs_kind runs d a Rec.chained isChained fun _ _ _ _ _ => rfl, htime, lastTime]
  · rw [summary_independent, runs_kind runs d a Rec.independent isIndependent fun _ _ _ _ _ => rfl,
      htime, lastTime]
  · have e := runs_size runs h d a
    rw [firstSize]
    generalize summary ((runs.flatMap (Run.recs py)).filter (Rec.is (some d) (some a))) = o at e ⊢
    cases o <;> cases hs : (sizes py runs d a).head? <;> simp_all

/-- C163: white space around lines, such as the end of the line, makes no difference. -/
theorem C163_white_space (lines lines' : List Text) (h : lines.map trim = lines'.map trim) :
    tables py lines = tables py lines' := by
  have hs : ∀ (s : State Num) (l l' : Text), trim l = trim l' → step py s l = step py s l' := by
    intro s l l' e
    unfold step
    rw [strip_eq, strip_eq, e]
  have hf : ∀ (lines lines' : List Text) (s : State Num), lines.map trim = lines'.map trim →
      lines.foldlM (step py) s = lines'.foldlM (step py) s := by
    intro lines
    induction lines with
    | nil =>
      intro lines' s h
      rw [List.map_eq_nil_iff.1 h.symm]
    | cons l lines ih =>
      intro lines' s h
      cases lines' with
      | nil => cases h
      | cons l' lines' =>
        obtain ⟨h1, h2⟩ := List.cons.inj h
        rw [List.foldlM_cons, List.foldlM_cons, hs s l l' h1]
        exact congrArg _ (funext fun s => ih lines' s h2)
  rw [tables, tables, parseFile, parseFile, hf lines lines' {} h]

theorem Is.shows {t : List (List (Cell Num))} {ds as : List Text} {cell : Text → Text → Cell Num}
    (h : Is t ds as cell) {d a : Text} (hd : d ∈ ds) (ha : a ∈ as) : Shows t d a (cell d a) := by
  obtain ⟨i, hi, rfl⟩ := List.mem_iff_getElem.1 ha
  refine ⟨_, _, _, h, List.mem_map.2 ⟨d, hd, rfl⟩, rfl, i + 1, by omega, ?_, ?_⟩ <;> simp [hi]

/-- C163: if an algorithm was run once with a data set and the times of its two measurements are
readable, the tables show them and the size. Missing: times with thousands separators, lines with
further cells, several runs; see below. -/
theorem C163_one_run_partial (runs : List Run) (h : ∀ r ∈ runs, r.Ok py) (r : Run)
    (hr : runs.filter (fun r' => r'.dataset = r.dataset ∧ r'.algorithm = r.algorithm) = [r])
    {row row' : List Text} {v v' : Num} {n : Nat} (hc : r.rows.filter isChained = [row])
    (hi : r.rows.filter isIndependent = [row']) (hv : time py row = some v)
    (hv' : time py row' = some v') (hn : py.int r.size = some n) :
    ∃ t, tables py (runs.flatMap Run.lines) = some t ∧
      Shows t.chained r.dataset r.algorithm (.time v) ∧
      Shows t.independent r.dataset r.algorithm (.time v') ∧
      Shows t.size r.dataset r.algorithm (.size (some n)) := by
  obtain ⟨t, as, h0, h1, h2, h3, h4⟩ := C163_exact runs h
  have hmem : r ∈ runs := (List.mem_filter.1 (hr ▸ List.mem_singleton_self r)).1
  have hm : r.measured py = true := by
    have : row ∈ r.rows := (List.mem_filter.1 (hc ▸ List.mem_singleton_self row)).1
    exact List.any_eq_true.2 ⟨row, this, by simp [hv]⟩
  have hd : r.dataset ∈ rowNames py runs :=
    mem_firsts.2 (List.mem_map.2 ⟨r, List.mem_filter.2 ⟨hmem, hm⟩, rfl⟩)
  have ha : r.algorithm ∈ as := (h1.2 _).2 ⟨r, hmem, hm, rfl⟩
  have e1 : times py isChained runs r.dataset r.algorithm = [v] := by
    rw [times, hr]; simp [hc, hv]
  have e2 : times py isIndependent runs r.dataset r.algorithm = [v'] := by
    rw [times, hr]; simp [hi, hv']
  have e3 : sizes py runs r.dataset r.algorithm = [n] := by
    have : (runs.filter fun r' => r'.dataset = r.dataset ∧ r'.algorithm = r.algorithm ∧ r'.measured py) =
        [r] := by
      have e := congrArg (List.filter fun r' => r'.measured py) hr
      rw [List.filter_filter] at e
      simp only [List.filter_cons, hm, if_true, List.filter_nil] at e
      rw [← e]
      refine List.filter_congr fun x _ => ?_
      by_cases h1 : x.dataset = r.dataset <;> by_cases h2 : x.algorithm = r.algorithm <;>
        cases h3 : x.measured py <;> simp [h1, h2]
    rw [sizes, this]; simp [hn]
  refine ⟨t, h0, ?_, ?_, ?_⟩
  · simpa [e1, lastTime] using h2.shows hd ha
  · simpa [e2, lastTime] using h3.shows hd ha
  · simpa [e3, firstSize] using h4.shows hd ha

/-! ## Examples and failures -/

/-- Numbers are read as their text: digits and a point. -/
def exPy : Py Text where
  float t := if t ≠ [] ∧ t.all (fun c => c.isDigit || c == '.') then some t else none
  int t := if t ≠ [] ∧ t.all Char.isDigit then
    some (t.foldl (fun n c => 10 * n + (c.toNat - 48)) 0) else none

/-- A run with two measurements. -/
def exRun (a s c i : String) : Run where
  dataset := "exp_uint16_3".toList
  algorithm := a.toList
  size := s.toList
  rows := [["  ns/op ".toList, " op/s ".toList, " err% ".toList, " total ".toList, " benchmark".toList],
    [c.toList, " 52,499,424.46 ".toList, " 0.2% ".toList, " 0.45 ".toList, " `chained`  ".toList], [],
    [i.toList, " 52,499,424.46 ".toList, " 0.2% ".toList, " 0.45 ".toList, " `independent`".toList]]

example : (∀ r ∈ [exRun "bench_b" "24" " 1.50 " " 2.50 ", exRun "bench_a" "48" " 3.25 " " 4.00 "],
      r.Ok exPy) ∧
    tables exPy ([exRun "bench_b" "24" " 1.50 " " 2.50 ",
        exRun "bench_a" "48" " 3.25 " " 4.00 "].flatMap Run.lines) = some
      { chained := [[.name (some "Dataset".toList), .name (some "bench_a".toList), .name (some "bench_b".toList)],
          [.name (some "exp_uint16_3".toList), .time "3.25".toList, .time "1.50".toList]]
        independent := [[.name (some "Dataset".toList), .name (some "bench_a".toList), .name (some "bench_b".toList)],
          [.name (some "exp_uint16_3".toList), .time "4.00".toList, .time "2.50".toList]]
        size := [[.name (some "Dataset".toList), .name (some "bench_a".toList), .name (some "bench_b".toList)],
          [.name (some "exp_uint16_3".toList), .size (some 48), .size (some 24)]] } := by
  refine ⟨?_, by decide +kernel⟩
  intro r hr
  rcases List.mem_cons.1 hr with rfl | hr
  · exact ⟨by decide +kernel, by decide +kernel, by decide +kernel, by decide +kernel⟩
  · rw [List.mem_singleton.1 hr]
    exact ⟨by decide +kernel, by decide +kernel, by decide +kernel, by decide +kernel⟩

example : (exRun "bench_b" "24" "1.50" "2.50").lines.map trim =
    ((exRun "bench_b" "24" "1.50" "2.50").lines.map fun l => ' ' :: l ++ ['\r', '\n']).map trim := by
  decide +kernel

/-- A run with two measurements above one thousand nanoseconds. -/
def exSlow : Run := { exRun "bench_b" "24" " 1,001.50 " " 1,002.50 " with
  rows := (exRun "bench_b" "24" " 1,001.50 " " 1,002.50 ").rows.drop 1 }

/-- C163 fails: times with a thousands separator are left out, however Python reads other numbers. -/
theorem C163_violated_thousands (py : Py Num) (hf : ∀ t, ',' ∈ t → py.float t = none)
    (hn : (py.int "24".toList).isSome) :
    ∃ t, tables py exSlow.lines = some t ∧
      ∀ d a c, ¬ Shows t.chained d a c ∧ ¬ Shows t.independent d a c := by
  have hok : ∀ r ∈ [exSlow], r.Ok py := fun r hr => by
    rw [List.mem_singleton.1 hr]
    exact ⟨by decide +kernel, by decide +kernel, ⟨by decide +kernel, by decide +kernel, hn⟩,
      by decide +kernel⟩
  obtain ⟨t, as, h0, -, h2, h3, -⟩ := C163_exact [exSlow] hok
  have hm : exSlow.measured py = false := by
    have h1 : py.float (trim " 1,001.50 ".toList) = none := hf _ (by decide +kernel)
    have h2 : py.float (trim " 1,002.50 ".toList) = none := hf _ (by decide +kernel)
    have e : ∀ f : List Text → Bool, exSlow.rows.any f =
        (f [" 1,001.50 ".toList, " 52,499,424.46 ".toList, " 0.2% ".toList, " 0.45 ".toList,
          " `chained`  ".toList] || (f [] || (f [" 1,002.50 ".toList, " 52,499,424.46 ".toList,
            " 0.2% ".toList, " 0.45 ".toList, " `independent`".toList] || false))) := fun f => rfl
    rw [Run.measured, e]
    simp only [time, h1, h2, Option.isSome_none, Bool.or_false]
  have hnil : rowNames py [exSlow] = [] := by
    rw [rowNames, List.filter_cons_of_neg (by simp [hm])]; rfl
  have hno : ∀ {t : List (List (Cell Num))} {cell : Text → Text → Cell Num},
      Is t (rowNames py [exSlow]) as cell → ∀ d a c, ¬ Shows t d a c := by
    rintro t cell h d a c ⟨top, rows, row, e, hr, -⟩
    rw [Is, hnil, List.map_nil, e] at h
    rw [(List.cons.inj h).2] at hr
    cases hr
  refine ⟨t, ?_, fun d a c => ⟨hno h2 d a c, hno h3 d a c⟩⟩
  rw [← h0, List.flatMap_cons, List.flatMap_nil, List.append_nil]

/-- A run with a further cell before the name, as `nanobench` prints with a counter. -/
def exCounter : Run := { exRun "bench_b" "24" "" "" with
  rows := [[" 1.50 ".toList, " 52,499,424.46 ".toList, " 0.2% ".toList, " 12.00 ".toList,
    " 0.45 ".toList, " `chained`".toList]] }

/-- C163 fails: with a further cell before the name the time is not found. -/
theorem C163_violated_columns :
    exCounter.Ok exPy ∧ exCounter.rows.map (time exPy) = [some "1.50".toList] ∧
      ∃ t, tables exPy exCounter.lines = some t ∧
        Shows t.chained exCounter.dataset exCounter.algorithm .empty ∧
        Shows t.independent exCounter.dataset exCounter.algorithm .empty := by
  refine ⟨⟨by decide +kernel, by decide +kernel, by decide +kernel, by decide +kernel⟩,
    by decide +kernel, _, (by decide +kernel : tables exPy exCounter.lines = some
      { chained := [[.name (some "Dataset".toList), .name (some "bench_b".toList)],
          [.name (some "exp_uint16_3".toList), .empty]]
        independent := [[.name (some "Dataset".toList), .name (some "bench_b".toList)],
          [.name (some "exp_uint16_3".toList), .empty]]
        size := [[.name (some "Dataset".toList), .name (some "bench_b".toList)],
          [.name (some "exp_uint16_3".toList), .size (some 24)]] }), ?_, ?_⟩
  · exact ⟨_, _, _, rfl, List.mem_singleton_self _, rfl, 1, by omega, rfl, rfl⟩
  · exact ⟨_, _, _, rfl, List.mem_singleton_self _, rfl, 1, by omega, rfl, rfl⟩

/-- C163 fails: of two runs the tables show the size of the first with the times of the second. -/
theorem C163_violated_second :
    ∃ t, tables exPy ([exRun "bench_b" "24" "1.50" "2.50", exRun "bench_b" "48" "3.50" "4.50"].flatMap
        Run.lines) = some t ∧
      Shows t.chained "exp_uint16_3".toList "bench_b".toList (.time "3.50".toList) ∧
      Shows t.size "exp_uint16_3".toList "bench_b".toList (.size (some 24)) := by
  refine ⟨_, (by decide +kernel : tables exPy ([exRun "bench_b" "24" "1.50" "2.50",
        exRun "bench_b" "48" "3.50" "4.50"].flatMap Run.lines) = some
      { chained := [[.name (some "Dataset".toList), .name (some "bench_b".toList)],
          [.name (some "exp_uint16_3".toList), .time "3.50".toList]]
        independent := [[.name (some "Dataset".toList), .name (some "bench_b".toList)],
          [.name (some "exp_uint16_3".toList), .time "4.50".toList]]
        size := [[.name (some "Dataset".toList), .name (some "bench_b".toList)],
          [.name (some "exp_uint16_3".toList), .size (some 24)]] }), ?_, ?_⟩
  · exact ⟨_, _, _, rfl, List.mem_singleton_self _, rfl, 1, by omega, rfl, rfl⟩
  · exact ⟨_, _, _, rfl, List.mem_singleton_self _, rfl, 1, by omega, rfl, rfl⟩

end Verif.Results
