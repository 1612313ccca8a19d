import Verif.Results.Spec
import Mathlib.Data.List.Induction
/-!
# Lemmas on the tables of results
-/
namespace Verif.Results

/-! ## Texts -/

theorem rstrip_cons_ne {c : Char} {t : Text} (h : rstrip t ≠ []) : rstrip (c :: t) = c :: rstrip t := by
  rw [rstrip, if_neg fun h' => h h'.1]

theorem rstrip_cons_char {c : Char} {t : Text} (h : isSpace c = false) :
    rstrip (c :: t) = c :: rstrip t := by
  rw [rstrip, if_neg fun h' => by simp [h] at h']

theorem rstrip_append_char (a : Text) {c : Char} (u : Text) (h : isSpace c = false) :
    rstrip (a ++ c :: u) = a ++ c :: rstrip u := by
  induction a with
  | nil => exact rstrip_cons_char h
  | cons x a ih =>
    rw [List.cons_append, rstrip_cons_ne (by rw [ih]; simp), ih]
    rfl

theorem rstrip_rstrip (t : Text) : rstrip (rstrip t) = rstrip t := by
  induction t with
  | nil => rfl
  | cons c t ih =>
    by_cases h : rstrip t = [] ∧ isSpace c = true
    · rw [rstrip, if_pos h]; rfl
    · rw [rstrip, if_neg h]
      by_cases hn : rstrip t = []
      · have : isSpace c = false := by simpa using fun h' => h ⟨hn, h'⟩
        rw [rstrip_cons_char this, ih]
      · rw [rstrip_cons_ne (by rw [ih]; exact hn), ih]

theorem lstrip_space {c : Char} {t : Text} (h : isSpace c = true) : lstrip (c :: t) = lstrip t := by
  simp [lstrip, h]

theorem lstrip_char {c : Char} {t : Text} (h : isSpace c = false) : lstrip (c :: t) = c :: t := by
  simp [lstrip, h]

theorem lstrip_rstrip (t : Text) : lstrip (rstrip t) = rstrip (lstrip t) := by
  induction t with
  | nil => rfl
  | cons c t ih =>
    cases h : isSpace c with
    | true =>
      rw [lstrip_space h, ← ih]
      by_cases hn : rstrip t = []
      · rw [rstrip, if_pos ⟨hn, h⟩, hn]
      · rw [rstrip_cons_ne hn, lstrip_space h]
    | false => rw [rstrip_cons_char h, lstrip_char h, lstrip_char h, rstrip_cons_char h]

theorem strip_rstrip (t : Text) : strip (rstrip t) = strip t := by
  rw [strip, lstrip_rstrip, rstrip_rstrip, strip]

theorem strip_space {c : Char} {t : Text} (h : isSpace c = true) : strip (c :: t) = strip t := by
  rw [strip, lstrip_space h, strip]

theorem strip_char {c : Char} {t : Text} (h : isSpace c = false) :
    strip (c :: t) = c :: rstrip t := by
  rw [strip, lstrip_char h, rstrip_cons_char h]

theorem mem_rstrip {x : Char} {t : Text} (h : x ∈ rstrip t) : x ∈ t := by
  induction t with
  | nil => simpa [rstrip] using h
  | cons c t ih =>
    rw [rstrip] at h
    split at h
    · simp at h
    · rcases List.mem_cons.1 h with rfl | h
      · simp
      · exact List.mem_cons.2 (.inr (ih h))

theorem isSpace_eq (c : Char) : isSpace c = blank c := by
  have h : ∀ d : Char, (c == d) = (c.toNat == d.toNat) := fun d => by
    rw [Bool.eq_iff_iff, beq_iff_eq, beq_iff_eq]
    exact ⟨fun e => by rw [e], fun e => Char.toNat_inj.1 e⟩
  simp only [isSpace, blank, List.contains_cons, List.contains_nil, h, Bool.or_false]
  have e : Char.toNat ' ' = 32 ∧ Char.toNat '\t' = 9 ∧ Char.toNat '\n' = 10 ∧ Char.toNat '\r' = 13 ∧
      (Char.ofNat 11).toNat = 11 ∧ (Char.ofNat 12).toNat = 12 := by decide
  rw [e.1, e.2.1, e.2.2.1, e.2.2.2.1, e.2.2.2.2.1, e.2.2.2.2.2]
  cases c.toNat == 32 <;> cases c.toNat == 9 <;> cases c.toNat == 10 <;> cases c.toNat == 13 <;>
    cases c.toNat == 11 <;> cases c.toNat == 12 <;> rfl

theorem rstrip_eq (t : Text) : rstrip t = (t.reverse.dropWhile isSpace).reverse := by
  induction t using List.reverseRecOn with
  | nil => rfl
  | append_singleton t c ih =>
    cases h : isSpace c with
    | true =>
      have : ∀ u : Text, rstrip (u ++ [c]) = rstrip u := by
        intro u
        induction u with
        | nil => simp [rstrip, h]
        | cons x u ih => simp only [List.cons_append, rstrip, ih]
      rw [this, ih, List.reverse_append]
      simp [h]
    | false =>
      rw [rstrip_append_char t [] h, List.reverse_append]
      simp [h, rstrip]

theorem strip_eq (t : Text) : strip t = trim t := by
  have e : isSpace = blank := funext isSpace_eq
  rw [strip, trim, rstrip_eq, lstrip, e]

theorem split_none {sep : Char} {t : Text} (h : sep ∉ t) : split sep t = [t] := by
  induction t with
  | nil => rfl
  | cons c t ih =>
    have h1 : c ≠ sep := fun e => h (by simp [e])
    rw [split, if_neg h1, ih fun h' => h (by simp [h'])]

theorem split_append {sep : Char} {a b : Text} (h : sep ∉ a) :
    split sep (a ++ sep :: b) = a :: split sep b := by
  induction a with
  | nil => simp [split]
  | cons c a ih =>
    have h1 : c ≠ sep := fun e => h (by simp [e])
    rw [List.cons_append, split, if_neg h1, ih fun h' => h (by simp [h'])]

theorem split_sep {sep : Char} {b : Text} : split sep (sep :: b) = [] :: split sep b := by simp [split]

theorem inText_eq (p t : Text) : inText p t = within p t := by
  induction t with
  | nil => cases p <;> simp [inText, within]
  | cons c t ih =>
    rw [inText, ih, Bool.eq_iff_iff]
    simp only [within, Bool.or_eq_true, List.any_eq_true, List.mem_range, List.length_cons]
    constructor
    · rintro (h | ⟨n, hn, h⟩)
      · exact ⟨0, by omega, h⟩
      · exact ⟨n + 1, by omega, h⟩
    · rintro ⟨n, hn, h⟩
      cases n with
      | zero => exact .inl h
      | succ n => exact .inr ⟨n, by omega, h⟩

/-! ## Lines -/

/-- The cells with white space taken from the end of the last one. -/
def trimLast : List Text → List Text
  | [] => []
  | [c] => [rstrip c]
  | c :: d :: r => c :: trimLast (d :: r)

theorem trimLast_length (cs : List Text) : (trimLast cs).length = cs.length := by
  induction cs with
  | nil => rfl
  | cons c cs ih =>
    cases cs with
    | nil => rfl
    | cons d r => simpa [trimLast] using ih

theorem trimLast_getD (cs : List Text) (n : Nat) :
    strip ((trimLast cs).getD n []) = strip (cs.getD n []) := by
  induction cs generalizing n with
  | nil => rfl
  | cons c cs ih =>
    cases cs with
    | nil =>
      cases n with
      | zero => exact strip_rstrip c
      | succ n => rfl
    | cons d r =>
      cases n with
      | zero => rfl
      | succ n => simpa [trimLast] using ih n

theorem rowText_cons (c : Text) (cs : List Text) : rowText (c :: cs) = '|' :: (c ++ rowText cs) := by
  simp [rowText]

theorem split_row (c : Text) (cs : List Text) (h : ∀ x ∈ c :: cs, '|' ∉ x) :
    ∃ t, rstrip (rowText (c :: cs)) = '|' :: t ∧ split '|' t = trimLast (c :: cs) := by
  induction cs generalizing c with
  | nil =>
    refine ⟨rstrip c, ?_, split_none fun hm => h c (by simp) (mem_rstrip hm)⟩
    rw [rowText_cons, rstrip_cons_char (by decide)]
    simp [rowText]
  | cons d r ih =>
    obtain ⟨t, h1, h2⟩ := ih d fun x hx => h x (by simp [hx])
    refine ⟨c ++ '|' :: t, ?_, ?_⟩
    · rw [rowText_cons, rstrip_cons_char (by decide), rowText_cons,
        rstrip_append_char c _ (by decide), ← rstrip_cons_char (c := '|') (by decide), ← rowText_cons, h1]
    · rw [split_append (h c (by simp)), h2]
      rfl

variable {Num : Type} {py : Py Num}

/-- What a line of measurements does. -/
def measure (py : Py Num) (s : State Num) (cells : List Text) : State Num :=
  match time py cells with
  | none => s
  | some v => record s v (nameOf cells)

theorem step_row (s : State Num) (cells : List Text) (h : ∀ c ∈ cells, '|' ∉ c) :
    step py s (rowText cells) = some (measure py s cells) := by
  cases cells with
  | nil => rfl
  | cons c cs =>
    obtain ⟨t, h1, h2⟩ := split_row c cs h
    have hs : strip (rowText (c :: cs)) = '|' :: t := by
      rw [← strip_rstrip, h1, strip_char (by decide), ← rstrip_cons_char (by decide), ← h1, rstrip_rstrip]
    unfold step
    dsimp only
    rw [hs, if_neg (by simp), if_neg (by simp), if_neg (by simp), if_pos (by simp), split_sep, h2]
    simp only [List.drop_succ_cons, List.drop_zero, trimLast_getD, trimLast_length]
    unfold measure
    match cs with
    | [] => simp [time]
    | [_] => simp [time]
    | [_, _] => simp [time]
    | [_, _, _] => simp [time]
    | b :: d :: e :: f :: r =>
      simp only [time, strip_eq]
      rw [if_pos (by simp)]
      cases h : py.float (trim c) <;> simp [h, nameOf]

theorem strip_key (k u : Text) (hk : lstrip (k ++ ':' :: u) = k ++ ':' :: u) :
    strip (k ++ ':' :: u) = k ++ ':' :: rstrip u := by
  rw [strip, hk, rstrip_append_char _ _ (by decide)]

theorem afterColon_key (k u : Text) (hk : ':' ∉ k) (hu : ':' ∉ u) :
    afterColon (k ++ ':' :: rstrip u) = strip u := by
  rw [afterColon, split_append hk, split_none fun h => hu (mem_rstrip h)]
  exact strip_rstrip u

theorem strip_pad (n : Nat) (t : Text) : strip (List.replicate n ' ' ++ t) = strip t := by
  induction n with
  | zero => rfl
  | succ n ih => rw [List.replicate_succ, List.cons_append, strip_space (by decide), ih]

theorem not_mem_pad (n : Nat) {t : Text} (h : ':' ∉ t) : ':' ∉ List.replicate n ' ' ++ t := by
  simp [h]

theorem step_dataset (s : State Num) (d : Text) (h : ':' ∉ d) (hs : strip d = d) :
    step py s ("dataset:   ".toList ++ d) = some { s with dataset := some d } := by
  have e : "dataset:   ".toList ++ d = "dataset".toList ++ ':' :: (List.replicate 3 ' ' ++ d) := by simp
  unfold step
  dsimp only
  rw [e, strip_key _ _ (by simp [lstrip, isSpace]), if_pos (by simp),
    afterColon_key _ _ (by decide) (not_mem_pad 3 h), strip_pad, hs]

theorem step_algorithm (s : State Num) (d : Text) (h : ':' ∉ d) (hs : strip d = d) :
    step py s ("algorithm: ".toList ++ d) = some { s with algorithm := some d } := by
  have e : "algorithm: ".toList ++ d = "algorithm".toList ++ ':' :: (List.replicate 1 ' ' ++ d) := by simp
  unfold step
  dsimp only
  rw [e, strip_key _ _ (by simp [lstrip, isSpace]), if_neg (by simp), if_pos (by simp),
    afterColon_key _ _ (by decide) (not_mem_pad 1 h), strip_pad, hs]

theorem step_size (s : State Num) (d : Text) (h : ':' ∉ d) (hs : strip d = d) {n : Nat}
    (hn : py.int d = some n) :
    step py s ("size:      ".toList ++ d) = some { s with size := some n } := by
  have e : "size:      ".toList ++ d = "size".toList ++ ':' :: (List.replicate 6 ' ' ++ d) := by simp
  unfold step
  dsimp only
  rw [e, strip_key _ _ (by simp [lstrip, isSpace]), if_neg (by simp), if_neg (by simp), if_pos (by simp),
    afterColon_key _ _ (by decide) (not_mem_pad 6 h), strip_pad, hs, hn]
  rfl

theorem rows_foldlM (s : State Num) (rows : List (List Text)) (h : ∀ row ∈ rows, ∀ c ∈ row, '|' ∉ c) :
    (rows.map rowText).foldlM (step py) s = some (rows.foldl (measure py) s) := by
  induction rows generalizing s with
  | nil => rfl
  | cons row rows ih =>
    rw [List.map_cons, List.foldlM_cons, step_row s row (h row (by simp))]
    exact ih _ fun r hr => h r (by simp [hr])

/-! ## The measurements of a file -/

/-- A measurement. -/
structure Rec (Num : Type) where
  dataset : Text
  algorithm : Text
  size : Option Nat
  ns : Num
  name : Text

/-- The measurements of a run. -/
def Run.recs (py : Py Num) (r : Run) : List (Rec Num) :=
  r.rows.filterMap fun row =>
    (time py row).map fun v => ⟨r.dataset, r.algorithm, py.int r.size, v, nameOf row⟩

/-- Stores a measurement. -/
def store (data : Dict (Dict (Entry Num))) (x : Rec Num) : Dict (Dict (Entry Num)) :=
  (record ⟨data, some x.dataset, some x.algorithm, x.size⟩ x.ns x.name).data

theorem rows_recs (s : State Num) (r : Run) (rows : List (List Text)) (hd : s.dataset = some r.dataset)
    (ha : s.algorithm = some r.algorithm) (hs : s.size = py.int r.size) :
    rows.foldl (measure py) s = { s with data :=
      (rows.filterMap fun row => (time py row).map fun v =>
        (⟨r.dataset, r.algorithm, py.int r.size, v, nameOf row⟩ : Rec Num)).foldl store s.data } := by
  induction rows generalizing s with
  | nil => rfl
  | cons row rows ih =>
    rw [List.foldl_cons]
    cases ht : time py row with
    | none =>
      rw [show measure py s row = s by simp [measure, ht], ih s hd ha hs]
      simp [ht]
    | some v =>
      rw [show measure py s row = record s v (nameOf row) by simp [measure, ht],
        ih (record s v (nameOf row)) hd ha hs]
      simp only [List.filterMap_cons, ht, Option.map_some, List.foldl_cons]
      have : store s.data ⟨r.dataset, r.algorithm, py.int r.size, v, nameOf row⟩ =
          (record s v (nameOf row)).data := by
        simp only [store, record, hd, ha, hs]
      rw [this]
      rfl

theorem run_foldlM (s : State Num) (r : Run) (hr : r.Ok py) :
    ∃ s', r.lines.foldlM (step py) s = some s' ∧ s'.data = (r.recs py).foldl store s.data := by
  obtain ⟨n, hn⟩ := Option.isSome_iff_exists.1 hr.size.2.2
  have hnil : ∀ s : State Num, step py s [] = some s := fun s => rfl
  unfold Run.lines
  simp only [List.cons_append, List.nil_append, List.foldlM_cons, hnil,
    step_dataset _ _ hr.dataset.1 (strip_eq _ ▸ hr.dataset.2), step_algorithm _ _ hr.algorithm.1 (strip_eq _ ▸ hr.algorithm.2),
    step_size _ _ hr.size.1 (strip_eq _ ▸ hr.size.2.1) hn, Option.bind_eq_bind, Option.bind_some,
    rows_foldlM _ _ hr.cells]
  refine ⟨_, rfl, ?_⟩
  rw [rows_recs _ r r.rows rfl rfl hn.symm]
  rfl

theorem runs_foldlM (s : State Num) (runs : List Run) (h : ∀ r ∈ runs, r.Ok py) :
    ∃ s', (runs.flatMap Run.lines).foldlM (step py) s = some s' ∧
      s'.data = (runs.flatMap (Run.recs py)).foldl store s.data := by
  induction runs generalizing s with
  | nil => exact ⟨s, rfl, rfl⟩
  | cons r runs ih =>
    obtain ⟨s1, h1, h2⟩ := run_foldlM s r (h r (by simp))
    obtain ⟨s2, h3, h4⟩ := ih s1 fun r hr => h r (by simp [hr])
    refine ⟨s2, ?_, ?_⟩
    · rw [List.flatMap_cons, List.foldlM_append, h1]
      exact h3
    · rw [List.flatMap_cons, List.foldl_append, ← h2, h4]

theorem parseFile_runs (runs : List Run) (h : ∀ r ∈ runs, r.Ok py) :
    parseFile py (runs.flatMap Run.lines) = some ((runs.flatMap (Run.recs py)).foldl store []) := by
  obtain ⟨s, h1, h2⟩ := runs_foldlM (py := py) {} runs h
  rw [parseFile, h1, Option.map_some, h2]

end Verif.Results
