import Verif.Args.Lemmas

/-! # C155: options of `gen_str_catalog` reach the script -/

namespace Verif.Args

open Verif.Symbols
open Verif.Json (joinWith)

/-! ## What cmake finds -/

theorem Proper.shapeOk {gs : Options} (h : Proper gs) : ∀ g ∈ gs, ShapeOk g ∧ ∀ v ∈ g.2, kind v = none := by
  intro g hg
  constructor
  · rcases h.shape g hg with e | ⟨e, hv⟩ | e
    · exact .inl (by rw [e]; decide)
    · exact .inr (.inl ⟨kind_one e, hv⟩)
    · exact .inr (.inr (kind_multi e))
  · intro v hv
    have := h.values g hg v hv
    simp only [List.mem_cons, List.not_mem_nil, or_false, not_or] at this
    apply kind_none
    · simp [flagKeys, this]
    · simp [oneKeys, this]
    · simp [multiKeys, this]

theorem Proper.elems {gs : Options} (h : Proper gs) : ∀ t ∈ written gs, Elem t := by
  intro t ht
  obtain ⟨g, hg, ht⟩ := List.mem_flatMap.1 ht
  rcases List.mem_cons.1 ht with e | hv
  · rw [e]
    rcases h.shape g hg with e | ⟨e, -⟩ | e
    · rw [e]; exact ⟨by decide, by decide⟩
    · simp only [List.mem_cons, List.not_mem_nil, or_false] at e
      rcases e with e | e | e | e | e | e | e | e | e | e | e | e <;> (rw [e]; exact ⟨by decide, by decide⟩)
    · simp only [List.mem_cons, List.not_mem_nil, or_false] at e
      rcases e with e | e | e | e <;> (rw [e]; exact ⟨by decide, by decide⟩)
  · exact (h.words g hg t hv).elem

theorem flatMap_expand : ∀ {ts : List Text}, (∀ t ∈ ts, Elem t) → ts.flatMap expand = ts
  | [], _ => rfl
  | t :: ts, h => by
    rw [List.flatMap_cons, expand_elem (h t (by simp)), flatMap_expand (fun x hx => h x (by simp [hx]))]
    rfl

theorem Proper.parsed_one {gs : Options} (h : Proper gs) {k : Text} (hk : kind k = some .one) :
    (parsed (written gs)).one k = (valueGiven gs k).getD [] := by
  unfold parsed Parsed.one
  rw [flatMap_expand h.elems, parse_written gs _ _ h.shapeOk]
  simp only [List.append_nil]
  rw [find_ones gs k hk h.once]
  unfold valueGiven
  cases e : given gs k with
  | none => rfl
  | some vs => cases vs <;> rfl

theorem Proper.parsed_multi {gs : Options} (h : Proper gs) {k : Text} (hk : kind k = some .multi) :
    (parsed (written gs)).multi k = joinWith [';'] (valuesGiven gs k) := by
  unfold parsed Parsed.multi
  rw [flatMap_expand h.elems, parse_written gs _ _ h.shapeOk]
  simp only [List.nil_append]
  rw [multis_of gs k hk h.once]
  rfl

theorem Proper.parsed_flag {gs : Options} (h : Proper gs) :
    t!"FORGET_OLD_IDS" ∈ (parsed (written gs)).flags ↔ (given gs t!"FORGET_OLD_IDS").isSome = true := by
  unfold parsed
  rw [flatMap_expand h.elems, parse_written gs _ _ h.shapeOk]
  simp only [List.append_nil, List.mem_reverse]
  constructor
  · intro hm
    obtain ⟨g, hg, e⟩ := List.mem_map.1 hm
    cases hg' : given gs t!"FORGET_OLD_IDS" with
    | none => exact absurd (List.mem_map.2 ⟨g, (List.mem_filter.1 hg).1, e⟩) (given_none hg')
    | some vs => rfl
  · intro hs
    obtain ⟨vs, hv⟩ := Option.isSome_iff_exists.1 hs
    exact List.mem_map.2 ⟨_, List.mem_filter.2 ⟨mem_of_given hv, rfl⟩, rfl⟩

theorem Proper.values_words {gs : Options} (h : Proper gs) (k : Text) : ∀ v ∈ valuesGiven gs k, Word v := by
  intro v hv
  unfold valuesGiven at hv
  cases e : given gs k with
  | none => rw [e] at hv; cases hv
  | some vs => rw [e] at hv; exact h.words _ (mem_of_given e) v hv

theorem Proper.value_word {gs : Options} (h : Proper gs) {k v : Text} (hv : valueGiven gs k = some v) :
    Word v := by
  unfold valueGiven at hv
  cases e : given gs k with
  | none => rw [e] at hv; cases hv
  | some vs =>
    rw [e] at hv
    exact h.words _ (mem_of_given e) v (List.mem_of_mem_head? hv)

/-! ## The arguments of the script -/

/-- An option that is given if the value is not taken for false. -/
def optRow (name : Text) (v : Option Text) : List (Text × List Text) :=
  match v with
  | none => []
  | some v => if off v then [] else [(name, [v])]

/-- The command by options. -/
def rows (s : Scope) (gs : Options) : List (Text × List Text) :=
  [(t!"--input", (valuesGiven gs t!"INPUT_LIBS").map (symbolsFile s)),
   (t!"--json_input", (valuesGiven gs t!"INPUT_JSON").map s.path),
   (t!"--cpp_headers", (valuesGiven gs t!"INPUT_HEADERS").map s.path),
   (t!"--cpp_output", (valueGiven gs t!"OUTPUT_CPP").toList),
   (t!"--json_output", (valueGiven gs t!"OUTPUT_JSON").toList),
   (t!"--xml_output", (valueGiven gs t!"OUTPUT_XML").toList),
   (t!"--stable_json", (valuesGiven gs t!"STABLE_JSON").map s.path)] ++
  (if (given gs t!"FORGET_OLD_IDS").isSome then [(t!"--forget_old_ids", [])] else []) ++
  optRow t!"--client_name" (valueGiven gs t!"CLIENT_NAME") ++
  optRow t!"--version" (valueGiven gs t!"VERSION") ++
  optRow t!"--guid_id" (valueGiven gs t!"GUID_ID") ++
  optRow t!"--guid_mask" (valueGiven gs t!"GUID_MASK") ++
  optRow t!"--module_id_max" (valueGiven gs t!"MODULE_ID_MAX") ++
  optRow t!"--reserved_ids" (valueGiven gs t!"RESERVED_IDS")

theorem expand_optionArg {name : Text} {v : Option Text} (hn : Elem name) (hv : ∀ x, v = some x → Elem x) :
    expand (optionArg [] name (v.getD [])) = (optRow name v).flatMap fun g => g.1 :: g.2 := by
  unfold optionArg
  cases v with
  | none => rfl
  | some x =>
    have hx := hv x rfl
    dsimp only [Option.getD_some, optRow]
    by_cases ho : off x
    · rw [if_pos ho, if_pos ho]; rfl
    · rw [if_neg ho, if_neg ho, expand_elem hx, expand_join]
      · simp
      · intro w hw
        rcases List.mem_cons.1 hw with e | e
        · exact e ▸ hn
        · simp only [List.mem_cons, List.not_mem_nil, or_false] at e; exact e ▸ hx

theorem expand_value {v : Option Text} (hv : ∀ x, v = some x → Elem x) : expand (v.getD []) = v.toList := by
  cases v with
  | none => rfl
  | some x => exact expand_elem (hv x rfl)

theorem expand_paths {f : Text → Text} {xs : List Text} (h : ∀ x ∈ xs, Elem x) (hf : ∀ x ∈ xs, Elem (f x)) :
    expand (appendPaths f [] (joinWith [';'] xs)) = xs.map f := by
  unfold appendPaths
  rw [expand_join h]
  have := foldl_paths (f := f) xs [] (by simp) hf
  rw [List.nil_append] at this
  rw [show ([] : Text) = joinWith [';'] [] from rfl, this, expand_join]
  intro w hw
  obtain ⟨x, hx, rfl⟩ := List.mem_map.1 hw
  exact hf x hx

theorem symbolsFile_word {s : Scope} (hs : Paths s) {l : Text} (hl : Word l) : Word (symbolsFile s l) := by
  refine ⟨by simp [symbolsFile], ?_, ?_⟩
  · simp only [symbolsFile, List.mem_append, not_or]
    exact ⟨⟨⟨hs.binDir.1, by decide⟩, hl.2⟩, by decide⟩
  · unfold symbolsFile
    cases e : s.binDir with
    | nil => simp
    | cons c t => have := hs.binDir.2; rw [e] at this; simpa using this

theorem expand_undefs {s : Scope} (hs : Paths s) {xs : List Text} (h : ∀ x ∈ xs, Word x) :
    expand (undefs s (joinWith [';'] xs)) = xs.map (symbolsFile s) := by
  unfold undefs
  rw [expand_join (fun x hx => (h x hx).elem), expand_join]
  · rfl
  · intro w hw
    obtain ⟨x, hx, rfl⟩ := List.mem_map.1 hw
    exact (symbolsFile_word hs (h x hx)).elem

theorem command_eq {s : Scope} {gs : Options} (h : Proper gs) (hs : Paths s)
    (hc : ∀ x ∈ leaking, s.vars x = []) :
    command s (written gs) = (rows s gs).flatMap fun g => g.1 :: g.2 := by
  have hc' : ∀ x, decide (x ∈ leaking) = true → s.vars x = [] := fun x hx => hc x (of_decide_eq_true hx)
  have el : ∀ k x, valueGiven gs k = some x → Elem x := fun k x hx => (h.value_word hx).elem
  have ew : ∀ k, ∀ x ∈ valuesGiven gs k, Elem x := fun k x hx => (h.values_words k x hx).elem
  have ep : ∀ k, ∀ x ∈ valuesGiven gs k, Elem (s.path x) := fun k x hx => (hs.path x (h.values_words k x hx)).elem
  have hflag : expand (if t!"FORGET_OLD_IDS" ∈ (parsed (written gs)).flags then t!"--forget_old_ids"
      else s.vars t!"FORGET_ARG") =
      ((if (given gs t!"FORGET_OLD_IDS").isSome then [(t!"--forget_old_ids", [])] else []) :
        List (Text × List Text)).flatMap fun g => g.1 :: g.2 := by
    by_cases hf : (given gs t!"FORGET_OLD_IDS").isSome
    · rw [if_pos (h.parsed_flag.2 hf), if_pos hf]; decide
    · rw [if_neg (fun m => hf (h.parsed_flag.1 m)), if_neg hf, hc' _ (by decide)]; rfl
  unfold command
  simp only []
  rw [hflag, h.parsed_multi (by decide), h.parsed_multi (by decide), h.parsed_multi (by decide),
    h.parsed_multi (by decide), h.parsed_one (by decide), h.parsed_one (by decide), h.parsed_one (by decide),
    h.parsed_one (by decide), h.parsed_one (by decide), h.parsed_one (by decide), h.parsed_one (by decide),
    h.parsed_one (by decide), h.parsed_one (by decide),
    hc' t!"INPUT_JSON" (by decide), hc' t!"INPUT_HEADERS" (by decide), hc' t!"STABLE_JSON" (by decide),
    hc' t!"CLIENT_NAME_ARG" (by decide), hc' t!"VERSION_ARG" (by decide), hc' t!"GUID_ID_ARG" (by decide),
    hc' t!"GUID_MASK_ARG" (by decide), hc' t!"MODULE_ID_MAX_ARG" (by decide),
    hc' t!"RESERVED_IDS_ARG" (by decide)]
  rw [expand_undefs hs (h.values_words _), expand_paths (ew _) (ep _), expand_paths (ew _) (ep _),
    expand_paths (ew _) (ep _), expand_value (el _), expand_value (el _), expand_value (el _),
    expand_optionArg ⟨by decide, by decide⟩ (el _), expand_optionArg ⟨by decide, by decide⟩ (el _),
    expand_optionArg ⟨by decide, by decide⟩ (el _), expand_optionArg ⟨by decide, by decide⟩ (el _),
    expand_optionArg ⟨by decide, by decide⟩ (el _), expand_optionArg ⟨by decide, by decide⟩ (el _)]
  simp [rows]

/-! ## What the script finds -/

theorem group_values : ∀ (vs rest : List Text), (∀ v ∈ vs, optionLike v = false) →
    group (vs ++ rest) = (vs ++ (group rest).1, (group rest).2)
  | [], _, _ => rfl
  | v :: vs, rest, h => by
    rw [List.cons_append, group, h v (by simp), group_values vs rest (fun x hx => h x (by simp [hx]))]
    simp

theorem group_rows : ∀ {rs : List (Text × List Text)},
    (∀ r ∈ rs, optionLike r.1 = true ∧ ∀ v ∈ r.2, optionLike v = false) →
    group (rs.flatMap fun g => g.1 :: g.2) = ([], rs)
  | [], _ => rfl
  | r :: rs, h => by
    obtain ⟨h1, h2⟩ := h r (by simp)
    rw [List.flatMap_cons, List.cons_append, group, if_pos h1, group_values _ _ h2,
      group_rows (fun x hx => h x (by simp [hx]))]
    simp

theorem valuesOf_append (a b : List (Text × List Text)) (o : Text) :
    valuesOf (a ++ b) o = (valuesOf b o).or (valuesOf a o) := by
  unfold valuesOf
  rw [List.reverse_append, List.find?_append]
  cases b.reverse.find? (·.1 = o) <;> rfl

theorem valuesOf_cons (r : Text × List Text) (b : List (Text × List Text)) (o : Text) :
    valuesOf (r :: b) o = (valuesOf b o).or (if r.1 = o then some r.2 else none) := by
  rw [show r :: b = [r] ++ b from rfl, valuesOf_append]
  congr 1
  by_cases h : r.1 = o <;> simp [valuesOf, h]

theorem valuesOf_nil (o : Text) : valuesOf [] o = none := rfl

theorem valuesOf_optRow_ne {n o : Text} (v : Option Text) (h : n ≠ o) : valuesOf (optRow n v) o = none := by
  unfold optRow
  cases v with
  | none => rfl
  | some v => dsimp only; by_cases ho : off v <;> simp [ho, valuesOf, h]

/-- The value if it is not taken for false. -/
def keptValue (v : Option Text) : Option Text := v.filter fun x => !off x

theorem valuesOf_optRow {n : Text} (v : Option Text) :
    valuesOf (optRow n v) n = (keptValue v).map fun x => [x] := by
  unfold optRow keptValue
  cases v with
  | none => rfl
  | some v => dsimp only; by_cases ho : off v <;> simp [ho, valuesOf, Option.filter]

theorem valuesOf_flag (c : Bool) (n o : Text) :
    valuesOf (if c = true then [(n, [])] else []) o = if c = true ∧ n = o then some [] else none := by
  cases c <;> by_cases h : n = o <;> simp [valuesOf, h]

theorem Word.value {v : Text} (h : Word v) : optionLike v = false := by
  unfold optionLike
  by_cases hd : v.head? = some '-'
  · simp [h.3 hd]
  · simp [hd]

theorem rows_like {s : Scope} {gs : Options} (h : Proper gs) (hs : Paths s) :
    ∀ r ∈ rows s gs, optionLike r.1 = true ∧ ∀ v ∈ r.2, optionLike v = false := by
  have hpath : ∀ k, ∀ v ∈ (valuesGiven gs k).map s.path, optionLike v = false := by
    intro k v hv
    obtain ⟨x, hx, rfl⟩ := List.mem_map.1 hv
    exact (hs.path x (h.values_words k x hx)).value
  have hundef : ∀ v ∈ (valuesGiven gs t!"INPUT_LIBS").map (symbolsFile s), optionLike v = false := by
    intro v hv
    obtain ⟨x, hx, rfl⟩ := List.mem_map.1 hv
    exact (symbolsFile_word hs (h.values_words _ x hx)).value
  have hone : ∀ k, ∀ v ∈ (valueGiven gs k).toList, optionLike v = false := by
    intro k v hv
    exact (h.value_word (Option.mem_toList.1 hv)).value
  have hopt : ∀ n k, optionLike n = true → ∀ r ∈ optRow n (valueGiven gs k),
      optionLike r.1 = true ∧ ∀ v ∈ r.2, optionLike v = false := by
    intro n k hn r hr
    unfold optRow at hr
    cases e : valueGiven gs k with
    | none => rw [e] at hr; cases hr
    | some x =>
      rw [e] at hr; dsimp only at hr
      split at hr
      · cases hr
      · simp only [List.mem_cons, List.not_mem_nil, or_false] at hr
        subst hr
        refine ⟨hn, fun v hv => ?_⟩
        simp only [List.mem_cons, List.not_mem_nil, or_false] at hv
        exact hv ▸ (h.value_word e).value
  intro r hr
  unfold rows at hr
  simp only [List.mem_append] at hr
  rcases hr with ((((((hr | hr) | hr) | hr) | hr) | hr) | hr) | hr
  · simp only [List.mem_cons, List.not_mem_nil, or_false] at hr
    rcases hr with e | e | e | e | e | e | e <;> subst e
    · exact ⟨by dsimp only; decide, hundef⟩
    · exact ⟨by dsimp only; decide, hpath _⟩
    · exact ⟨by dsimp only; decide, hpath _⟩
    · exact ⟨by dsimp only; decide, hone _⟩
    · exact ⟨by dsimp only; decide, hone _⟩
    · exact ⟨by dsimp only; decide, hone _⟩
    · exact ⟨by dsimp only; decide, hpath _⟩
  · split at hr
    · simp only [List.mem_cons, List.not_mem_nil, or_false] at hr
      subst hr; exact ⟨by decide, by simp⟩
    · cases hr
  · exact hopt _ _ (by decide) r hr
  · exact hopt _ _ (by decide) r hr
  · exact hopt _ _ (by decide) r hr
  · exact hopt _ _ (by decide) r hr
  · exact hopt _ _ (by decide) r hr
  · exact hopt _ _ (by decide) r hr

theorem Proper.value_some {gs : Options} (h : Proper gs) {k : Text} (hk : kind k = some .one)
    (hg : (given gs k).isSome) : ∃ v, valueGiven gs k = some v := by
  obtain ⟨vs, hv⟩ := Option.isSome_iff_exists.1 hg
  have hl := (h.shapeOk _ (mem_of_given hv)).1
  unfold ShapeOk at hl
  simp only [hk] at hl
  have : vs ≠ [] := by simpa using hl
  match vs, this with
  | v :: _, _ => exact ⟨v, by simp [valueGiven, hv]⟩

theorem rows_count {s : Scope} {gs : Options} (h : Proper gs) : (rows s gs).all countOk = true := by
  rw [List.all_eq_true]
  have hopt : ∀ n k, nargs n = some .one → ∀ r ∈ optRow n (valueGiven gs k), countOk r = true := by
    intro n k hn r hr
    unfold optRow at hr
    cases e : valueGiven gs k with
    | none => rw [e] at hr; cases hr
    | some x =>
      rw [e] at hr; dsimp only at hr
      split at hr
      · cases hr
      · simp only [List.mem_cons, List.not_mem_nil, or_false] at hr
        subst hr; simp [countOk, hn]
  obtain ⟨c, hcpp⟩ := h.value_some (by decide) h.cpp
  obtain ⟨j, hjson⟩ := h.value_some (by decide) h.json
  obtain ⟨x, hxml⟩ := h.value_some (by decide) h.xml
  have hl := h.libs
  intro r hr
  unfold rows at hr
  rw [hcpp, hjson, hxml] at hr
  simp only [List.mem_append] at hr
  rcases hr with ((((((hr | hr) | hr) | hr) | hr) | hr) | hr) | hr
  · simp only [List.mem_cons, List.not_mem_nil, or_false] at hr
    rcases hr with e | e | e | e | e | e | e <;> subst e
    · simpa [countOk, nargs] using hl
    all_goals rfl
  · split at hr
    · simp only [List.mem_cons, List.not_mem_nil, or_false] at hr
      subst hr; rfl
    · cases hr
  · exact hopt _ _ (by decide) r hr
  · exact hopt _ _ (by decide) r hr
  · exact hopt _ _ (by decide) r hr
  · exact hopt _ _ (by decide) r hr
  · exact hopt _ _ (by decide) r hr
  · exact hopt _ _ (by decide) r hr

/-! ## Kept options -/

theorem off_eq {v : Text} (h : v ≠ []) : off v = takenForFalse v := by
  have e : (t!"-NOTFOUND").isSuffixOf v = decide (v.drop (v.length - 9) = t!"-NOTFOUND") := by
    rw [Bool.eq_iff_iff, List.isSuffixOf_iff_suffix, decide_eq_true_eq, List.suffix_iff_eq_drop]
    exact eq_comm
  unfold off takenForFalse upper
  rw [e]
  simp only [h, decide_false, Bool.false_or, List.mem_cons, List.not_mem_nil, or_false, Bool.decide_or]
  generalize decide (v = t!"0") = a
  generalize decide (v = t!"NOTFOUND") = b
  generalize decide (v.drop (v.length - 9) = t!"-NOTFOUND") = c
  cases a <;> cases b <;> cases c <;> simp [Bool.or_assoc]

theorem given_kept {gs : Options} (hn : (gs.map (·.1)).Nodup) (k : Text) :
    given (kept gs) k = (given gs k).filter fun vs => !(k ∈ tested && vs.head?.any takenForFalse) := by
  induction gs with
  | nil => rfl
  | cons x gs ih =>
    rw [List.map_cons, List.nodup_cons] at hn
    have ih := ih hn.2
    unfold kept at ih ⊢
    by_cases h : x.1 = k
    · by_cases hd : (decide (x.1 ∈ tested) && x.2.head?.any takenForFalse) = true
      · have hg : given gs k = none := by
          cases hg : given gs k with
          | none => rfl
          | some vs => exact absurd (List.mem_map.2 ⟨_, mem_of_given hg, h.symm⟩) hn.1
        rw [List.filter_cons_of_neg (by simpa using hd), ih, hg]
        rw [h] at hd
        simp only [given, List.find?_cons, h, decide_true, Option.map_some, Option.filter, hd]; rfl
      · rw [List.filter_cons_of_pos (by rw [eq_false_of_ne_true hd]; rfl)]
        rw [h] at hd
        simp only [given, List.find?_cons, h, decide_true, Option.map_some]
        rw [Option.filter_some, if_pos (by rw [eq_false_of_ne_true hd]; rfl)]
    · have e : given (x :: gs) k = given gs k := by simp [given, h]
      rw [e, ← ih]
      by_cases hd : (decide (x.1 ∈ tested) && x.2.head?.any takenForFalse) = true
      · rw [List.filter_cons_of_neg (by simpa using hd)]
      · rw [List.filter_cons_of_pos (by rw [eq_false_of_ne_true hd]; rfl)]
        simp [given, h]

theorem given_kept_other {gs : Options} (hn : (gs.map (·.1)).Nodup) {k : Text} (hk : k ∉ tested) :
    given (kept gs) k = given gs k := by
  rw [given_kept hn]
  cases given gs k <;> simp [hk]

theorem value_kept {gs : Options} (h : Proper gs) {k : Text} (hk : k ∈ tested) (ho : kind k = some .one) :
    valueGiven (kept gs) k = keptValue (valueGiven gs k) := by
  unfold valueGiven keptValue
  rw [given_kept h.once]
  cases e : given gs k with
  | none => rfl
  | some vs =>
    have hl := (h.shapeOk _ (mem_of_given e)).1
    unfold ShapeOk at hl
    simp only [ho] at hl
    have hl : vs ≠ [] := by simpa using hl
    match vs, hl with
    | v :: _, _ =>
      have hw := h.words _ (mem_of_given e) v (by simp)
      have := off_eq hw.1
      cases ht : takenForFalse v <;> simp [hk, this, ht, Option.filter]

/-! ## The settings -/

theorem valuesOf_optRow_if {n o : Text} (v : Option Text) :
    valuesOf (optRow n v) o = if n = o then (keptValue v).map fun x => [x] else none := by
  by_cases h : n = o
  · subst h; rw [if_pos rfl, valuesOf_optRow]
  · rw [if_neg h, valuesOf_optRow_ne v h]

theorem valuesOf_rows (s : Scope) (gs : Options) (o : Text) : valuesOf (rows s gs) o =
    if o = t!"--input" then some ((valuesGiven gs t!"INPUT_LIBS").map (symbolsFile s))
    else if o = t!"--json_input" then some ((valuesGiven gs t!"INPUT_JSON").map s.path)
    else if o = t!"--cpp_headers" then some ((valuesGiven gs t!"INPUT_HEADERS").map s.path)
    else if o = t!"--cpp_output" then some (valueGiven gs t!"OUTPUT_CPP").toList
    else if o = t!"--json_output" then some (valueGiven gs t!"OUTPUT_JSON").toList
    else if o = t!"--xml_output" then some (valueGiven gs t!"OUTPUT_XML").toList
    else if o = t!"--stable_json" then some ((valuesGiven gs t!"STABLE_JSON").map s.path)
    else if o = t!"--forget_old_ids" then if (given gs t!"FORGET_OLD_IDS").isSome then some [] else none
    else if o = t!"--client_name" then (keptValue (valueGiven gs t!"CLIENT_NAME")).map fun x => [x]
    else if o = t!"--version" then (keptValue (valueGiven gs t!"VERSION")).map fun x => [x]
    else if o = t!"--guid_id" then (keptValue (valueGiven gs t!"GUID_ID")).map fun x => [x]
    else if o = t!"--guid_mask" then (keptValue (valueGiven gs t!"GUID_MASK")).map fun x => [x]
    else if o = t!"--module_id_max" then (keptValue (valueGiven gs t!"MODULE_ID_MAX")).map fun x => [x]
    else if o = t!"--reserved_ids" then (keptValue (valueGiven gs t!"RESERVED_IDS")).map fun x => [x]
    else none := by
  unfold rows
  simp only [valuesOf_append, valuesOf_cons, valuesOf_nil, valuesOf_flag, valuesOf_optRow_if]
  by_cases h1 : o = t!"--input"; · subst h1; simp
  by_cases h2 : o = t!"--json_input"; · subst h2; simp
  by_cases h3 : o = t!"--cpp_headers"; · subst h3; simp
  by_cases h4 : o = t!"--cpp_output"; · subst h4; simp
  by_cases h5 : o = t!"--json_output"; · subst h5; simp
  by_cases h6 : o = t!"--xml_output"; · subst h6; simp
  by_cases h7 : o = t!"--stable_json"; · subst h7; simp
  by_cases h8 : o = t!"--forget_old_ids"; · subst h8; simp
  by_cases h9 : o = t!"--client_name"; · subst h9; simp
  by_cases h10 : o = t!"--version"; · subst h10; simp
  by_cases h11 : o = t!"--guid_id"; · subst h11; simp
  by_cases h12 : o = t!"--guid_mask"; · subst h12; simp
  by_cases h13 : o = t!"--module_id_max"; · subst h13; simp
  by_cases h14 : o = t!"--reserved_ids"; · subst h14; simp
  simp [h1, h2, h3, h4, h5, h6, h7, h8, h9, h10, h11, h12, h13, h14, Ne.symm h1, Ne.symm h2, Ne.symm h3,
    Ne.symm h4, Ne.symm h5, Ne.symm h6, Ne.symm h7, Ne.symm h8, Ne.symm h9, Ne.symm h10, Ne.symm h11,
    Ne.symm h12, Ne.symm h13, Ne.symm h14]

theorem only_rows {s : Scope} {gs : Options} {o : Text} {v : Option Text}
    (h : valuesOf (rows s gs) o = v.map fun x => [x]) : only (rows s gs) o = v := by
  unfold only; rw [h]; cases v <;> rfl

theorem only_rows' {s : Scope} {gs : Options} {o : Text} {v : Option Text}
    (h : valuesOf (rows s gs) o = some v.toList) : only (rows s gs) o = v := by
  unfold only; rw [h]; cases v <;> rfl

theorem settings_eq {s : Scope} {gs : Options} (h : Proper gs) (hs : Paths s)
    (hc : ∀ x ∈ leaking, s.vars x = []) : scriptSettings s (written gs) = wanted s (kept gs) := by
  have kv : ∀ k ∉ tested, valueGiven (kept gs) k = valueGiven gs k := fun k hk => by
    unfold valueGiven; rw [given_kept_other h.once hk]
  have kvs : ∀ k ∉ tested, valuesGiven (kept gs) k = valuesGiven gs k := fun k hk => by
    unfold valuesGiven; rw [given_kept_other h.once hk]
  unfold scriptSettings parseCmdline wanted
  rw [command_eq h hs hc, group_rows (rows_like h hs)]
  rw [kv t!"OUTPUT_CPP" (by decide), kv t!"OUTPUT_JSON" (by decide), kv t!"OUTPUT_XML" (by decide),
    kvs t!"INPUT_LIBS" (by decide), kvs t!"INPUT_JSON" (by decide), kvs t!"INPUT_HEADERS" (by decide),
    kvs t!"STABLE_JSON" (by decide), given_kept_other (k := t!"FORGET_OLD_IDS") h.once (by decide),
    value_kept (k := t!"CLIENT_NAME") h (by decide) (by decide),
    value_kept (k := t!"VERSION") h (by decide) (by decide),
    value_kept (k := t!"GUID_ID") h (by decide) (by decide),
    value_kept (k := t!"GUID_MASK") h (by decide) (by decide),
    value_kept (k := t!"MODULE_ID_MAX") h (by decide) (by decide),
    value_kept (k := t!"RESERVED_IDS") h (by decide) (by decide)]
  simp only [rows_count h, and_self, if_true]
  rw [only_rows (o := t!"--client_name") (valuesOf_rows s gs _),
    only_rows (o := t!"--version") (valuesOf_rows s gs _),
    only_rows (o := t!"--guid_id") (valuesOf_rows s gs _),
    only_rows (o := t!"--guid_mask") (valuesOf_rows s gs _),
    only_rows (o := t!"--module_id_max") (valuesOf_rows s gs _),
    only_rows (o := t!"--reserved_ids") (valuesOf_rows s gs _),
    only_rows' (o := t!"--cpp_output") (valuesOf_rows s gs _),
    only_rows' (o := t!"--json_output") (valuesOf_rows s gs _),
    only_rows' (o := t!"--xml_output") (valuesOf_rows s gs _)]
  rw [show valuesOf (rows s gs) t!"--input" = _ from valuesOf_rows s gs _,
    show valuesOf (rows s gs) t!"--json_input" = _ from valuesOf_rows s gs _,
    show valuesOf (rows s gs) t!"--cpp_headers" = _ from valuesOf_rows s gs _,
    show valuesOf (rows s gs) t!"--stable_json" = _ from valuesOf_rows s gs _,
    show valuesOf (rows s gs) t!"--forget_old_ids" = _ from valuesOf_rows s gs _]
  simp only [List.cons.injEq, Char.reduceEq, reduceIte, false_and, and_false, Option.bind_some,
    Option.getD_some]
  have e : ∀ b : Bool, (if b = true then some ([] : List Text) else none).isSome = b := by decide
  rw [e]
  cases keptValue (valueGiven gs t!"MODULE_ID_MAX") <;> cases keptValue (valueGiven gs t!"RESERVED_IDS") <;> rfl

/-- C155, exactly: the script gets the options that are given, except the client name, version, GUIDs, highest
module id and reserved ids whose value cmake takes for false: these are as if they were not given. -/
theorem C155_kept {s : Scope} {gs : Options} (h : Proper gs) (hs : Paths s)
    (hc : ∀ x ∈ leaking, s.vars x = []) : scriptSettings s (written gs) = wanted s (kept gs) :=
  settings_eq h hs hc

/-- C155, where none of the values is taken for false and none of the variables is set where the function is
called: the settings of the script are those that the options ask for. -/
theorem C155_options_partial {s : Scope} {gs : Options} (h : Proper gs) (hs : Paths s)
    (hc : ∀ x ∈ leaking, s.vars x = [])
    (hv : ∀ g ∈ gs, g.1 ∈ tested → ∀ v ∈ g.2.head?, takenForFalse v = false) :
    scriptSettings s (written gs) = wanted s gs := by
  rw [settings_eq h hs hc]
  congr 1
  unfold kept
  rw [List.filter_eq_self]
  intro g hg
  by_cases ht : g.1 ∈ tested
  · have : g.2.head?.any takenForFalse = false := by
      cases e : g.2.head? with
      | none => rfl
      | some v => exact hv g hg ht v e
    simp [this]
  · simp [ht]

/-! ## Where options are lost -/

/-- The required options. -/
def base : Options :=
  [(t!"INPUT_LIBS", [t!"log"]), (t!"OUTPUT_CPP", [t!"s.cpp"]), (t!"OUTPUT_JSON", [t!"s.json"]),
   (t!"OUTPUT_XML", [t!"s.xml"])]

/-- The settings for the required options. -/
def baseSettings : Settings :=
  { input := [t!"/b/undefined_symbols_log.txt"], cppOutput := some t!"s.cpp", jsonOutput := some t!"s.json",
    xmlOutput := some t!"s.xml", jsonInput := [], cppHeaders := [], clientName := t!"CIB Framework FW",
    version := t!"VERSION", guidId := t!"00000000-0017-0001-0000-000000000000",
    guidMask := t!"00000000-FFFF-FFFF-8000-000000000000", stableJson := [], forgetOldIds := false,
    moduleIdMax := 127, reservedIds := [] }

/-- C155 does not hold for `RESERVED_IDS 0` and `MODULE_ID_MAX 0`: id 0 is not reserved, module ids go up to 127. -/
theorem C155_violated_zero :
    let s : Scope := { binDir := t!"/b" }
    let gs : Options := base ++ [(t!"RESERVED_IDS", [t!"0"]), (t!"MODULE_ID_MAX", [t!"0"])]
    scriptSettings s (written gs) = some baseSettings ∧
      wanted s gs = some { baseSettings with reservedIds := [(0, 0)], moduleIdMax := 0 } := by
  constructor <;> decide +kernel

/-- C155 does not hold where the function is called from a file that has a variable `INPUT_JSON`: the script
gets the files of that variable. -/
theorem C155_violated_variable :
    let s : Scope := { binDir := t!"/b", vars := fun x => if x = t!"INPUT_JSON" then t!"other.json" else [] }
    let gs : Options := base
    scriptSettings s (written gs) = some { baseSettings with jsonInput := [t!"other.json"] } ∧
      wanted s gs = some baseSettings := by
  constructor <;> decide +kernel

/-- C155 does not hold for values with `;`: the rest of the value is lost. -/
theorem C155_violated_semicolon :
    let s : Scope := { binDir := t!"/b" }
    let gs : Options := base ++ [(t!"VERSION", [t!"1.0;rc"])]
    scriptSettings s (written gs) = some { baseSettings with version := t!"1.0" } ∧
      wanted s gs = some { baseSettings with version := t!"1.0;rc" } := by
  constructor <;> decide +kernel

/-! ## The assumptions can be met -/

/-- Options in another order, with several values. -/
def sample : Options :=
  [(t!"RESERVED_IDS", [t!"1-5,0x10"]), (t!"FORGET_OLD_IDS", [t!"now"]), (t!"VERSION", [t!"-", t!"x"]), (t!"OUTPUT_XML", [t!"s.xml"]),
   (t!"INPUT_LIBS", [t!"a", t!"b"]), (t!"OUTPUT_CPP", [t!"s.cpp"]), (t!"OUTPUT_JSON", [t!"s.json"]),
   (t!"INPUT_JSON", [t!"x.json", t!"y.json"]), (t!"CLIENT_NAME", [t!"My FW"]), (t!"MODULE_ID_MAX", [t!"63"])]

/-- A scope. -/
def sampleScope : Scope := { binDir := t!"/b", path := fun v => t!"/src/" ++ v }

theorem sample_proper : Proper sample where
  once := by decide
  shape := by decide
  words := by
    have : ∀ g ∈ sample, ∀ v ∈ g.2, v ≠ [] ∧ ';' ∉ v ∧ (v.head? = some '-' → v = ['-']) := by decide
    exact fun g hg v hv => ⟨(this g hg v hv).1, (this g hg v hv).2.1, (this g hg v hv).2.2⟩
  values := by decide +kernel
  libs := by decide
  cpp := by decide
  json := by decide
  xml := by decide

theorem sample_paths : Paths sampleScope where
  binDir := by decide
  path := fun v hv => ⟨by simp [sampleScope], by
    simp only [sampleScope, List.mem_append, not_or]; exact ⟨by decide, hv.2⟩, by simp [sampleScope]⟩

example : scriptSettings sampleScope (written sample) = some
    { baseSettings with
      input := [t!"/b/undefined_symbols_a.txt", t!"/b/undefined_symbols_b.txt"]
      jsonInput := [t!"/src/x.json", t!"/src/y.json"]
      clientName := t!"My FW", version := ['-'], forgetOldIds := true, moduleIdMax := 63, reservedIds := [(1, 5), (16, 16)] } := by
  rw [C155_options_partial sample_proper sample_paths (fun _ _ => rfl) (by decide +kernel)]
  decide +kernel

end Verif.Args
