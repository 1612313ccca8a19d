import Verif.Json.Lemmas
/-! # Lemmas about the written file -/
namespace Verif.Json
open Verif.Symbols

/-- Keys are strings, and each is there once. -/
def Fields (l : List (PyKey × J)) : Prop := (l.map Prod.fst).Nodup ∧ ∀ e ∈ l, ∃ t, e.1 = .str t

theorem Extra.fields {x : List (PyKey × J)} (h : Extra x) : Fields x := by
  rw [Extra, J.Loaded, loadedO_iff] at h
  exact ⟨h.1, fun e he => (h.2 e he).1⟩

theorem Extra.mem {x : List (PyKey × J)} (h : Extra x) {e : PyKey × J} (he : e ∈ x) : e.2.Loaded := by
  rw [Extra, J.Loaded, loadedO_iff] at h
  exact (h.2 e he).2

theorem Fields.dset {l : List (PyKey × J)} (h : Fields l) (k : Text) (v : J) : Fields (dset (.str k) v l) := by
  refine ⟨nodup_dset h.1 _ _, fun e he => ?_⟩
  rcases mem_dset he with he | rfl
  · exact h.2 e he
  · exact ⟨k, rfl⟩

theorem Fields.dupdate {l x : List (PyKey × J)} (h : Fields l) (hx : ∀ e ∈ x, ∃ t, e.1 = PyKey.str t) :
    Fields (dupdate l x) := by
  refine ⟨nodup_dupdate h.1 _, fun e he => ?_⟩
  rcases mem_dupdate he with he | he
  · exact h.2 e he
  · exact hx e he

theorem Fields.foldl {l : List (PyKey × J)} (h : Fields l) {xs : List (List (PyKey × J))} (hx : ∀ x ∈ xs, Extra x) :
    Fields (xs.foldl Json.dupdate l) := by
  induction xs generalizing l with
  | nil => exact h
  | cons x xs ih =>
    exact ih (h.dupdate (hx x (List.mem_cons_self ..)).fields.2) fun y hy => hx y (List.mem_cons_of_mem _ hy)

theorem dget_map {l : List (PyKey × J)} (h : ∀ e ∈ l, ∃ t, e.1 = .str t) (k : PyKey) :
    dget (l.map fun e => (PyKey.str e.1.text, e.2.file)) k = (dget l k).map J.file := by
  induction l with
  | nil => rfl
  | cons e l ih =>
    obtain ⟨t, ht⟩ := h e (List.mem_cons_self ..)
    have h1 : (PyKey.str e.1.text, e.2.file).1 = e.1 := by rw [ht]; rfl
    rw [List.map_cons, dget_cons, dget_cons, ih fun x hx => h x (List.mem_cons_of_mem _ hx)]
    by_cases hk : e.1 = k
    · rw [if_pos hk, if_pos (h1.trans hk)]; rfl
    · rw [if_neg hk, if_neg fun e' => hk (h1.symm.trans e')]

theorem keys_map {l : List (PyKey × J)} (h : ∀ e ∈ l, ∃ t, e.1 = .str t) :
    (l.map fun e => (PyKey.str e.1.text, e.2.file)).map Prod.fst = l.map Prod.fst := by
  rw [List.map_map]
  apply List.map_congr_left
  intro e he
  obtain ⟨t, ht⟩ := h e he
  simp [ht, PyKey.text]

theorem file_get {l : List (PyKey × J)} (h : Fields l) (k : Text) :
    (J.obj l).file.get k = (dget l (.str k)).map J.file := by
  rw [J.file, J.get]
  rw [fileFields_eq, dupdate_nodup _ _ (by rw [List.nil_append, keys_map h.2]; exact h.1), List.nil_append, dget_map h.2]

/-! ## Extra files -/

theorem fold_without {k : Text} {xs : List (List (PyKey × J))} (h : ∀ x ∈ xs, Without k x) (d : List (PyKey × J)) :
    dget (xs.foldl dupdate d) (.str k) = dget d (.str k) := by
  induction xs generalizing d with
  | nil => rfl
  | cons x xs ih =>
    rw [List.foldl_cons, ih fun y hy => h y (List.mem_cons_of_mem _ hy), dget_dupdate_not (h x (List.mem_cons_self ..))]

theorem fold_last {k : Text} {pre post : List (List (PyKey × J))} {x : List (PyKey × J)} {v : J} (hx : Extra x)
    (hm : (.str k, v) ∈ x) (h : ∀ y ∈ post, Without k y) (d : List (PyKey × J)) :
    dget ((pre ++ x :: post).foldl dupdate d) (.str k) = some v := by
  rw [List.foldl_append, List.foldl_cons, fold_without h]
  obtain ⟨w, hw, hg⟩ := dget_dupdate_some (pre.foldl dupdate d) (es := x) (k := .str k) ⟨_, hm, rfl⟩
  rw [hg, nodup_mem hx.fields.1 hw hm]

/-- The value comes from the beginning, or from the last file that has the key. -/
theorem fold_cases (k : Text) (xs : List (List (PyKey × J))) :
    (∀ x ∈ xs, Without k x) ∨ ∃ pre x post v, xs = pre ++ x :: post ∧ (.str k, v) ∈ x ∧ ∀ y ∈ post, Without k y := by
  induction xs with
  | nil => exact .inl fun x hx => by cases hx
  | cons x xs ih =>
    rcases ih with h | ⟨pre, y, post, v, rfl, h1, h2⟩
    · by_cases hx : ∃ e ∈ x, e.1 = PyKey.str k
      · obtain ⟨e, he, hk⟩ := hx
        exact .inr ⟨[], x, xs, e.2, rfl, hk ▸ he, h⟩
      · left
        intro y hy
        rcases List.mem_cons.1 hy with rfl | hy
        · exact fun e he hk => hx ⟨e, he, hk⟩
        · exact h y hy
    · exact .inr ⟨x :: pre, y, post, v, rfl, h1, h2⟩

/-! ## Enumerations -/

theorem addEnum_get {enums new : List (PyKey × J)} {k : Text} {v : List (PyKey × J)} (h : addEnum enums k v = some new)
    (k' : Text) (hk : k' ≠ k) : dget new (.str k') = dget enums (.str k') := by
  have : ¬ PyKey.str k = PyKey.str k' := fun e => hk (PyKey.str.inj e).symm
  rw [addEnum] at h
  split at h
  · cases h; rw [dget_dset, if_neg this]
  · cases h
  · cases h; rw [dget_dset, if_neg this]

theorem addEnum_self {enums new : List (PyKey × J)} {k : Text} {v : List (PyKey × J)} (h : addEnum enums k v = some new) :
    (dget enums (.str k) = none ∧ dget new (.str k) = some (.obj v)) ∨
      ∃ old, dget enums (.str k) = some (.obj old) ∧ dget new (.str k) = some (.obj (dupdate old v)) := by
  rw [addEnum] at h
  split at h
  · next old ho => cases h; exact .inr ⟨old, ho, by rw [dget_dset, if_pos rfl]⟩
  · cases h
  · next ho => cases h; exact .inl ⟨ho, by rw [dget_dset, if_pos rfl]⟩

theorem addEnum_fields {enums new : List (PyKey × J)} {k : Text} {v : List (PyKey × J)} (h : addEnum enums k v = some new)
    (hf : Fields enums) : Fields new := by
  rw [addEnum] at h
  split at h
  · cases h; exact hf.dset _ _
  · cases h
  · cases h; exact hf.dset _ _

theorem addEnums_fields {es : List (Text × List (PyKey × J))} {enums new : List (PyKey × J)}
    (h : addEnums enums es = some new) (hf : Fields enums) : Fields new := by
  induction es generalizing enums with
  | nil => cases h; exact hf
  | cons e es ih =>
    obtain ⟨k, v⟩ := e
    rw [addEnums, Option.bind_eq_some_iff] at h
    obtain ⟨m, h1, h2⟩ := h
    exact ih h2 (addEnum_fields h1 hf)

theorem addEnums_not {es : List (Text × List (PyKey × J))} {enums new : List (PyKey × J)}
    (h : addEnums enums es = some new) {k : Text} (hk : ∀ e ∈ es, e.1 ≠ k) :
    dget new (.str k) = dget enums (.str k) := by
  induction es generalizing enums with
  | nil => cases h; rfl
  | cons e es ih =>
    obtain ⟨k1, v⟩ := e
    rw [addEnums, Option.bind_eq_some_iff] at h
    obtain ⟨m, h1, h2⟩ := h
    rw [ih h2 fun x hx => hk x (List.mem_cons_of_mem _ hx),
      addEnum_get h1 k fun e => hk _ (List.mem_cons_self ..) e.symm]

theorem addEnums_self {es : List (Text × List (PyKey × J))} {enums new : List (PyKey × J)}
    (h : addEnums enums es = some new) (hn : (es.map Prod.fst).Nodup) {k : Text} {v : List (PyKey × J)} (hm : (k, v) ∈ es) :
    (dget enums (.str k) = none ∧ dget new (.str k) = some (.obj v)) ∨
      ∃ old, dget enums (.str k) = some (.obj old) ∧ dget new (.str k) = some (.obj (dupdate old v)) := by
  induction es generalizing enums with
  | nil => cases hm
  | cons e es ih =>
    obtain ⟨k1, v1⟩ := e
    rw [addEnums, Option.bind_eq_some_iff] at h
    obtain ⟨m, h1, h2⟩ := h
    rw [List.map_cons, List.nodup_cons] at hn
    rcases List.mem_cons.1 hm with e | hm
    · cases e
      rw [addEnums_not h2 fun e he hk => hn.1 (List.mem_map.2 ⟨e, he, hk⟩)]
      exact addEnum_self h1
    · have := ih h2 hn.2 hm
      rw [addEnum_get h1 k (fun e => hn.1 (List.mem_map.2 ⟨_, hm, e⟩))] at this
      exact this

theorem addEnums_some {es : List (Text × List (PyKey × J))} {enums : List (PyKey × J)}
    (h : ∀ e ∈ enums, ∃ vs, e.2 = .obj vs) : ∃ new, addEnums enums es = some new := by
  induction es generalizing enums with
  | nil => exact ⟨_, rfl⟩
  | cons e es ih =>
    obtain ⟨k, v⟩ := e
    have : ∃ m, addEnum enums k v = some m ∧ ∀ e ∈ m, ∃ vs, e.2 = .obj vs := by
      rw [addEnum]
      split
      · exact ⟨_, rfl, fun e he => (mem_dset he).elim (h e) fun e' => ⟨_, congrArg Prod.snd e'⟩⟩
      · next j hj hg =>
        obtain ⟨vs, hv⟩ := h _ (mem_of_dget hg)
        exact absurd hv (hj vs)
      · exact ⟨_, rfl, fun e he => (mem_dset he).elim (h e) fun e' => ⟨_, congrArg Prod.snd e'⟩⟩
    obtain ⟨m, h1, h2⟩ := this
    obtain ⟨new, hn⟩ := ih h2
    exact ⟨new, by rw [addEnums, h1]; exact hn⟩

/-! ## What is written -/

/-- The dictionary before enumerations are added. -/
def base (messages : List Message) (modules : List Module) (oldMessages : List Message) (oldModules : List Module) :
    List (PyKey × J) :=
  [(.str t!"messages", .arr (addNew (messages.map Message.toJson) (oldMessages.map Message.toJson))),
    (.str t!"modules", .arr (addNew (modules.map Module.toJson) (oldModules.map Module.toJson))),
    (.str t!"enums", .obj [])]

theorem base_fields (ms : List Message) (ds : List Module) (om : List Message) (od : List Module) :
    Fields (base ms ds om od) := by
  refine ⟨by simp [base], fun e he => ?_⟩
  simp only [base, List.mem_cons, List.not_mem_nil, or_false] at he
  rcases he with rfl | rfl | rfl <;> exact ⟨_, rfl⟩

theorem write_some {ms : List Message} {ds : List Module} {enums : List (Text × List (Text × Int))}
    {xs : List (List (PyKey × J))} {om : List Message} {od : List Module} {out : List (PyKey × J)}
    (h : writeJson ms ds enums xs om od = some out) :
    ∃ old new, dget (xs.foldl dupdate (base ms ds om od)) (.str t!"enums") = some (.obj old) ∧
      addEnums old (dupdate [] (enums.map fun e => (e.1, byValue e.2))) = some new ∧
      out = dset (.str t!"enums") (.obj new) (xs.foldl dupdate (base ms ds om od)) := by
  rw [writeJson] at h
  simp only [Option.bind_eq_some_iff, Option.map_eq_some_iff] at h
  obtain ⟨old, ⟨j, hj, ho⟩, new, hn, rfl⟩ := h
  cases j with
  | obj l => cases ho; exact ⟨_, new, hj, hn, rfl⟩
  | _ => cases ho

theorem out_fields {ms : List Message} {ds : List Module} {enums : List (Text × List (Text × Int))}
    {xs : List (List (PyKey × J))} {om : List Message} {od : List Module} {out : List (PyKey × J)}
    (h : writeJson ms ds enums xs om od = some out) (hx : ∀ x ∈ xs, Extra x) : Fields out := by
  obtain ⟨old, new, h1, h2, rfl⟩ := write_some h
  exact ((base_fields ms ds om od).foldl hx).dset _ _

theorem out_get {ms : List Message} {ds : List Module} {enums : List (Text × List (Text × Int))}
    {xs : List (List (PyKey × J))} {om : List Message} {od : List Module} {out : List (PyKey × J)}
    (h : writeJson ms ds enums xs om od = some out) (hx : ∀ x ∈ xs, Extra x) {k : Text} (hk : k ≠ t!"enums") :
    (J.obj out).file.get k = (dget (xs.foldl dupdate (base ms ds om od)) (.str k)).map J.file := by
  rw [file_get (out_fields h hx)]
  obtain ⟨old, new, h1, h2, rfl⟩ := write_some h
  rw [dget_dset, if_neg]
  intro e
  exact hk (PyKey.str.inj e).symm

theorem out_enums {ms : List Message} {ds : List Module} {enums : List (Text × List (Text × Int))}
    {xs : List (List (PyKey × J))} {om : List Message} {od : List Module} {out : List (PyKey × J)}
    (h : writeJson ms ds enums xs om od = some out) (hx : ∀ x ∈ xs, Extra x) :
    ∃ old new, dget (xs.foldl dupdate (base ms ds om od)) (.str t!"enums") = some (.obj old) ∧
      addEnums old (dupdate [] (enums.map fun e => (e.1, byValue e.2))) = some new ∧
      (J.obj out).file.get t!"enums" = some (J.obj new).file := by
  have hf := out_fields h hx
  obtain ⟨old, new, h1, h2, rfl⟩ := write_some h
  exact ⟨old, new, h1, h2, by rw [file_get hf, dget_dset, if_pos rfl]; rfl⟩

/-- The enumerations of the extra files. -/
theorem old_loaded {ms : List Message} {ds : List Module} {xs : List (List (PyKey × J))} {om : List Message}
    {od : List Module} {old : List (PyKey × J)} (hx : ∀ x ∈ xs, Extra x)
    (h : dget (xs.foldl dupdate (base ms ds om od)) (.str t!"enums") = some (.obj old)) : Extra old := by
  rcases fold_cases t!"enums" xs with hw | ⟨pre, x, post, v, rfl, hv, hp⟩
  · rw [fold_without hw] at h
    cases h
    simp [Extra, J.Loaded, LoadedO]
  · have hxx := hx x (by simp)
    rw [fold_last hxx hv hp] at h
    cases h
    exact hxx.mem hv

theorem mem_addNew {l js : List J} {j : J} : j ∈ addNew l js ↔ j ∈ l ∨ j ∈ js := by
  induction js generalizing l with
  | nil => simp [addNew]
  | cons x js ih =>
    rw [addNew, ih]
    split
    · next h =>
      constructor
      · rintro (h1 | h1)
        · exact .inl h1
        · exact .inr (List.mem_cons_of_mem _ h1)
      · rintro (h1 | h1)
        · exact .inl h1
        · rcases List.mem_cons.1 h1 with rfl | h1
          · exact .inl h
          · exact .inr h1
    · simp [or_assoc]

theorem intText_inj {a b : Int} (h : intText a = intText b) : a = b := by
  have ha := intOf_dec a
  rw [dec_eq, h, ← dec_eq, intOf_dec] at ha
  exact (Option.some.inj ha).symm

theorem mem_byValue {vs : List (Text × Int)} {k : PyKey} {j : J} (h : (k, j) ∈ byValue vs) :
    ∃ x ∈ vs, k = .int x.2 ∧ j = .str (code x.1) := by
  rcases mem_dupdate h with h | h
  · cases h
  · obtain ⟨x, hx, e⟩ := List.mem_map.1 h
    cases e
    exact ⟨x, hx, rfl, rfl⟩

theorem byValue_has {vs : List (Text × Int)} {x : Text × Int} (h : x ∈ vs) : ∃ j, (PyKey.int x.2, j) ∈ byValue vs := by
  obtain ⟨v, hv, hg⟩ := dget_dupdate_some (κ := PyKey) (α := J) [] (es := vs.map fun x => (.int x.2, .str (code x.1)))
    (k := .int x.2) ⟨_, List.mem_map_of_mem h, rfl⟩
  exact ⟨v, mem_of_dget hg⟩

theorem dupdate_append {κ α : Type} [DecidableEq κ] (d a b : List (κ × α)) : dupdate d (a ++ b) = dupdate (dupdate d a) b := by
  induction a generalizing d with
  | nil => rfl
  | cons e a ih => rw [List.cons_append, dupdate, dupdate, ih]

theorem byValue_nodup (vs : List (Text × Int)) : ((byValue vs).map Prod.fst).Nodup := nodup_dupdate (by simp) _

theorem dupdate_byValue {old : List (PyKey × J)} (ho : Fields old) (vs : List (Text × Int)) :
    dupdate old (byValue vs) = old ++ byValue vs := by
  apply dupdate_nodup
  rw [List.map_append, List.nodup_append]
  refine ⟨ho.1, byValue_nodup vs, ?_⟩
  intro a ha b hb
  obtain ⟨e, he, rfl⟩ := List.mem_map.1 ha
  obtain ⟨f, hf, rfl⟩ := List.mem_map.1 hb
  obtain ⟨t, ht⟩ := ho.2 e he
  obtain ⟨x, _, hx, _⟩ := mem_byValue hf
  rw [ht, hx]
  simp

/-- A value of the program. -/
theorem get_value {old : List (PyKey × J)} (ho : Fields old) {vs : List (Text × Int)} {x : Text × Int} (hx : x ∈ vs) :
    ∃ y ∈ vs, y.2 = x.2 ∧ (J.obj (dupdate old (byValue vs))).file.get (intText x.2) = some (.str (code y.1)) := by
  rw [dupdate_byValue ho, J.file, J.get]
  rw [fileFields_eq, List.map_append, dupdate_append]
  obtain ⟨j, hj⟩ := byValue_has hx
  obtain ⟨v, hv, hg⟩ := dget_dupdate_some (dupdate [] (old.map fun e => (PyKey.str e.1.text, e.2.file)))
    (es := (byValue vs).map fun e => (PyKey.str e.1.text, e.2.file)) (k := .str (intText x.2))
    ⟨_, List.mem_map_of_mem hj, rfl⟩
  obtain ⟨e, he, hev⟩ := List.mem_map.1 hv
  obtain ⟨y, hy, hk, hj'⟩ := mem_byValue he
  obtain ⟨h1, h2⟩ := Prod.mk.inj hev
  rw [hk] at h1
  refine ⟨y, hy, intText_inj (PyKey.str.inj h1), ?_⟩
  rw [hg, ← h2, hj']
  rfl

/-- Another value. -/
theorem get_other {old : List (PyKey × J)} (ho : Fields old) {vs : List (Text × Int)} {t : Text}
    (ht : ∀ x ∈ vs, intText x.2 ≠ t) :
    (J.obj (dupdate old (byValue vs))).file.get t = (J.obj old).file.get t := by
  rw [dupdate_byValue ho, J.file, J.get, J.file, J.get]
  rw [fileFields_eq, List.map_append, dupdate_append, dget_dupdate_not, fileFields_eq]
  intro e he hk
  obtain ⟨f, hf, rfl⟩ := List.mem_map.1 he
  obtain ⟨y, hy, hk', _⟩ := mem_byValue hf
  rw [hk'] at hk
  exact ht y hy (PyKey.str.inj hk)

end Verif.Json
