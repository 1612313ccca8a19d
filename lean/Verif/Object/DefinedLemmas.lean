import Verif.Object.EffectLemmas

/-! Lemmas: statements that have a meaning compile and stay inside their storages. -/
namespace Verif.Object
open Verif.Bits Verif.Message

theorem fits_of {fs : List MField} (hfs : GoodDef fs) {W n : Nat} (h : FitsIn fs (n * W)) : fits fs W n = true := by
  simp only [fits, List.all_eq_true, Fld.fitsInside, List.mem_map]
  rintro f hf _ ⟨a, ha, rfl⟩
  have hv := valid_le ((hfs.2 f hf).1.1 a ha)
  have hm := loc_msb hv.1
  have := h f hf a.msb ((mem_fld_positions _ _).2 ⟨a, ha, hv.1, Nat.le_refl _⟩)
  simp only [Loc.fitsInside, decide_eq_true_eq, hm]
  rw [Nat.mul_comm]; omega

theorem setOk_of {fs : List MField} {vs : List (Nat × Nat)} (h : Settable fs vs) : setOk fs vs = true := by
  simp only [setOk, List.all_eq_true]
  intro nv hnv
  obtain ⟨f, hf, hd⟩ := h nv hnv
  rw [named_eq] at hf
  rw [hf]
  rcases hd with hd | ⟨d, hd⟩ <;> simp [hd, Dflt.isMutable]

theorem setValues_defined {W : Nat} (hW : Narrow W) {fs : List MField} (hfs : GoodDef fs) {n : Nat}
    (hin : FitsIn fs (n * W)) : ∀ (vs : List (Nat × Nat)) (r : List (BitVec W)), r.length = n →
      (∀ nv ∈ vs, ∃ f, named fs nv.1 = some f) → ∃ r', setValues W fs r vs = some r' := by
  intro vs
  induction vs with
  | nil => intro r _ _; exact ⟨r, rfl⟩
  | cons nv vs ih =>
    intro r hr h
    obtain ⟨f, hf⟩ := h nv (by simp)
    rw [named_eq] at hf
    have hm := (find_mem hf).1
    obtain ⟨hl, hno⟩ := hfs.2 f hm
    obtain ⟨r1, h1⟩ := put_defined hW hl (r := r) nv.2 (by rw [hr]; exact hin f hm)
    obtain ⟨_, h2, _⟩ := put_row hW hl hno h1
    obtain ⟨r2, h3⟩ := ih r1 (by omega) fun mv hmv => h mv (by simp [hmv])
    refine ⟨r2, ?_⟩
    simp only [setValues, List.foldlM_cons, set1, hf, Option.bind_eq_bind, Option.bind_some, h1]
    exact h3

theorem put_total {s : St} {x : Obj} (hx : Fine s.mem x) (r : List (BitVec x.W)) : ∃ s', s.put x r = some s' := by
  obtain ⟨st, h1, h2, _⟩ := hx.inside
  simp [St.put, h1, h2]

theorem defaultsOf_named {fs : List MField} {ns : List Nat} : ∀ nv ∈ defaultsOf fs ns, ∃ f, named fs nv.1 = some f := by
  intro nv h
  simp only [defaultsOf, List.mem_filterMap] at h
  obtain ⟨n, _, h⟩ := h
  split at h
  · next f hf =>
    split at h <;> first | (cases h; exact ⟨f, hf⟩) | cases h
  · cases h

theorem setOp_defined {s : St} {w : World} (h : Good s w) {x : Obj} (hx : Fine s.mem x) (hk : x.kind ≠ .array)
    (hin : FitsIn x.fs (x.len * x.W)) {op : SetOp} (hok : op.ok x.fs = true)
    (hc : noArgs op = true ∨ x.const = false) : ∃ s', s.setOp x op = some s' := by
  simp only [St.setOp, if_neg hk]
  split
  · exact ⟨s, rfl⟩
  · next hn =>
    have hc' : x.const = false := by rcases hc with hc | hc; exact absurd hc hn; exact hc
    rw [if_pos ⟨hc', hok⟩]
    obtain ⟨r, hr⟩ := data_defined hx
    obtain ⟨_, _, _, _, hl, _⟩ := data_some hr
    have hv : ∀ nv ∈ valuesOf x.fs op, ∃ f, named x.fs nv.1 = some f := by
      cases op with
      | values vs =>
        intro nv hnv
        have := setOk_names (fs := x.fs) hok nv hnv
        rw [List.mem_map] at this
        obtain ⟨f, hf, he⟩ := this
        exact ⟨f, by rw [named_eq, ← he]; exact find_eq hx.fields.1 hf⟩
      | names ns => exact defaultsOf_named
    obtain ⟨r', hr'⟩ := setValues_defined (h.wf.narrow hx) hx.fields hin _ r hl hv
    obtain ⟨s', hs'⟩ := put_total hx r'
    exact ⟨s', by simp [hr, runOp_values hok, hr', hs']⟩

theorem window_defined {s : St} {w : World} (h : Good s w) {v : Obj} (hk : v.kind = .view) (hv : Fine s.mem v)
    (hin : FitsIn v.fs (v.len * v.W)) {vs : List (Nat × Nat)} (hok : Settable v.fs vs)
    (hc : vs = [] ∨ v.const = false) : ∃ s', s.window v vs = some s' := by
  rw [St.window, if_pos (fits_of hv.fields hin)]
  have h' : Good ⟨s.mem, s.objs ++ [v]⟩ (w.see (Window.of v)) := ⟨h.wf.addView hk hv, h.sim.see v⟩
  refine setOp_defined h' hv (by simp [hk]) hin (setOk_of hok) ?_
  rcases hc with rfl | hc
  · exact .inl rfl
  · exact .inr hc

theorem ownerCopy_defined {s : St} {w : World} (h : Good s w) {fs : List MField} (hfs : GoodDef fs) {x : Obj}
    (hx : Fine s.mem x) {n : Nat} (hin : FitsIn fs (n * x.W)) {vs : List (Nat × Nat)} (hok : Settable fs vs) :
    ∃ s', s.ownerCopy fs x n vs = some s' := by
  rw [St.ownerCopy, if_pos ⟨fits_of hfs hin, setOk_of hok⟩]
  obtain ⟨r, hr⟩ := data_defined hx
  have hl : (r.take (min r.length n) ++ List.replicate (n - min r.length n) (0 : BitVec x.W)).length = n := by
    simp; omega
  obtain ⟨r', hr'⟩ := setValues_defined (h.wf.narrow hx) hfs hin vs _ hl fun nv hnv =>
    let ⟨f, hf, _⟩ := hok nv hnv; ⟨f, hf⟩
  have hc : constructFrom x.W n fs r vs = some r' := hr'
  exact ⟨_, by simp only [hr, hc, Option.bind_eq_bind, Option.bind_some]; rfl⟩

/-- Every variable contains the fields of its definition. -/
def Full (w : World) : Prop := ∀ x ∈ w.vars, FitsIn x.fs x.size

theorem owningFits {fs : List MField} : FitsIn fs (owningSize fs) := by
  intro f hf p hp
  have h : (p / 32 + 1) * 32 ≤ owningSize fs := by
    apply le_foldl_max
    right
    exact List.mem_map.2 ⟨p, List.mem_flatMap.2 ⟨f, hf, hp⟩, rfl⟩
  omega

theorem settable_nil (fs : List MField) : Settable fs [] := by intro nv h; cases h

theorem step_defined {s : St} {w : World} (h : Good s w) (hfull : Full w) {t : Stmt} (htg : t.Good)
    (hl : w.Legal 0 t) : ∃ s', s.step t = some s' := by
  have obj : ∀ (i : Nat) (X : Window), w.vars[i]? = some X → ∃ x, s.objs[i]? = some x ∧ X = Window.of x ∧
      Fine s.mem x ∧ FitsIn x.fs (x.len * x.W) ∧ 0 < x.W := by
    intro i X hX
    have hm := hfull X (List.mem_of_getElem? hX)
    rw [h.sim.vars, List.getElem?_map, Option.map_eq_some_iff] at hX
    obtain ⟨x, hx, rfl⟩ := hX
    have hf := h.wf.fine x (List.mem_of_getElem? hx)
    exact ⟨x, hx, rfl, hf, hm, (h.wf.narrow hf).pos⟩
  cases t with
  | array W els => exact ⟨_, rfl⟩
  | poke i k v =>
    obtain ⟨X, hX, hk, hle⟩ := hl
    obtain ⟨x, hx, rfl, hf, _, hW⟩ := obj i X hX
    have hkl : k < x.len := Nat.lt_of_mul_lt_mul_right (a := x.W) (by
      have : (k + 1) * x.W ≤ x.len * x.W := hle
      rw [Nat.succ_mul] at this; omega)
    obtain ⟨r, hr⟩ := data_defined hf
    obtain ⟨s', hs'⟩ := put_total hf (r.set k (BitVec.ofNat x.W v))
    refine ⟨s', ?_⟩
    simp only [St.step, hx, Option.bind_eq_bind, Option.bind_some]
    rw [if_pos ⟨hk, hkl⟩, hr]
    exact hs'
  | owning fs vs =>
    have hfs : GoodDef fs := htg
    have hW : Narrow defaultW := .inr (.inr rfl)
    have hin : FitsIn fs (storageSize defaultW fs * defaultW) := by
      have := owningSize_eq hfs
      simp only [defaultW] at this ⊢
      rw [this]; exact owningFits
    have hn : ∀ n ∈ fs.map (·.name), (find fs n).isSome := by
      intro n hn
      obtain ⟨f, hf, rfl⟩ := List.mem_map.1 hn
      rw [find_eq hfs.1 hf]; rfl
    have hcons : constructOk fs vs = true := by
      simp only [constructOk, Bool.and_eq_true, List.all_eq_true, Bool.or_eq_true, List.any_eq_true, beq_iff_eq]
      refine ⟨fun f hf => ?_, setOk_of hl.1⟩
      rcases hl.2 f hf with h | h
      · left
        cases hd : f.dflt <;> simp_all [Dflt.initializable]
      · exact .inr h
    obtain ⟨r, hr⟩ := setValues_defined hW hfs hin (defaultsOf fs (fs.map (·.name)))
      (List.replicate (storageSize defaultW fs) 0) (by simp) defaultsOf_named
    obtain ⟨_, hlen, _⟩ := setValues_row hW hfs _ _ _ hr
    obtain ⟨r', hr'⟩ := setValues_defined hW hfs hin vs r (by rw [hlen]; simp) fun nv hnv =>
      let ⟨f, hf, _⟩ := hl.1 nv hnv; ⟨f, hf⟩
    simp only [St.step]
    rw [if_pos ⟨fits_of hfs hin, hcons⟩]
    have hc : construct defaultW (storageSize defaultW fs) fs vs = some r' := by
      rw [construct, setDefaults_values _ _ hn, hr]; exact hr'
    exact ⟨_, by simp only [hc, Option.bind_eq_bind, Option.bind_some]; rfl⟩
  | owningFrom fs i vs =>
    obtain ⟨X, hX, hk, hu, hset⟩ := hl
    obtain ⟨x, hx, rfl, hf, _, hW⟩ := obj i X hX
    have hfs : GoodDef fs := htg
    have hu' : x.W = defaultW := hu
    simp only [St.step, hx, Option.bind_eq_bind, Option.bind_some]
    rw [if_pos ⟨hk, hu'⟩]
    refine ownerCopy_defined h hfs hf ?_ hset
    rw [hu']
    have := owningSize_eq hfs
    simp only [defaultW] at this ⊢
    rw [this]; exact owningFits
  | ownerFrom fs i vs =>
    obtain ⟨X, hX, hk, hin, hset⟩ := hl
    obtain ⟨x, hx, rfl, hf, _, hW⟩ := obj i X hX
    simp only [St.step, hx, Option.bind_eq_bind, Option.bind_some]
    rw [if_pos (show x.kind = .array ∨ x.kind = .view ∧ x.fs = fs from hk)]
    exact ownerCopy_defined h htg hf hin hset
  | asOwning i =>
    obtain ⟨X, hX, hk⟩ := hl
    obtain ⟨x, hx, rfl, hf, hin, hW⟩ := obj i X hX
    simp only [St.step, hx, Option.bind_eq_bind, Option.bind_some]
    rw [if_pos (show x.kind = .view from hk)]
    exact ownerCopy_defined h hf.fields hf hin (settable_nil _)
  | view fs i vs =>
    obtain ⟨X, hX, hk, hin, hset⟩ := hl
    obtain ⟨x, hx, rfl, hf, _, hW⟩ := obj i X hX
    simp only [St.step, hx, Option.bind_eq_bind, Option.bind_some]
    rw [if_pos (show x.kind = .array ∨ x.kind = .owner ∧ x.fs = fs from hk)]
    exact window_defined h rfl (hf.view (len := x.len) (off := 0) htg false (by omega)) hin hset (.inr rfl)
  | constView fs i =>
    obtain ⟨X, hX, hk, hin⟩ := hl
    obtain ⟨x, hx, rfl, hf, _, hW⟩ := obj i X hX
    simp only [St.step, hx, Option.bind_eq_bind, Option.bind_some]
    rw [if_pos (show x.kind = .array ∨ x.kind = .owner ∧ x.fs = fs from hk)]
    exact window_defined h rfl (hf.view (len := x.len) (off := 0) htg true (by omega)) hin (settable_nil _) (.inl rfl)
  | spanView fs i off len vs =>
    obtain ⟨X, hX, hle, hin, hset, hc⟩ := hl
    obtain ⟨x, hx, rfl, hf, _, hW⟩ := obj i X hX
    have hle' : off + len ≤ x.len := Nat.le_of_mul_le_mul_right hle hW
    simp only [St.step, hx, Option.bind_eq_bind, Option.bind_some]
    rw [if_pos hle']
    exact window_defined h rfl (hf.view htg x.const hle') hin hset hc
  | asMutable i =>
    obtain ⟨X, hX, hk⟩ := hl
    obtain ⟨x, hx, rfl, hf, hin, hW⟩ := obj i X hX
    simp only [St.step, hx, Option.bind_eq_bind, Option.bind_some]
    rw [if_pos (show x.kind = .owner from hk)]
    exact window_defined h rfl (hf.view (len := x.len) (off := 0) hf.fields false (by omega)) hin (settable_nil _) (.inl rfl)
  | asConst i =>
    obtain ⟨X, hX, hk⟩ := hl
    obtain ⟨x, hx, rfl, hf, hin, hW⟩ := obj i X hX
    simp only [St.step, hx, Option.bind_eq_bind, Option.bind_some]
    rw [if_neg (show ¬ x.kind = .array from hk)]
    exact window_defined h rfl (hf.view (len := x.len) (off := 0) hf.fields true (by omega)) hin (settable_nil _) (.inl rfl)
  | narrow i len =>
    obtain ⟨X, hX, hk, hle, hin⟩ := hl
    obtain ⟨x, hx, rfl, hf, _, hW⟩ := obj i X hX
    have hle' : len ≤ x.len := Nat.le_of_mul_le_mul_right hle hW
    simp only [St.step, hx, Option.bind_eq_bind, Option.bind_some]
    rw [if_pos ⟨hk, hle'⟩]
    exact window_defined h rfl (hf.view (len := len) (off := 0) hf.fields true (by omega)) hin (settable_nil _) (.inl rfl)
  | copy i =>
    obtain ⟨X, hX⟩ := hl
    obtain ⟨x, hx, rfl, hf, _, hW⟩ := obj i X hX
    obtain ⟨r, hr⟩ := data_defined hf
    simp only [St.step, hx, Option.bind_eq_bind, Option.bind_some]
    split
    · exact ⟨_, rfl⟩
    · simp [hr]
  | assign i j =>
    obtain ⟨X, Y, hX, hY, h1, h2, h3, h4, h5⟩ := hl
    obtain ⟨x, hx, rfl, hf, _, hW⟩ := obj i X hX
    obtain ⟨y, hy, rfl, hfy, _, _⟩ := obj j Y hY
    have h3' : x.W = y.W := h3
    have h4' : x.len = y.len := by
      have : x.len * x.W = y.len * y.W := h4
      rw [← h3'] at this
      exact Nat.eq_of_mul_eq_mul_right hW this
    obtain ⟨r, hr⟩ := data_defined hfy
    simp only [St.step, hx, hy, Option.bind_eq_bind, Option.bind_some]
    rw [dif_pos ⟨h1, h2, h3', h4', h5⟩]
    split
    · exact ⟨_, rfl⟩
    · rw [hr]; exact put_total hf _
  | set i op =>
    cases op with
    | values vs =>
      obtain ⟨X, hX, hk, hc, hset⟩ := hl
      obtain ⟨x, hx, rfl, hf, hin, hW⟩ := obj i X hX
      simp only [St.step, hx, Option.bind_eq_bind, Option.bind_some]
      exact setOp_defined h hf hk hin (setOk_of hset) (hc.imp (fun e => by rw [e]; rfl) id)
    | names ns =>
      obtain ⟨X, hX, hk, hc, hset⟩ := hl
      obtain ⟨x, hx, rfl, hf, hin, hW⟩ := obj i X hX
      simp only [St.step, hx, Option.bind_eq_bind, Option.bind_some]
      refine setOp_defined h hf hk hin ?_ (hc.imp (fun e => by rw [e]; rfl) id)
      simp only [SetOp.ok, setNamesOk, List.all_eq_true]
      intro n hn
      obtain ⟨f, hf'⟩ := hset n hn
      rw [named_eq] at hf'
      have : find x.fs n = some f := hf'
      rw [this]; rfl
  | index i n v =>
    obtain ⟨X, hX, hk, hc, hset⟩ := hl
    obtain ⟨x, hx, rfl, hf, hin, hW⟩ := obj i X hX
    simp only [St.step, hx, Option.bind_eq_bind, Option.bind_some]
    exact setOp_defined h hf hk hin (setOk_of hset) (.inr hc)

theorem full_add {w w' : World} {v : Window} (h : Full w) (hv : w'.vars = w.vars ++ [v]) (hf : FitsIn v.fs v.size) :
    Full w' := by
  intro x hx
  rw [hv] at hx
  rcases List.mem_append.1 hx with hx | hx
  · exact h x hx
  · simp only [List.mem_singleton] at hx; subst hx; exact hf

theorem step_full {w : World} (h : Full w) {t : Stmt} (hl : w.Legal 0 t) : Full (w.step t) := by
  have got : ∀ {i : Nat} {x : Window}, w.vars[i]? = some x → FitsIn x.fs x.size :=
    fun hx => h _ (List.mem_of_getElem? hx)
  cases t with
  | array W els => exact full_add h rfl (by intro f hf; cases hf)
  | poke i k v =>
    obtain ⟨x, hx, _⟩ := hl
    simp only [World.step, hx]; exact h
  | owning fs vs => exact full_add h rfl owningFits
  | owningFrom fs i vs =>
    obtain ⟨x, hx, _⟩ := hl
    simp only [World.step, hx]; exact full_add h rfl owningFits
  | ownerFrom fs i vs =>
    obtain ⟨x, hx, _, hin, _⟩ := hl
    simp only [World.step, hx]; exact full_add h rfl hin
  | asOwning i =>
    obtain ⟨x, hx, _⟩ := hl
    simp only [World.step, hx]; exact full_add h rfl (have := got hx; this)
  | view fs i vs =>
    obtain ⟨x, hx, _, hin, _⟩ := hl
    simp only [World.step, hx]
    exact full_add (v := { x with kind := .view, fs := fs }) h rfl hin
  | constView fs i =>
    obtain ⟨x, hx, _, hin⟩ := hl
    simp only [World.step, hx]
    exact full_add (v := { x with kind := .view, fs := fs, const := true }) h rfl hin
  | spanView fs i off len vs =>
    obtain ⟨x, hx, _, hin, _⟩ := hl
    simp only [World.step, hx]
    exact full_add (v := ⟨.view, fs, x.unit, len * x.unit, x.const, x.row, x.lo + off * x.unit⟩) h rfl hin
  | asMutable i =>
    obtain ⟨x, hx, _⟩ := hl
    simp only [World.step, hx]
    exact full_add (v := { x with kind := .view }) h rfl (have := got hx; this)
  | asConst i =>
    obtain ⟨x, hx, _⟩ := hl
    simp only [World.step, hx]
    exact full_add (v := { x with kind := .view, const := true }) h rfl (have := got hx; this)
  | narrow i len =>
    obtain ⟨x, hx, _, _, hin⟩ := hl
    simp only [World.step, hx]
    exact full_add (v := { x with kind := .view, const := true, size := len * x.unit }) h rfl hin
  | copy i =>
    obtain ⟨x, hx⟩ := hl
    simp only [World.step, hx]
    split
    · exact full_add h rfl (have := got hx; this)
    · exact full_add h rfl (have := got hx; this)
  | assign i j =>
    obtain ⟨x, y, hx, hy, _⟩ := hl
    simp only [World.step, hx, hy]
    split
    · intro z hz
      rcases List.mem_or_eq_of_mem_set hz with hz | rfl
      · exact h z hz
      · exact got hy
    · exact h
  | set i op =>
    have : ∃ x, w.vars[i]? = some x := by
      cases op with
      | values vs => obtain ⟨x, hx, _⟩ := hl; exact ⟨x, hx⟩
      | names ns => obtain ⟨x, hx, _⟩ := hl; exact ⟨x, hx⟩
    obtain ⟨x, hx⟩ := this
    simp only [World.step, hx]; exact h
  | index i n v =>
    obtain ⟨x, hx, _⟩ := hl
    simp only [World.step, hx]; exact h

theorem run_defined : ∀ {p : List Stmt} {s : St} {w : World}, Good s w → Full w → (∀ t ∈ p, t.Good) →
    LegalFrom 0 w p → ∃ s', s.run p = some s' ∧ Full (p.foldl World.step w) := by
  intro p
  induction p with
  | nil => intro s w _ hf _ _; exact ⟨s, rfl, hf⟩
  | cons t p ih =>
    intro s w hg hf hp hl
    obtain ⟨s1, h1⟩ := step_defined hg hf (hp t (by simp)) hl.1
    obtain ⟨s2, h2, h3⟩ := ih (step_good hg (hp t (by simp)) h1) (step_full hf hl.1) (fun u hu => hp u (by simp [hu])) hl.2
    refine ⟨s2, ?_, h3⟩
    simp only [St.run, List.foldlM_cons, Option.bind_eq_bind, h1, Option.bind_some]
    exact h2

theorem fitsIn_of {fs : List MField} (hfs : GoodDef fs) {W n : Nat} (h : fits fs W n = true) :
    FitsIn fs (n * W + 1) := by
  intro f hf p hp
  obtain ⟨a, ha, _, h2⟩ := (mem_fld_positions _ _).1 hp
  have hv := valid_le ((hfs.2 f hf).1.1 a ha)
  have hm := loc_msb hv.1
  simp only [fits, List.all_eq_true, Fld.fitsInside, List.mem_map] at h
  have := h f hf _ ⟨a, ha, rfl⟩
  simp only [Loc.fitsInside, decide_eq_true_eq, hm] at this
  rw [Nat.mul_comm] at this; omega

theorem settable_of {fs : List MField} {vs : List (Nat × Nat)} (h : setOk fs vs = true) : Settable fs vs := by
  intro nv hnv
  simp only [setOk, List.all_eq_true] at h
  have := h nv hnv
  split at this
  · next f hf =>
    refine ⟨f, by rw [named_eq]; exact hf, ?_⟩
    cases hd : f.dflt <;> simp_all [Dflt.isMutable]
  · cases this

theorem setOp_only {s s' : St} {x : Obj} {op : SetOp} (h : s.setOp x op = some s') :
    x.kind ≠ .array ∧ (noArgs op = true ∨ x.const = false ∧ op.ok x.fs = true) := by
  simp only [St.setOp] at h
  split at h
  · cases h
  · next hk =>
    split at h
    · next hn => exact ⟨hk, .inl hn⟩
    · split at h
      · next hc => exact ⟨hk, .inr hc⟩
      · cases h

theorem window_only {s s' : St} {v : Obj} {vs : List (Nat × Nat)} (h : s.window v vs = some s') :
    fits v.fs v.W v.len = true ∧ Settable v.fs vs ∧ (vs = [] ∨ v.const = false) := by
  simp only [St.window] at h
  split at h
  · next hf =>
    obtain ⟨_, hc⟩ := setOp_only h
    cases vs with
    | nil => exact ⟨hf, settable_nil _, .inl rfl⟩
    | cons nv vs =>
      rcases hc with hc | ⟨hc, ho⟩
      · cases hc
      · exact ⟨hf, settable_of ho, .inr hc⟩
  · cases h

theorem ownerCopy_only {s s' : St} {fs : List MField} {x : Obj} {n : Nat} {vs : List (Nat × Nat)}
    (h : s.ownerCopy fs x n vs = some s') : fits fs x.W n = true ∧ Settable fs vs := by
  simp only [St.ownerCopy] at h
  split at h
  · next hc => exact ⟨hc.1, settable_of hc.2⟩
  · cases h

theorem step_only {s s' : St} {w : World} (h : Good s w) {t : Stmt} (ht : t.Good) (hs : s.step t = some s') :
    w.Legal 1 t := by
  have get : ∀ {i : Nat} {x : Obj}, s.objs[i]? = some x → w.vars[i]? = some (Window.of x) := fun hx => h.sim.get hx
  have fine : ∀ {i : Nat} {x : Obj}, s.objs[i]? = some x → Fine s.mem x :=
    fun hx => h.wf.fine _ (List.mem_of_getElem? hx)
  cases t with
  | array W els => trivial
  | poke i k v =>
    simp only [St.step, Option.bind_eq_bind, Option.bind_eq_some_iff] at hs
    obtain ⟨x, hx, hs⟩ := hs
    split at hs
    · next hc => exact ⟨_, get hx, hc.1, Nat.mul_le_mul_right _ hc.2⟩
    · cases hs
  | owning fs vs =>
    simp only [St.step] at hs
    split at hs
    · next hc =>
      have hc := hc.2
      simp only [constructOk, Bool.and_eq_true, List.all_eq_true, Bool.or_eq_true, List.any_eq_true, beq_iff_eq] at hc
      refine ⟨settable_of hc.2, fun f hf => ?_⟩
      rcases hc.1 f hf with h1 | h1
      · left; intro hd; rw [hd] at h1; cases h1
      · exact .inr h1
    · cases hs
  | owningFrom fs i vs =>
    simp only [St.step, Option.bind_eq_bind, Option.bind_eq_some_iff] at hs
    obtain ⟨x, hx, hs⟩ := hs
    split at hs
    · next hc => exact ⟨_, get hx, hc.1, hc.2, (ownerCopy_only hs).2⟩
    · cases hs
  | ownerFrom fs i vs =>
    simp only [St.step, Option.bind_eq_bind, Option.bind_eq_some_iff] at hs
    obtain ⟨x, hx, hs⟩ := hs
    split at hs
    · next hc => exact ⟨_, get hx, hc, fitsIn_of ht (ownerCopy_only hs).1, (ownerCopy_only hs).2⟩
    · cases hs
  | asOwning i =>
    simp only [St.step, Option.bind_eq_bind, Option.bind_eq_some_iff] at hs
    obtain ⟨x, hx, hs⟩ := hs
    split at hs
    · next hc => exact ⟨_, get hx, hc⟩
    · cases hs
  | view fs i vs =>
    simp only [St.step, Option.bind_eq_bind, Option.bind_eq_some_iff] at hs
    obtain ⟨x, hx, hs⟩ := hs
    split at hs
    · next hc => exact ⟨_, get hx, hc, fitsIn_of ht (window_only hs).1, (window_only hs).2.1⟩
    · cases hs
  | constView fs i =>
    simp only [St.step, Option.bind_eq_bind, Option.bind_eq_some_iff] at hs
    obtain ⟨x, hx, hs⟩ := hs
    split at hs
    · next hc => exact ⟨_, get hx, hc, fitsIn_of ht (window_only hs).1⟩
    · cases hs
  | spanView fs i off len vs =>
    simp only [St.step, Option.bind_eq_bind, Option.bind_eq_some_iff] at hs
    obtain ⟨x, hx, hs⟩ := hs
    split at hs
    · next hc =>
      exact ⟨_, get hx, Nat.mul_le_mul_right _ hc, fitsIn_of ht (window_only hs).1, (window_only hs).2⟩
    · cases hs
  | asMutable i =>
    simp only [St.step, Option.bind_eq_bind, Option.bind_eq_some_iff] at hs
    obtain ⟨x, hx, hs⟩ := hs
    split at hs
    · next hc => exact ⟨_, get hx, hc⟩
    · cases hs
  | asConst i =>
    simp only [St.step, Option.bind_eq_bind, Option.bind_eq_some_iff] at hs
    obtain ⟨x, hx, hs⟩ := hs
    split at hs
    · cases hs
    · next hc => exact ⟨_, get hx, hc⟩
  | narrow i len =>
    simp only [St.step, Option.bind_eq_bind, Option.bind_eq_some_iff] at hs
    obtain ⟨x, hx, hs⟩ := hs
    split at hs
    · next hc =>
      exact ⟨_, get hx, hc.1, Nat.mul_le_mul_right _ hc.2, fitsIn_of (fine hx).fields (window_only hs).1⟩
    · cases hs
  | copy i =>
    simp only [St.step, Option.bind_eq_bind, Option.bind_eq_some_iff] at hs
    obtain ⟨x, hx, hs⟩ := hs
    exact ⟨_, get hx⟩
  | assign i j =>
    simp only [St.step, Option.bind_eq_bind, Option.bind_eq_some_iff] at hs
    obtain ⟨x, hx, y, hy, hs⟩ := hs
    split at hs
    · next hc =>
      obtain ⟨h1, h2, h3, h4, h5⟩ := hc
      exact ⟨_, _, get hx, get hy, h1, h2, h3, by simp only [Window.of]; rw [h3, h4], h5⟩
    · cases hs
  | set i op =>
    simp only [St.step, Option.bind_eq_bind, Option.bind_eq_some_iff] at hs
    obtain ⟨x, hx, hs⟩ := hs
    obtain ⟨hk, hc⟩ := setOp_only hs
    cases op with
    | values vs =>
      rcases hc with hc | ⟨hc, ho⟩
      · cases vs with
        | nil => exact ⟨_, get hx, hk, .inl rfl, settable_nil _⟩
        | cons => cases hc
      · exact ⟨_, get hx, hk, .inr hc, settable_of ho⟩
    | names ns =>
      rcases hc with hc | ⟨hc, ho⟩
      · cases ns with
        | nil => exact ⟨_, get hx, hk, .inl rfl, by simp⟩
        | cons => cases hc
      · refine ⟨_, get hx, hk, .inr hc, fun n hn => ?_⟩
        simp only [SetOp.ok, setNamesOk, List.all_eq_true] at ho
        obtain ⟨f, hf⟩ := Option.isSome_iff_exists.1 (ho n hn)
        exact ⟨f, by rw [named_eq]; exact hf⟩
  | index i n v =>
    simp only [St.step, Option.bind_eq_bind, Option.bind_eq_some_iff] at hs
    obtain ⟨x, hx, hs⟩ := hs
    obtain ⟨hk, hc⟩ := setOp_only hs
    rcases hc with hc | ⟨hc, ho⟩
    · cases hc
    · exact ⟨_, get hx, hk, hc, settable_of ho⟩

theorem run_only : ∀ {p : List Stmt} {s s' : St} {w : World}, Good s w → (∀ t ∈ p, t.Good) → s.run p = some s' →
    LegalFrom 1 w p := by
  intro p
  induction p with
  | nil => intros; trivial
  | cons t p ih =>
    intro s s' w hg hp hr
    simp only [St.run, List.foldlM_cons, Option.bind_eq_bind, Option.bind_eq_some_iff] at hr
    obtain ⟨s1, h1, h2⟩ := hr
    exact ⟨step_only hg (hp t (by simp)) h1,
      ih (step_good hg (hp t (by simp)) h1) (fun u hu => hp u (by simp [hu])) h2⟩

end Verif.Object
