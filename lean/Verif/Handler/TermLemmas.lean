import Verif.Handler.Lemmas
/-!
# Lemmas about the conjunctions which an indexed service is built from
-/
namespace Verif.Handler
open Verif.Match

/-! ### Predicates kept by `sum_of_products` -/

theorem sopF_pres {α : Type} (ops : LeafOps α) (G : M α → Prop)
    (gor : ∀ a b, G (.or a b) ↔ G a ∧ G b) (gand : ∀ a b, G (.and a b) ↔ G a ∧ G b)
    (gnand : ∀ a b, G (.not (.and a b)) → G (negate ops a) ∧ G (negate ops b))
    (gnor : ∀ a b, G (.not (.or a b)) → G (negate ops a) ∧ G (negate ops b))
    (n : Nat) (m r : M α) (hm : G m) (hr : sopF ops n m = some r) : G r := by
  induction n generalizing m r with
  | zero => simp [sopF] at hr
  | succ n ih =>
    cases m with
    | or a b =>
      rw [gor] at hm
      simp only [sopF, Option.bind_eq_bind, Option.bind_eq_some_iff] at hr
      obtain ⟨a', ha, b', hb, heq⟩ := hr
      cases heq
      exact (gor _ _).2 ⟨ih a a' hm.1 ha, ih b b' hm.2 hb⟩
    | and a b =>
      rw [gand] at hm
      simp only [sopF, Option.bind_eq_bind, Option.bind_eq_some_iff] at hr
      obtain ⟨a', ha, b', hb, heq⟩ := hr
      have ha := ih a a' hm.1 ha
      have hb := ih b b' hm.2 hb
      split at heq
      · next x y =>
        simp only [Option.bind_eq_some_iff] at heq
        obtain ⟨x', hx, y', hy, heq⟩ := heq
        cases heq
        rw [gor] at ha
        exact (gor _ _).2 ⟨ih _ _ ((gand _ _).2 ⟨ha.1, hb⟩) hx, ih _ _ ((gand _ _).2 ⟨ha.2, hb⟩) hy⟩
      · next x y _ =>
        simp only [Option.bind_eq_some_iff] at heq
        obtain ⟨x', hx, y', hy, heq⟩ := heq
        cases heq
        rw [gor] at hb
        exact (gor _ _).2 ⟨ih _ _ ((gand _ _).2 ⟨ha, hb.1⟩) hx, ih _ _ ((gand _ _).2 ⟨ha, hb.2⟩) hy⟩
      · cases heq
        exact (gand _ _).2 ⟨ha, hb⟩
    | not m =>
      cases m with
      | and a b =>
        have hm := gnand _ _ hm
        simp only [sopF, Option.bind_eq_bind, Option.bind_eq_some_iff] at hr
        obtain ⟨a', ha, b', hb, heq⟩ := hr
        cases heq
        exact (gor _ _).2 ⟨ih _ _ hm.1 ha, ih _ _ hm.2 hb⟩
      | or a b =>
        have hm := gnor _ _ hm
        simp only [sopF, Option.bind_eq_bind, Option.bind_eq_some_iff] at hr
        obtain ⟨a', ha, b', hb, heq⟩ := hr
        exact ih _ _ ((gand _ _).2 ⟨ih _ _ hm.1 ha, ih _ _ hm.2 hb⟩) heq
      | _ => simp only [sopF] at hr; cases hr; exact hm
    | _ => simp only [sopF] at hr; cases hr; exact hm

theorem sop_pres {α : Type} (ops : LeafOps α) (G : M α → Prop)
    (gor : ∀ a b, G (.or a b) ↔ G a ∧ G b) (gand : ∀ a b, G (.and a b) ↔ G a ∧ G b)
    (gnand : ∀ a b, G (.not (.and a b)) → G (negate ops a) ∧ G (negate ops b))
    (gnor : ∀ a b, G (.not (.or a b)) → G (negate ops a) ∧ G (negate ops b))
    (m : M α) (hm : G m) : G (sop ops m) :=
  sopF_pres ops G gor gand gnand gnor _ m _ hm (sop_spec ops m)

/-! ### No `not_t` directly above a comparison -/

/-- No `not_t` sits directly above a comparison of a field. -/
def NR : M RLeaf → Prop
  | .not (.leaf (.rel _ _ _)) => False
  | .not m => NR m
  | .and l r => NR l ∧ NR r
  | .or l r => NR l ∧ NR r
  | _ => True

theorem NR_negate {m : M RLeaf} (h : NR m) : NR (negate relOps m) := by
  cases m with
  | leaf a => cases a <;> simp [negate, relOps, NR]
  | not k => cases k with
    | leaf a => cases a <;> simp_all [negate, NR]
    | _ => simpa [negate, NR] using h
  | _ => simp_all [negate, NR]

theorem NR_simplifyAnd {l r : M RLeaf} (hl : NR l) (hr : NR r) : NR (simplifyAnd relOps l r) := by
  simp only [simplifyAnd, deMorganAnd]
  repeat' split
  · exact hl
  · exact hr
  · trivial
  · exact NR_negate (m := .or _ _) ⟨NR_negate hl, NR_negate hr⟩
  · exact ⟨hl, hr⟩

theorem NR_simplifyOr {l r : M RLeaf} (hl : NR l) (hr : NR r) : NR (simplifyOr relOps l r) := by
  simp only [simplifyOr, deMorganOr]
  repeat' split
  · exact hr
  · exact hl
  · trivial
  · exact NR_negate (m := .and _ _) ⟨NR_negate hl, NR_negate hr⟩
  · exact ⟨hl, hr⟩

theorem NR_simplify (m : M RLeaf) : NR (simplify relOps m) := by
  fun_induction simplify relOps m with
  | case1 l r ihl ihr => exact NR_simplifyAnd ihl ihr
  | case2 l r ihl ihr => exact NR_simplifyOr ihl ihr
  | case3 => trivial
  | case4 => trivial
  | case5 m _ _ ih => exact NR_negate ih
  | case6 m h1 h2 h3 h4 h5 => cases m <;> simp_all [NR]

theorem NR_not_and {a b : M RLeaf} (h : NR (.not (.and a b))) : NR a ∧ NR b := h
theorem NR_not_or {a b : M RLeaf} (h : NR (.not (.or a b))) : NR a ∧ NR b := h

theorem NR_sop {m : M RLeaf} (h : NR m) : NR (sop relOps m) :=
  sop_pres relOps NR (fun _ _ => Iff.rfl) (fun _ _ => Iff.rfl)
    (fun _ _ h => ⟨NR_negate (NR_not_and h).1, NR_negate (NR_not_and h).2⟩)
    (fun _ _ h => ⟨NR_negate (NR_not_or h).1, NR_negate (NR_not_or h).2⟩) m h

/-! ### The conjunctions of a callback -/

theorem splitOr_product {m : M RLeaf} (h : IsDNF m) : ∀ t ∈ splitOr m, IsProduct t := by
  induction h with
  | @prod m h =>
    have hne : ∀ a b, m ≠ .or a b := by
      rintro a b rfl
      cases h with | lit h => cases h
    have : splitOr m = [m] := by cases m <;> simp_all [splitOr]
    rw [this]; simpa using h
  | or _ _ ihl ihr => simp only [splitOr, List.mem_append]; rintro t (h | h); exacts [ihl t h, ihr t h]

theorem splitOr_NR {m : M RLeaf} (h : NR m) : ∀ t ∈ splitOr m, NR t := by
  induction m with
  | or l r ihl ihr =>
    simp only [splitOr, List.mem_append]
    rintro t (ht | ht)
    exacts [ihl h.1 t ht, ihr h.2 t ht]
  | _ => simpa [splitOr] using h

theorem splitOr_eval (m : M RLeaf) (e : Msg) :
    eval revalLeaf m e = (splitOr m).any (fun t => eval revalLeaf t e) := by
  induction m with
  | or l r ihl ihr => simp [splitOr, eval, ihl, ihr]
  | _ => simp [splitOr]

theorem separate_product (c : Callback) : ∀ t ∈ separate c, IsProduct t.matcher ∧ NR t.matcher := by
  intro t ht
  simp only [separate, List.mem_map] at ht
  obtain ⟨m, hm, rfl⟩ := ht
  exact ⟨splitOr_product (sopF_dnf _ _ _ (NoDoubleNot_simplify _) (sop_spec relOps _)) m hm,
    splitOr_NR (NR_sop (NR_simplify _)) m hm⟩

theorem separate_id (c : Callback) : ∀ t ∈ separate c, t.id = c.id := by
  intro t ht
  simp only [separate, List.mem_map] at ht
  obtain ⟨m, hm, rfl⟩ := ht
  rfl

theorem build_product (cbs : List Callback) :
    ∀ t ∈ build cbs, IsProduct t.matcher ∧ NR t.matcher := by
  intro t ht
  simp only [build, List.mem_flatMap] at ht
  obtain ⟨c, _, hc⟩ := ht
  exact separate_product c t hc

/-- In an accepted conjunction all `==` and `!=` terms hold. -/
theorem product_terms {t : M RLeaf} (hp : IsProduct t) (hr : NR t) (e : Msg)
    (he : eval revalLeaf t e = true) :
    (∀ f k, (f, k) ∈ indexTerms t → k = e.val f) ∧
      (∀ f k, (f, k) ∈ indexNotTerms t → k ≠ e.val f) := by
  induction hp with
  | @lit m h =>
    cases h with
    | leaf a =>
      cases a with
      | pred => simp [indexTerms, indexNotTerms]
      | rel op f v =>
        cases op <;> simp_all [indexTerms, indexNotTerms, eval, revalLeaf, RelOp.app]
        exact fun h => he h.symm
    | nleaf a => cases a <;> simp_all [NR, indexTerms, indexNotTerms]
    | _ => simp [indexTerms, indexNotTerms]
  | and _ _ ihl ihr =>
    simp only [eval, Bool.and_eq_true] at he
    have hl := ihl hr.1 he.1
    have hr := ihr hr.2 he.2
    simp only [indexTerms, indexNotTerms, List.mem_append]
    exact ⟨fun f k h => h.elim (hl.1 f k) (hr.1 f k), fun f k h => h.elim (hl.2 f k) (hr.2 f k)⟩

theorem indexTerms_leaves {t : M RLeaf} {f : Field} {k : Int} (h : (f, k) ∈ indexTerms t) :
    RLeaf.rel .eq f k ∈ leaves t := by
  induction t with
  | leaf a =>
    cases a with
    | pred => simp [indexTerms] at h
    | rel op g v => cases op <;> simp_all [indexTerms, leaves]
  | and l r ihl ihr =>
    simp only [indexTerms, List.mem_append, leaves] at h ⊢
    exact h.imp ihl ihr
  | or l r ihl ihr =>
    simp only [indexTerms, List.mem_append, leaves] at h ⊢
    exact h.imp ihl ihr
  | _ => simp [indexTerms] at h

theorem indexNotTerms_leaves {t : M RLeaf} {f : Field} {k : Int} (h : (f, k) ∈ indexNotTerms t) :
    RLeaf.rel .ne f k ∈ leaves t := by
  induction t with
  | leaf a =>
    cases a with
    | pred => simp [indexNotTerms] at h
    | rel op g v => cases op <;> simp_all [indexNotTerms, leaves]
  | and l r ihl ihr =>
    simp only [indexNotTerms, List.mem_append, leaves] at h ⊢
    exact h.imp ihl ihr
  | or l r ihl ihr =>
    simp only [indexNotTerms, List.mem_append, leaves] at h ⊢
    exact h.imp ihl ihr
  | not m ih => exact ih h
  | _ => simp [indexNotTerms] at h

/-! ### Classes of matchers on which simplification keeps the meaning -/

/-- A class of matchers, closed under the rewriting, on which simplification keeps the meaning. -/
structure Sound (G : M RLeaf → Prop) : Prop where
  simp : ∀ m, G m → G (simplify relOps m) ∧
    ∀ e : WMsg, eval rev (simplify relOps m) e = eval rev m e
  sop : ∀ m, G m → G (sop relOps m)
  and : ∀ l r, G (.and l r) ↔ G l ∧ G r
  or : ∀ l r, G (.or l r) ↔ G l ∧ G r
  always : G .always
  leafPred : ∀ p, G (.leaf (.pred p))

theorem sound_oneConst (K : Field → Int) : Sound (LS (OneConst K)) where
  simp m h := simplify_ok (oneConst_truthful K) m h
  sop m h := (sop_ok (oneConst_truthful K).toNegTruthful m h).1
  and l r := by simp
  or l r := by simp
  always := by simp
  leafPred p := by simp [OneConst]

theorem PosTree_negate_of_not {a : M RLeaf} (h : LS OrderLeaf a) : PosTree (negate relOps a) :=
  .of_order (LS_negate orderLeaf_truthful.toNegTruthful h)

theorem sound_posTree : Sound PosTree where
  simp m h := simplify_pos m h
  sop m h := sop_pres relOps PosTree (fun _ _ => Iff.rfl) (fun _ _ => Iff.rfl)
    (fun a b h => by
      simp only [PosTree, LS_and] at h
      exact ⟨PosTree_negate_of_not h.1, PosTree_negate_of_not h.2⟩)
    (fun a b h => by
      simp only [PosTree, LS_or] at h
      exact ⟨PosTree_negate_of_not h.1, PosTree_negate_of_not h.2⟩) m h
  and l r := Iff.rfl
  or l r := Iff.rfl
  always := trivial
  leafPred p := ⟨trivial, fun h => h⟩

theorem eval_rev (m : M RLeaf) (e : WMsg) : eval rev m e = eval revalLeaf m e.1 := by
  induction m with
  | _ => simp_all [eval, rev]

theorem Sound.separate {G : M RLeaf → Prop} (hG : Sound G) (c : Callback) (hc : G c.matcher) :
    (∀ t ∈ separate c, G t.matcher) ∧
      ∀ e : WMsg, c.isMatch e.1 = (separate c).any (·.isMatch e.1) := by
  have h1 := hG.simp (.and .always c.matcher) ((hG.and _ _).2 ⟨hG.always, hc⟩)
  have hall : Match.all relOps [c.matcher] = simplify relOps (.and .always c.matcher) := rfl
  have hs := hG.sop _ h1.1
  have hsplit : ∀ m, G m → ∀ t ∈ splitOr m, G t := by
    intro m
    induction m with
    | or l r ihl ihr =>
      intro h t ht
      simp only [splitOr, List.mem_append] at ht
      rcases ht with ht | ht
      exacts [ihl ((hG.or _ _).1 h).1 t ht, ihr ((hG.or _ _).1 h).2 t ht]
    | _ => intro h t ht; simp [splitOr] at ht; exact ht ▸ h
  refine ⟨fun t ht => ?_, fun e => ?_⟩
  · simp only [Handler.separate, List.mem_map, hall] at ht
    obtain ⟨m, hm, rfl⟩ := ht
    exact hsplit _ hs m hm
  · have h2 := h1.2 e
    rw [eval_rev, eval_rev] at h2
    simp only [Handler.separate, Callback.isMatch, List.any_map, Function.comp_def, hall]
    rw [← splitOr_eval, C03_sum_of_products_relational, h2]
    simp [eval]

/-- For a conjunction without negations: accepted exactly when the terms on the index fields hold
and what `remove_terms` leaves is accepted. -/
theorem Sound.remove {G : M RLeaf → Prop} (hG : Sound G) (fields : List Field) (t : M RLeaf)
    (hp : IsProduct t) (hn : NoNot t) (ht : G t) (e : WMsg) :
    G (removeTerms fields t) ∧
    (eval revalLeaf t e.1 = true ↔
      (eval revalLeaf (removeTerms fields t) e.1 = true ∧
        (∀ f ∈ fields, ∀ k, (f, k) ∈ indexTerms t → k = e.1.val f) ∧
        (∀ f ∈ fields, ∀ k, (f, k) ∈ indexNotTerms t → k ≠ e.1.val f))) := by
  induction hp with
  | @lit m h =>
    cases h with
    | leaf a =>
      cases a with
      | pred => simp [indexTerms, indexNotTerms, removeTerms, ht]
      | rel op f v =>
        cases op
        case eq =>
          by_cases hf : f ∈ fields
          · simp [indexTerms, indexNotTerms, removeTerms, hf, hG.always, eval, revalLeaf, RelOp.app]
            constructor
            · rintro rfl g hg rfl; rfl
            · intro h; exact (h f hf rfl).symm
          · simp [indexTerms, indexNotTerms, removeTerms, hf, ht, eval, revalLeaf, RelOp.app]
            rintro rfl g hg rfl; rfl
        case ne =>
          by_cases hf : f ∈ fields
          · simp [indexTerms, indexNotTerms, removeTerms, hf, hG.always, eval, revalLeaf, RelOp.app]
            constructor
            · rintro h g hg rfl; exact fun h' => h h'.symm
            · intro h h'; exact h f hf rfl h'.symm
          · simp [indexTerms, indexNotTerms, removeTerms, hf, ht, eval, revalLeaf, RelOp.app]
            rintro h g hg rfl; exact fun h' => h h'.symm
        all_goals simp [indexTerms, indexNotTerms, removeTerms, ht]
    | always => simp [indexTerms, indexNotTerms, removeTerms, ht]
    | never => simp [indexTerms, indexNotTerms, removeTerms, ht]
    | nalways => exact hn.elim
    | nnever => exact hn.elim
    | nleaf => exact hn.elim
  | @and l r _ _ ihl ihr =>
    rw [hG.and] at ht
    have hl := ihl hn.1 ht.1
    have hr := ihr hn.2 ht.2
    have hs := hG.simp (.and (removeTerms fields l) (removeTerms fields r))
      ((hG.and _ _).2 ⟨hl.1, hr.1⟩)
    refine ⟨hs.1, ?_⟩
    have he := hs.2 e
    rw [eval_rev, eval_rev] at he
    simp only [removeTerms, opAnd, he, eval, Bool.and_eq_true, hl.2, hr.2, indexTerms,
      indexNotTerms, List.mem_append]
    constructor
    · rintro ⟨⟨h1, h2, h3⟩, ⟨h4, h5, h6⟩⟩
      exact ⟨⟨h1, h4⟩, fun f hf k h => h.elim (h2 f hf k) (h5 f hf k),
        fun f hf k h => h.elim (h3 f hf k) (h6 f hf k)⟩
    · rintro ⟨⟨h1, h4⟩, h2, h3⟩
      exact ⟨⟨h1, fun f hf k h => h2 f hf k (.inl h), fun f hf k h => h3 f hf k (.inl h)⟩,
        ⟨h4, fun f hf k h => h2 f hf k (.inr h), fun f hf k h => h3 f hf k (.inr h)⟩⟩

end Verif.Handler
