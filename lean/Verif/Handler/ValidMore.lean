import Verif.Handler.ValidProps
import Mathlib.Tactic.ByContra
/-! # Which conjunctions of required values the validator of indexed services refuses -/
namespace Verif.Handler
open Verif.Match

/-! ## Specification -/

/-- A conjunction of required values, all as `K` says, and of conditions that are computed. -/
def Agrees (K : Field → Int) : M RLeaf → Prop
  | .always => True
  | .leaf (.rel op f v) => op = .eq ∧ v = K f
  | .leaf (.pred _) => True
  | .and l r => Agrees K l ∧ Agrees K r
  | _ => False

/-- The conjunction requires the value `v` of `f`. -/
def Requires (f : Field) (v : Int) : M RLeaf → Prop
  | .leaf (.rel op g w) => op = .eq ∧ g = f ∧ w = v
  | .and l r => Requires f v l ∨ Requires f v r
  | _ => False

/-! ## Lemmas -/

theorem Agrees.requires {K : Field → Int} {f : Field} {v : Int} {m : M RLeaf} (h : Agrees K m) (hr : Requires f v m) :
    v = K f := by
  induction m with
  | leaf a =>
    cases a with
    | pred p => exact hr.elim
    | rel op g w =>
      obtain ⟨_, rfl, rfl⟩ := hr
      exact h.2
  | and l r hl hrr => exact hr.elim (hl h.1) (hrr h.2)
  | _ => exact hr.elim

theorem agrees_not {K : Field → Int} {l m : M RLeaf} (h : Agrees K l) : impliesL relOps l (.not m) = false := by
  induction l with
  | and a b ha hb => rw [impliesL, ha h.1, hb h.2]; rfl
  | never => exact h.elim
  | always => simp [impliesL]
  | leaf a => simp [impliesL]
  | not m => exact h.elim
  | or a b => exact h.elim

theorem agrees_never {K : Field → Int} {l : M RLeaf} (h : Agrees K l) : impliesL relOps l .never = false := by
  induction l with
  | and a b ha hb => rw [impliesL, ha h.1, hb h.2]; rfl
  | never => exact h.elim
  | always => simp [impliesL]
  | leaf a => simp [impliesL]
  | not m => exact h.elim
  | or a b => exact h.elim

theorem agrees_and {K : Field → Int} {l a b : M RLeaf} (h : Agrees K l) : impliesL relOps l (.and a b) = false := by
  induction l with
  | and a b ha hb => rw [impliesL, ha h.1, hb h.2]; rfl
  | never => exact h.elim
  | always => simp [impliesL]
  | leaf a => simp [impliesL]
  | not m => exact h.elim
  | or a b => exact h.elim

/-- A required value follows from a conjunction exactly if it is one of its terms. -/
theorem agrees_eq {K : Field → Int} {l : M RLeaf} (h : Agrees K l) (f : Field) (v : Int) :
    impliesL relOps l (.leaf (.rel .eq f v)) = true ↔ Requires f v l := by
  induction l with
  | and a b ha hb => rw [impliesL, Bool.or_eq_true, ha h.1, hb h.2]; rfl
  | never => exact h.elim
  | always => simp [impliesL, Requires]
  | leaf a =>
    cases a with
    | pred p => simp [impliesL, relOps, Requires]
    | rel op g w =>
      obtain ⟨rfl, _⟩ := h
      simp [impliesL, relOps, relImplies, RelOp.app, Requires]
  | not m => exact h.elim
  | or a b => exact h.elim

/-- `!=` follows exactly if another value is required. -/
theorem agrees_ne {K : Field → Int} {l : M RLeaf} (h : Agrees K l) (f : Field) (v : Int) :
    impliesL relOps l (.leaf (.rel .ne f v)) = true ↔ ∃ w, Requires f w l ∧ w ≠ v := by
  induction l with
  | and a b ha hb =>
    rw [impliesL, Bool.or_eq_true, ha h.1, hb h.2]
    simp only [Requires, or_and_right, exists_or]
  | never => exact h.elim
  | always => simp [impliesL, Requires]
  | leaf a =>
    cases a with
    | pred p => simp [impliesL, relOps, Requires]
    | rel op g w =>
      obtain ⟨rfl, _⟩ := h
      simp [impliesL, relOps, relImplies, RelOp.app, Requires]
  | not m => exact h.elim
  | or a b => exact h.elim

theorem negate_leaf (op : RelOp) (f : Field) (v : Int) :
    negate relOps (.leaf (.rel op f v)) = .leaf (.rel op.inverse f v) := rfl
theorem negate_pred (p : Nat) : negate relOps (.leaf (.pred p)) = .not (.leaf (.pred p)) := rfl

/-- Conjunctions that agree do not contradict each other. -/
theorem agrees_negate {K : Field → Int} {l r : M RLeaf} (hl : Agrees K l) (hr : Agrees K r) :
    implies relOps l (negate relOps r) = false := by
  cases r with
  | always => exact agrees_never hl
  | never => exact hr.elim
  | or a b => exact hr.elim
  | not m => exact hr.elim
  | and a b => exact agrees_not hl
  | leaf a =>
    cases a with
    | pred p => exact agrees_not hl
    | rel op f v =>
      obtain ⟨rfl, hv⟩ := hr
      rw [negate_leaf]
      show impliesL relOps l (.leaf (.rel .ne f v)) = false
      rw [Bool.eq_false_iff, Ne, agrees_ne hl]
      rintro ⟨w, hw, hne⟩
      exact hne ((hl.requires hw).trans hv.symm)

theorem cost_negate {K : Field → Int} {l : M RLeaf} (h : Agrees K l) : cost l ≤ cost (negate relOps l) := by
  cases l with
  | always => exact Nat.le_refl _
  | never => exact h.elim
  | or a b => exact h.elim
  | not m => exact h.elim
  | and a b => simp [negate, cost]
  | leaf a => cases a <;> simp [negate_leaf, negate_pred, cost]

/-- What follows from a conjunction is required by it. -/
theorem agrees_implies {K : Field → Int} {l r : M RLeaf} (hl : Agrees K l) (hr : Agrees K r)
    (h : implies relOps l r = true) {f : Field} {v : Int} (hq : Requires f v r) : Requires f v l := by
  cases r with
  | always => exact hq.elim
  | never => exact hr.elim
  | or a b => exact hr.elim
  | not m => exact hr.elim
  | and a b =>
    have h : impliesL relOps l (.and a b) = true := h
    rw [agrees_and hl] at h
    cases h
  | leaf a =>
    cases a with
    | pred p => exact hq.elim
    | rel op g w =>
      obtain ⟨rfl, rfl, rfl⟩ := hq
      exact (agrees_eq hl _ _).1 h

theorem simplifyAnd_agrees {K : Field → Int} {l r : M RLeaf} (hl : Agrees K l) (hr : Agrees K r) :
    Agrees K (simplifyAnd relOps l r) ∧
      ∀ f v, Requires f v (simplifyAnd relOps l r) ↔ Requires f v l ∨ Requires f v r := by
  rw [simplifyAnd]
  by_cases h1 : implies relOps l r = true
  · rw [if_pos h1]
    exact ⟨hl, fun f v => ⟨.inl, fun h => h.elim id (agrees_implies hl hr h1)⟩⟩
  · rw [if_neg h1]
    by_cases h2 : implies relOps r l = true
    · rw [if_pos h2]
      exact ⟨hr, fun f v => ⟨.inr, fun h => h.elim (agrees_implies hr hl h2) id⟩⟩
    · rw [if_neg h2, agrees_negate hl hr, agrees_negate hr hl]
      simp only [Bool.or_self, Bool.false_eq_true, if_false]
      have hd : deMorganAnd relOps l r = .and l r := by
        rw [deMorganAnd, if_neg]
        have := cost_negate hl
        have := cost_negate hr
        show ¬ (cost (negate relOps l) + cost (negate relOps r) + 1 + 1 < cost l + cost r + 1)
        omega
      rw [hd]
      exact ⟨⟨hl, hr⟩, fun f v => Iff.rfl⟩

theorem simplify_agrees {K : Field → Int} {m : M RLeaf} (h : Agrees K m) :
    Agrees K (simplify relOps m) ∧ ∀ f v, Requires f v (simplify relOps m) ↔ Requires f v m := by
  induction m with
  | and l r hl hr =>
    have h1 := hl h.1
    have h2 := hr h.2
    have h3 := simplifyAnd_agrees h1.1 h2.1
    rw [simplify]
    refine ⟨h3.1, fun f v => ?_⟩
    rw [h3.2, h1.2, h2.2]
    rfl
  | always => exact ⟨h, fun _ _ => Iff.rfl⟩
  | leaf a => exact ⟨h, fun _ _ => Iff.rfl⟩
  | never => exact h.elim
  | not m => exact h.elim
  | or a b => exact h.elim

theorem foldl_agrees {K : Field → Int} (ds : List (M RLeaf)) (a : M RLeaf) (ha : Agrees K a)
    (h : ∀ d ∈ ds, Agrees K d) : Agrees K (ds.foldl M.and a) ∧
      ∀ f v, Requires f v (ds.foldl M.and a) ↔ Requires f v a ∨ ∃ d ∈ ds, Requires f v d := by
  induction ds generalizing a with
  | nil => exact ⟨ha, fun f v => by simp⟩
  | cons d ds ih =>
    have := ih (.and a d) ⟨ha, h d (by simp)⟩ fun x hx => h x (by simp [hx])
    refine ⟨this.1, fun f v => ?_⟩
    rw [List.foldl_cons, this.2]
    simp only [Requires, List.mem_cons, exists_eq_or_imp, or_assoc]

theorem all_agrees {K : Field → Int} (ds : List (M RLeaf)) (h : ∀ d ∈ ds, Agrees K d) :
    Agrees K (all relOps ds) ∧ ∀ f v, Requires f v (all relOps ds) ↔ ∃ d ∈ ds, Requires f v d := by
  have h1 := foldl_agrees ds .always trivial h
  have h2 := simplify_agrees h1.1
  refine ⟨h2.1, fun f v => ?_⟩
  rw [all, h2.2, h1.2]
  simp [Requires]

theorem sopF_agrees {K : Field → Int} {m : M RLeaf} (h : Agrees K m) (n : Nat) :
    sopF relOps n m = none ∨ sopF relOps n m = some m := by
  induction m generalizing n with
  | and l r hl hr =>
    cases n with
    | zero => exact .inl rfl
    | succ n =>
      rw [sopF]
      rcases hl h.1 n with e1 | e1
      · rw [e1]; exact .inl rfl
      · rcases hr h.2 n with e2 | e2
        · rw [e1, e2]; exact .inl rfl
        · rw [e1, e2]
          have hl' := h.1
          have hr' := h.2
          cases l <;> cases r <;> first | exact hl'.elim | exact hr'.elim | exact .inr rfl
  | always => cases n <;> simp [sopF]
  | leaf a => cases n <;> simp [sopF]
  | never => exact h.elim
  | not m => exact h.elim
  | or a b => exact h.elim

theorem sop_agrees {K : Field → Int} {m : M RLeaf} (h : Agrees K m) : sop relOps m = m := by
  rw [sop]
  rcases sopF_agrees h (budget m) with e | e <;> rw [e] <;> rfl

theorem splitOr_agrees {K : Field → Int} {m : M RLeaf} (h : Agrees K m) : splitOr m = [m] := by
  cases m <;> first | rfl | exact h.elim

theorem remove_agrees {K : Field → Int} (fields : List Field) {m : M RLeaf} (h : Agrees K m) :
    Agrees K (removeTerms fields m) := by
  induction m with
  | and l r hl hr => exact (simplify_agrees (m := .and _ _) ⟨hl h.1, hr h.2⟩).1
  | always => exact trivial
  | leaf a =>
    cases a with
    | pred p => exact trivial
    | rel op f v =>
      obtain ⟨rfl, hv⟩ := h
      rw [removeTerms]
      split
      · exact trivial
      · exact ⟨rfl, hv⟩
  | never => exact h.elim
  | not m => exact h.elim
  | or a b => exact h.elim

theorem accepted_agrees {K : Field → Int} (fields : List Field) (id : Nat) {m : M RLeaf} (h : Agrees K m) :
    accepted fields [⟨id, m⟩] = true := by
  have h1 := (all_agrees [m] (by simpa using h)).1
  rw [accepted, build, List.flatMap_cons, List.flatMap_nil, List.append_nil, separate, sop_agrees h1, splitOr_agrees h1]
  simp only [List.map_cons, List.map_nil, List.all_cons, List.all_nil, Bool.and_true]
  rw [validate, decide_eq_true_iff]
  intro hn
  have := remove_agrees fields h1
  rw [hn] at this
  exact this

theorem not_agrees {K : Field → Int} {l : M RLeaf} (hl : Agrees K l) {f : Field} {v w : Int} (hw : Requires f w l)
    (hne : w ≠ v) : implies relOps l (.leaf (.rel .eq f v)) = false ∧ implies relOps (.leaf (.rel .eq f v)) l = false ∧
      implies relOps l (negate relOps (.leaf (.rel .eq f v))) = true := by
  refine ⟨?_, ?_, (agrees_ne hl f v).2 ⟨w, hw, hne⟩⟩
  · rw [Bool.eq_false_iff]
    intro h
    have := hl.requires ((agrees_eq hl f v).1 h)
    exact hne ((hl.requires hw).trans this.symm)
  · cases l with
    | always => exact hw.elim
    | never => exact hl.elim
    | or a b => exact hl.elim
    | not m => exact hl.elim
    | and a b => simp [implies, impliesL]
    | leaf a =>
      cases a with
      | pred p => exact hw.elim
      | rel op g x =>
        obtain ⟨rfl, rfl, rfl⟩ := hw
        rw [eq_implies]
        simpa using fun h => hne h.symm

theorem agrees_update {K : Field → Int} {f : Field} {v : Int} {m : M RLeaf} (hm : Agrees K m)
    (hr : ∀ w, Requires f w m → w = v) : Agrees (fun g => if g = f then v else K g) m := by
  induction m with
  | and l r hl hrr => exact ⟨hl hm.1 fun w hw => hr w (.inl hw), hrr hm.2 fun w hw => hr w (.inr hw)⟩
  | always => exact trivial
  | leaf a =>
    cases a with
    | pred p => exact trivial
    | rel op g w =>
      refine ⟨hm.1, ?_⟩
      show w = if g = f then v else K g
      by_cases hg : g = f
      · rw [if_pos hg]; exact hr w ⟨hm.1, hg, rfl⟩
      · rw [if_neg hg]; exact hm.2
  | never => exact hm.elim
  | not m => exact hm.elim
  | or a b => exact hm.elim

theorem never_refused (fields : List Field) (id : Nat) (c : M RLeaf) (defs : List (M RLeaf))
    (h : opAnd relOps c (all relOps defs) = .never) : accepted fields [construct id c defs] = false := by
  rw [construct, h, show sop relOps (.never : M RLeaf) = .never by simp [sop, sopF, budget], accepted, build,
    List.flatMap_cons, never_separate]
  simp [validate, removeTerms]

/-! ## Properties -/

/-- **C177** (part) A conjunction of required values that do not contradict each other, and of computed conditions, is
accepted, however it is put together and whatever the index fields are. -/
theorem C177_consistent_partial (K : Field → Int) (fields : List Field) (id : Nat) (c : M RLeaf) (defs : List (M RLeaf))
    (hc : Agrees K c) (hd : ∀ d ∈ defs, Agrees K d) : accepted fields [construct id c defs] = true := by
  have h1 := all_agrees defs hd
  have h2 := (simplify_agrees (m := .and c (all relOps defs)) ⟨hc, h1.1⟩).1
  rw [construct, opAnd, sop_agrees h2]
  exact accepted_agrees fields id h2

/-- **C177** (part) A callback for one value of a field, with a definition that requires any number of values: it is
refused exactly if the definition requires another value of that field. -/
theorem C177_one_value_partial (K : Field → Int) (fields : List Field) (id : Nat) (f : Field) (v : Int)
    (defs : List (M RLeaf)) (hd : ∀ d ∈ defs, Agrees K d) :
    accepted fields [construct id (.leaf (.rel .eq f v)) defs] = true ↔ ∀ d ∈ defs, ∀ w, Requires f w d → w = v := by
  have h1 := all_agrees defs hd
  constructor
  · intro h d hdm w hw
    by_contra hne
    have hq := (simplify_agrees h1.1).2 f w |>.2 ((h1.2 f w).2 ⟨d, hdm, hw⟩)
    obtain ⟨n1, n2, n3⟩ := not_agrees (simplify_agrees h1.1).1 hq hne
    have : opAnd relOps (.leaf (.rel .eq f v)) (all relOps defs) = .never := by
      rw [opAnd, simplify, show simplify relOps (.leaf (.rel .eq f v)) = .leaf (.rel .eq f v) from rfl, simplifyAnd,
        if_neg (by rw [n2]; decide), if_neg (by rw [n1]; decide), if_pos (by rw [n3, Bool.or_true])]
    rw [never_refused fields id _ defs this] at h
    cases h
  · intro h
    refine C177_consistent_partial (fun g => if g = f then v else K g) fields id _ defs ⟨rfl, by simp⟩ fun d hdm => ?_
    exact agrees_update (hd d hdm) (h d hdm)

/-- **C177** (part) The same the other way round: a callback for any consistent conjunction of values, with a
definition that requires one value. -/
theorem C177_one_required_partial (K : Field → Int) (fields : List Field) (id : Nat) (f : Field) (v : Int)
    (c : M RLeaf) (hc : Agrees K c) :
    accepted fields [construct id c [.leaf (.rel .eq f v)]] = true ↔ ∀ w, Requires f w c → w = v := by
  have h1 := simplify_agrees hc
  constructor
  · intro h w hw
    by_contra hne
    obtain ⟨n1, n2, n3⟩ := not_agrees h1.1 ((h1.2 f w).2 hw) hne
    have : opAnd relOps c (all relOps [.leaf (.rel .eq f v)]) = .never := by
      rw [all_leaf, opAnd, simplify, show simplify relOps (.leaf (.rel .eq f v)) = .leaf (.rel .eq f v) from rfl,
        simplifyAnd, if_neg (by rw [n1]; decide), if_neg (by rw [n2]; decide), if_pos (by rw [n3, Bool.true_or])]
    rw [never_refused fields id _ _ this] at h
    cases h
  · intro h
    refine C177_consistent_partial (fun g => if g = f then v else K g) fields id _ _ (agrees_update hc h) fun d hdm => ?_
    rw [List.mem_singleton.1 hdm]
    exact ⟨rfl, by simp⟩

/-- A definition with two required values. -/
example : ∀ d ∈ [eqF exA 1, eqF exB 2, .always], Agrees (fun f => if f = exA then 1 else 2) d := by
  simp only [List.mem_cons, List.not_mem_nil, or_false, forall_eq_or_imp, forall_eq, Agrees, eqF]
  decide
/-- The conjunction of a callback. -/
example : Agrees (fun f => if f = exA then 1 else 2) (.and (eqF exA 1) (.and (.leaf (.pred 7)) (eqF exB 2))) ∧
    Requires exB 2 (.and (eqF exA 1) (.and (.leaf (.pred 7)) (eqF exB 2))) := by
  simp only [Agrees, Requires, eqF]
  decide

end Verif.Handler
