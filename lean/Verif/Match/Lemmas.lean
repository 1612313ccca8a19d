import Verif.Match.Spec
/-! Helper lemmas for the match properties. -/
namespace Verif.Match
variable {α : Type} {E : Type}

/-- Leaves of a matcher. -/
def leaves : M α → List α
  | .always => [] | .never => []
  | .leaf a => [a]
  | .not m => leaves m
  | .and l r => leaves l ++ leaves r
  | .or l r => leaves l ++ leaves r

/-- All leaves satisfy `S`. -/
def LS (S : α → Prop) (m : M α) : Prop := ∀ a ∈ leaves m, S a

@[simp] theorem LS_always (S : α → Prop) : LS S (.always) := by simp [LS, leaves]
@[simp] theorem LS_never (S : α → Prop) : LS S (.never) := by simp [LS, leaves]
@[simp] theorem LS_leaf (S : α → Prop) (a : α) : LS S (.leaf a) ↔ S a := by simp [LS, leaves]
@[simp] theorem LS_not (S : α → Prop) (m : M α) : LS S (.not m) ↔ LS S m := by simp [LS, leaves]
@[simp] theorem LS_and (S : α → Prop) (l r : M α) : LS S (.and l r) ↔ LS S l ∧ LS S r := by
  simp [LS, leaves, or_imp, forall_and]
@[simp] theorem LS_or (S : α → Prop) (l r : M α) : LS S (.or l r) ↔ LS S l ∧ LS S r := by
  simp [LS, leaves, or_imp, forall_and]

section
variable {ops : LeafOps α} {ev : α → E → Bool} {S : α → Prop}

theorem LS_negate (h : NegTruthful ops ev S) {m : M α} (hm : LS S m) : LS S (negate ops m) := by
  cases m with
  | leaf a =>
    simp only [negate]
    cases hn : ops.neg a with
    | none => simpa using hm
    | some b => simpa using h.neg_mem a b (by simpa using hm) hn
  | _ => simp_all [negate]

theorem eval_negate (h : NegTruthful ops ev S) {m : M α} (hm : LS S m) (e : E) :
    eval ev (negate ops m) e = !(eval ev m e) := by
  cases m with
  | leaf a =>
    simp only [negate]
    cases hn : ops.neg a with
    | none => simp [eval]
    | some b => simpa [eval] using h.neg_eval a b e (by simpa using hm) hn
  | _ => simp [negate, eval]

variable [DecidableEq α]
set_option linter.unusedSectionVars false

theorem impliesL_sound (x y : M α) (e : E)
    (h : ∀ a ∈ leaves x, ∀ b ∈ leaves y, ops.impl a b = true → ev a e = true → ev b e = true)
    (hi : impliesL ops x y = true) (he : eval ev x e = true) : eval ev y e = true := by
  fun_induction impliesL ops x y with
  | case1 => simp [eval] at he
  | case2 y a b iha ihb =>
    simp only [leaves, List.mem_append] at h
    simp only [Bool.or_eq_true] at hi
    simp only [eval, Bool.and_eq_true] at he
    exact hi.elim (iha (fun c hc d hd => h c (.inl hc) d hd) · he.1)
      (ihb (fun c hc d hd => h c (.inr hc) d hd) · he.2)
  | case3 a b => exact h a (by simp [leaves]) b (by simp [leaves]) hi he
  | case4 x y =>
    have := of_decide_eq_true hi
    subst this; exact he

/-- Implication is sound on an event as soon as it is for every pair of leaves. -/
theorem implies_sound' (x y : M α) (e : E)
    (h : ∀ a ∈ leaves x, ∀ b ∈ leaves y, ops.impl a b = true → ev a e = true → ev b e = true)
    (hi : implies ops x y = true) (he : eval ev x e = true) : eval ev y e = true := by
  fun_induction implies ops x y with
  | case1 => rfl
  | case2 a b iha ihb =>
    simp only [leaves, List.mem_append] at h
    simp only [Bool.or_eq_true, decide_eq_true_eq] at hi
    simp only [eval, Bool.or_eq_true]
    rcases hi with rfl | hi
    · simp [eval] at he
    · exact hi.imp (iha (fun c hc d hd => h c hc d (.inl hd)) ·)
        (ihb (fun c hc d hd => h c hc d (.inr hd)) ·)
  | case3 y => exact impliesL_sound x y e h hi he

theorem implies_sound (h : Truthful ops ev S) (x y : M α) (hx : LS S x) (hy : LS S y)
    (hi : implies ops x y = true) (e : E) (he : eval ev x e = true) : eval ev y e = true :=
  implies_sound' x y e (fun a ha b hb => h.impl_eval a b e (hx a ha) (hy b hb)) hi he

theorem simplifyAnd_ok (h : Truthful ops ev S) {l r : M α} (hl : LS S l) (hr : LS S r) :
    LS S (simplifyAnd ops l r) ∧
      ∀ e, eval ev (simplifyAnd ops l r) e = (eval ev l e && eval ev r e) := by
  have hnl := LS_negate h.toNegTruthful hl
  have hnr := LS_negate h.toNegTruthful hr
  simp only [simplifyAnd]
  split
  · next hi =>
    refine ⟨hl, fun e => ?_⟩
    have := implies_sound h l r hl hr hi e
    cases hle : eval ev l e <;> simp_all
  · split
    · next hi =>
      refine ⟨hr, fun e => ?_⟩
      have := implies_sound h r l hr hl hi e
      cases hle : eval ev r e <;> simp_all
    · split
      · next hi =>
        refine ⟨by simp, fun e => ?_⟩
        simp only [Bool.or_eq_true] at hi
        rcases hi with hi | hi
        · have := implies_sound h l _ hl hnr hi e
          rw [eval_negate h.toNegTruthful hr] at this
          cases hle : eval ev l e <;> simp_all [eval]
        · have := implies_sound h r _ hr hnl hi e
          rw [eval_negate h.toNegTruthful hl] at this
          cases hle : eval ev r e <;> simp_all [eval]
      · simp only [deMorganAnd]
        split
        · refine ⟨by apply LS_negate h.toNegTruthful; simp [*], fun e => ?_⟩
          rw [eval_negate h.toNegTruthful (by simp [*])]
          simp [eval, eval_negate h.toNegTruthful, *]
        · simp [eval, *]

theorem simplifyOr_ok (h : Truthful ops ev S) {l r : M α} (hl : LS S l) (hr : LS S r) :
    LS S (simplifyOr ops l r) ∧
      ∀ e, eval ev (simplifyOr ops l r) e = (eval ev l e || eval ev r e) := by
  have hnl := LS_negate h.toNegTruthful hl
  have hnr := LS_negate h.toNegTruthful hr
  simp only [simplifyOr]
  split
  · next hi =>
    refine ⟨hr, fun e => ?_⟩
    have := implies_sound h l r hl hr hi e
    cases hle : eval ev l e <;> simp_all
  · split
    · next hi =>
      refine ⟨hl, fun e => ?_⟩
      have := implies_sound h r l hr hl hi e
      cases hle : eval ev r e <;> simp_all
    · split
      · next hi =>
        refine ⟨by simp, fun e => ?_⟩
        simp only [Bool.or_eq_true] at hi
        rcases hi with hi | hi
        · have := implies_sound h _ r hnl hr hi e
          rw [eval_negate h.toNegTruthful hl] at this
          cases hle : eval ev l e <;> simp_all [eval]
        · have := implies_sound h _ l hnr hl hi e
          rw [eval_negate h.toNegTruthful hr] at this
          cases hle : eval ev r e <;> simp_all [eval]
      · simp only [deMorganOr]
        split
        · refine ⟨by apply LS_negate h.toNegTruthful; simp [*], fun e => ?_⟩
          rw [eval_negate h.toNegTruthful (by simp [*])]
          simp [eval, eval_negate h.toNegTruthful, *]
        · simp [eval, *]

theorem simplify_ok (h : Truthful ops ev S) (m : M α) (hm : LS S m) :
    LS S (simplify ops m) ∧ ∀ e, eval ev (simplify ops m) e = eval ev m e := by
  fun_induction simplify ops m with
  | case1 l r ihl ihr =>
    simp only [LS_and] at hm
    have hl := ihl hm.1
    have hr := ihr hm.2
    have := simplifyAnd_ok h hl.1 hr.1
    exact ⟨this.1, fun e => by rw [this.2, hl.2, hr.2, eval]⟩
  | case2 l r ihl ihr =>
    simp only [LS_or] at hm
    have hl := ihl hm.1
    have hr := ihr hm.2
    have := simplifyOr_ok h hl.1 hr.1
    exact ⟨this.1, fun e => by rw [this.2, hl.2, hr.2, eval]⟩
  | case3 => simp [eval]
  | case4 => simp [eval]
  | case5 m _ _ ih =>
    have := ih (by simpa using hm)
    exact ⟨LS_negate h.toNegTruthful this.1, fun e => by rw [eval_negate h.toNegTruthful this.1, this.2, eval]⟩
  | case6 => exact ⟨hm, fun e => rfl⟩

theorem LS_foldl_and {ms : List (M α)} {m : M α} (hm : LS S m) (h : ∀ x ∈ ms, LS S x) :
    LS S (ms.foldl M.and m) := by
  induction ms generalizing m with
  | nil => simpa
  | cons x xs ih => simp_all

theorem LS_foldl_or {ms : List (M α)} {m : M α} (hm : LS S m) (h : ∀ x ∈ ms, LS S x) :
    LS S (ms.foldl M.or m) := by
  induction ms generalizing m with
  | nil => simpa
  | cons x xs ih => simp_all

theorem eval_foldl_and (ms : List (M α)) (m : M α) (e : E) :
    eval ev (ms.foldl M.and m) e = (eval ev m e && ms.all (fun x => eval ev x e)) := by
  induction ms generalizing m with
  | nil => simp
  | cons x xs ih => simp [ih, eval, Bool.and_assoc]

theorem eval_foldl_or (ms : List (M α)) (m : M α) (e : E) :
    eval ev (ms.foldl M.or m) e = (eval ev m e || ms.any (fun x => eval ev x e)) := by
  induction ms generalizing m with
  | nil => simp
  | cons x xs ih => simp [ih, eval, Bool.or_assoc]

theorem all_ok (h : Truthful ops ev S) (ms : List (M α)) (hm : ∀ x ∈ ms, LS S x) :
    LS S (all ops ms) ∧ ∀ e, eval ev (all ops ms) e = ms.all (fun x => eval ev x e) := by
  have := simplify_ok h (ms.foldl M.and .always) (LS_foldl_and (by simp) hm)
  exact ⟨this.1, fun e => by rw [all, this.2, eval_foldl_and]; simp [eval]⟩

theorem any_ok (h : Truthful ops ev S) (ms : List (M α)) (hm : ∀ x ∈ ms, LS S x) :
    LS S (any ops ms) ∧ ∀ e, eval ev (any ops ms) e = ms.any (fun x => eval ev x e) := by
  have := simplify_ok h (ms.foldl M.or .never) (LS_foldl_or (by simp) hm)
  exact ⟨this.1, fun e => by rw [any, this.2, eval_foldl_or]; simp [eval]⟩

theorem opNot_ok (h : Truthful ops ev S) {m : M α} (hm : LS S m) :
    LS S (opNot ops m) ∧ ∀ e, eval ev (opNot ops m) e = !(eval ev m e) := by
  have := simplify_ok h (negate ops m) (LS_negate h.toNegTruthful hm)
  exact ⟨this.1, fun e => by rw [opNot, this.2, eval_negate h.toNegTruthful hm]⟩

theorem build_ok (h : Truthful ops ev S) (f : Formula α) (hf : ∀ a ∈ f.terms, S a) :
    LS S (f.build ops) ∧ ∀ e, eval ev (f.build ops) e = f.sem ev e := by
  fun_induction Formula.build ops f with
  | case1 => simp [eval, Formula.sem]
  | case2 => simp [eval, Formula.sem]
  | case3 a => simp_all [eval, Formula.sem, Formula.terms]
  | case4 f ih =>
    have ih := ih (by simpa [Formula.terms] using hf)
    have := opNot_ok h ih.1
    exact ⟨this.1, fun e => by rw [this.2, ih.2, Formula.sem]⟩
  | case5 f g ihf ihg =>
    simp only [Formula.terms, List.mem_append] at hf
    have ihf := ihf (fun a ha => hf a (.inl ha))
    have ihg := ihg (fun a ha => hf a (.inr ha))
    have := simplify_ok h (.and (f.build ops) (g.build ops)) (by simp [ihf.1, ihg.1])
    exact ⟨this.1, fun e => by rw [opAnd, this.2, eval, ihf.2, ihg.2, Formula.sem]⟩
  | case6 f g ihf ihg =>
    simp only [Formula.terms, List.mem_append] at hf
    have ihf := ihf (fun a ha => hf a (.inl ha))
    have ihg := ihg (fun a ha => hf a (.inr ha))
    have := simplify_ok h (.or (f.build ops) (g.build ops)) (by simp [ihf.1, ihg.1])
    exact ⟨this.1, fun e => by rw [opOr, this.2, eval, ihf.2, ihg.2, Formula.sem]⟩
  | case7 fs ih =>
    simp only [Formula.terms] at hf
    have ih : ∀ f (hf' : f ∈ fs), LS S (f.build ops) ∧ ∀ e, eval ev (f.build ops) e = f.sem ev e :=
      fun f hf' => ih f hf' (fun a ha => hf a (by simp; exact ⟨_, ⟨f, hf', rfl⟩, ha⟩))
    have := all_ok h (fs.attach.map fun ⟨f, _⟩ => f.build ops) (by
      simp only [List.mem_map]; rintro _ ⟨⟨f, hf'⟩, _, rfl⟩; exact (ih f hf').1)
    refine ⟨this.1, fun e => ?_⟩
    rw [this.2, Formula.sem]
    simp only [List.all_map]
    congr 1; funext ⟨f, hf'⟩; exact (ih f hf').2 e
  | case8 fs ih =>
    simp only [Formula.terms] at hf
    have ih : ∀ f (hf' : f ∈ fs), LS S (f.build ops) ∧ ∀ e, eval ev (f.build ops) e = f.sem ev e :=
      fun f hf' => ih f hf' (fun a ha => hf a (by simp; exact ⟨_, ⟨f, hf', rfl⟩, ha⟩))
    have := any_ok h (fs.attach.map fun ⟨f, _⟩ => f.build ops) (by
      simp only [List.mem_map]; rintro _ ⟨⟨f, hf'⟩, _, rfl⟩; exact (ih f hf').1)
    refine ⟨this.1, fun e => ?_⟩
    rw [this.2, Formula.sem]
    simp only [List.any_map]
    congr 1; funext ⟨f, hf'⟩; exact (ih f hf').2 e
end

end Verif.Match
