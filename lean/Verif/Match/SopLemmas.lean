import Verif.Match.Lemmas
import Mathlib.Tactic.Linarith
import Mathlib.Tactic.Ring
import Mathlib.Tactic.Positivity
/-! Helper lemmas about `sum_of_products` and `cost`. -/
namespace Verif.Match
variable {α : Type} {E : Type}
variable {ops : LeafOps α} {ev : α → E → Bool} {S : α → Prop}

theorem budget_ge_two (m : M α) : 2 ≤ budget m ∧ 2 ≤ nbudget m := by
  induction m with
  | always => simp [budget, nbudget]
  | never => simp [budget, nbudget]
  | leaf a => simp [budget, nbudget]
  | not m ih => simp [budget, nbudget]; omega
  | and l r ihl ihr =>
    simp only [budget, nbudget]
    exact ⟨by nlinarith [ihl.1, ihr.1], by omega⟩
  | or l r ihl ihr =>
    simp only [budget, nbudget]
    exact ⟨by omega, by nlinarith [ihl.2, ihr.2]⟩

theorem budget_negate (m : M α) : budget (negate ops m) ≤ nbudget m + 1 := by
  cases m with
  | leaf a => simp only [negate]; split <;> simp [budget, nbudget]
  | not m => simp only [negate, nbudget]; omega
  | _ => simp [negate, budget, nbudget]

/-- The budget of `sop` always suffices. -/
theorem sopF_total (ops : LeafOps α) (m : M α) : ∀ n, budget m ≤ n →
    ∃ r, sopF ops n m = some r ∧ budget r ≤ budget m := by
  generalize hk : budget m = k
  induction k using Nat.strongRecOn generalizing m with
  | ind k ih =>
  intro n hn
  have hm2 := (budget_ge_two m).1
  obtain ⟨n, rfl⟩ : ∃ n', n = n' + 1 := ⟨n - 1, by omega⟩
  cases m with
  | or l r =>
    simp only [budget] at hk
    obtain ⟨l', hl, hbl⟩ := ih (budget l) (by omega) l rfl n (by omega)
    obtain ⟨r', hr, hbr⟩ := ih (budget r) (by omega) r rfl n (by omega)
    exact ⟨.or l' r', by simp [sopF, hl, hr], by simp [budget]; omega⟩
  | and l r =>
    simp only [budget] at hk
    have hl2 := (budget_ge_two l).1
    have hr2 := (budget_ge_two r).1
    have h1 : budget l < k := by nlinarith
    have h2 : budget r < k := by nlinarith
    obtain ⟨l', hl, hbl⟩ := ih (budget l) h1 l rfl n (by omega)
    obtain ⟨r', hr, hbr⟩ := ih (budget r) h2 r rfl n (by omega)
    have hl'2 := (budget_ge_two l').1
    have hr'2 := (budget_ge_two r').1
    have hprod : budget l' * budget r' ≤ k := by rw [← hk]; exact Nat.mul_le_mul hbl hbr
    by_cases hlo : ∃ a b, l' = .or a b
    · obtain ⟨a, b, rfl⟩ := hlo
      simp only [budget] at hprod hl'2
      have ha2 := (budget_ge_two a).1
      have hb2 := (budget_ge_two b).1
      have e1 : budget (M.and a r') = budget a * budget r' := by simp [budget]
      have e2 : budget (M.and b r') = budget b * budget r' := by simp [budget]
      have hexp : (budget a + budget b + 1) * budget r'
          = budget a * budget r' + budget b * budget r' + budget r' := by ring
      have p1 : 0 < budget a * budget r' := by positivity
      have p2 : 0 < budget b * budget r' := by positivity
      obtain ⟨x, hx, hbx⟩ := ih (budget (M.and a r')) (by omega) _ rfl n (by omega)
      obtain ⟨y, hy, hby⟩ := ih (budget (M.and b r')) (by omega) _ rfl n (by omega)
      exact ⟨.or x y, by simp [sopF, hl, hr, hx, hy], by simp [budget]; omega⟩
    · by_cases hro : ∃ a b, r' = .or a b
      · obtain ⟨a, b, rfl⟩ := hro
        simp only [budget] at hprod hr'2
        have ha2 := (budget_ge_two a).1
        have hb2 := (budget_ge_two b).1
        have e1 : budget (M.and l' a) = budget l' * budget a := by simp [budget]
        have e2 : budget (M.and l' b) = budget l' * budget b := by simp [budget]
        have hexp : budget l' * (budget a + budget b + 1)
            = budget l' * budget a + budget l' * budget b + budget l' := by ring
        have p1 : 0 < budget l' * budget a := by positivity
        have p2 : 0 < budget l' * budget b := by positivity
        obtain ⟨x, hx, hbx⟩ := ih (budget (M.and l' a)) (by omega) _ rfl n (by omega)
        obtain ⟨y, hy, hby⟩ := ih (budget (M.and l' b)) (by omega) _ rfl n (by omega)
        refine ⟨.or x y, ?_, by simp [budget]; omega⟩
        simp only [sopF, hl, hr, Option.bind_eq_bind, Option.bind_some]
        cases l' with
        | or a b => exact absurd ⟨a, b, rfl⟩ hlo
        | _ => simp [hx, hy]
      · refine ⟨.and l' r', ?_, by simpa [budget] using hprod⟩
        simp only [sopF, hl, hr, Option.bind_eq_bind, Option.bind_some]
        cases l' with
        | or a b => exact absurd ⟨a, b, rfl⟩ hlo
        | _ =>
          cases r' with
          | or a b => exact absurd ⟨a, b, rfl⟩ hro
          | _ => rfl
  | not m =>
    cases m with
    | and l r =>
      simp only [budget, nbudget] at hk
      have nl := budget_negate (ops := ops) l
      have nr := budget_negate (ops := ops) r
      obtain ⟨l', hl, hbl⟩ := ih (budget (negate ops l)) (by omega) _ rfl n (by omega)
      obtain ⟨r', hr, hbr⟩ := ih (budget (negate ops r)) (by omega) _ rfl n (by omega)
      exact ⟨.or l' r', by simp [sopF, hl, hr], by simp [budget]; omega⟩
    | or l r =>
      simp only [budget, nbudget] at hk
      have nl := budget_negate (ops := ops) l
      have nr := budget_negate (ops := ops) r
      have hl2 := (budget_ge_two l).2
      have hr2 := (budget_ge_two r).2
      have h1 : budget (negate ops l) < k := by nlinarith
      have h2 : budget (negate ops r) < k := by nlinarith
      obtain ⟨l', hl, hbl⟩ := ih (budget (negate ops l)) h1 _ rfl n (by omega)
      obtain ⟨r', hr, hbr⟩ := ih (budget (negate ops r)) h2 _ rfl n (by omega)
      have e : budget (M.and l' r') = budget l' * budget r' := by simp [budget]
      have hprod : budget l' * budget r' ≤ (nbudget l + 1) * (nbudget r + 1) :=
        Nat.mul_le_mul (by omega) (by omega)
      obtain ⟨x, hx, hbx⟩ := ih (budget (M.and l' r')) (by omega) _ rfl n (by omega)
      exact ⟨x, by simp [sopF, hl, hr, hx], by omega⟩
    | _ => exact ⟨_, rfl, by simp [hk]⟩
  | _ => exact ⟨_, rfl, by simp [hk]⟩

theorem sop_spec (ops : LeafOps α) (m : M α) : sopF ops (budget m) m = some (sop ops m) := by
  obtain ⟨r, hr, _⟩ := sopF_total ops m (budget m) (Nat.le_refl _)
  simp [sop, hr]

theorem sopF_ok (h : NegTruthful ops ev S) (n : Nat) (m r : M α) (hm : LS S m)
    (hr : sopF ops n m = some r) : LS S r ∧ ∀ e, eval ev r e = eval ev m e := by
  induction n generalizing m r with
  | zero => simp [sopF] at hr
  | succ n ih =>
    cases m with
    | or a b =>
      simp only [LS_or] at hm
      simp only [sopF, Option.bind_eq_bind, Option.bind_eq_some_iff] at hr
      obtain ⟨a', ha, b', hb, heq⟩ := hr
      cases heq
      have ha := ih a a' hm.1 ha
      have hb := ih b b' hm.2 hb
      simp [ha.1, hb.1, eval, ha.2, hb.2]
    | and a b =>
      simp only [LS_and] at hm
      simp only [sopF, Option.bind_eq_bind, Option.bind_eq_some_iff] at hr
      obtain ⟨a', ha, b', hb, heq⟩ := hr
      have ha := ih a a' hm.1 ha
      have hb := ih b b' hm.2 hb
      split at heq
      · next x y =>
        simp only [Option.bind_eq_some_iff] at heq
        obtain ⟨x', hx, y', hy, heq⟩ := heq
        cases heq
        have hls := ha.1
        simp only [LS_or] at hls
        have hx := ih _ _ (by simp [hls.1, hb.1]) hx
        have hy := ih _ _ (by simp [hls.2, hb.1]) hy
        refine ⟨by simp [hx.1, hy.1], fun e => ?_⟩
        have := ha.2 e
        simp only [eval] at this ⊢
        rw [hx.2, hy.2, eval, eval, hb.2, ← this, Bool.and_or_distrib_right]
      · next x y _ =>
        simp only [Option.bind_eq_some_iff] at heq
        obtain ⟨x', hx, y', hy, heq⟩ := heq
        cases heq
        have hls := hb.1
        simp only [LS_or] at hls
        have hx := ih _ _ (by simp [hls.1, ha.1]) hx
        have hy := ih _ _ (by simp [hls.2, ha.1]) hy
        refine ⟨by simp [hx.1, hy.1], fun e => ?_⟩
        have := hb.2 e
        simp only [eval] at this ⊢
        rw [hx.2, hy.2, eval, eval, ha.2, ← this, ← Bool.and_or_distrib_left]
      · cases heq
        simp [ha.1, hb.1, eval, ha.2, hb.2]
    | not m =>
      cases m with
      | and a b =>
        simp only [LS_not, LS_and] at hm
        simp only [sopF, Option.bind_eq_bind, Option.bind_eq_some_iff] at hr
        obtain ⟨a', ha, b', hb, heq⟩ := hr
        cases heq
        have ha := ih _ _ (LS_negate h hm.1) ha
        have hb := ih _ _ (LS_negate h hm.2) hb
        simp [ha.1, hb.1, eval, ha.2, hb.2, eval_negate h hm.1, eval_negate h hm.2]
      | or a b =>
        simp only [LS_not, LS_or] at hm
        simp only [sopF, Option.bind_eq_bind, Option.bind_eq_some_iff] at hr
        obtain ⟨a', ha, b', hb, heq⟩ := hr
        have ha := ih _ _ (LS_negate h hm.1) ha
        have hb := ih _ _ (LS_negate h hm.2) hb
        have hx := ih _ _ (by simp [ha.1, hb.1]) heq
        refine ⟨hx.1, fun e => ?_⟩
        simp [hx.2, eval, ha.2, hb.2, eval_negate h hm.1, eval_negate h hm.2]
      | _ => simp only [sopF] at hr; cases hr; exact ⟨hm, fun _ => rfl⟩
    | _ => simp only [sopF] at hr; cases hr; exact ⟨hm, fun _ => rfl⟩

theorem sop_ok (h : NegTruthful ops ev S) (m : M α) (hm : LS S m) :
    LS S (sop ops m) ∧ ∀ e, eval ev (sop ops m) e = eval ev m e :=
  sopF_ok h _ m _ hm (sop_spec ops m)

/-! ### Normal form -/

theorem NoDoubleNot_negate {m : M α} (h : NoDoubleNot m) : NoDoubleNot (negate ops m) := by
  cases h with
  | leaf a =>
    simp only [negate]; split
    · exact .leaf _
    · exact .not (by simp) (.leaf _)
  | always => exact .never
  | never => exact .always
  | not h1 h2 => exact h2
  | and h1 h2 => exact .not (by simp) (.and h1 h2)
  | or h1 h2 => exact .not (by simp) (.or h1 h2)

theorem IsDNF.noDoubleNot {m : M α} (h : IsDNF m) : NoDoubleNot m := by
  have hlit : ∀ {m : M α}, IsLiteral m → NoDoubleNot m := by
    intro m h
    cases h with
    | always => exact .always
    | never => exact .never
    | leaf a => exact .leaf a
    | nalways => exact .not (by simp) .always
    | nnever => exact .not (by simp) .never
    | nleaf a => exact .not (by simp) (.leaf a)
  have hprod : ∀ {m : M α}, IsProduct m → NoDoubleNot m := by
    intro m h
    induction h with
    | lit h => exact hlit h
    | and _ _ h1 h2 => exact .and h1 h2
  induction h with
  | prod h => exact hprod h
  | or _ _ h1 h2 => exact .or h1 h2

theorem IsDNF.inv {m : M α} (h : IsDNF m) :
    (∃ a b, m = .or a b ∧ IsDNF a ∧ IsDNF b) ∨ ((∀ a b, m ≠ .or a b) ∧ IsProduct m) := by
  cases h with
  | or h1 h2 => exact .inl ⟨_, _, rfl, h1, h2⟩
  | prod h =>
    refine .inr ⟨fun a b he => ?_, h⟩
    subst he
    cases h with | lit h => cases h

theorem sopF_dnf (n : Nat) (m r : M α) (hm : NoDoubleNot m)
    (hr : sopF ops n m = some r) : IsDNF r := by
  induction n generalizing m r with
  | zero => simp [sopF] at hr
  | succ n ih =>
    cases m with
    | or a b =>
      cases hm with | or ha0 hb0 =>
      simp only [sopF, Option.bind_eq_bind, Option.bind_eq_some_iff] at hr
      obtain ⟨a', ha, b', hb, heq⟩ := hr
      cases heq
      exact .or (ih _ _ ha0 ha) (ih _ _ hb0 hb)
    | and a b =>
      cases hm with | and ha0 hb0 =>
      simp only [sopF, Option.bind_eq_bind, Option.bind_eq_some_iff] at hr
      obtain ⟨a', ha, b', hb, heq⟩ := hr
      have ha := ih a a' ha0 ha
      have hb := ih b b' hb0 hb
      split at heq
      · next x y =>
        simp only [Option.bind_eq_some_iff] at heq
        obtain ⟨x', hx, y', hy, heq⟩ := heq
        cases heq
        have := ha.noDoubleNot
        cases this with | or h1 h2 =>
        exact .or (ih _ _ (.and h1 hb.noDoubleNot) hx) (ih _ _ (.and h2 hb.noDoubleNot) hy)
      · next x y _ =>
        simp only [Option.bind_eq_some_iff] at heq
        obtain ⟨x', hx, y', hy, heq⟩ := heq
        cases heq
        have := hb.noDoubleNot
        cases this with | or h1 h2 =>
        exact .or (ih _ _ (.and ha.noDoubleNot h1) hx) (ih _ _ (.and ha.noDoubleNot h2) hy)
      · next h1 h2 =>
        cases heq
        rcases ha.inv with ⟨x, y, he, _⟩ | ⟨_, hpa⟩
        · exact absurd he (by intro he; exact h1 _ _ he)
        · rcases hb.inv with ⟨x, y, he, _⟩ | ⟨_, hpb⟩
          · exact absurd he (by intro he; exact h2 _ _ he)
          · exact .prod (.and hpa hpb)
    | not m =>
      cases hm with | not hnn hm =>
      cases m with
      | and a b =>
        cases hm with | and ha0 hb0 =>
        simp only [sopF, Option.bind_eq_bind, Option.bind_eq_some_iff] at hr
        obtain ⟨a', ha, b', hb, heq⟩ := hr
        cases heq
        exact .or (ih _ _ (NoDoubleNot_negate ha0) ha) (ih _ _ (NoDoubleNot_negate hb0) hb)
      | or a b =>
        cases hm with | or ha0 hb0 =>
        simp only [sopF, Option.bind_eq_bind, Option.bind_eq_some_iff] at hr
        obtain ⟨a', ha, b', hb, heq⟩ := hr
        exact ih _ _ (.and (ih _ _ (NoDoubleNot_negate ha0) ha).noDoubleNot
          (ih _ _ (NoDoubleNot_negate hb0) hb).noDoubleNot) heq
      | not m => exact absurd rfl (hnn m)
      | always => simp only [sopF] at hr; cases hr; exact .prod (.lit .nalways)
      | never => simp only [sopF] at hr; cases hr; exact .prod (.lit .nnever)
      | leaf a => simp only [sopF] at hr; cases hr; exact .prod (.lit (.nleaf a))
    | always => simp only [sopF] at hr; cases hr; exact .prod (.lit .always)
    | never => simp only [sopF] at hr; cases hr; exact .prod (.lit .never)
    | leaf a => simp only [sopF] at hr; cases hr; exact .prod (.lit (.leaf a))

/-! ### Simplification keeps the shape and does not grow -/
section
variable [DecidableEq α]
set_option linter.unusedSectionVars false

theorem NoDoubleNot_simplifyAnd {l r : M α} (hl : NoDoubleNot l) (hr : NoDoubleNot r) :
    NoDoubleNot (simplifyAnd ops l r) := by
  simp only [simplifyAnd, deMorganAnd]
  repeat' split
  · exact hl
  · exact hr
  · exact .never
  · exact NoDoubleNot_negate (.or (NoDoubleNot_negate hl) (NoDoubleNot_negate hr))
  · exact .and hl hr

theorem NoDoubleNot_simplifyOr {l r : M α} (hl : NoDoubleNot l) (hr : NoDoubleNot r) :
    NoDoubleNot (simplifyOr ops l r) := by
  simp only [simplifyOr, deMorganOr]
  repeat' split
  · exact hr
  · exact hl
  · exact .always
  · exact NoDoubleNot_negate (.and (NoDoubleNot_negate hl) (NoDoubleNot_negate hr))
  · exact .or hl hr

/-- Simplification removes any raw double `not_t`. -/
theorem NoDoubleNot_simplify (m : M α) : NoDoubleNot (simplify ops m) := by
  fun_induction simplify ops m with
  | case1 l r ihl ihr => exact NoDoubleNot_simplifyAnd ihl ihr
  | case2 l r ihl ihr => exact NoDoubleNot_simplifyOr ihl ihr
  | case3 => exact .never
  | case4 => exact .always
  | case5 m _ _ ih => exact NoDoubleNot_negate ih
  | case6 m h1 h2 h3 h4 h5 =>
    cases m with
    | always => exact .always
    | never => exact .never
    | leaf a => exact .leaf a
    | not m => exact absurd rfl (h5 m)
    | and l r => exact absurd rfl (h1 l r)
    | or l r => exact absurd rfl (h2 l r)

theorem NoDoubleNot_build (f : Formula α) : NoDoubleNot (f.build ops) := by
  cases f with
  | always => simp only [Formula.build]; exact .always
  | never => simp only [Formula.build]; exact .never
  | term a => simp only [Formula.build]; exact .leaf a
  | _ => simp only [Formula.build, opNot, opAnd, opOr, Match.all, Match.any]; exact NoDoubleNot_simplify _

theorem cost_pos (m : M α) : 1 ≤ cost m := by cases m <;> simp [cost]

theorem cost_negate (m : M α) : cost (negate ops m) ≤ cost m + 1 := by
  cases m with
  | leaf a => simp only [negate]; split <;> simp [cost]
  | not m => simp [negate, cost]; omega
  | _ => simp [negate, cost]

theorem cost_simplify (m : M α) : cost (simplify ops m) ≤ cost m := by
  fun_induction simplify ops m with
  | case1 l r ihl ihr =>
    simp only [simplifyAnd, deMorganAnd]
    repeat' split
    all_goals simp only [cost] at *
    all_goals omega
  | case2 l r ihl ihr =>
    simp only [simplifyOr, deMorganOr]
    repeat' split
    all_goals simp only [cost] at *
    all_goals omega
  | case3 => simp [cost]
  | case4 => simp [cost]
  | case5 m _ _ ih =>
    have := cost_negate (ops := ops) (simplify ops m)
    simp only [cost]; omega
  | case6 => exact Nat.le_refl _
end

end Verif.Match
