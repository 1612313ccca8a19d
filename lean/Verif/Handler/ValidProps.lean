import Verif.Handler.ValidModel
import Verif.Handler.Props
import Verif.Handler.MixProps
/-! # C177: the validator refuses callbacks that are never called -/
namespace Verif.Handler
open Verif.Match

/-- **C177** (part) If an indexed service is refused, a callback has an alternative that no message meets. Missing:
conditions outside the classes on which simplifying keeps the meaning (`C177_violated_refused`), and negated
predicates. -/
theorem C177_refused_partial {G : M RLeaf → Prop} (hG : Sound G) (fields : List Field) (cbs : List Callback)
    (hc : ∀ c ∈ cbs, G c.matcher) (hn : ∀ t ∈ build cbs, NoNot t.matcher) (h : accepted fields cbs = false) :
    ∃ c ∈ cbs, ∃ t ∈ separate c, ∀ e : WMsg, eval revalLeaf t.matcher e.1 = false := by
  rw [accepted, List.all_eq_false] at h
  obtain ⟨t, ht, hv⟩ := h
  obtain ⟨c, hm, hs⟩ := List.mem_flatMap.1 ht
  refine ⟨c, hm, t, hs, fun e => ?_⟩
  have hr := (hG.remove fields t.matcher (separate_product c t hs).1 (hn t ht)
    ((hG.separate c (hc c hm)).1 t hs) e).2
  rw [validate, decide_eq_true_iff, not_not] at hv
  rw [hv] at hr
  rw [Bool.eq_false_iff]
  intro he
  exact absurd (hr.1 he).1 (by simp [eval])

/-- So a callback of one alternative is refused only if no message is for it. -/
theorem C177_refused_one_partial {G : M RLeaf → Prop} (hG : Sound G) (fields : List Field) (c : Callback)
    (hc : G c.matcher) (h1 : (separate c).length = 1) (hn : ∀ t ∈ separate c, NoNot t.matcher)
    (h : accepted fields [c] = false) (e : WMsg) : c.isMatch e.1 = false := by
  obtain ⟨c', hm, t, hs, he⟩ := C177_refused_partial hG fields [c] (by simpa using hc)
    (by simpa [build] using hn) h
  obtain rfl := List.mem_singleton.1 hm
  rw [(hG.separate c' hc).2 e]
  obtain ⟨u, hu⟩ := List.length_eq_one_iff.1 h1
  rw [hu, List.mem_singleton] at hs
  rw [hu, List.any_cons, List.any_nil, Bool.or_false, ← hs]
  exact he e

/-- Each callback is looked at by itself, whatever the others are. -/
theorem C177_each (fields : List Field) (cbs : List Callback) :
    accepted fields cbs = true ↔ ∀ c ∈ cbs, accepted fields [c] = true := by
  simp only [accepted, build, List.flatMap_cons, List.flatMap_nil, List.append_nil, List.all_eq_true, List.mem_flatMap]
  exact ⟨fun h c hc t ht => h t ⟨c, hc, ht⟩, fun h t ⟨c, hc, ht⟩ => h c hc t ht⟩

theorem all_leaf (a : RLeaf) : all relOps [.leaf a] = .leaf a := by
  simp [all, simplify, simplifyAnd, implies, impliesL]

theorem all_nil : all relOps [] = .always := rfl

theorem eq_implies (f : Field) (a b : Int) : implies relOps (.leaf (.rel .eq f a)) (.leaf (.rel .eq f b)) = decide (a = b) := by
  simp [implies, impliesL, relOps, relImplies, RelOp.app]

theorem and_eq (f : Field) (a b : Int) : opAnd relOps (.leaf (.rel .eq f a)) (.leaf (.rel .eq f b)) =
    if a = b then .leaf (.rel .eq f a) else .never := by
  rw [opAnd, simplify, simplify, simplify, simplifyAnd, eq_implies, eq_implies]
  · by_cases h : a = b
    · simp [h]
    · rw [if_neg h, if_neg (by simpa using h), if_neg (by simpa using fun h' : b = a => h h'.symm), if_pos]
      simp [implies, impliesL, negate, relOps, relImplies, RelOp.inverse, RelOp.app, h]
  all_goals simp

theorem never_separate (id : Nat) : separate ⟨id, .never⟩ = [⟨id, .never⟩] := by
  simp [separate, all, simplify, simplifyAnd, implies, impliesL, sop, sopF, budget, splitOr]

theorem leaf_separate (id : Nat) (a : RLeaf) : separate ⟨id, .leaf a⟩ = [⟨id, .leaf a⟩] := by
  rw [separate, all_leaf]
  simp [sop, sopF, budget, splitOr]

/-- **C177** (part) A condition of one value for a definition that requires one, or of two values, is refused exactly
if the values differ; whatever the index fields are. -/
theorem C177_two_partial (fields : List Field) (id : Nat) (f : Field) (a b : Int) :
    (accepted fields [construct id (.leaf (.rel .eq f a)) [.leaf (.rel .eq f b)]] = true ↔ a = b) ∧
    (accepted fields [construct id (opAnd relOps (.leaf (.rel .eq f a)) (.leaf (.rel .eq f b))) []] = true ↔ a = b) := by
  have hs : ∀ a : RLeaf, sop relOps (.leaf a) = .leaf a := by intro a; simp [sop, sopF, budget]
  have hn : sop relOps (.never : M RLeaf) = .never := by simp [sop, sopF, budget]
  have key : ∀ m : M RLeaf, (m = if a = b then .leaf (.rel .eq f a) else .never) →
      (accepted fields [⟨id, sop relOps m⟩] = true ↔ a = b) := by
    rintro m rfl
    by_cases h : a = b
    · rw [if_pos h, hs, accepted, build, List.flatMap_cons, leaf_separate]
      simp only [h, iff_true]
      by_cases hf : f ∈ fields <;> simp [validate, removeTerms, hf]
    · rw [if_neg h, hn, accepted, build, List.flatMap_cons, never_separate]
      simp [validate, removeTerms, h]
  constructor
  · rw [construct, all_leaf, and_eq]
    exact key _ rfl
  · rw [construct, all_nil, and_eq]
    have : ∀ m : M RLeaf, m = (if a = b then .leaf (.rel .eq f a) else .never) → opAnd relOps m .always = m := by
      rintro m rfl
      split <;> simp [opAnd, simplify, simplifyAnd, implies, impliesL]
    rw [this _ rfl]
    exact key _ rfl

/-- The cases of the tests of the library, and one that is accepted. -/
example : accepted [exA] [construct 1 (eqF exA 0x81) [eqF exA 0x80]] = false ∧
    accepted [exA] [construct 1 (eqF exA 0x80) [eqF exA 0x80], construct 2 (eqF exB 1) [eqF exA 0x80]] = true := by
  decide +kernel
example : Sound PosTree ∧ PosTree (construct 1 (eqF exA 0x81) [eqF exA 0x80]).matcher ∧
    (∀ t ∈ separate (construct 1 (eqF exA 0x81) [eqF exA 0x80]), NoNot t.matcher) := by
  have h : (construct 1 (eqF exA 0x81) [eqF exA 0x80]) = ⟨1, .never⟩ := by decide +kernel
  rw [h, never_separate]
  simp [sound_posTree, PosTree, NoNot]

/-- **C177** is violated: a callback with the condition `a != 5 and b == 2 and a == 6` is refused, although messages
with `a == 6` and `b == 2` meet it. -/
theorem C177_violated_refused :
    accepted [exA] [construct 1 (opAnd relOps (opAnd relOps (.leaf (.rel .ne exA 5)) (eqF exB 2)) (eqF exA 6)) []] = false ∧
    eval revalLeaf (.and (.and (.leaf (.rel .ne exA 5)) (eqF exB 2)) (eqF exA 6)) (exMsg2 6 2 false) = true := by
  decide +kernel

/-- Another field. -/
def exC : Field := ⟨2, ⟨8, false⟩⟩

/-- And a callback with the condition `a == 1 and b == 2` for a definition that requires `c == 3` and `a == 5` is
accepted, although no message meets it. -/
theorem C177_violated_missed :
    accepted [exA] [construct 1 (opAnd relOps (eqF exA 1) (eqF exB 2)) [eqF exC 3, eqF exA 5]] = true ∧
    ∀ e : Msg, eval revalLeaf (.and (.and (eqF exA 1) (eqF exB 2)) (.and (eqF exC 3) (eqF exA 5))) e = false := by
  refine ⟨by decide +kernel, fun e => ?_⟩
  by_contra h
  simp [eval, revalLeaf, RelOp.app] at h
  omega

end Verif.Handler
