import Verif.React.Spec
import Verif.Handler.MixProps
/-!
# C170: callbacks that change what conditions read
-/
namespace Verif.React
open Verif.Match Verif.Handler

variable {σ : Type}

theorem fold_turns (P : Program σ) (cbs : List Callback) (o : Running σ) :
    ∃ l s', Turns P cbs o.state l s' ∧
      cbs.foldl P.step o = ⟨s', o.called ++ l, o.handled || !l.isEmpty⟩ := by
  induction cbs generalizing o with
  | nil => exact ⟨[], o.state, .done _, by simp⟩
  | cons c cs ih =>
    rw [List.foldl_cons]
    by_cases h : c.isMatch (P.msg o.state) = true
    · obtain ⟨l, s', h1, h2⟩ := ih (P.step o c)
      rw [h2]
      simp only [Program.step, h, if_true] at h1 ⊢
      exact ⟨c.id :: l, s', .call h h1, by simp⟩
    · obtain ⟨l, s', h1, h2⟩ := ih (P.step o c)
      rw [h2]
      rw [Program.step, if_neg h] at h1 ⊢
      exact ⟨l, s', .skip (Bool.eq_false_iff.2 h) h1, by simp⟩

/-- There is one way in which the turns can go. -/
theorem turns_unique {P : Program σ} {cbs : List Callback} {s : σ} {l l' : List Nat} {t t' : σ}
    (h : Turns P cbs s l t) (h' : Turns P cbs s l' t') : l = l' ∧ t = t' := by
  induction h generalizing l' t' with
  | done s => cases h'; exact ⟨rfl, rfl⟩
  | call hm _ ih =>
    cases h' with
    | call _ h2 => obtain ⟨rfl, rfl⟩ := ih h2; exact ⟨rfl, rfl⟩
    | skip hf _ => rw [hm] at hf; cases hf
  | skip hm _ ih =>
    cases h' with
    | call hf _ => rw [hm] at hf; cases hf
    | skip _ h2 => exact ih h2

theorem finish_tells (s' : σ) (l : List Nat) : Tells (Running.finish ⟨s', l, !l.isEmpty⟩) l s' := by
  refine ⟨rfl, rfl, ?_, ?_⟩ <;> cases l <;> simp [Running.finish]

theorem turns_sublist {P : Program σ} {cbs : List Callback} {s s' : σ} {l : List Nat}
    (h : Turns P cbs s l s') : l.Sublist (cbs.map (·.id)) := by
  induction h with
  | done s => exact .slnil
  | call _ _ ih => exact ih.cons_cons _
  | skip _ _ ih => exact ih.cons _

/-- C170: in whatever order the compiler evaluates the operands, each callback has one turn, and is
called exactly when its condition holds at that time, after the callbacks before it have done their
work; none is called more often than it is registered. -/
theorem C170_handler (P : Program σ) (cbs order : List Callback) (ho : order.Perm cbs) (s : σ) :
    ∃ l s', Turns P order s l s' ∧ Tells (P.handleIn order s) l s' ∧
      ∀ n, l.count n ≤ (cbs.map (·.id)).count n := by
  obtain ⟨l, s', h1, h2⟩ := fold_turns P order ⟨s, [], false⟩
  refine ⟨l, s', h1, ?_, fun n => ?_⟩
  · rw [Program.handleIn, h2]
    simpa using finish_tells s' l
  · rw [← (ho.map (·.id)).count_eq]
    exact (turns_sublist h1).count_le n

/-- C170: with the operands from left to right the turns are those of the callbacks as registered. -/
theorem C170_in_order (P : Program σ) (cbs : List Callback) {s s' : σ} {l : List Nat}
    (h : Turns P cbs s l s') : Tells (P.handle cbs s) l s' := by
  obtain ⟨l', t', h1, h2, _⟩ := C170_handler P cbs cbs (.refl _) s
  obtain ⟨rfl, rfl⟩ := turns_unique h h1
  exact h2

/-- C170: when no callback is called, nothing has changed. -/
theorem C170_unclaimed (P : Program σ) (cbs : List Callback) (s : σ)
    (h : (P.handle cbs s).out.handled = false) :
    (P.handle cbs s).state = s ∧ ∀ c ∈ cbs, eval revalLeaf c.matcher (P.msg s) = false := by
  obtain ⟨l, s', h1, ht, -⟩ := C170_handler P cbs cbs (.refl _) s
  change Tells (P.handle cbs s) l s' at ht
  have hl : l = [] := by
    by_contra hne
    rw [ht.2.2.1.2 hne] at h
    cases h
  subst hl
  rw [ht.1]
  clear ht h
  generalize hq : ([] : List Nat) = q at h1
  induction h1 with
  | done s => exact ⟨rfl, by simp⟩
  | call _ _ => cases hq
  | skip hm _ ih =>
    obtain ⟨e, hall⟩ := ih hq
    refine ⟨e, fun c hc => ?_⟩
    rcases List.mem_cons.1 hc with rfl | hc
    · exact hm
    · exact hall c hc

theorem candidates_congr {fields : List Field} {cbs : List Callback} {e e' : Msg}
    (h : ∀ f ∈ fields, e.val f = e'.val f) : candidates fields cbs e = candidates fields cbs e' := by
  cases fields with
  | nil => rfl
  | cons f fs =>
    funext i
    simp only [candidates]
    rw [Bool.eq_iff_iff, List.all_eq_true, List.all_eq_true]
    constructor
    · intro hh g hg; rw [← h g hg]; exact hh g hg
    · intro hh g hg; rw [h g hg]; exact hh g hg

theorem indexed_fold {G : M RLeaf → Prop} (hG : Sound G) (P : Program σ) (hT : Typed P)
    (fields : List Field) (hf : fields ≠ []) (hk : KeepsFields P fields) (cbs : List Callback)
    (hc : ∀ c ∈ cbs, G c.matcher) (hI : Indexable fields ((build cbs).map (·.matcher))) (e : Msg)
    (ts : List Callback) (n : Nat) (hts : ∀ i t, ts[i]? = some t → (build cbs)[n + i]? = some t)
    (o : Running σ) (ho : ∀ f ∈ fields, P.val o.state f = e.val f) :
    ((((ts.zipIdx n).filter fun p => candidates fields (build cbs) e p.2).map (·.1)).foldl
      (fun o c => P.step o ⟨c.id, removeTerms fields c.matcher⟩) o) = ts.foldl P.step o := by
  induction ts generalizing n o with
  | nil => rfl
  | cons t ts ih =>
    have hts' : ∀ i u, ts[i]? = some u → (build cbs)[n + 1 + i]? = some u := by
      intro i u hu
      have := hts (i + 1) u (by simpa using hu)
      rwa [show n + 1 + i = n + (i + 1) by omega]
    have hex := candidate_exact hG fields hf cbs hc hI ⟨P.msg o.state, hT o.state⟩ n t
      (by simpa using hts 0 t rfl)
    rw [candidates_congr (e := P.msg o.state) (e' := e) ho] at hex
    have hkeep : ∀ f ∈ fields, P.val (P.step o t).state f = e.val f := by
      intro f hff
      rw [Program.step]
      split
      · exact (hk t.id o.state f hff).trans (ho f hff)
      · exact ho f hff
    rw [List.zipIdx_cons, List.filter_cons, List.foldl_cons]
    by_cases hcand : candidates fields (build cbs) e n = true
    · rw [if_pos hcand, List.map_cons, List.foldl_cons]
      have hstep : P.step o ⟨t.id, removeTerms fields t.matcher⟩ = P.step o t := by
        rw [hcand, Bool.true_and] at hex
        have hm : (⟨t.id, removeTerms fields t.matcher⟩ : Callback).isMatch (P.msg o.state) =
            t.isMatch (P.msg o.state) := hex
        rw [Program.step, Program.step, hm]
      dsimp only
      rw [hstep]
      exact ih (n + 1) hts' _ hkeep
    · rw [if_neg hcand]
      have hno : P.step o t = o := by
        have : t.isMatch (P.msg o.state) = false := by
          rw [← hex]; simp [hcand]
        simp [Program.step, this]
      rw [hno]
      exact ih (n + 1) hts' o ho

/-- The indexed service works on the conjunctions as the plain service does. -/
theorem indexed_eq {G : M RLeaf → Prop} (hG : Sound G) (P : Program σ) (hT : Typed P)
    (fields : List Field) (hf : fields ≠ []) (hk : KeepsFields P fields) (cbs : List Callback)
    (hc : ∀ c ∈ cbs, G c.matcher) (hI : Indexable fields ((build cbs).map (·.matcher))) (s : σ) :
    P.handleIndexed fields cbs s = P.handle (build cbs) s := by
  rw [Program.handleIndexed, Program.handle, Program.handleIn, candidateList]
  rw [indexed_fold hG P hT fields hf hk cbs hc hI (P.msg s) (build cbs) 0 (by simp) ⟨s, [], false⟩
    (fun _ _ => rfl)]

theorem fold_congr (P : Program σ) {cbs ts : List Callback}
    (h : List.Forall₂ (fun c t => c.id = t.id ∧ ∀ s, c.isMatch (P.msg s) = t.isMatch (P.msg s)) cbs ts)
    (o : Running σ) : cbs.foldl P.step o = ts.foldl P.step o := by
  induction h generalizing o with
  | nil => rfl
  | cons h _ ih =>
    rw [List.foldl_cons, List.foldl_cons, Program.step, Program.step, h.1, h.2 o.state]
    exact ih _

theorem indexed_single {G : M RLeaf → Prop} (hG : Sound G) (P : Program σ) (hT : Typed P)
    (fields : List Field) (hf : fields ≠ []) (hk : KeepsFields P fields) (cbs : List Callback)
    (hc : ∀ c ∈ cbs, G c.matcher) (hI : Indexable fields ((build cbs).map (·.matcher)))
    (h1 : ∀ c ∈ cbs, (separate c).length = 1) (s : σ) :
    P.handleIndexed fields cbs s = P.handle cbs s := by
  rw [indexed_eq hG P hT fields hf hk cbs hc hI, Program.handle, Program.handle, Program.handleIn,
    Program.handleIn]
  congr 1
  symm
  apply fold_congr
  clear hI
  induction cbs with
  | nil => exact .nil
  | cons c cs ih =>
    obtain ⟨t, ht⟩ := List.length_eq_one_iff.1 (h1 c List.mem_cons_self)
    rw [build, List.flatMap_cons, ht]
    refine .cons ⟨(separate_id c t (by simp [ht])).symm, fun s => ?_⟩
      (ih (fun c hc' => hc c (List.mem_cons_of_mem _ hc')) fun c hc' => h1 c (List.mem_cons_of_mem _ hc'))
    have := (hG.separate c (hc c List.mem_cons_self)).2 ⟨P.msg s, hT s⟩
    rw [this, ht]
    simp

/-- C170 (partial), for indexed services: each conjunction of the callbacks has its turn, in order, and
the callback is called exactly when the conjunction holds at that time. Assumed: the callbacks leave the
index fields of the message alone, the conjunctions are `Indexable`, and `==`/`!=` tests of one field use
one constant or are not negated. Missing: see the violations below and those of C25. -/
theorem C170_indexed_terms_partial (K : Field → Option Int) (P : Program σ) (hT : Typed P)
    (fields : List Field) (hf : fields ≠ []) (hk : KeepsFields P fields) (cbs : List Callback)
    (hc : ∀ c ∈ cbs, MixTree K c.matcher) (hI : Indexable fields ((build cbs).map (·.matcher))) (s : σ) :
    ∃ l s', Turns P (build cbs) s l s' ∧ Tells (P.handleIndexed fields cbs s) l s' := by
  rw [indexed_eq (sound_mix K) P hT fields hf hk cbs hc hI s]
  obtain ⟨l, s', h1, h2, -⟩ := C170_handler P (build cbs) (build cbs) (.refl _) s
  exact ⟨l, s', h1, h2⟩

/-- C170 (partial), for indexed services whose callbacks have no alternatives: each callback has one
turn, in the order in which they are registered, and is called exactly when its condition holds at that
time, as by the plain service. Assumed and missing: as above. -/
theorem C170_indexed_partial (K : Field → Option Int) (P : Program σ) (hT : Typed P)
    (fields : List Field) (hf : fields ≠ []) (hk : KeepsFields P fields) (cbs : List Callback)
    (hc : ∀ c ∈ cbs, MixTree K c.matcher) (hI : Indexable fields ((build cbs).map (·.matcher)))
    (h1 : ∀ c ∈ cbs, (separate c).length = 1) {s s' : σ} {l : List Nat} (h : Turns P cbs s l s') :
    Tells (P.handleIndexed fields cbs s) l s' := by
  rw [indexed_single (sound_mix K) P hT fields hf hk cbs hc hI h1 s]
  exact C170_in_order P cbs h

/-! ## An example, and what is violated -/

/-- Field `a` is 1. Predicate `p` asks whether the counter is `p`; every callback counts up. -/
def exProgram : Program Nat := ⟨fun p s => s == p, fun _ => (exMsg2 1 0 false).val, fun _ s => s + 1⟩

theorem exProgram_typed : Typed exProgram := fun s =>
  exMsg2_WT (p := false) (a := 1) (b := 0) (by decide) (by decide)

/-- Two callbacks for the same condition: after the first one has been called it does not hold. -/
def exCbs : List Callback := [⟨1, .and (.leaf (.rel .eq exA 1)) (.leaf (.pred 0))⟩,
  ⟨2, .and (.leaf (.rel .eq exA 1)) (.leaf (.pred 0))⟩, ⟨3, .leaf (.pred 1)⟩]

theorem exTurns : Turns exProgram exCbs 0 [1, 3] 2 :=
  .call (by decide +kernel) (.skip (by decide +kernel) (.call (by decide +kernel) (.done _)))

example : Tells (exProgram.handle exCbs 0) [1, 3] 2 := C170_in_order _ _ exTurns

example : Tells (exProgram.handleIndexed [exA] exCbs 0) [1, 3] 2 := by
  have hb : (build exCbs).map (·.matcher) = [.and (.leaf (.rel .eq exA 1)) (.leaf (.pred 0)),
      .and (.leaf (.rel .eq exA 1)) (.leaf (.pred 0)), .leaf (.pred 1)] := by decide +kernel
  refine C170_indexed_partial (fun _ => none) exProgram exProgram_typed [exA] (by simp)
    (fun _ _ _ _ => rfl) exCbs ?_ ?_ (by decide +kernel) exTurns
  · intro c hc
    simp only [exCbs, List.mem_cons, List.not_mem_nil, or_false] at hc
    rcases hc with rfl | rfl | rfl <;> simp [MixTree, MixLeaf] <;> decide
  · rw [hb]
    refine ⟨by simp [NoNot], by simp [leaves, Selects], ?_⟩
    intro i j s t hi _ f _ v hs _
    match i with
    | 0 => simp at hi; subst hi; simp [leaves] at hs
    | 1 => simp at hi; subst hi; simp [leaves] at hs
    | 2 => simp at hi; subst hi; simp [leaves] at hs
    | n + 3 => simp at hi

/-- C170 is violated for alternatives: an indexed service gives each of them a turn, so that the
callback is called twice, although it has one turn in the plain service. -/
theorem C170_violated_alternatives : ∃ (P : Program Nat) (c : Callback), Typed P ∧
    KeepsFields P [exA] ∧ Tells (P.handle [c] 0) [c.id] 1 ∧
    (P.handleIndexed [exA] [c] 0).out.called = [c.id, c.id] := by
  refine ⟨exProgram, ⟨1, .or (.and (.leaf (.rel .eq exA 1)) (.leaf (.pred 0)))
    (.and (.leaf (.rel .eq exA 1)) (.leaf (.pred 1)))⟩, exProgram_typed, fun _ _ _ _ => rfl,
    C170_in_order _ _ (.call (by decide +kernel) (.done _)), by decide +kernel⟩

/-- C170 is violated when a callback writes into the message that is being handled: the index was asked
before, so that a callback is left out whose condition holds at its turn. -/
theorem C170_violated_write : ∃ (P : Program Bool) (cbs : List Callback), Typed P ∧
    Tells (P.handle cbs false) [1, 2] true ∧
    (P.handleIndexed [exA] cbs false).out.called = [1] := by
  refine ⟨⟨fun _ _ => false, fun s => (exMsg2 (if s then 2 else 1) 0 false).val, fun _ _ => true⟩,
    [⟨1, .leaf (.rel .eq exA 1)⟩, ⟨2, .leaf (.rel .eq exA 2)⟩], fun s => ?_,
    C170_in_order _ _ (.call (by decide +kernel) (.call (by decide +kernel) (.done _))),
    by decide +kernel⟩
  cases s
  · exact exMsg2_WT (p := false) (a := 1) (b := 0) (by decide) (by decide)
  · exact exMsg2_WT (p := false) (a := 2) (b := 0) (by decide) (by decide)

end Verif.React
