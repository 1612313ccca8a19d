import Verif.Flow.Model
import Mathlib.Data.List.Dedup
import Mathlib.Data.List.Perm.Subperm
import Mathlib.Data.Fintype.Card
import Mathlib.Data.Fintype.EquivFin
import Mathlib.Logic.Relation
import Mathlib.Tactic.Tauto

/-! # Lemmas about sorting -/
namespace Verif.Flow

section
variable {K : Type} [DecidableEq K]

theorem mem_setInsert {a b : K} {s : List K} : b ∈ setInsert a s ↔ b = a ∨ b ∈ s := by
  unfold setInsert
  split
  · constructor
    · exact Or.inr
    · rintro (rfl | h) <;> assumption
  · simp [or_comm]

theorem nodup_setInsert {a : K} {s : List K} (h : s.Nodup) : (setInsert a s).Nodup := by
  unfold setInsert
  split
  · exact h
  · rename_i ha
    rw [List.nodup_append]
    refine ⟨h, by simp, ?_⟩
    intro x hx y hy
    simp only [List.mem_singleton] at hy
    rintro rfl
    exact ha (hy ▸ hx)

theorem mem_setErase {a b : K} {s : List K} : b ∈ setErase a s ↔ b ∈ s ∧ b ≠ a := by
  simp [setErase]

theorem nodup_setErase {a : K} {s : List K} (h : s.Nodup) : (setErase a s).Nodup := h.filter _

theorem mem_eraseEdge_pairs {g : Graph K} {n m : K} {p : K × K} :
    p ∈ (g.eraseEdge n m).pairs ↔ p ∈ g.pairs ∧ p ≠ (n, m) := by
  simp [Graph.eraseEdge]

theorem mem_eraseEdge_keys {g : Graph K} {n m k : K} :
    k ∈ (g.eraseEdge n m).keys ↔
      k ∈ g.keys ∧ (k = n → ∃ b, (n, b) ∈ (g.eraseEdge n m).pairs) := by
  have h : (∃ b, (n, b) ∈ (g.eraseEdge n m).pairs) ↔
      ((g.pairs.filter fun p => decide (p ≠ (n, m))).any fun p => decide (p.1 = n)) = true := by
    simp only [List.any_eq_true, decide_eq_true_eq]
    constructor
    · rintro ⟨b, hb⟩
      exact ⟨(n, b), hb, rfl⟩
    · rintro ⟨⟨a, b⟩, hb, rfl⟩
      exact ⟨b, hb⟩
  rw [h]
  show k ∈ (if _ then _ else _) ↔ _
  split
  · rename_i h'
    simp only [h', implies_true, and_true]
  · rename_i h'
    rw [mem_setErase]
    simp only [h', Bool.false_eq_true]

theorem isSourceOf_iff {n : K} {g : Graph K} : isSourceOf n g = true ↔ ∀ a, (a, n) ∉ g.pairs := by
  simp only [isSourceOf, Bool.not_eq_true', List.any_eq_false, decide_eq_true_eq]
  constructor
  · intro h a ha
    exact h _ ha rfl
  · rintro h ⟨a, b⟩ hp rfl
    exact h a hp

theorem mem_get {g : Graph K} {n m : K} : m ∈ g.get n ↔ (n, m) ∈ g.pairs := by
  simp only [Graph.get, List.mem_map, List.mem_filter, decide_eq_true_eq]
  constructor
  · rintro ⟨⟨a, b⟩, ⟨h, rfl⟩, rfl⟩
    exact h
  · intro h
    exact ⟨(n, m), ⟨h, rfl⟩, rfl⟩

theorem foldl_setInsert_mem (l s : List K) (a : K) :
    a ∈ l.foldl (fun s k => setInsert k s) s ↔ a ∈ s ∨ a ∈ l := by
  induction l generalizing s with
  | nil => simp
  | cons k l ih =>
    rw [List.foldl_cons, ih, mem_setInsert, List.mem_cons]
    tauto

theorem foldl_setInsert_nodup (l s : List K) (h : s.Nodup) :
    (l.foldl (fun s k => setInsert k s) s).Nodup := by
  induction l generalizing s with
  | nil => exact h
  | cons k l ih => exact ih _ (nodup_setInsert h)

theorem foldl_setErase_mem (l : List (K × K)) (s : List K) (a : K) :
    a ∈ l.foldl (fun s p => setErase p.2 s) s ↔ a ∈ s ∧ ∀ x, (x, a) ∉ l := by
  induction l generalizing s with
  | nil => simp
  | cons p l ih =>
    rw [List.foldl_cons, ih, mem_setErase]
    constructor
    · rintro ⟨⟨hs, hp⟩, hl⟩
      refine ⟨hs, fun x hx => ?_⟩
      rcases List.mem_cons.mp hx with h | h
      · exact hp (by rw [← h])
      · exact hl x h
    · rintro ⟨hs, hl⟩
      refine ⟨⟨hs, ?_⟩, fun x hx => hl x (List.mem_cons_of_mem _ hx)⟩
      rintro rfl
      exact hl p.1 List.mem_cons_self

theorem foldl_setErase_nodup (l : List (K × K)) (s : List K) (h : s.Nodup) :
    (l.foldl (fun s p => setErase p.2 s) s).Nodup := by
  induction l generalizing s with
  | nil => exact h
  | cons k l ih => exact ih _ (nodup_setErase h)

theorem mem_getSources {g : Graph K} {a : K} :
    a ∈ getSources g ↔ a ∈ g.keys ∧ ∀ x, (x, a) ∉ g.pairs := by
  unfold getSources
  rw [foldl_setErase_mem, foldl_setInsert_mem]
  simp

theorem nodup_getSources (g : Graph K) : (getSources g).Nodup :=
  foldl_setErase_nodup _ _ (foldl_setInsert_nodup _ _ List.nodup_nil)

/-- The effect of the loop over the successors. -/
theorem relax_spec (n : K) (rest : List K) (sg : List K × Graph K)
    (hloop : (n, n) ∉ sg.2.pairs) :
    (∀ a b, (a, b) ∈ (relax n rest sg).2.pairs ↔ (a, b) ∈ sg.2.pairs ∧ ¬ (a = n ∧ b ∈ rest)) ∧
    (∀ k, k ∈ (relax n rest sg).2.keys ↔
      k ∈ sg.2.keys ∧ (k = n → rest = [] ∨ ∃ b, (n, b) ∈ (relax n rest sg).2.pairs)) ∧
    (∀ s, s ∈ (relax n rest sg).1 ↔
      s ∈ sg.1 ∨ (s ∈ rest ∧ ∀ a, (a, s) ∈ sg.2.pairs → a = n)) ∧
    (sg.1.Nodup → (relax n rest sg).1.Nodup) := by
  induction rest generalizing sg with
  | nil => simp [relax]
  | cons m ms ih =>
    obtain ⟨S, g⟩ := sg
    have hl' : (n, n) ∉ (g.eraseEdge n m).pairs := fun h => hloop (mem_eraseEdge_pairs.mp h).1
    obtain ⟨h1, h2, h3, h4⟩ := ih
      (if isSourceOf m (g.eraseEdge n m) then setInsert m S else S, g.eraseEdge n m) hl'
    simp only [relax] at *
    have hE : ∀ a b, (a, b) ∈ (relax n ms
        (if isSourceOf m (g.eraseEdge n m) then setInsert m S else S, g.eraseEdge n m)).2.pairs ↔
        (a, b) ∈ g.pairs ∧ ¬ (a = n ∧ b ∈ m :: ms) := by
      intro a b
      rw [h1, mem_eraseEdge_pairs]
      simp only [ne_eq, Prod.mk.injEq, List.mem_cons]
      tauto
    refine ⟨hE, ?_, ?_, ?_⟩
    · intro k
      rw [h2, mem_eraseEdge_keys]
      constructor
      · rintro ⟨⟨hk, ha⟩, hb⟩
        refine ⟨hk, fun hkn => Or.inr ?_⟩
        rcases hb hkn with rfl | h
        · obtain ⟨b, hb'⟩ := ha hkn
          refine ⟨b, ?_⟩
          simp only [relax]
          exact hb'
        · exact h
      · rintro ⟨hk, hb⟩
        refine ⟨⟨hk, fun hkn => ?_⟩, fun hkn => ?_⟩
        · rcases hb hkn with h | ⟨b, h⟩
          · cases h
          · exact ⟨b, ((h1 _ _).mp h).1⟩
        · rcases hb hkn with h | h
          · cases h
          · exact Or.inr h
    · intro s
      rw [h3]
      have hsrc : isSourceOf m (g.eraseEdge n m) = true ↔ ∀ a, (a, m) ∈ g.pairs → a = n := by
        rw [isSourceOf_iff]
        constructor
        · intro h a ha
          by_contra hne
          exact h a (mem_eraseEdge_pairs.mpr ⟨ha, by simp [hne]⟩)
        · intro h a ha
          have := mem_eraseEdge_pairs.mp ha
          have han := h a this.1
          subst han
          exact this.2 rfl
      have hin : s ∈ (if isSourceOf m (g.eraseEdge n m) then setInsert m S else S) ↔
          s ∈ S ∨ (s = m ∧ ∀ a, (a, m) ∈ g.pairs → a = n) := by
        split
        · rename_i h
          rw [mem_setInsert]
          have := hsrc.mp h
          tauto
        · rename_i h
          rw [hsrc] at h
          tauto
      rw [hin]
      have hother : (∀ a, (a, s) ∈ (g.eraseEdge n m).pairs → a = n) ↔
          (∀ a, (a, s) ∈ g.pairs → a = n) := by
        constructor
        · intro h a ha
          by_contra hne
          exact hne (h a (mem_eraseEdge_pairs.mpr ⟨ha, by simp [hne]⟩))
        · intro h a ha
          exact h a (mem_eraseEdge_pairs.mp ha).1
      rw [hother, List.mem_cons]
      constructor
      · rintro ((h | ⟨rfl, h⟩) | ⟨h, h'⟩)
        · exact Or.inl h
        · exact Or.inr ⟨Or.inl rfl, h⟩
        · exact Or.inr ⟨Or.inr h, h'⟩
      · rintro (h | ⟨rfl | h, h'⟩)
        · exact Or.inl (Or.inl h)
        · exact Or.inl (Or.inr ⟨rfl, h'⟩)
        · exact Or.inr ⟨h, h'⟩
    · intro hS
      apply h4
      split
      · exact nodup_setInsert hS
      · exact hS

/-- The loop invariant: `V` are the keys and `E` the pairs of the graph at the start. -/
structure Inv (V : List K) (E : K → K → Prop) (out s : List K) (g : Graph K) : Prop where
  keys : ∀ k, k ∈ g.keys ↔ k ∈ V ∧ k ∉ out
  pairs : ∀ a b, (a, b) ∈ g.pairs ↔ E a b ∧ a ∉ out
  sources : ∀ x, x ∈ s ↔ x ∈ V ∧ x ∉ out ∧ ∀ a, E a x → a ∈ out
  nodupOut : out.Nodup
  nodupS : s.Nodup
  sub : ∀ x ∈ out, x ∈ V
  ordered : ∀ p b r, out = p ++ b :: r → ∀ a, E a b → a ∈ p

/-- The popped source leaves the invariant intact. -/
theorem visit_inv {V : List K} {E : K → K → Prop} (hE : ∀ a b, E a b → a ∈ V ∧ b ∈ V)
    {out s : List K} {g : Graph K} (hi : Inv V E out s g) {n : K} (hn : n ∈ s) :
    Inv V E (out ++ [n]) (visit n (setErase n s) g).1 (visit n (setErase n s) g).2 := by
  obtain ⟨hnV, hnout, hnpred⟩ := (hi.sources n).mp hn
  have hmemout : ∀ x, x ∈ out ++ [n] ↔ x ∈ out ∨ x = n := by simp
  have hnn : ¬ E n n := fun h => hnout (hnpred n h)
  have hkey : n ∈ g.keys := (hi.keys n).mpr ⟨hnV, hnout⟩
  have hdone : ∀ b, b ∈ out → ∀ a, E a b → a ∈ out := by
    intro b hb a hab
    obtain ⟨p, r, hpr⟩ := List.append_of_mem hb
    have := hi.ordered p b r hpr a hab
    rw [hpr]
    exact List.mem_append_left _ this
  have hord : ∀ p b r, out ++ [n] = p ++ b :: r → ∀ a, E a b → a ∈ p := by
    intro p b r hpr a hab
    rcases List.eq_nil_or_concat r with rfl | ⟨r', c, rfl⟩
    · have := List.append_inj' hpr rfl
      obtain ⟨rfl, h2⟩ := this
      simp only [List.cons.injEq, and_true] at h2
      subst h2
      exact hnpred a hab
    · have hpr' : out ++ [n] = (p ++ b :: r') ++ [c] := by simpa using hpr
      have := (List.append_inj' hpr' rfl).1
      exact hi.ordered p b r' this a hab
  have hnd : (out ++ [n]).Nodup := by
    rw [List.nodup_append]
    refine ⟨hi.nodupOut, by simp, ?_⟩
    intro a ha b hb
    simp only [List.mem_singleton] at hb
    rintro rfl
    exact hnout (hb ▸ ha)
  have hsub : ∀ x ∈ out ++ [n], x ∈ V := by
    intro x hx
    rcases (hmemout x).mp hx with h | rfl
    · exact hi.sub x h
    · exact hnV
  have hfin : (∀ a b, (a, b) ∈ (visit n (setErase n s) g).2.pairs ↔ (a, b) ∈ g.pairs ∧ a ≠ n) ∧
      (∀ k, k ∈ (visit n (setErase n s) g).2.keys ↔ k ∈ g.keys ∧ k ≠ n) ∧
      (∀ x, x ∈ (visit n (setErase n s) g).1 ↔
        (x ∈ s ∧ x ≠ n) ∨ ((n, x) ∈ g.pairs ∧ ∀ a, (a, x) ∈ g.pairs → a = n)) ∧
      (visit n (setErase n s) g).1.Nodup := by
    unfold visit
    rw [if_pos (by simpa [Graph.contains] using hkey)]
    dsimp only
    split
    · rename_i hemp
      have hno : ∀ b, (n, b) ∉ g.pairs := by
        intro b hb
        have := mem_get.mpr hb
        rw [List.isEmpty_iff.mp hemp] at this
        cases this
      refine ⟨?_, ?_, ?_, nodup_setErase hi.nodupS⟩
      · intro a b
        simp [Graph.erase]
      · intro k
        simp [Graph.erase, mem_setErase]
      · intro x
        rw [mem_setErase]
        constructor
        · exact Or.inl
        · rintro (h | ⟨h, -⟩)
          · exact h
          · exact absurd h (hno x)
    · rename_i hne
      have hloop : (n, n) ∉ (setErase n s, g).2.pairs := fun h =>
        hnn ((hi.pairs n n).mp h).1
      obtain ⟨h1, h2, h3, h4⟩ := relax_spec n (g.get n) (setErase n s, g) hloop
      have hp : ∀ a b, (a, b) ∈ (relax n (g.get n) (setErase n s, g)).2.pairs ↔
          (a, b) ∈ g.pairs ∧ a ≠ n := by
        intro a b
        rw [h1]
        constructor
        · rintro ⟨h, h'⟩
          refine ⟨h, ?_⟩
          rintro rfl
          exact h' ⟨rfl, mem_get.mpr h⟩
        · rintro ⟨h, h'⟩
          exact ⟨h, fun hc => h' hc.1⟩
      refine ⟨hp, ?_, ?_, h4 (nodup_setErase hi.nodupS)⟩
      · intro k
        rw [h2]
        constructor
        · rintro ⟨hk, hc⟩
          refine ⟨hk, fun hkn => ?_⟩
          rcases hc hkn with h | ⟨b, h⟩
          · rw [h] at hne
            exact hne rfl
          · exact ((hp n b).mp h).2 rfl
        · rintro ⟨hk, hne'⟩
          exact ⟨hk, fun h => absurd h hne'⟩
      · intro x
        rw [h3, mem_setErase, mem_get]
  obtain ⟨fp, fk, fs, fnd⟩ := hfin
  refine ⟨?_, ?_, ?_, hnd, fnd, hsub, hord⟩
  · intro k
    rw [fk, hi.keys, hmemout]
    tauto
  · intro a b
    rw [fp, hi.pairs, hmemout]
    tauto
  · intro x
    rw [fs, hmemout]
    constructor
    · rintro (⟨hx, hxn⟩ | ⟨hx, hall⟩)
      · obtain ⟨h1, h2, h3⟩ := (hi.sources x).mp hx
        exact ⟨h1, by tauto, fun a ha => (hmemout a).mpr (Or.inl (h3 a ha))⟩
      · have hnx := ((hi.pairs n x).mp hx).1
        refine ⟨(hE _ _ hnx).2, ?_, ?_⟩
        · rintro (h | rfl)
          · exact hnout (hdone x h n hnx)
          · exact hnn hnx
        · intro a ha
          rw [hmemout]
          by_cases hao : a ∈ out
          · exact Or.inl hao
          · exact Or.inr (hall a ((hi.pairs a x).mpr ⟨ha, hao⟩))
    · rintro ⟨hxV, hxo, hpred⟩
      by_cases hnx : E n x
      · right
        refine ⟨(hi.pairs n x).mpr ⟨hnx, hnout⟩, fun a ha => ?_⟩
        obtain ⟨hax, hao⟩ := (hi.pairs a x).mp ha
        rcases (hmemout a).mp (hpred a hax) with h | h
        · exact absurd h hao
        · exact h
      · left
        refine ⟨(hi.sources x).mpr ⟨hxV, fun h => hxo (Or.inl h), fun a ha => ?_⟩,
          fun h => hxo (Or.inr h)⟩
        rcases (hmemout a).mp (hpred a ha) with h | rfl
        · exact h
        · exact absurd ha hnx

/-- The loop ends within its room, with the invariant and no sources left. -/
theorem topoLoop_spec {V : List K} {E : K → K → Prop} (hE : ∀ a b, E a b → a ∈ V ∧ b ∈ V)
    (picks : Nat → Nat) (fuel round : Nat) (s : List K) (g : Graph K) (out : List K)
    (hi : Inv V E out s g) (hf : V.length ≤ out.length + fuel) :
    ∃ out' g', topoLoop picks fuel round s g out = some (out', g') ∧ Inv V E out' [] g' := by
  induction fuel generalizing round s g out with
  | zero =>
    cases s with
    | nil => exact ⟨out, g, by simp [topoLoop], hi⟩
    | cons x xs =>
      exfalso
      obtain ⟨hxV, hxo, -⟩ := (hi.sources x).mp List.mem_cons_self
      have hnd : (x :: out).Nodup := List.nodup_cons.mpr ⟨hxo, hi.nodupOut⟩
      have hsub : (x :: out) ⊆ V := by
        intro y hy
        rcases List.mem_cons.mp hy with rfl | h
        · exact hxV
        · exact hi.sub y h
      have := (hnd.subperm hsub).length_le
      simp only [List.length_cons] at this
      omega
  | succ fuel ih =>
    cases s with
    | nil => exact ⟨out, g, by simp [topoLoop], hi⟩
    | cons x xs =>
      rw [topoLoop]
      have hlt : picks round % (x :: xs).length < (x :: xs).length :=
        Nat.mod_lt _ (by simp)
      rw [List.getElem?_eq_getElem hlt, Option.getD_some]
      have hn : (x :: xs)[picks round % (x :: xs).length] ∈ x :: xs := List.getElem_mem hlt
      exact ih _ _ _ _ (visit_inv hE hi hn) (by simp only [List.length_append, List.length_cons, List.length_nil]; omega)

/-- Sorting: everything that is known about the result. -/
theorem topoSort_spec (picks : Nat → Nat) (g : Graph K)
    (hE : ∀ a b, (a, b) ∈ g.pairs → a ∈ g.keys ∧ b ∈ g.keys) :
    ∃ out g', topoSort picks g = some (out, g') ∧
      Inv g.keys (fun a b => (a, b) ∈ g.pairs) out [] g' := by
  apply topoLoop_spec (V := g.keys) (E := fun a b => (a, b) ∈ g.pairs) hE
  · refine ⟨by simp, by simp, ?_, List.nodup_nil, nodup_getSources g, by simp, ?_⟩
    · intro x
      rw [mem_getSources]
      simp
    · intro p b r h
      simp at h
  · simp

omit [DecidableEq K] in
/-- Along declared orders, everything before a sorted node is sorted, and before it. -/
theorem Inv.trans_before {V : List K} {E : K → K → Prop} {out s : List K} {g : Graph K}
    (hi : Inv V E out s g) {a b : K} (h : Relation.TransGen E a b) :
    ∀ p r, out = p ++ b :: r → a ∈ p := by
  induction h with
  | single h => intro p r hpr; exact hi.ordered p _ r hpr _ h
  | @tail b c _ hbc ih =>
    intro p r hpr
    have hb := hi.ordered p c r hpr b hbc
    obtain ⟨p1, p2, rfl⟩ := List.append_of_mem hb
    have := ih p1 (p2 ++ c :: r) (by rw [hpr]; simp)
    exact List.mem_append_left _ this

omit [DecidableEq K] in
/-- What lies on a cycle is never sorted. -/
theorem Inv.not_mem_of_cycle {V : List K} {E : K → K → Prop} {out s : List K} {g : Graph K}
    (hi : Inv V E out s g) {a : K} (h : Relation.TransGen E a a) : a ∉ out := by
  intro ha
  obtain ⟨p, r, hpr⟩ := List.append_of_mem ha
  have hp := hi.trans_before h p r hpr
  have hnd := hi.nodupOut
  rw [hpr, List.nodup_append] at hnd
  exact hnd.2.2 a hp a List.mem_cons_self rfl

omit [DecidableEq K] in
/-- A node that no cycle leads to is sorted. -/
theorem Inv.mem_of_no_cycle {V : List K} {E : K → K → Prop} {out : List K} {g : Graph K}
    (hE : ∀ a b, E a b → a ∈ V ∧ b ∈ V) (hi : Inv V E out [] g) {x : K} (hxV : x ∈ V)
    (hac : ∀ a, Relation.ReflTransGen E a x → ¬ Relation.TransGen E a a) : x ∈ out := by
  let T := { a : K // a ∈ V ∧ Relation.ReflTransGen E a x }
  have : Finite { a : K // a ∈ V } :=
    Finite.of_surjective (fun i : Fin V.length => (⟨V[i], List.getElem_mem _⟩ : { a : K // a ∈ V })) (by
      rintro ⟨a, ha⟩
      obtain ⟨i, hi', rfl⟩ := List.getElem_of_mem ha
      exact ⟨⟨i, hi'⟩, rfl⟩)
  have : Finite T := Finite.of_injective (fun t : T => (⟨t.1, t.2.1⟩ : { a : K // a ∈ V })) (by
    rintro ⟨a, ha⟩ ⟨b, hb⟩ h
    exact Subtype.ext (by simpa using h))
  let R : T → T → Prop := fun a b => Relation.TransGen E a.1 b.1
  have : IsTrans T R := ⟨fun a b c h h' => h.trans h'⟩
  have : Std.Irrefl R := ⟨fun a h => hac a.1 a.2.2 h⟩
  have hwf : WellFounded R := Finite.wellFounded_of_trans_of_irrefl R
  have key : ∀ t : T, t.1 ∈ out := by
    intro t
    induction t using hwf.induction with
    | h t ih =>
      by_contra hto
      have := (hi.sources t.1).mpr ⟨t.2.1, hto, fun a ha =>
        ih ⟨a, (hE _ _ ha).1, Relation.ReflTransGen.head ha t.2.2⟩ (Relation.TransGen.single ha)⟩
      cases this
  exact key ⟨x, hxV, Relation.ReflTransGen.refl⟩

omit [DecidableEq K] in
/-- Without a cycle everything is sorted. -/
theorem Inv.all_of_acyclic {V : List K} {E : K → K → Prop} {out : List K} {g : Graph K}
    (hE : ∀ a b, E a b → a ∈ V ∧ b ∈ V) (hi : Inv V E out [] g)
    (hac : ∀ a, ¬ Relation.TransGen E a a) : ∀ x ∈ V, x ∈ out :=
  fun _ hx => hi.mem_of_no_cycle hE hx fun a _ => hac a

/-- Choices of `pop_back` in earlier rounds do not matter. -/
theorem topoLoop_congr (p q : Nat → Nat) (fuel round : Nat) (s : List K) (g : Graph K) (out : List K)
    (h : ∀ k, round ≤ k → p k = q k) :
    topoLoop p fuel round s g out = topoLoop q fuel round s g out := by
  induction fuel generalizing round s g out with
  | zero => cases s <;> simp [topoLoop]
  | succ fuel ih =>
    cases s with
    | nil => simp [topoLoop]
    | cons x xs =>
      rw [topoLoop, topoLoop, h round (Nat.le_refl _)]
      exact ih _ _ _ _ fun k hk => h k (by omega)

/-- Every order that respects the pairs is found with suitable choices. -/
theorem topoLoop_complete {V : List K} {E : K → K → Prop} (hE : ∀ a b, E a b → a ∈ V ∧ b ∈ V)
    (w : List K) (fuel round : Nat) (s : List K) (g : Graph K) (out : List K) (hi : Inv V E out s g)
    (hw : (out ++ w).Perm V) (hord : ∀ p b r, out ++ w = p ++ b :: r → ∀ a, E a b → a ∈ p)
    (hf : w.length ≤ fuel) (hV : V.Nodup) :
    ∃ picks g', topoLoop picks fuel round s g out = some (out ++ w, g') := by
  induction w generalizing fuel round s g out with
  | nil =>
    have hs : s = [] := by
      cases s with
      | nil => rfl
      | cons x xs =>
        obtain ⟨h1, h2, -⟩ := (hi.sources x).mp List.mem_cons_self
        exact absurd (hw.symm.subset h1) (by simpa using h2)
    subst hs
    refine ⟨fun _ => 0, g, ?_⟩
    cases fuel <;> simp [topoLoop]
  | cons x w ih =>
    have hnd : (out ++ x :: w).Nodup := hw.nodup_iff.mpr hV
    have hxs : x ∈ s := by
      rw [hi.sources]
      refine ⟨hw.subset (by simp), fun hxo => ?_, fun a ha => hord out x w rfl a ha⟩
      rw [List.nodup_append] at hnd
      exact hnd.2.2 x hxo x List.mem_cons_self rfl
    obtain ⟨i, hilt, hix⟩ := List.getElem_of_mem hxs
    cases fuel with
    | zero => simp at hf
    | succ fuel =>
      have happ : (out ++ [x]) ++ w = out ++ x :: w := by simp
      obtain ⟨picks, g', hp⟩ := ih fuel (round + 1) _ _ _ (visit_inv hE hi hxs) (by rw [happ]; exact hw)
        (by rw [happ]; exact hord) (by simpa using hf)
      refine ⟨fun k => if k = round then i else picks k, g', ?_⟩
      cases s with
      | nil => cases hxs
      | cons y ys =>
        rw [topoLoop]
        simp only [if_true]
        rw [Nat.mod_eq_of_lt hilt, List.getElem?_eq_getElem hilt, Option.getD_some, hix,
          topoLoop_congr _ picks, hp, happ]
        intro k hk
        rw [if_neg (by omega)]

/-- Every order that respects the pairs is a possible result of sorting. -/
theorem topoSort_complete (g : Graph K) (hE : ∀ a b, (a, b) ∈ g.pairs → a ∈ g.keys ∧ b ∈ g.keys)
    (hk : g.keys.Nodup) (w : List K) (hw : w.Perm g.keys)
    (hord : ∀ p b r, w = p ++ b :: r → ∀ a, (a, b) ∈ g.pairs → a ∈ p) :
    ∃ picks g', topoSort picks g = some (w, g') := by
  have := topoLoop_complete (V := g.keys) (E := fun a b => (a, b) ∈ g.pairs) hE w g.keys.length 0
    (getSources g) g [] (by
      refine ⟨by simp, by simp, ?_, List.nodup_nil, nodup_getSources g, by simp, ?_⟩
      · intro x
        rw [mem_getSources]
        simp
      · intro p b r h
        simp at h) (by simpa using hw) (by simpa using hord) (by rw [hw.length_eq]) hk
  simpa [topoSort] using this

end
end Verif.Flow
