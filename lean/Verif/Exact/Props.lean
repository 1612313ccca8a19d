import Verif.Object.BitLemmas
import Verif.Message.Props
import Verif.Match.Props
import Verif.Json.Props
/-!
# Exactly when

Claims whose full statement fails: these theorems say of every case whether it holds there, so that nothing is
left open between the partial theorem and the violation.
-/

/-! ## C12 -/

namespace Verif.Bits

theorem within_of_fits {W : Nat} {f : Fld} (hf : f.Legal) {n : Nat}
    (hfit : f.fitsInside W n = true) (hend : ∀ a ∈ f.ats, a.msb ≠ W * n) : f.Within (n * W) := by
  intro p hp
  obtain ⟨a, ha, h1, h2⟩ := (mem_fld_positions f p).1 hp
  simp only [Fld.fitsInside, List.all_map, List.all_eq_true, Function.comp, Loc.fitsInside,
    decide_eq_true_eq] at hfit
  have := hfit a ha
  rw [loc_msb (valid_le (hf.1 a ha)).1] at this
  have := hend a ha
  rw [Nat.mul_comm]; omega

theorem end_of_within {W : Nat} {f : Fld} (hf : f.Legal) {n : Nat} (h : f.Within (n * W)) :
    ∀ a ∈ f.ats, a.msb ≠ W * n := by
  intro a ha e
  have := h a.msb ((mem_fld_positions f _).2 ⟨a, ha, (valid_le (hf.1 a ha)).1, Nat.le_refl _⟩)
  rw [e, Nat.mul_comm] at this
  omega

/-- C12: of the fields, with any number of locations, that pass the check, exactly those with a location whose top
bit is the bit just past the storage are read and written out of bounds. -/
theorem C12_exact {W : Nat} (hW : Narrow W) (f : Fld) (hf : f.Legal) (r : List (BitVec W))
    (hfit : f.fitsInside W r.length = true) (v : BitVec f.EW) :
    ((f.extract W r).isSome ↔ ∀ a ∈ f.ats, a.msb ≠ W * r.length) ∧
      ((f.insert W r v).isSome ↔ ∀ a ∈ f.ats, a.msb ≠ W * r.length) := by
  refine ⟨⟨fun h => ?_, fun h => (C12_fits_inside_partial hW f hf r hfit h v).1⟩,
    ⟨fun h => ?_, fun h => (C12_fits_inside_partial hW f hf r hfit h v).2⟩⟩
  · obtain ⟨x, hx⟩ := Option.isSome_iff_exists.1 h
    exact end_of_within hf (Object.extract_within hW hf hx)
  · obtain ⟨x, hx⟩ := Option.isSome_iff_exists.1 h
    exact end_of_within hf (Object.insert_within hW hf hx)

example : (Fld.mk [⟨32, 30⟩, ⟨3, 0⟩] 32).fitsInside 32 1 = true ∧
    (Fld.mk [⟨32, 30⟩, ⟨3, 0⟩] 32).extract 32 [0#32] = none := by decide

end Verif.Bits

/-! ## C57 -/

namespace Verif.Match

variable {α : Type}

/-- Neither constant. -/
def Varies : M α → Prop
  | .always => False
  | .never => False
  | _ => True

/-- No constant is an operand of anything. -/
def Tidy : M α → Prop
  | .not m => Varies m ∧ Tidy m
  | .and l r => (Varies l ∧ Tidy l) ∧ Varies r ∧ Tidy r
  | .or l r => (Varies l ∧ Tidy l) ∧ Varies r ∧ Tidy r
  | _ => True

theorem tidy_negate (ops : LeafOps α) {m : M α} (h : Tidy m) : Tidy (negate ops m) := by
  cases m with
  | leaf a => unfold negate; dsimp only; cases ops.neg a <;> simp [Tidy, Varies]
  | not k => exact h.2
  | and l r => exact ⟨trivial, h⟩
  | or l r => exact ⟨trivial, h⟩
  | always => trivial
  | never => trivial

theorem varies_negate (ops : LeafOps α) {m : M α} (h : Tidy m) (hv : Varies m) : Varies (negate ops m) := by
  cases m with
  | leaf a => unfold negate; dsimp only; cases ops.neg a <;> trivial
  | not k => exact h.1
  | and l r => trivial
  | or l r => trivial
  | always => exact hv
  | never => exact hv

variable [DecidableEq α]

theorem implies_never (ops : LeafOps α) (m : M α) : implies ops .never m = true := by
  cases m <;> simp [implies, impliesL]

theorem varies_of_implies (ops : LeafOps α) {l r : M α} (h1 : implies ops l r = false) (h2 : implies ops r l = false) :
    Varies l ∧ Varies r := by
  constructor
  · cases l with
    | always => simp [implies] at h2
    | never => rw [implies_never] at h1; cases h1
    | _ => trivial
  · cases r with
    | always => simp [implies] at h1
    | never => rw [implies_never] at h2; cases h2
    | _ => trivial

theorem tidy_simplify (ops : LeafOps α) (m : M α) : Tidy (simplify ops m) := by
  induction m with
  | always => trivial
  | never => trivial
  | leaf a => trivial
  | not m ih =>
    cases m with
    | always => trivial
    | never => trivial
    | _ => exact tidy_negate ops ih
  | and l r ihl ihr =>
    rw [simplify, simplifyAnd]
    split
    · exact ihl
    · next h1 =>
      split
      · exact ihr
      · next h2 =>
        split
        · trivial
        · obtain ⟨hl, hr⟩ := varies_of_implies ops (by simpa using h1) (by simpa using h2)
          rw [deMorganAnd]
          split
          · exact ⟨trivial, ⟨varies_negate ops ihl hl, tidy_negate ops ihl⟩, varies_negate ops ihr hr, tidy_negate ops ihr⟩
          · exact ⟨⟨hl, ihl⟩, hr, ihr⟩
  | or l r ihl ihr =>
    rw [simplify, simplifyOr]
    split
    · exact ihr
    · next h1 =>
      split
      · exact ihl
      · next h2 =>
        split
        · trivial
        · obtain ⟨hl, hr⟩ := varies_of_implies ops (by simpa using h1) (by simpa using h2)
          rw [deMorganOr]
          split
          · exact ⟨trivial, ⟨varies_negate ops ihl hl, tidy_negate ops ihl⟩, varies_negate ops ihr hr, tidy_negate ops ihr⟩
          · exact ⟨⟨hl, ihl⟩, hr, ihr⟩

/-- A part of an `and` does not imply a greater one. -/
theorem impliesL_greater (ops : LeafOps α) {m l r : M α} (h : Tidy m) (hv : Varies m)
    (hs : cost m < cost (M.and l r)) : impliesL ops m (.and l r) = false := by
  induction m with
  | always => exact absurd hv id
  | never => exact absurd hv id
  | leaf a => simp [impliesL]
  | not k => simp [impliesL]
  | or a b => simp [impliesL]
  | and a b iha ihb =>
    rw [impliesL, iha h.1.2 h.1.1 (by simp only [cost] at hs ⊢; omega), ihb h.2.2 h.2.1 (by simp only [cost] at hs ⊢; omega)]
    rfl

/-- An `or` does not imply a part. -/
theorem implies_lesser (ops : LeafOps α) {m l r : M α} (h : Tidy m) (hv : Varies m)
    (hs : cost m < cost (M.or l r)) : implies ops (.or l r) m = false := by
  induction m with
  | always => exact absurd hv id
  | never => exact absurd hv id
  | leaf a => simp [implies, impliesL]
  | not k => simp [implies, impliesL]
  | and a b => simp [implies, impliesL]
  | or a b iha ihb =>
    rw [implies, iha h.1.2 h.1.1 (by simp only [cost] at hs ⊢; omega), ihb h.2.2 h.2.1 (by simp only [cost] at hs ⊢; omega)]
    simp

/-- C57: exactly the matchers that simplify to an `and` or an `or` are not equivalent to themselves; they are
unordered. -/
theorem C57_exact (ops : LeafOps α) (h : ∀ a, ops.impl a a = true) (m : M α) :
    (spaceship ops m m = .unordered ↔ ∃ l r, simplify ops m = .and l r ∨ simplify ops m = .or l r) ∧
      (spaceship ops m m = .equivalent ↔ ¬ ∃ l r, simplify ops m = .and l r ∨ simplify ops m = .or l r) := by
  by_cases hc : ∃ l r, simplify ops m = .and l r ∨ simplify ops m = .or l r
  · have hi : implies ops (simplify ops m) (simplify ops m) = false := by
      have ht := tidy_simplify ops m
      obtain ⟨l, r, e | e⟩ := hc
      · rw [e] at ht ⊢
        rw [implies, impliesL, impliesL_greater ops ht.1.2 ht.1.1 (by simp only [cost]; omega),
          impliesL_greater ops ht.2.2 ht.2.1 (by simp only [cost]; omega)]
        · rfl
        all_goals intros
        all_goals simp_all
      · rw [e] at ht ⊢
        rw [implies, implies_lesser ops ht.1.2 ht.1.1 (by simp only [cost]; omega),
          implies_lesser ops ht.2.2 ht.2.1 (by simp only [cost]; omega)]
        simp
    have : spaceship ops m m = .unordered := by simp [spaceship, hi]
    simp [this, hc]
  · have := C57_self_equivalent_partial ops h m (fun l r e => hc ⟨l, r, .inl e⟩) (fun l r e => hc ⟨l, r, .inr e⟩)
    simp [this, hc]

example : simplify (predOps Nat) (.and (.leaf 0) (.leaf 1)) = .and (.leaf 0) (.leaf 1) := by decide +kernel

end Verif.Match

/-! ## C60 -/

namespace Verif.Message

theorem message_filter {fs : List MField} (hn : (fs.map (·.name)).Nodup) (k : Nat) :
    (message fs).map (List.filter fun f => sortKey f = k) = some (fs.filter fun f => sortKey f = k) := by
  rw [message, if_pos hn, uniqueByName, uniqueNames_of_nodup (names_nodup_sortBy hn), Option.map_some, sortBy_filter]
  congr 1
  have : ∀ gs : List MField, (∀ g ∈ gs, sortKey g = k) → sortBy (fun a b => decide (sortKey a < sortKey b)) gs = gs := by
    intro gs
    induction gs with
    | nil => intro _; rfl
    | cons g gs ih =>
      intro h
      have := ih fun x hx => h x (List.mem_cons_of_mem _ hx)
      rw [sortBy] at this ⊢
      rw [List.foldr_cons, this]
      cases gs with
      | nil => rfl
      | cons y ys =>
        rw [insertBy, if_neg]
        rw [h g (by simp), h y (by simp)]
        simp
  exact this _ fun g hg => by simpa using (List.mem_filter.1 hg).2

/-- C60: the order of declaration makes no difference exactly if no two fields start at the same bit. -/
theorem C60_exact (fs : List MField) (hn : (fs.map (·.name)).Nodup)
    (hlegal : ∀ f ∈ fs, f.fld.Legal ∧ f.located = true) :
    (∀ gs, fs.Perm gs → message fs = message gs) ↔
      ∀ f ∈ fs, ∀ g ∈ fs, ∀ k, f.StartsAt k → g.StartsAt k → f = g := by
  refine ⟨fun h f hf g hg k hfk hgk => ?_,
    fun h gs hp => C60_declaration_order_irrelevant_partial fs gs hp hlegal h⟩
  by_contra hne
  have e1 := StartsAt_unique hfk (startsAt_sortKey (hlegal f hf).1 (hlegal f hf).2)
  have e2 := StartsAt_unique hgk (startsAt_sortKey (hlegal g hg).1 (hlegal g hg).2)
  obtain ⟨a, b, rfl⟩ := List.append_of_mem hf
  have hg' : g ∈ a ++ b := by
    simp only [List.mem_append, List.mem_cons] at hg ⊢
    rcases hg with h | h | h
    · exact .inl h
    · exact absurd h.symm hne
    · exact .inr h
  obtain ⟨c, d, hcd⟩ := List.append_of_mem hg'
  have p1 : (a ++ f :: b).Perm (f :: g :: (c ++ d)) :=
    List.perm_middle.trans (List.Perm.cons f (by rw [hcd]; exact List.perm_middle))
  have p2 : (a ++ f :: b).Perm (g :: f :: (c ++ d)) := p1.trans (.swap ..)
  have n1 := (p1.map (·.name)).nodup_iff.1 hn
  have n2 := (p2.map (·.name)).nodup_iff.1 hn
  have m1 := message_filter n1 k
  have m2 := message_filter n2 k
  rw [← h _ p1] at m1
  rw [← h _ p2, m1] at m2
  simp [← e1, ← e2] at m2
  exact hne m2.1

example : ∃ gs, [⟨0, ⟨[⟨7, 0⟩], 8⟩, .without, 0⟩, ⟨1, ⟨[⟨3, 0⟩], 8⟩, .without, 0⟩, ⟨2, ⟨[⟨31, 24⟩], 8⟩, .without, 0⟩].Perm gs ∧
    message [⟨0, ⟨[⟨7, 0⟩], 8⟩, .without, 0⟩, ⟨1, ⟨[⟨3, 0⟩], 8⟩, .without, 0⟩, ⟨2, ⟨[⟨31, 24⟩], 8⟩, .without, 0⟩] ≠ message gs :=
  ⟨[⟨2, ⟨[⟨31, 24⟩], 8⟩, .without, 0⟩, ⟨1, ⟨[⟨3, 0⟩], 8⟩, .without, 0⟩, ⟨0, ⟨[⟨7, 0⟩], 8⟩, .without, 0⟩], by decide, by decide⟩

end Verif.Message

/-! ## C145, C149 -/

namespace Verif.Json

open Verif.Symbols (Text)

/-- C145: whatever the extra files are, the catalog has for a key, other than the three which the script writes
itself, what the last file that has the key says, and nothing if none has it. -/
theorem C145_exact (ms : List Message) (ds : List Module) (enums : List (Text × List (Text × Int)))
    (xs : List (List (PyKey × J))) (om : List Message) (od : List Module)
    (out : List (PyKey × J)) (h : writeJson ms ds enums xs om od = some out)
    (hx : ∀ y ∈ xs, Extra y) {k : Text} (h1 : k ≠ t!"enums") (h2 : k ≠ t!"messages") (h3 : k ≠ t!"modules") (v : J) :
    (J.obj out).file.get k = some v ↔
      ∃ (pre : List (List (PyKey × J))) (x : List (PyKey × J)) (post : List (List (PyKey × J))), xs = pre ++ x :: post ∧ (.str k, v) ∈ x ∧ ∀ y ∈ post, Without k y := by
  constructor
  · intro hg
    rcases fold_cases k xs with hw | ⟨pre, x, post, w, rfl, hm, hl⟩
    · rw [out_get h hx h1, fold_without hw] at hg
      have : dget (base ms ds om od) (.str k) = none := by
        simp [base, dget, List.find?, Ne.symm h1, Ne.symm h2, Ne.symm h3]
      rw [this] at hg
      cases hg
    · have := C145_copied_partial ms ds enums pre post x om od out h hx h1 hm hl
      rw [hg] at this
      cases this
      exact ⟨pre, x, post, rfl, hm, hl⟩
  · rintro ⟨pre, x, post, rfl, hm, hl⟩
    exact C145_copied_partial ms ds enums pre post x om od out h hx h1 hm hl

example : (writeJson [] [] [] [[(.str t!"v", .int 1)], [(.str t!"v", .int 2), (.str t!"w", .int 3)]] [] []).map
      (fun o => ((J.obj o).file.get t!"v", (J.obj o).file.get t!"w", (J.obj o).file.get t!"x")) =
    some (some (.int 2), some (.int 3), none) := by decide +kernel

theorem splitAt_two {t : Text} (h : '-' ∈ t) : ∃ a b c, Symbols.splitAt '-' t = a :: b :: c := by
  induction t with
  | nil => cases h
  | cons x t ih =>
    have hne : ∃ p ps, Symbols.splitAt '-' t = p :: ps := by
      cases t with
      | nil => exact ⟨[], [], rfl⟩
      | cons y t =>
        rw [Symbols.splitAt]
        split
        · exact ⟨_, _, rfl⟩
        · split <;> exact ⟨_, _, rfl⟩
    obtain ⟨p, ps, hp⟩ := hne
    rw [Symbols.splitAt]
    split
    · exact ⟨_, _, _, by rw [hp]⟩
    · next hx =>
      rcases List.mem_cons.1 h with e | h'
      · exact absurd e.symm (by simpa using hx)
      · obtain ⟨a, b, c, e⟩ := ih h'
        exact ⟨_, _, _, by rw [e]⟩

/-- C149: what follows a second dash, and all that is between the dashes, is never looked at: the piece stands for
the number before the first dash. -/
theorem C149_violated_exact (n : Num) (rest : Text) (h1 : '-' ∈ rest) (h2 : ',' ∉ rest) :
    intervals (n.text ++ '-' :: rest) = some [(n.val, n.val)] := by
  obtain ⟨a, b, c, e⟩ := splitAt_two h1
  have hc : ',' ∉ n.text ++ '-' :: rest := by
    simp only [List.mem_append, List.mem_cons, not_or]
    exact ⟨text_not n (.inl rfl), by decide, h2⟩
  have hi : interval (n.text ++ '-' :: rest) = some [(n.val, n.val)] := by
    rw [interval, Render.splitAt_at (text_not n (.inr rfl)), e, if_neg (by simp)]
    simp only [intAny_text]
    rfl
  rw [intervals, Render.splitAt_no hc]
  simp [hi]

example : (Num.mk 0 true 31 1).text ++ '-' :: t!"what-ever" = t!"0x1f -what-ever" := by decide +kernel

end Verif.Json
