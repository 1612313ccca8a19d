import Verif.Render.Props
import Mathlib.Tactic.ByContra
/-! # Exactly which types of arguments the decoder understands -/
namespace Verif.Render
open Verif.Symbols (Text splitAt natText)

theorem read_commas {n u : Text} {k : Nat} (h1 : '<' ∉ n) (h2 : ',' ∈ n) (h3 : '<' ∉ u) :
    readArgType (t!"encode_enum<" ++ n ++ t!", " ++ u ++ t!", " ++ natText k ++ t!">") = none := by
  have hk1 : '<' ∉ natText k := fun m => absurd (Symbols.natText_digit m) (by decide)
  rw [readArgType, dropLast_snoc, show t!"encode_enum<" ++ n ++ t!", " ++ u ++ t!", " ++ natText k =
    t!"encode_enum" ++ '<' :: (n ++ ',' :: (' ' :: u ++ ',' :: (' ' :: natText k))) from by simp,
    splitAt_at (by decide), splitAt_no (by simp [h1, h3, hk1])]
  simp only [if_true]
  have hl := splitAt_length ',' (n ++ ',' :: (' ' :: u ++ ',' :: (' ' :: natText k)))
  have hc : 0 < n.count ',' := List.count_pos_iff.2 h2
  simp only [List.count_append, List.count_cons_self, List.cons_append] at hl
  split
  · next hs =>
    rw [List.cons_append] at hs
    rw [hs] at hl
    simp at hl
    omega
  · rfl

/-- What the names have to be: no `<`; for a scoped enumeration also no `,`. -/
def Understood (names : Nat → Text) (t : Log.Tag) : Prop :=
  (∀ e, tagEnum t = some e → '<' ∉ names e) ∧ ∀ e p n, t = .enum e p n → ',' ∉ names e

/-- **C142** The decoder takes from the type of an argument what it says, exactly if the name of an enumeration has
no `<` and, for a scoped one, no `,`; otherwise it raises. -/
theorem C142_exact (names : Nat → Text) (t : Log.Tag) :
    (Understood names t → readArgType (tagText names t) = some (wantedArg names t)) ∧
    (¬ Understood names t → readArgType (tagText names t) = none) := by
  have plain : ∀ (tag : Text) (s : Log.TagSpec), [t!"encode_u32", t!"encode_32", t!"encode_u64", t!"encode_64"].contains tag = true →
      '<' ∉ tag → ((∀ e, s = .user e → '<' ∉ names e) → readArgType (tag ++ t!"<" ++ tagText.spec names s ++ t!">") =
        some (.plain tag (tagText.spec names s))) ∧
      ((¬ ∀ e, s = .user e → '<' ∉ names e) → readArgType (tag ++ t!"<" ++ tagText.spec names s ++ t!">") = none) := by
    intro tag s h1 h2
    refine ⟨fun h => read_plain h1 h2 (spec_plain h), fun h => ?_⟩
    have ⟨e, he, hm⟩ : ∃ e, s = .user e ∧ '<' ∈ names e := by
      by_contra hc
      exact h fun e he hm => hc ⟨e, he, hm⟩
    apply read_split
    rw [dropLast_snoc, he, tagText.spec]
    have : 0 < (names e).count '<' := List.count_pos_iff.2 hm
    simp [List.count_append]
    omega
  have user : ∀ (s : Log.TagSpec) (t : Log.Tag), (∀ e, tagEnum t = some e ↔ s = .user e) → (∀ e p n, t ≠ .enum e p n) →
      (Understood names t ↔ ∀ e, s = .user e → '<' ∉ names e) := by
    intro s t h1 h2
    refine ⟨fun h e he => h.1 e ((h1 e).2 he), fun h => ⟨fun e he => h e ((h1 e).1 he), fun e p n he => absurd he (h2 e p n)⟩⟩
  cases t with
  | e32 s =>
    rw [user s _ (by intro e; cases s <;> simp [tagEnum]) (by intro e p n h; cases h)]
    exact plain t!"encode_32" s (by decide) (by decide)
  | u32 s =>
    rw [user s _ (by intro e; cases s <;> simp [tagEnum]) (by intro e p n h; cases h)]
    exact plain t!"encode_u32" s (by decide) (by decide)
  | e64 s =>
    rw [user s _ (by intro e; cases s <;> simp [tagEnum]) (by intro e p n h; cases h)]
    exact plain t!"encode_64" s (by decide) (by decide)
  | u64 s =>
    rw [user s _ (by intro e; cases s <;> simp [tagEnum]) (by intro e p n h; cases h)]
    exact plain t!"encode_u64" s (by decide) (by decide)
  | enum e p n =>
    constructor
    · intro h
      refine C142_types_partial names _ fun e' he => ?_
      cases he
      exact ⟨h.1 e rfl, h.2 e p n rfl⟩
    · intro h
      by_cases h1 : '<' ∈ names e
      · exact C142_violated_template names e p n h1
      · have h2 : ',' ∈ names e := by
          by_contra h2
          refine h ⟨fun e' he => ?_, fun e' p' n' he => ?_⟩
          · cases he; exact h1
          · cases he; exact h2
        exact read_commas h1 h2 fun m => (prim_plain p _ m).1 rfl

/-- An enumeration that is local to a function of two parameters: an unscoped one is understood, a scoped one not. -/
example : readArgType t!"encode_32<f(int, int)::E>" = some (.plain t!"encode_32" t!"f(int, int)::E") ∧
    readArgType t!"encode_enum<f(int, int)::E, int, 4>" = none := by decide +kernel
example : Understood (fun _ => t!"f(int, int)::E") (.e32 (.user 0)) ∧
    ¬ Understood (fun _ => t!"f(int, int)::E") (.enum 0 .int 4) := by
  refine ⟨⟨fun e _ => ?_, fun e p n h => ?_⟩, fun h => h.2 0 .int 4 rfl ?_⟩
  · change '<' ∉ (t!"f(int, int)::E" : Text); decide
  · cases h
  · change ',' ∈ (t!"f(int, int)::E" : Text); decide

end Verif.Render
