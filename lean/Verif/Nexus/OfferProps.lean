import Verif.Nexus.Props

/-! # Which configurations compile, by what is written in them -/
namespace Verif.Nexus
namespace Spec

mutual

/-- The services listed in `exports`, each with the compile-time conditions around it. -/
def offers {A : Type} (consts : List Bool) : Cfg A → List (List Bool × Nat)
  | .config cs => offersAll consts cs
  | .components cs => offersAll consts cs
  | .exports ss => ss.map fun s => (consts, s)
  | .extend _ _ => []
  | .constIf ps cs => offersAll (ps ++ consts) cs
  | .runIf _ cs => offersAll consts cs

def offersAll {A : Type} (consts : List Bool) : List (Cfg A) → List (List Bool × Nat)
  | [] => []
  | c :: cs => offers consts c ++ offersAll consts cs

end

/-- The service is exported under conditions that hold. -/
def Offered {A : Type} (c : Cfg A) (s : Nat) : Prop := ∃ consts, (consts, s) ∈ offers [] c ∧ ∀ b ∈ consts, b = true

/-- The extension means this service. -/
def Means (names : Nat → Option Nat) (t : Target) (s : Nat) : Prop :=
  t = .type s ∨ ∃ n, t = .name n ∧ names s = some n

end Spec
open Spec

variable {A : Type}

mutual

theorem mem_offers (c : Cfg A) (consts : List Bool) (s : Nat) :
    (∃ k, (k, s) ∈ offers consts c ∧ ∀ b ∈ k, b = true) ↔ (∀ b ∈ consts, b = true) ∧ s ∈ c.exported := by
  cases c with
  | config cs => rw [offers, Cfg.exported]; exact mem_offersAll cs consts s
  | components cs => rw [offers, Cfg.exported]; exact mem_offersAll cs consts s
  | exports ss =>
    rw [offers, Cfg.exported]
    constructor
    · rintro ⟨k, hk, hb⟩
      obtain ⟨t, ht, he⟩ := List.mem_map.1 hk
      cases he
      exact ⟨hb, ht⟩
    · rintro ⟨hb, hs⟩
      exact ⟨consts, List.mem_map.2 ⟨s, hs, rfl⟩, hb⟩
  | extend t as =>
    rw [offers, Cfg.exported]
    exact ⟨fun ⟨_, h, _⟩ => absurd h List.not_mem_nil, fun h => absurd h.2 List.not_mem_nil⟩
  | constIf ps cs =>
    rw [offers, Cfg.exported, mem_offersAll cs (ps ++ consts) s]
    by_cases hp : ps.all id
    · rw [if_pos hp]
      have hp' : ∀ b ∈ ps, b = true := by simpa using hp
      constructor
      · rintro ⟨h1, h2⟩
        exact ⟨fun b hb => h1 b (List.mem_append_right _ hb), h2⟩
      · rintro ⟨h1, h2⟩
        exact ⟨fun b hb => (List.mem_append.1 hb).elim (hp' b) (h1 b), h2⟩
    · rw [if_neg hp]
      constructor
      · rintro ⟨h1, -⟩
        refine absurd ?_ hp
        simpa using fun b hb => h1 b (List.mem_append_left _ hb)
      · rintro ⟨-, h2⟩
        exact absurd h2 List.not_mem_nil
  | runIf c cs => rw [offers, Cfg.exported]; exact mem_offersAll cs consts s

theorem mem_offersAll (cs : List (Cfg A)) (consts : List Bool) (s : Nat) :
    (∃ k, (k, s) ∈ offersAll consts cs ∧ ∀ b ∈ k, b = true) ↔ (∀ b ∈ consts, b = true) ∧ s ∈ exportedAll cs := by
  cases cs with
  | nil =>
    rw [offersAll, exportedAll]
    exact ⟨fun ⟨_, h, _⟩ => absurd h List.not_mem_nil, fun h => absurd h.2 List.not_mem_nil⟩
  | cons c cs =>
    rw [offersAll, exportedAll]
    simp only [List.mem_append, or_and_right, exists_or]
    rw [mem_offers c consts s, mem_offersAll cs consts s, ← and_or_left]

end

theorem offered_iff (c : Cfg A) (s : Nat) : Offered c s ↔ s ∈ c.exported := by
  rw [Offered, mem_offers c [] s]
  exact ⟨fun h => h.2, fun h => ⟨fun _ hb => absurd hb List.not_mem_nil, h⟩⟩

theorem locate_means (names : Nat → Option Nat) (ex : List Nat) (t : Target) :
    (∃ s, locate names ex t = some s) ↔ ∃ s ∈ ex, Means names t s := by
  cases t with
  | type s =>
    rw [locate]
    constructor
    · rintro ⟨u, hu⟩
      split at hu
      · exact ⟨s, by assumption, .inl rfl⟩
      · cases hu
    · rintro ⟨u, hu, hm | ⟨n, hm, -⟩⟩
      · cases hm
        exact ⟨s, if_pos hu⟩
      · cases hm
  | name n =>
    rw [locate]
    constructor
    · rintro ⟨u, hu⟩
      refine ⟨u, List.mem_of_find?_eq_some hu, .inr ⟨n, rfl, ?_⟩⟩
      simpa using List.find?_some hu
    · rintro ⟨u, hu, hm | ⟨m, hm, hn⟩⟩
      · cases hm
      · cases hm
        cases hf : ex.find? fun s => names s = some n with
        | some v => exact ⟨v, rfl⟩
        | none => exact absurd hn (by simpa using List.find?_eq_none.1 hf u hu)

/-- **C85** A configuration compiles exactly if each extension that counts means a service which is listed in some
`exports` under true conditions, none by name is under a runtime condition, and the arguments accept the runtime
conditions. -/
theorem C85_exported (mk : Nat → A → Option A) (names : Nat → Option Nat) (arrange : List (Ext A) → List (Ext A))
    (c : Cfg A) : (builders mk names arrange c).isSome ↔ ∀ n ∈ activeNodes c,
      (∃ s, Offered c s ∧ Means names n.target s) ∧ (n.conds = [] ∨ ∃ s, n.target = .type s) ∧
      ∀ a ∈ n.args, (wrap mk n.conds a).isSome := by
  rw [C85_compiles]
  refine forall_congr' fun n => forall_congr' fun _ => and_congr_left fun _ => ?_
  rw [locate_means]
  exact exists_congr fun s => by rw [offered_iff]

/-- An export under a false condition offers nothing. -/
example : ¬ Offered (.constIf [true, false] [.exports [3]] : Cfg Nat) 3 ∧
    Offered (.config [.constIf [true] [.runIf 0 [.exports [3]]]] : Cfg Nat) 3 := by
  rw [offered_iff, offered_iff]
  decide

end Verif.Nexus
