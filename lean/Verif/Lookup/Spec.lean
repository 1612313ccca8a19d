import Verif.Lookup.Model

/-!
# What lookup tables should do

Independent of masks and hashing: a table answers like the map given by its entries.
-/
namespace Verif.Lookup

/-- What is known about `std::sort` with a comparison by `h`: the same entries, ordered by `h`. -/
def IsSort {W : Nat} {V : Type} (srt : (BitVec W → Nat) → List (Entry W V) → List (Entry W V)) :
    Prop :=
  ∀ h es, (srt h es).Perm es ∧ (srt h es).Pairwise (fun a b => h a.key ≤ h b.key)

/-- The entries have different keys. -/
def DistinctKeys {W : Nat} {V : Type} (es : List (Entry W V)) : Prop := (es.map (·.key)).Nodup

/-- `r` is what the map given by `es` and the default `d` answers for `key`. -/
structure Answers {W : Nat} {V : Type} (d : V) (es : List (Entry W V)) (key : BitVec W) (r : V) :
    Prop where
  present : ∀ e ∈ es, e.key = key → r = e.value
  absent : (∀ e ∈ es, e.key ≠ key) → r = d

/-- How many keys share the slot `s`. -/
def sharing {W : Nat} (h : BitVec W → Nat) (keys : List (BitVec W)) (s : Nat) : Nat :=
  keys.countP (fun k => h k == s)

end Verif.Lookup
