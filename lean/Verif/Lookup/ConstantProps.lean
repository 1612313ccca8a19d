import Verif.Lookup.CountProps
/-! # C181: lookups in constant time -/
namespace Verif.Lookup

variable {W : Nat} {V : Type}

/-- **C181** A lookup in a table of `lookup::make` compares the key with at most four entries, however many there are:
with each of them if there are at most four, and with at most three otherwise. -/
theorem C181_constant (srt : (BitVec W → Nat) → List (Entry W V) → List (Entry W V)) (hsrt : IsSort srt) (d : V)
    (es : List (Entry W V)) (h64 : es.length < 2 ^ 64) (t : Table W V) (h : make srt d es = .ok t) (key : BitVec W) :
    ∃ c, t.compared key = some c ∧ c ≤ 4 ∧ (es.length ≤ 4 → c = es.length) ∧ (4 < es.length → c ≤ 3) := by
  unfold make strategies at h
  split at h
  · exact absurd h (by simp)
  · unfold makeLinear at h
    by_cases h4 : es.length ≤ 4
    · simp only [h4, if_true, firstOk] at h
      obtain rfl := Made.ok.inj h
      exact ⟨es.length, rfl, h4, fun _ => rfl, fun h => by omega⟩
    · simp only [h4, if_false, firstOk] at h
      have hp : makePext true 2 srt d es = .ok t := by
        cases hm : makePext true 2 srt d es with
        | ok t' => rw [hm] at h; exact h
        | failed => rw [hm] at h; exact absurd h (by simp [firstOk])
        | rejected => rw [hm] at h; exact absurd h (by simp [firstOk])
      obtain ⟨c, h1, h2, -⟩ := C69_compared_partial 2 srt hsrt d es h64 t hp key
      exact ⟨c, h1, by omega, fun h => absurd h h4, fun _ => by omega⟩

/-- **C181** Three are needed. -/
theorem C181_three : 4 < entries8.length ∧ ((make sortBy 0 entries8).table.bind (Table.compared 0xFF)) = some 3 := by
  decide +kernel

end Verif.Lookup
