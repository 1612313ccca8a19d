import Verif.Lookup.Props

/-! # With how many entries a lookup compares the key -/
namespace Verif.Lookup

variable {W : Nat} {V : Type}

/-- How often the loop `pseudo_pext_lookup.hpp` 335-345 compares the key (338); `none` for an access out of
bounds. -/
def compared (w : Nat) (storage : List (Entry W V)) (key : BitVec W) : Nat → Nat → Option Nat
  | 0, _ => some 0
  | n + 1, i => do
    let e ← storage[i]?
    if key = e.key then some 1
    else (compared w storage key n ((i + 1) % 2 ^ w)).map (· + 1)

/-- How often `operator[]` compares the key: `linear_search_lookup.hpp` 16-23, `pseudo_pext_lookup.hpp` 275-277,
291-301, 330-346. -/
def Table.compared (key : BitVec W) : Table W V → Option Nat
  | .linear _ es => some es.length
  | .empty _ => some 0
  | .direct m _ s => (s[hash m key]?).map fun _ => 1
  | .indirect m _ len w t s => do
    let i ← t[hash m key]?
    Lookup.compared w s key len i

theorem probe_compared {d : V} {w : Nat} {st : List (Entry W V)} {key : BitVec W} {n : Nat} : ∀ {i : Nat} {r : V},
    probe d w st key n i = some r → ∃ c, compared w st key n i = some c ∧ c ≤ n ∧
      ((∀ e ∈ st, e.key ≠ key) → c = n) := by
  induction n with
  | zero => exact fun _ => ⟨0, rfl, Nat.le_refl _, fun _ => rfl⟩
  | succ n ih =>
    intro i r h
    rw [probe] at h
    rw [compared]
    cases hi : st[i]? with
    | none => rw [hi] at h; cases h
    | some e =>
      rw [hi] at h
      simp only [Option.bind_eq_bind, Option.bind_some] at h ⊢
      by_cases hk : key = e.key
      · rw [if_pos hk]
        exact ⟨1, rfl, by omega, fun hab => absurd hk.symm (hab e (List.mem_of_getElem? hi))⟩
      · rw [if_neg hk] at h ⊢
        obtain ⟨c, h1, h2, h3⟩ := ih h
        rw [h1]
        exact ⟨c + 1, rfl, by omega, fun hab => by rw [h3 hab]⟩

theorem mem_rotate {h : BitVec W → Nat} {len : Nat} {s : List (Entry W V)} {e : Entry W V}
    (he : e ∈ rotateLongest h len s) : e ∈ s := by
  cases s with
  | nil => exact he
  | cons a s =>
    rw [rotateLongest] at he
    rcases List.mem_append.1 he with he | he
    · exact List.mem_of_mem_drop he
    · exact List.mem_of_mem_take he

/-- C69: a lookup in a table of the hashing strategy compares the key with as many entries as its search length
allows, with exactly as many when the key is not in the table; that is at most one more than the maximum, and at
most one when the maximum is one. -/
theorem C69_compared_partial (maxLen : Nat)
    (srt : (BitVec W → Nat) → List (Entry W V) → List (Entry W V)) (hsrt : IsSort srt) (d : V)
    (es : List (Entry W V)) (h64 : es.length < 2 ^ 64) (t : Table W V)
    (h : makePext true maxLen srt d es = .ok t) (key : BitVec W) :
    ∃ c, t.compared key = some c ∧ c ≤ maxLen + 1 ∧ (maxLen ≤ 1 → c ≤ 1) ∧
      (∀ len, t.searchLen = some len → c ≤ len ∧ ((∀ e ∈ es, e.key ≠ key) → c = len)) := by
  obtain ⟨r, hr, -⟩ := C27_pext true maxLen srt hsrt d es h64 t h key
  have hst : ∀ m d' len w tab st, t = .indirect m d' len w tab st → ∀ e ∈ st, e ∈ es := by
    intro m d' len w tab st ht e he
    subst ht
    unfold makePext at h
    simp only [Bool.not_true, Bool.false_and, Bool.false_eq_true, if_false] at h
    split at h
    · exact absurd h (by simp)
    · split at h
      · exact absurd h (by simp)
      · unfold buildTable at h
        dsimp only at h
        split at h
        · exact absurd h (by simp)
        · split at h
          · exact absurd h (by simp)
          · simp only [if_true] at h
            split at h
            · have := Made.ok.inj h
              simp only [Table.indirect.injEq] at this
              obtain ⟨-, -, -, -, -, rfl⟩ := this
              exact (hsrt _ es).1.mem_iff.1 (mem_rotate he)
            · exact absurd h (by simp)
  have hbound := fun len => C69_bound_partial maxLen srt d es t len h
  cases t with
  | linear d' es' =>
    unfold makePext buildTable at h
    simp only [Bool.not_true, Bool.false_and, Bool.false_eq_true, if_false, if_true] at h
    split at h
    · exact absurd h (by simp)
    · split at h
      · exact absurd h (by simp)
      · split at h
        · exact absurd h (by simp)
        · split at h
          · exact absurd h (by simp)
          · split at h <;> exact absurd h (by simp)
  | empty d' => exact ⟨0, rfl, by omega, fun _ => by omega, fun len hl => by cases hl⟩
  | direct m d' s =>
    simp only [Table.lookup, Option.bind_eq_bind] at hr
    obtain ⟨e, he, -⟩ := Option.bind_eq_some_iff.1 hr
    exact ⟨1, by simp [Table.compared, he], by omega, fun _ => by omega, fun len hl => by cases hl⟩
  | indirect m d' len w tab st =>
    simp only [Table.lookup, Option.bind_eq_bind] at hr
    obtain ⟨i, hi, hp⟩ := Option.bind_eq_some_iff.1 hr
    obtain ⟨c, h1, h2, h3⟩ := probe_compared hp
    have hb := hbound len rfl
    refine ⟨c, ?_, by omega, fun hm => by have := hb.2 hm; omega, fun len' hl => ?_⟩
    · simp only [Table.compared, Option.bind_eq_bind, hi, Option.bind_some]
      exact h1
    · cases hl
      exact ⟨h2, fun hab => h3 fun e he => hab e (hst m d' len w tab st rfl e he)⟩

/-- C69 fails: with the maximal search length 2, looking for a key that is not in the table compares it with
three entries. -/
theorem C69_violated_compared :
    ((makePext true 2 sortBy 0 entries8).table.bind (Table.compared 0xFF)) = some 3 ∧
      ∀ e ∈ entries8, e.key ≠ 0xFF := by decide +kernel

/-- C69: the maximum is exceeded exactly when the mask leaves one key more than the maximum in one slot. -/
theorem C69_exact (maxLen : Nat)
    (srt : (BitVec W → Nat) → List (Entry W V) → List (Entry W V)) (d : V)
    (es : List (Entry W V)) (m : BitVec W) (d' : V) (len w : Nat) (tab : List Nat)
    (st : List (Entry W V))
    (h : makePext true maxLen srt d es = .ok (.indirect m d' len w tab st)) :
    maxLen < len ↔ ∃ s, sharing (hash m) (es.map (·.key)) s = maxLen + 1 := by
  obtain ⟨h1, s, hs⟩ := C29_search_length maxLen srt d es m d' len w tab st h
  have hb := (C69_bound_partial maxLen srt d es _ len h rfl).1
  constructor
  · intro hlt
    exact ⟨s, by omega⟩
  · rintro ⟨s', hs'⟩
    have := h1 s'
    omega

end Verif.Lookup
