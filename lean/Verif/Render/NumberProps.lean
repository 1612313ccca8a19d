import Verif.Xml.Lemmas
import Verif.Json.TextLemmas
import Verif.Render.Props
/-!
# How numbers are shown

`padded` and `digitsOf` are used for `fmt`, `printf` and Python. Here is what they write, said by
reading it.
-/
namespace Verif.Render
open Verif.Symbols
open Verif.Xml (value digitValue value_digits)
open Verif.Json (mem_toDigits)

/-- The text of a number: its digits without leading zeros, in the case of letters that is asked for; a
sign before them if it is negative; and if they are shorter than the width, spaces before the sign, or
zeros behind it. -/
def NumberText (z : Bool) (w : Nat) (c : Char) (v : Int) (t : Text) : Prop :=
  ∃ ds : Text, value (if c = 'd' then 10 else 16) 0 ds = some v.natAbs ∧
    (ds = ['0'] ∨ ∃ d r, ds = d :: r ∧ d ≠ '0') ∧
    (c = 'x' → ∀ d ∈ ds, d.isUpper = false) ∧ (c = 'X' → ∀ d ∈ ds, d.isLower = false) ∧
    ∃ sign : Text, sign = (if v < 0 then ['-'] else []) ∧
      t = if z then sign ++ List.replicate (w - (sign.length + ds.length)) '0' ++ ds
        else List.replicate (w - (sign.length + ds.length)) ' ' ++ sign ++ ds

theorem toDigits_first {b : Nat} (hb : 1 < b) (f : Char → Char) (hf : ∀ d < b, f (Nat.digitChar d) = '0' → d = 0)
    (h0 : f '0' = '0') (n : Nat) :
    (Nat.toDigits b n).map f = ['0'] ∨ ∃ d r, (Nat.toDigits b n).map f = d :: r ∧ d ≠ '0' := by
  rcases Nat.eq_zero_or_pos n with rfl | hn
  · left
    rw [Nat.toDigits_of_lt_base (by omega), List.map_singleton, show Nat.digitChar 0 = '0' from rfl, h0]
  · right
    induction n using Nat.strongRecOn with
    | ind n ih =>
      rcases Nat.lt_or_ge n b with h | h
      · exact ⟨_, [], by rw [Nat.toDigits_of_lt_base h, List.map_singleton], fun e => by
          have := hf n h e; omega⟩
      · obtain ⟨d, r, e, hd⟩ := ih (n / b) (Nat.div_lt_self (by omega) hb) (Nat.div_pos h (by omega))
        exact ⟨d, r ++ [f (Nat.digitChar (n % b))], by
          rw [Nat.toDigits_of_base_le hb h, List.map_append, e]; rfl, hd⟩

theorem number_padded (z : Bool) (w : Nat) (c : Char) (hc : c = 'd' ∨ c = 'x' ∨ c = 'X') (v : Int) :
    NumberText z w c v (padded (v < 0) (digitsOf c v.natAbs) z w) := by
  refine ⟨digitsOf c v.natAbs, ?_, ?_, ?_, ?_, _, rfl, ?_⟩
  · rcases hc with rfl | rfl | rfl
    · have := value_digits (b := 10) (by decide) id (by decide +kernel) v.natAbs
      rwa [List.map_id] at this
    · have := value_digits (b := 16) (by decide) id (by decide +kernel) v.natAbs
      rwa [List.map_id] at this
    · exact value_digits (by decide) Char.toUpper (by decide +kernel) v.natAbs
  · rcases hc with rfl | rfl | rfl
    · have := toDigits_first (b := 10) (by decide) id (by decide +kernel) rfl v.natAbs
      rwa [List.map_id] at this
    · have := toDigits_first (b := 16) (by decide) id (by decide +kernel) rfl v.natAbs
      rwa [List.map_id] at this
    · exact toDigits_first (by decide) Char.toUpper (by decide +kernel) (by decide) v.natAbs
  · rintro rfl d hd
    obtain ⟨n, hn, rfl⟩ := mem_toDigits (by decide) (by decide) (show d ∈ Nat.toDigits 16 v.natAbs from hd)
    exact (show ∀ n < 16, (Nat.digitChar n).isUpper = false by decide +kernel) n hn
  · rintro rfl d hd
    obtain ⟨e, he, rfl⟩ := List.mem_map.1 (show d ∈ (Nat.toDigits 16 v.natAbs).map Char.toUpper from hd)
    obtain ⟨n, hn, rfl⟩ := mem_toDigits (by decide) (by decide) he
    exact (show ∀ n < 16, (Nat.digitChar n).toUpper.isLower = false by decide +kernel) n hn
  · rw [padded]
    simp only [decide_eq_true_eq, List.length_append]

/-- C139: what the program's format string says for a number is the number, with the sign, the digits, the
case of letters and the width that are asked for. -/
theorem C139_number (p : Log.Prim) (v : Int) (z : Bool) (w : Nat) (c : Char) (hc : c = 'd' ∨ c = 'x' ∨ c = 'X')
    {t : Text} (h : fmtSpec p v z w c = some t) : NumberText z w c v t := by
  rw [fmtSpec] at h
  split at h
  · cases h
  · cases h
    exact number_padded z w c hc v

example : fmtSpec .int (-171) true 6 'X' = some t!"-000AB" ∧ fmtSpec .int (-171) false 6 'x' = some t!"   -ab" := by
  decide +kernel

/-- C140: and so it is for the scripts. -/
theorem C140_number (v : Int) (spec t : Text) (h : pyField (.int v) spec = some t) :
    ∃ z w c, readSpec spec = some (z, w, c) ∧ NumberText z w c v t := by
  rw [pyField, Option.map_eq_some_iff] at h
  obtain ⟨⟨z, w, c⟩, h1, rfl⟩ := h
  refine ⟨z, w, c, h1, number_padded z w c ?_ v⟩
  rw [readSpec] at h1
  split at h1
  · cases h1; exact .inl rfl
  · split at h1
    · cases h1; assumption
    · cases h1
  · cases h1

example : pyField (.int (-171)) t!"06X" = some t!"-000AB" := by decide +kernel

end Verif.Render
