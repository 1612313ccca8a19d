import Verif.Render.Props
/-! # C140: characters -/
namespace Verif.Render
open Verif.Symbols (Text)

/-- The value of a hexadecimal digit in small letters. -/
def hexValue (c : Char) : Option Nat :=
  if '0' ≤ c ∧ c ≤ '9' then some (c.toNat - '0'.toNat)
  else if 'a' ≤ c ∧ c ≤ 'f' then some (c.toNat - 'a'.toNat + 10)
  else none

/-- The byte that stands between the quotes of a literal of Python. -/
def literalByte (quote : Char) : Text → Option Nat
  | [c] => if c = quote ∨ c = '\\' ∨ c.toNat < 32 ∨ 127 ≤ c.toNat then none else some c.toNat
  | ['\\', c] => if c = '\\' then some 92 else if c = 't' then some 9 else if c = 'n' then some 10
    else if c = 'r' then some 13 else none
  | ['\\', 'x', a, b] => (hexValue a).bind fun a => (hexValue b).map fun b => 16 * a + b
  | _ => none

/-- The byte of a literal of Python with one byte. -/
def literal : Text → Option Nat
  | 'b' :: q :: t => if (q = '\'' ∨ q = '"') ∧ t.getLast? = some q then literalByte q t.dropLast else none
  | _ => none

theorem bytesRepr_literal : ∀ b < 256, literal (bytesRepr b) = some b := by decide +kernel

/-- **C140**: exactly: each character is shown as the literal that Python has for its byte, and so never as
itself. -/
theorem C140_char_exact (db : Enums) (names : Nat → Text) (sev : Nat) (hsev : sev < 8) (module : Text) (s : Bool)
    (v : Int) :
    ∃ t, literal t = some (v % 256).toNat ∧
      catalogLine db names 1 sev module t!"{}" [Log.shown (.prim (.char s)) v] =
        some (levelName sev ++ t!" [" ++ module ++ t!"] " ++ t) := by
  have hb : (v % 256).toNat < 256 := by omega
  refine ⟨bytesRepr (v % 256).toNat, bytesRepr_literal _ hb, ?_⟩
  have hs : searchCt t!"{}" = none := by decide +kernel
  have h : ∀ b < 256, pyFormat .out t!"{}" [.bytes b] = some (bytesRepr b) := by decide +kernel
  rw [catalogLine, convertCt, hs, ← severity_eq sev hsev]
  have : pyFormat .out t!"{}" [toPy db names (Log.shown (.prim (.char s)) v)] = some (bytesRepr (v % 256).toNat) :=
    h _ hb
  simp only [Option.bind_some, List.map_cons, List.map_nil, this, Option.map_some]

/-- A letter, a quote, a line feed, a byte that is no ASCII character. -/
example : literal t!"b'a'" = some 97 ∧ literal t!"b\"'\"" = some 39 ∧ literal t!"b'\\n'" = some 10 ∧
    literal t!"b'\\xe9'" = some 233 ∧ literal t!"b'''" = none := by decide +kernel

end Verif.Render
