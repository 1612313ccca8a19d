import Verif.Render.XmlLemmas
/-! # What printf prints for a format string of the XML file -/
namespace Verif.Render
open Verif.Symbols
open Verif.Log (Prim InType)

/-- The conversion for a type. -/
def printfOf : Prim → Text
  | .char _ => t!"%c"
  | .schar | .short | .int => t!"%d"
  | .uchar | .ushort | .uint | .bool => t!"%u"
  | .long _ => t!"%ld"
  | .ulong _ => t!"%lu"
  | .llong => t!"%lld"
  | .ullong => t!"%llu"
  | .float | .double => t!"%f"

theorem argText_long (s : Nat) :
    argText (.long s) = t!"encode_32<long>" ∨ argText (.long s) = t!"encode_64<long>" := by
  rw [argText, Log.encodeTag, Log.plainTag, if_pos (show (Prim.long s).signed = true from rfl)]
  by_cases h : (Prim.long s).size ≤ 4
  · left; rw [if_pos h]; rfl
  · right; rw [if_neg h]; rfl

theorem argText_ulong (s : Nat) :
    argText (.ulong s) = t!"encode_u32<unsigned long>" ∨ argText (.ulong s) = t!"encode_u64<unsigned long>" := by
  rw [argText, Log.encodeTag, Log.plainTag, if_neg (show ¬ (Prim.ulong s).signed = true from Bool.false_ne_true)]
  by_cases h : (Prim.ulong s).size ≤ 4
  · left; rw [if_pos h]; rfl
  · right; rw [if_neg h]; rfl

theorem argPrintf_eq (p : Prim) : argPrintfSpec (argText p) = some (printfOf p) := by
  cases p with
  | char s => cases s <;> decide +kernel
  | long s =>
    rcases argText_long s with h | h <;> rw [h]
    · exact (by decide +kernel : argPrintfSpec t!"encode_32<long>" = some t!"%ld")
    · exact (by decide +kernel : argPrintfSpec t!"encode_64<long>" = some t!"%ld")
  | ulong s =>
    rcases argText_ulong s with h | h <;> rw [h]
    · exact (by decide +kernel : argPrintfSpec t!"encode_u32<unsigned long>" = some t!"%lu")
    · exact (by decide +kernel : argPrintfSpec t!"encode_u64<unsigned long>" = some t!"%lu")
  | _ => decide +kernel

theorem printfOf_brace (p : Prim) : '{' ∉ printfOf p := by
  cases p <;> simp [printfOf]

/-! ## Text -/

theorem printf_lit {L : Nat} {s t : Text} {as : List Word} (h : '%' ∉ s) :
    printf L none (s ++ t) as = (printf L none t as).map (s ++ ·) := by
  induction s with
  | nil => simp
  | cons c s ih =>
    rw [List.cons_append, printf, if_neg (show ¬ c = '%' from fun e => h (e ▸ List.mem_cons_self ..)),
      ih fun e => h (List.mem_cons_of_mem _ e), Option.map_map]
    rfl

/-! ## Numbers -/

theorem intText_padded (v : Int) : padded (v < 0) (natText v.natAbs) false 0 = intText v := by
  rw [padded, intText]
  by_cases h : v < 0
  · simp [h]
  · have : v.natAbs = v.toNat := by omega
    simp [h, this]

theorem padded_zero (n : Nat) : padded false (natText n) false 0 = natText n := by simp [padded]

theorem signed_word {p : Prim} {v : Int} (n : Nat) (hn : n = if p.size ≤ 4 then 4 else 8)
    (h : -(2 ^ (8 * n - 1)) ≤ v ∧ v < 2 ^ (8 * n - 1)) : signed (word p v) = v := by
  have hn' : n = 4 ∨ n = 8 := by split at hn <;> omega
  rw [word, ← hn]
  simp only [signed]
  rcases hn' with rfl | rfl
  · simp only [Nat.reduceMul, Nat.reduceSub, Int.reducePow, Nat.reducePow] at h ⊢
    split <;> omega
  · simp only [Nat.reduceMul, Nat.reduceSub, Int.reducePow, Nat.reducePow] at h ⊢
    split <;> omega

theorem word_nat {p : Prim} {v : Int} (n : Nat) (hn : n = if p.size ≤ 4 then 4 else 8)
    (h : 0 ≤ v ∧ v < 2 ^ (8 * n)) : (word p v).2 = v.toNat := by
  have hn' : n = 4 ∨ n = 8 := by split at hn <;> omega
  rw [word, ← hn]
  rcases hn' with rfl | rfl
  · simp only [Nat.reduceMul, Int.reducePow] at h ⊢
    omega
  · simp only [Nat.reduceMul, Int.reducePow] at h ⊢
    omega

theorem natText_toNat {v : Int} (h : 0 ≤ v) : natText v.toNat = intText v := by
  rw [intText, if_neg (by omega)]

theorem printf_conv {L : Nat} {z : Bool} {w l : Nat} {c : Char} {t : Text} {a : Word} {as : List Word}
    (h : c ≠ '%' ∧ c ≠ '0' ∧ isDigit c = false ∧ c ≠ 'l') :
    printf L (some (z, w, l)) (c :: t) (a :: as) =
      (conversion L z w l c a).bind fun s => (printf L none t as).map (s ++ ·) := by
  rw [printf, if_neg (by simp [h.1]), if_neg (by simp [h.2.1]), if_neg (by simp [h.2.2.1]), if_neg h.2.2.2]
  rfl

theorem printf_pct {L : Nat} {t : Text} {as : List Word} :
    printf L none ('%' :: t) as = printf L (some (false, 0, 0)) t as := by
  rw [printf, if_pos rfl]

theorem printf_l {L : Nat} {l : Nat} {t : Text} {as : List Word} :
    printf L (some (false, 0, l)) ('l' :: t) as = printf L (some (false, 0, l + 1)) t as := by
  rw [printf, if_neg (by simp), if_neg (by simp), if_neg (by simp [isDigit]), if_pos rfl]

theorem conv_d {L l : Nat} {p : Prim} {v : Int} {z : Bool} {w : Nat} (n : Nat)
    (hn : n = if p.size ≤ 4 then 4 else 8) (hl : lenBytes L l = n)
    (h : -(2 ^ (8 * n - 1)) ≤ v ∧ v < 2 ^ (8 * n - 1)) :
    conversion L z w l 'd' (word p v) = some (padded (v < 0) (natText v.natAbs) z w) := by
  rw [conversion, signed_word n hn h, if_neg, if_pos rfl]
  rw [hl, hn]; simp [word]

theorem conv_u {L l : Nat} {p : Prim} {v : Int} {z : Bool} {w : Nat} (n : Nat)
    (hn : n = if p.size ≤ 4 then 4 else 8) (hl : lenBytes L l = n) (h : 0 ≤ v ∧ v < 2 ^ (8 * n)) :
    conversion L z w l 'u' (word p v) = some (padded false (natText v.toNat) z w) := by
  rw [conversion, word_nat n hn h, if_neg, if_neg (by decide), if_pos rfl]
  rw [hl, hn]; simp [word]

theorem conv_x {L l : Nat} {p : Prim} {v : Int} {z : Bool} {w : Nat} {c : Char} (hc : c = 'x' ∨ c = 'X') (n : Nat)
    (hn : n = if p.size ≤ 4 then 4 else 8) (hl : lenBytes L l = n) (h : 0 ≤ v ∧ v < 2 ^ (8 * n)) :
    conversion L z w l c (word p v) = some (padded false (digitsOf c v.toNat) z w) := by
  rw [conversion, word_nat n hn h, if_neg, if_neg, if_neg, if_pos hc]
  · rcases hc with rfl | rfl <;> decide
  · rcases hc with rfl | rfl <;> decide
  · rw [hl, hn]; simp [word]

/-- `{}` for an integer or a character. -/
theorem printf_plain {L : Nat} {p : Prim} {v : Int} {t : Text} {as : List Word} (h : Fits L p v)
    (hp : p ≠ .bool ∧ p ≠ .float ∧ p ≠ .double) :
    printf L none (printfOf p ++ t) (word p v :: as) =
      (fmtPlain p v).bind fun s => (printf L none t as).map (s ++ ·) := by
  obtain ⟨⟨hs, hv⟩, hL⟩ := h
  have e : (Log.CType.prim p).under = p := rfl
  rw [e] at hv hs
  have i1 : ∀ {c : Char}, c = 'd' ∨ c = 'u' ∨ c = 'c' → c ≠ '%' ∧ c ≠ '0' ∧ isDigit c = false ∧ c ≠ 'l' := by
    rintro c (rfl | rfl | rfl) <;> decide
  cases p with
  | char s =>
    rw [printfOf, show t!"%c" ++ t = '%' :: 'c' :: t from rfl, printf_pct, printf_conv (i1 (by simp))]
    have : conversion L false 0 0 'c' (word (.char s) v) = some [Char.ofNat (v % 256).toNat] := by
      have h1 : (word (.char s) v).2 % 256 = (v % 256).toNat := by
        show (v % 2 ^ 32).toNat % 256 = (v % 256).toNat
        simp only [Int.reducePow]
        omega
      rw [conversion, h1]
      simp [word, Prim.size, lenBytes, padded]
    rw [this]; rfl
  | schar =>
    rw [printfOf, show t!"%d" ++ t = '%' :: 'd' :: t from rfl, printf_pct, printf_conv (i1 (by simp)), conv_d 4 rfl rfl,
      intText_padded]
    · rfl
    · simp [Prim.signed, Prim.size] at hv ⊢; omega
  | short =>
    rw [printfOf, show t!"%d" ++ t = '%' :: 'd' :: t from rfl, printf_pct, printf_conv (i1 (by simp)), conv_d 4 rfl rfl,
      intText_padded]
    · rfl
    · simp [Prim.signed, Prim.size] at hv ⊢; omega
  | int =>
    rw [printfOf, show t!"%d" ++ t = '%' :: 'd' :: t from rfl, printf_pct, printf_conv (i1 (by simp)), conv_d 4 rfl rfl,
      intText_padded]
    · rfl
    · simp [Prim.signed, Prim.size] at hv ⊢; omega
  | uchar =>
    simp [Prim.signed, Prim.size] at hv
    rw [printfOf, show t!"%u" ++ t = '%' :: 'u' :: t from rfl, printf_pct, printf_conv (i1 (by simp)), conv_u 4 rfl rfl,
      padded_zero, natText_toNat hv.1]
    · rfl
    · simp; omega
  | ushort =>
    simp [Prim.signed, Prim.size] at hv
    rw [printfOf, show t!"%u" ++ t = '%' :: 'u' :: t from rfl, printf_pct, printf_conv (i1 (by simp)), conv_u 4 rfl rfl,
      padded_zero, natText_toNat hv.1]
    · rfl
    · simp; omega
  | uint =>
    simp [Prim.signed, Prim.size] at hv
    rw [printfOf, show t!"%u" ++ t = '%' :: 'u' :: t from rfl, printf_pct, printf_conv (i1 (by simp)), conv_u 4 rfl rfl,
      padded_zero, natText_toNat hv.1]
    · rfl
    · simp; omega
  | long s =>
    have h1 := hs s (.inl rfl)
    have h2 := hL s (.inl rfl)
    rw [printfOf, show t!"%ld" ++ t = '%' :: 'l' :: 'd' :: t from rfl, printf_pct, printf_l, printf_conv (i1 (by simp)),
      conv_d s ?_ ?_, intText_padded]
    · rfl
    · simpa [Prim.signed, Prim.size] using hv
    · show s = if s ≤ 4 then 4 else 8
      split <;> omega
    · exact h2.symm
  | ulong s =>
    have h1 := hs s (.inr rfl)
    have h2 := hL s (.inr rfl)
    simp [Prim.signed, Prim.size] at hv
    rw [printfOf, show t!"%lu" ++ t = '%' :: 'l' :: 'u' :: t from rfl, printf_pct, printf_l, printf_conv (i1 (by simp)),
      conv_u s ?_ ?_, padded_zero, natText_toNat hv.1]
    · rfl
    · exact hv
    · show s = if s ≤ 4 then 4 else 8
      split <;> omega
    · exact h2.symm
  | llong =>
    rw [printfOf, show t!"%lld" ++ t = '%' :: 'l' :: 'l' :: 'd' :: t from rfl, printf_pct, printf_l, printf_l,
      printf_conv (i1 (by simp)), conv_d 8 rfl rfl, intText_padded]
    · rfl
    · simpa [Prim.signed, Prim.size] using hv
  | ullong =>
    simp [Prim.signed, Prim.size] at hv
    rw [printfOf, show t!"%llu" ++ t = '%' :: 'l' :: 'l' :: 'u' :: t from rfl, printf_pct, printf_l, printf_l,
      printf_conv (i1 (by simp)), conv_u 8 rfl rfl, padded_zero, natText_toNat hv.1]
    · rfl
    · simpa using hv
  | bool => exact absurd rfl hp.1
  | float => exact absurd rfl hp.2.1
  | double => exact absurd rfl hp.2.2

/-! ## Widths -/

theorem natText_head {n : Nat} (h : n ≠ 0) : ∃ c r, natText n = c :: r ∧ c ≠ '0' := by
  induction n using Nat.strongRecOn with
  | _ n ih =>
    by_cases hb : n < 10
    · refine ⟨Nat.digitChar n, [], Nat.toDigits_of_lt_base hb, ?_⟩
      rw [Ne, Nat.digitChar_eq_zero]
      exact h
    · obtain ⟨c, r, h1, h2⟩ := ih (n / 10) (by omega) (by omega)
      refine ⟨c, r ++ [Nat.digitChar (n % 10)], ?_, h2⟩
      rw [natText, Nat.toDigits_of_base_le (by decide) (by omega)]
      rw [natText] at h1
      rw [h1]
      rfl

theorem printf_digits {L : Nat} {z : Bool} {ds t : Text} {as : List Word} (w : Nat) (hd : ∀ c ∈ ds, isDigit c = true)
    (h : z = true ∨ w ≠ 0) :
    printf L (some (z, w, 0)) (ds ++ t) as = printf L (some (z, Nat.ofDigitChars 10 ds w, 0)) t as := by
  induction ds generalizing w with
  | nil => rfl
  | cons c ds ih =>
    have hc := hd c (List.mem_cons_self ..)
    have hp : c ≠ '%' := digit_ne hc (by decide)
    rw [List.cons_append, printf, if_neg (by simp [hp]), if_neg, if_pos ⟨hc, rfl⟩, ih, Nat.ofDigitChars_cons]
    · exact fun d hd' => hd d (List.mem_cons_of_mem _ hd')
    · rcases h with h | h
      · exact .inl h
      · right; omega
    · rintro ⟨_, h1, h2, _⟩
      rcases h with h | h
      · rw [h] at h1; cases h1
      · exact h h2

theorem ofDigits_natText (n : Nat) : Nat.ofDigitChars 10 (natText n) 0 = n := Nat.ofDigitChars_ten_toDigits

theorem printf_width {L : Nat} {z : Bool} {w : Nat} {t : Text} {as : List Word} :
    printf L (some (z, 0, 0)) (widthText w ++ t) as = printf L (some (z, w, 0)) t as := by
  rw [widthText]
  split
  · next h => rw [h]; rfl
  · next h =>
    cases z with
    | true => rw [printf_digits 0 (fun c hc => natText_digit hc) (.inl rfl), ofDigits_natText]
    | false =>
      obtain ⟨c, r, h1, h2⟩ := natText_head h
      have hd : ∀ d ∈ c :: r, isDigit d = true := fun d hd => natText_digit (h1 ▸ hd)
      have hc := hd c (List.mem_cons_self ..)
      have h3 := ofDigits_natText w
      rw [h1, Nat.ofDigitChars_cons] at h3
      rw [h1, List.cons_append, printf, if_neg (by simp [digit_ne hc (show isDigit '%' = false by decide)]),
        if_neg (by simp [h2]), if_pos ⟨hc, rfl⟩, printf_digits, h3]
      · exact fun d hd' => hd d (List.mem_cons_of_mem _ hd')
      · right
        have h4 : '0' < c := by
          have : c.isDigit = true := hc
          simp [Char.isDigit, UInt32.le_iff_toNat_le] at this
          have h5 : c.toNat ≠ '0'.toNat := fun e => h2 (Char.toNat_inj.1 e)
          rw [Char.lt_def, UInt32.lt_iff_toNat_lt]
          have : c.val.toNat = c.toNat := rfl
          have : '0'.val.toNat = 48 := rfl
          have : '0'.toNat = 48 := rfl
          omega
        rw [Char.lt_def, UInt32.lt_iff_toNat_lt] at h4
        have : c.val.toNat = c.toNat := rfl
        have : '0'.val.toNat = '0'.toNat := rfl
        omega

/-- `{:…}` for an integer of 32 bits that `d`, `x` can show. -/
theorem printf_spec {L : Nat} {p : Prim} {v : Int} {z : Bool} {w : Nat} {c : Char} {t : Text} {as : List Word}
    (hp : p.size ≤ 4 ∧ p ≠ .float) (hc : c = 'd' ∨ c = 'x' ∨ c = 'X')
    (hv : if c = 'd' then -(2 ^ 31) ≤ v ∧ v < 2 ^ 31 else 0 ≤ v ∧ v < 2 ^ 32) :
    printf L none (t!"%" ++ ((if z then t!"0" else []) ++ widthText w ++ [c]) ++ t) (word p v :: as) =
      (fmtSpec p v z w c).bind fun s => (printf L none t as).map (s ++ ·) := by
  have hc' : c ≠ '%' ∧ c ≠ '0' ∧ isDigit c = false ∧ c ≠ 'l' := by rcases hc with rfl | rfl | rfl <;> decide
  have hd : p ≠ .double := by rintro rfl; exact absurd hp.1 (by decide)
  have h1 : printf L none (t!"%" ++ ((if z then t!"0" else []) ++ widthText w ++ [c]) ++ t) (word p v :: as) =
      printf L (some (z, 0, 0)) (widthText w ++ (c :: t)) (word p v :: as) := by
    simp only [List.append_assoc, List.cons_append, List.nil_append]
    rw [printf_pct]
    cases z with
    | true => simp only [if_true, List.cons_append, List.nil_append]; rw [printf, if_neg (by simp), if_pos (by simp)]
    | false => rfl
  rw [h1, printf_width, printf_conv hc', fmtSpec, if_neg (by simp [hp.2, hd])]
  rcases hc with rfl | hc
  · rw [conv_d 4 (by simp [hp.1]) rfl (by simpa using hv)]; rfl
  · have hne : c ≠ 'd' := by rcases hc with rfl | rfl <;> decide
    rw [if_neg hne] at hv
    rw [conv_x hc 4 (by simp [hp.1]) rfl (by simpa using hv)]
    have : ¬ v < 0 := by omega
    have h2 : v.natAbs = v.toNat := by omega
    simp [this, h2]

end Verif.Render
