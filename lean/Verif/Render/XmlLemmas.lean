import Verif.Render.Spec
import Verif.Symbols.ReadLemmas
/-! # Lemmas about format strings of the XML file -/
namespace Verif.Render
open Verif.Symbols
open Verif.Log (Prim)

/-- A piece while the loop runs: text without `{`, `{}`, `{:g}`. -/
inductive Raw where
  | txt (s : Text)
  | plain
  | spec (g : Text)

def Raw.text : Raw → Text
  | .txt s => s
  | .plain => t!"{}"
  | .spec g => t!"{:" ++ g ++ t!"}"

def rtext (ps : List Raw) : Text := ps.flatMap Raw.text

def Raw.Ok : Raw → Prop
  | .txt s => '{' ∉ s
  | .plain => True
  | .spec g => g ≠ [] ∧ '}' ∉ g ∧ '{' ∉ g

theorem specAt_ne {c : Char} {t : Text} (h : c ≠ '{') : specAt (c :: t) = none := by
  simp [specAt, dropPrefix?, Ne.symm h]

theorem takeWhile_stop {p : Char → Bool} {s : Text} {c : Char} {t : Text} (hs : ∀ x ∈ s, p x = true) (hc : p c = false) :
    (s ++ c :: t).takeWhile p = s ∧ (s ++ c :: t).dropWhile p = c :: t := by
  constructor
  · rw [List.takeWhile_append_of_pos hs, List.takeWhile_cons, if_neg (by simp [hc]), List.append_nil]
  · rw [List.dropWhile_append_of_pos hs, List.dropWhile_cons, if_neg (by simp [hc])]

theorem specAt_spec {g t : Text} (h : g ≠ []) (hg : '}' ∉ g) :
    specAt (t!"{:" ++ g ++ t!"}" ++ t) = some (g, t) := by
  have hw := takeWhile_stop (p := fun c => decide (c ≠ '}')) (s := g) (c := '}') (t := t)
    (by intro x hx; simp; rintro rfl; exact hg hx) (by simp)
  rw [specAt, List.append_assoc, List.append_assoc, dropPrefix_append]
  simp only [Option.bind_some]
  rw [show ['}'] ++ t = '}' :: t from rfl, hw.1, hw.2, if_neg (by simpa using h)]

theorem search_txt {s t : Text} (h : '{' ∉ s) :
    searchSpec (s ++ t) = (searchSpec t).map fun x => (s ++ x.1, x.2) := by
  induction s with
  | nil => simp
  | cons c s ih =>
    have hc : c ≠ '{' := fun e => h (e ▸ List.mem_cons_self ..)
    rw [List.cons_append, searchSpec, specAt_ne hc]
    simp only
    rw [ih fun e => h (List.mem_cons_of_mem _ e), Option.map_map]
    rfl

theorem search_plain (t : Text) : searchSpec (t!"{}" ++ t) = (searchSpec t).map fun x => (t!"{}" ++ x.1, x.2) := by
  have h1 : specAt ('{' :: '}' :: t) = none := rfl
  have h2 : specAt ('}' :: t) = none := rfl
  rw [show t!"{}" ++ t = '{' :: '}' :: t from rfl, searchSpec, h1]
  simp only
  rw [searchSpec, h2]
  simp only [Option.map_map]
  rfl

theorem search_spec {g t : Text} (h : g ≠ []) (hg : '}' ∉ g) :
    searchSpec (t!"{:" ++ g ++ t!"}" ++ t) = some ([], g, t) := by
  have := specAt_spec (t := t) h hg
  rw [show t!"{:" ++ g ++ t!"}" ++ t = '{' :: (t!":" ++ g ++ t!"}" ++ t) from rfl] at this ⊢
  rw [searchSpec, this]

theorem sub_txt {s r t : Text} (h : '{' ∉ s) : subPlain r (s ++ t) = s ++ subPlain r t := by
  induction s with
  | nil => rfl
  | cons c s ih =>
    have hc : c ≠ '{' := fun e => h (e ▸ List.mem_cons_self ..)
    rw [List.cons_append, subPlain]
    simp [dropPrefix?, Ne.symm hc, ih fun e => h (List.mem_cons_of_mem _ e)]

theorem sub_plain (r t : Text) : subPlain r (t!"{}" ++ t) = r ++ t := by
  rw [show t!"{}" ++ t = '{' :: ('}' :: t) from rfl, subPlain]
  rfl

/-! ## The loop on pieces -/

/-- The first `{:g}`. -/
def popSpec : List Raw → Option (List Raw)
  | [] => none
  | .spec g :: ps => some (.txt (t!"%" ++ g) :: ps)
  | .txt s :: ps => (popSpec ps).map (.txt s :: ·)
  | .plain :: ps => (popSpec ps).map (.plain :: ·)

/-- The first `{}`. -/
def popPlain (r : Text) : List Raw → List Raw
  | [] => []
  | .plain :: ps => .txt r :: ps
  | .txt s :: ps => .txt s :: popPlain r ps
  | .spec g :: ps => .spec g :: popPlain r ps

theorem rtext_cons (p : Raw) (ps : List Raw) : rtext (p :: ps) = p.text ++ rtext ps := List.flatMap_cons ..

theorem search_rtext {ps : List Raw} (h : ∀ p ∈ ps, p.Ok) :
    (searchSpec (rtext ps)).map (fun x => x.1 ++ t!"%" ++ x.2.1 ++ x.2.2) = (popSpec ps).map rtext := by
  induction ps with
  | nil => rfl
  | cons p ps ih =>
    have ih := ih fun q hq => h q (List.mem_cons_of_mem _ hq)
    have hp := h p (List.mem_cons_self ..)
    rw [rtext_cons]
    cases p with
    | txt s =>
      rw [Raw.text, search_txt hp, popSpec, Option.map_map, Option.map_map]
      cases hx : searchSpec (rtext ps) with
      | none => rw [hx] at ih; cases hy : popSpec ps with
        | none => rfl
        | some y => rw [hy] at ih; cases ih
      | some x => rw [hx] at ih; cases hy : popSpec ps with
        | none => rw [hy] at ih; cases ih
        | some y => rw [hy] at ih; simp at ih; simp [rtext_cons, ← ih, Raw.text]
    | plain =>
      rw [Raw.text, search_plain, popSpec, Option.map_map, Option.map_map]
      cases hx : searchSpec (rtext ps) with
      | none => rw [hx] at ih; cases hy : popSpec ps with
        | none => rfl
        | some y => rw [hy] at ih; cases ih
      | some x => rw [hx] at ih; cases hy : popSpec ps with
        | none => rw [hy] at ih; cases ih
        | some y => rw [hy] at ih; simp at ih; simp [rtext_cons, ← ih, Raw.text]
    | spec g =>
      rw [Raw.text, search_spec hp.1 hp.2.1]
      simp [popSpec, rtext_cons, Raw.text]

theorem sub_rtext {ps : List Raw} {r : Text} (h : ∀ p ∈ ps, p.Ok) (hs : popSpec ps = none) :
    subPlain r (rtext ps) = rtext (popPlain r ps) := by
  induction ps with
  | nil => rfl
  | cons p ps ih =>
    have ih := ih fun q hq => h q (List.mem_cons_of_mem _ hq)
    have hp := h p (List.mem_cons_self ..)
    rw [rtext_cons]
    cases p with
    | txt s =>
      rw [popSpec, Option.map_eq_none_iff] at hs
      rw [Raw.text, sub_txt hp, ih hs, popPlain, rtext_cons]; rfl
    | plain => rw [Raw.text, sub_plain, popPlain, rtext_cons]; rfl
    | spec g => cases hs

theorem popSpec_ok {ps qs : List Raw} (h : ∀ p ∈ ps, p.Ok) (hq : popSpec ps = some qs) : ∀ p ∈ qs, p.Ok := by
  induction ps generalizing qs with
  | nil => cases hq
  | cons p ps ih =>
    have hp := h p (List.mem_cons_self ..)
    have ih := @ih
    cases p with
    | spec g =>
      cases hq
      intro q hq
      rcases List.mem_cons.1 hq with rfl | hq
      · simpa [Raw.Ok] using hp.2.2
      · exact h q (List.mem_cons_of_mem _ hq)
    | txt s =>
      rw [popSpec, Option.map_eq_some_iff] at hq
      obtain ⟨qs, hq, rfl⟩ := hq
      intro q hm
      rcases List.mem_cons.1 hm with rfl | hm
      · exact hp
      · exact ih (fun q hq => h q (List.mem_cons_of_mem _ hq)) hq q hm
    | plain =>
      rw [popSpec, Option.map_eq_some_iff] at hq
      obtain ⟨qs, hq, rfl⟩ := hq
      intro q hm
      rcases List.mem_cons.1 hm with rfl | hm
      · exact hp
      · exact ih (fun q hq => h q (List.mem_cons_of_mem _ hq)) hq q hm

theorem popPlain_ok {ps : List Raw} {r : Text} (hr : '{' ∉ r) (h : ∀ p ∈ ps, p.Ok) : ∀ p ∈ popPlain r ps, p.Ok := by
  induction ps with
  | nil => simp [popPlain]
  | cons p ps ih =>
    have ih := ih fun q hq => h q (List.mem_cons_of_mem _ hq)
    have hp := h p (List.mem_cons_self ..)
    intro q hq
    cases p with
    | plain =>
      rcases List.mem_cons.1 hq with rfl | hq
      · exact hr
      · exact h q (List.mem_cons_of_mem _ hq)
    | txt s =>
      rcases List.mem_cons.1 hq with rfl | hq
      · exact hp
      · exact ih q hq
    | spec s =>
      rcases List.mem_cons.1 hq with rfl | hq
      · exact hp
      · exact ih q hq

theorem popPlain_none {ps : List Raw} {r : Text} (hs : popSpec ps = none) : popSpec (popPlain r ps) = none := by
  induction ps with
  | nil => rfl
  | cons p ps ih =>
    cases p with
    | spec g => cases hs
    | txt s =>
      rw [popSpec, Option.map_eq_none_iff] at hs
      rw [popPlain, popSpec, ih hs]; rfl
    | plain =>
      rw [popSpec, Option.map_eq_none_iff] at hs
      rw [popPlain, popSpec, hs]; rfl

/-- The loop, when there are no more `{:g}`. -/
theorem xml_plain {ps : List Raw} (h : ∀ p ∈ ps, p.Ok) (hs : popSpec ps = none) {args ss : List Text}
    (ha : args.mapM argPrintfSpec = some ss) (hss : ∀ s ∈ ss, '{' ∉ s) :
    xmlFormat (rtext ps) args = some (rtext (ss.foldl (fun ps s => popPlain s ps) ps)) := by
  induction args generalizing ps ss with
  | nil => cases ha; rfl
  | cons a as ih =>
    rw [List.mapM_cons] at ha
    cases h1 : argPrintfSpec a with
    | none => rw [h1] at ha; cases ha
    | some s =>
      rw [h1] at ha
      cases h2 : as.mapM argPrintfSpec with
      | none => rw [h2] at ha; cases ha
      | some ss' =>
        rw [h2] at ha; cases ha
        have hn := search_rtext h
        rw [hs] at hn
        have hn : searchSpec (rtext ps) = none := Option.map_eq_none_iff.1 hn
        rw [xmlFormat, hn]
        simp only [h1, Option.bind_some]
        rw [sub_rtext h hs, ih (popPlain_ok (hss s (List.mem_cons_self ..)) h) (popPlain_none hs) h2
          (fun x hx => hss x (List.mem_cons_of_mem _ hx))]
        rfl

/-- All `{:g}` done. -/
def Raw.done : Raw → Raw
  | .spec g => .txt (t!"%" ++ g)
  | .txt s => .txt s
  | .plain => .plain

def isSpecRaw : Raw → Bool
  | .spec _ => true
  | _ => false

theorem popSpec_count {ps : List Raw} :
    (popSpec ps = none ∧ ps.countP isSpecRaw = 0 ∧ ps.map Raw.done = ps) ∨
    ∃ qs, popSpec ps = some qs ∧ ps.countP isSpecRaw = qs.countP isSpecRaw + 1 ∧ qs.map Raw.done = ps.map Raw.done := by
  induction ps with
  | nil => exact .inl ⟨rfl, rfl, rfl⟩
  | cons p ps ih =>
    cases p with
    | spec g => exact .inr ⟨_, rfl, by simp [List.countP_cons, isSpecRaw], rfl⟩
    | txt s =>
      rcases ih with ⟨h1, h2, h3⟩ | ⟨qs, h1, h2, h3⟩
      · exact .inl ⟨by rw [popSpec, h1]; rfl, by simp [List.countP_cons, isSpecRaw, h2], by rw [List.map_cons, h3]; rfl⟩
      · exact .inr ⟨_, by rw [popSpec, h1]; rfl, by simp [List.countP_cons, isSpecRaw, h2], by rw [List.map_cons, h3]; rfl⟩
    | plain =>
      rcases ih with ⟨h1, h2, h3⟩ | ⟨qs, h1, h2, h3⟩
      · exact .inl ⟨by rw [popSpec, h1]; rfl, by simp [List.countP_cons, isSpecRaw, h2], by rw [List.map_cons, h3]; rfl⟩
      · exact .inr ⟨_, by rw [popSpec, h1]; rfl, by simp [List.countP_cons, isSpecRaw, h2], by rw [List.map_cons, h3]; rfl⟩

theorem xml_all {ps : List Raw} (h : ∀ p ∈ ps, p.Ok) {args ss : List Text}
    (hk : ps.countP isSpecRaw ≤ args.length)
    (ha : (args.drop (ps.countP isSpecRaw)).mapM argPrintfSpec = some ss) (hss : ∀ s ∈ ss, '{' ∉ s) :
    xmlFormat (rtext ps) args = some (rtext (ss.foldl (fun ps s => popPlain s ps) (ps.map Raw.done))) := by
  induction args generalizing ps with
  | nil =>
    rcases popSpec_count (ps := ps) with ⟨h1, h2, h3⟩ | ⟨qs, h1, h2, h3⟩
    · rw [h2] at ha; rw [h3]; exact xml_plain h h1 ha hss
    · rw [h2] at hk; cases hk
  | cons a as ih =>
    rcases popSpec_count (ps := ps) with ⟨h1, h2, h3⟩ | ⟨qs, h1, h2, h3⟩
    · rw [h2] at ha; rw [h3]; exact xml_plain h h1 ha hss
    · have hn := search_rtext h
      rw [h1] at hn
      obtain ⟨⟨b, g, r⟩, hx, hn⟩ := Option.map_eq_some_iff.1 hn
      rw [xmlFormat, hx]
      simp only at hn ⊢
      rw [hn, ih (popSpec_ok h h1) (by rw [h2] at hk; simpa using hk) (by rw [h2] at ha; exact ha), h3]

/-! ## Of the program's format string -/

/-- What the format string of the XML file has for the pieces, when the `{}` get these. -/
def xmlText : List Piece → List Text → Text
  | [], _ => []
  | .lit s :: ps, ss => s ++ xmlText ps ss
  | .plain :: ps, s :: ss => s ++ xmlText ps ss
  | .plain :: ps, [] => t!"{}" ++ xmlText ps []
  | .spec z w c :: ps, ss => t!"%" ++ ((if z then t!"0" else []) ++ widthText w ++ [c]) ++ xmlText ps ss

def Piece.raw : Piece → Raw
  | .lit s => .txt s
  | .plain => .plain
  | .spec z w c => .spec ((if z then t!"0" else []) ++ widthText w ++ [c])

theorem escape_none {s : Text} (h : '{' ∉ s ∧ '}' ∉ s) :
    (s.flatMap fun c => if c = '{' ∨ c = '}' then [c, c] else [c]) = s := by
  induction s with
  | nil => rfl
  | cons c s ih =>
    rw [List.flatMap_cons, ih ⟨fun e => h.1 (List.mem_cons_of_mem _ e), fun e => h.2 (List.mem_cons_of_mem _ e)⟩,
      if_neg]
    · rfl
    · rintro (e | e)
      · exact h.1 (e ▸ List.mem_cons_self ..)
      · exact h.2 (e ▸ List.mem_cons_self ..)

/-- The pieces are such as can be written: text without braces, a known letter. -/
def Piece.Ok : Piece → Prop
  | .lit s => '{' ∉ s ∧ '}' ∉ s
  | .plain => True
  | .spec _ _ c => c = 'd' ∨ c = 'x' ∨ c = 'X'

theorem widthText_digit {w : Nat} {c : Char} (h : c ∈ widthText w) : isDigit c = true := by
  rw [widthText] at h
  split at h
  · cases h
  · exact natText_digit h

theorem raw_ok {p : Piece} (h : p.Ok) : p.raw.Ok := by
  cases p with
  | lit s => exact h.1
  | plain => trivial
  | spec z w c =>
    have hc : c ≠ '{' ∧ c ≠ '}' := by rcases h with rfl | rfl | rfl <;> decide
    have hw : ∀ d, isDigit d = false → d ≠ '0' → d ∉ widthText w := fun d hd _ hm => by
      rw [widthText_digit hm] at hd; cases hd
    refine ⟨by simp, ?_, ?_⟩
    · cases z <;> simp [hw '}' (by decide) (by decide), hc.2.symm]
    · cases z <;> simp [hw '{' (by decide) (by decide), hc.1.symm]

theorem fmtText_raw {ps : List Piece} (h : ∀ p ∈ ps, p.Ok) : fmtText ps = rtext (ps.map Piece.raw) := by
  induction ps with
  | nil => rfl
  | cons p ps ih =>
    rw [fmtText, List.flatMap_cons, List.map_cons, rtext_cons]
    have := ih fun q hq => h q (List.mem_cons_of_mem _ hq)
    rw [fmtText] at this
    rw [this]
    have hp := h p (List.mem_cons_self ..)
    cases p with
    | lit s => rw [Piece.text, escape_none hp]; rfl
    | plain => rfl
    | spec z w c => simp [Piece.text, Piece.raw, Raw.text]

theorem fold_txt (t : Text) (ps : List Raw) (ss : List Text) :
    ss.foldl (fun ps s => popPlain s ps) (.txt t :: ps) = .txt t :: ss.foldl (fun ps s => popPlain s ps) ps := by
  induction ss generalizing ps with
  | nil => rfl
  | cons s ss ih => rw [List.foldl_cons, popPlain, ih]; rfl

theorem fold_pieces (ps : List Piece) (ss : List Text) (h : ps.countP isPlain = ss.length) :
    rtext (ss.foldl (fun ps s => popPlain s ps) ((ps.map Piece.raw).map Raw.done)) = xmlText ps ss := by
  induction ps generalizing ss with
  | nil =>
    cases ss with
    | nil => rfl
    | cons s ss => cases h
  | cons p ps ih =>
    rw [List.map_cons, List.map_cons]
    cases p with
    | lit s =>
      rw [Piece.raw, Raw.done, fold_txt, rtext_cons, ih _ (by simpa [List.countP_cons, isPlain] using h)]; rfl
    | spec z w c =>
      rw [Piece.raw, Raw.done, fold_txt, rtext_cons, ih _ (by simpa [List.countP_cons, isPlain] using h)]; rfl
    | plain =>
      cases ss with
      | nil => simp [List.countP_cons, isPlain] at h
      | cons s ss =>
        rw [Piece.raw, Raw.done, List.foldl_cons, popPlain, fold_txt, rtext_cons, ih _ (by simpa [List.countP_cons, isPlain] using h)]; rfl

theorem count_raw (ps : List Piece) : (ps.map Piece.raw).countP isSpecRaw = ps.countP isSpec := by
  rw [List.countP_map]
  congr 1
  funext p
  cases p <;> rfl

theorem xml_pieces {ps : List Piece} (h : ∀ p ∈ ps, p.Ok) {args ss : List Text}
    (hn : args.length = ps.countP isSpec + ps.countP isPlain)
    (ha : (args.drop (ps.countP isSpec)).mapM argPrintfSpec = some ss) (hss : ∀ s ∈ ss, '{' ∉ s) :
    xmlFormat (fmtText ps) args = some (xmlText ps ss) := by
  have hlen : ss.length = ps.countP isPlain := by
    have : ∀ (l : List Text) (r : List Text), l.mapM argPrintfSpec = some r → r.length = l.length := by
      intro l
      induction l with
      | nil => intro r h; cases h; rfl
      | cons a l ih =>
        intro r h
        rw [List.mapM_cons] at h
        cases h1 : argPrintfSpec a with
        | none => rw [h1] at h; cases h
        | some s =>
          rw [h1] at h
          cases h2 : l.mapM argPrintfSpec with
          | none => rw [h2] at h; cases h
          | some ss' => rw [h2] at h; cases h; simp [ih _ h2]
    rw [this _ _ ha, List.length_drop]
    omega
  rw [fmtText_raw h, xml_all (ss := ss)]
  · rw [fold_pieces _ _ hlen.symm]
  · intro p hp
    obtain ⟨q, hq, rfl⟩ := List.mem_map.1 hp
    exact raw_ok (h q hq)
  · rw [count_raw]; omega
  · rw [count_raw]; exact ha
  · exact hss

end Verif.Render
