import Verif.Args.Spec

/-! # Lemmas on options -/

namespace Verif.Args

open Verif.Symbols
open Verif.Json (joinWith)

theorem splitAt_none {c : Char} : ∀ {w : Text}, c ∉ w → splitAt c w = [w]
  | [], _ => rfl
  | x :: w, h => by
    have hx : x ≠ c := fun e => h (by simp [e])
    have := splitAt_none (c := c) (w := w) (fun m => h (by simp [m]))
    simp [splitAt, hx, this]

theorem splitAt_cons {c : Char} (r : Text) : ∀ {w : Text}, c ∉ w → splitAt c (w ++ c :: r) = w :: splitAt c r
  | [], _ => by simp [splitAt]
  | x :: w, h => by
    have hx : x ≠ c := fun e => h (by simp [e])
    have := splitAt_cons (c := c) r (w := w) (fun m => h (by simp [m]))
    simp [splitAt, hx, this]

/-- Elements of a list. -/
def Elem (v : Text) : Prop := v ≠ [] ∧ ';' ∉ v

theorem Word.elem {v : Text} (h : Word v) : Elem v := ⟨h.1, h.2⟩

theorem expand_join : ∀ {ws : List Text}, (∀ w ∈ ws, Elem w) → expand (joinWith [';'] ws) = ws
  | [], _ => by simp [expand, joinWith, splitAt]
  | [w], h => by
    have := h w (by simp)
    simp [expand, joinWith, splitAt_none this.2, this.1]
  | w :: u :: ws, h => by
    have hw := h w (by simp)
    have := expand_join (ws := u :: ws) (fun x hx => h x (List.mem_cons_of_mem _ hx))
    unfold expand at this ⊢
    rw [show joinWith [';'] (w :: u :: ws) = w ++ ';' :: joinWith [';'] (u :: ws) from by
      simp [joinWith]]
    rw [splitAt_cons _ hw.2, List.filter_cons, this]
    simp [hw.1]

theorem expand_elem {w : Text} (h : Elem w) : expand w = [w] := by
  simpa [joinWith] using expand_join (ws := [w]) (by simpa using h)

theorem expand_nil : expand [] = [] := rfl

theorem join_append : ∀ (ws us : List Text), ws ≠ [] → us ≠ [] →
    joinWith [';'] (ws ++ us) = joinWith [';'] ws ++ [';'] ++ joinWith [';'] us
  | [], _, h, _ => absurd rfl h
  | [w], [], _, h => absurd rfl h
  | [w], u :: us, _, _ => by simp [joinWith]
  | w :: x :: ws, us, _, h => by
    have := join_append (x :: ws) us (by simp) h
    simp only [List.cons_append] at this ⊢
    simp only [joinWith, this, List.append_assoc]

theorem join_ne {ws : List Text} (h : ∀ w ∈ ws, Elem w) (hn : ws ≠ []) : joinWith [';'] ws ≠ [] := by
  intro e
  have := expand_join h
  rw [e, expand_nil] at this
  exact hn this.symm

theorem listAppend_join {ws us : List Text} (h : ∀ w ∈ ws, Elem w) :
    listAppend (joinWith [';'] ws) us = joinWith [';'] (ws ++ us) := by
  unfold listAppend
  by_cases hw : ws = []
  · subst hw; simp [joinWith]
  · rw [if_neg (join_ne h hw)]
    by_cases hu : us = []
    · subst hu; simp
    · rw [if_neg hu, join_append _ _ hw hu]

theorem foldl_paths {f : Text → Text} : ∀ (xs ys : List Text), (∀ y ∈ ys, Elem y) →
    (∀ x ∈ xs, Elem (f x)) →
    xs.foldl (fun v i => listAppend v (expand (f i))) (joinWith [';'] ys) =
      joinWith [';'] (ys ++ xs.map f)
  | [], ys, _, _ => by simp
  | x :: xs, ys, hy, hx => by
    have hfx : Elem (f x) := hx x (by simp)
    rw [List.foldl_cons, expand_elem hfx, listAppend_join hy, foldl_paths xs]
    · simp
    · intro y h; simp at h; rcases h with h | h
      · exact hy y h
      · exact h ▸ hfx
    · intro z h; exact hx z (by simp [h])

/-! ## The arguments of the function -/

/-- Texts with a keyword are written as keyword and values. -/
theorem kind_one {k : Text} (h : k ∈ oneKeys) : kind k = some .one := by
  simp only [oneKeys, List.mem_cons, List.not_mem_nil, or_false] at h
  rcases h with h | h | h | h | h | h | h | h | h | h | h | h <;> (subst h; decide)

theorem kind_multi {k : Text} (h : k ∈ multiKeys) : kind k = some .multi := by
  simp only [multiKeys, List.mem_cons, List.not_mem_nil, or_false] at h
  rcases h with h | h | h | h <;> (subst h; decide)

theorem kind_none {v : Text} (h : v ∉ flagKeys) (h1 : v ∉ oneKeys) (h2 : v ∉ multiKeys) : kind v = none := by
  simp [kind, h, h1, h2]

/-- A keyword and its values. -/
def ShapeOk (g : Text × List Text) : Prop :=
  kind g.1 = some .flag ∨ (kind g.1 = some .one ∧ g.2 ≠ []) ∨ kind g.1 = some .multi

theorem parse_multi {k : Text} (rest : List Text) : ∀ (vs : List Text) (p : Parsed), (∀ v ∈ vs, kind v = none) →
    parseArguments (some (k, .multi)) (vs ++ rest) p =
      parseArguments (some (k, .multi)) rest { p with multis := p.multis ++ vs.map fun v => (k, v) }
  | [], p, _ => by simp
  | v :: vs, p, h => by
    have hv : kind v = none := h v (by simp)
    rw [List.cons_append, parseArguments, hv]
    dsimp only [takeValue]
    rw [parse_multi rest vs _ (fun x hx => h x (by simp [hx]))]
    simp

theorem parse_none (rest : List Text) : ∀ (vs : List Text) (p : Parsed), (∀ v ∈ vs, kind v = none) →
    parseArguments none (vs ++ rest) p = parseArguments none rest p
  | [], p, _ => rfl
  | v :: vs, p, h => by
    rw [List.cons_append, parseArguments, h v (by simp)]
    dsimp only [takeValue]
    exact parse_none rest vs p fun x hx => h x (by simp [hx])

theorem parse_written : ∀ (gs : Options) (cur : Option (Text × Kind)) (p : Parsed),
    (∀ g ∈ gs, ShapeOk g ∧ ∀ v ∈ g.2, kind v = none) →
    parseArguments cur (written gs) p =
      { flags := ((gs.filter fun g => kind g.1 = some .flag).map (·.1)).reverse ++ p.flags
        ones := ((gs.filter fun g => kind g.1 = some .one).map fun g => (g.1, g.2.headD [])).reverse ++ p.ones
        multis := p.multis ++
          (gs.filter fun g => kind g.1 = some .multi).flatMap fun g => g.2.map fun v => (g.1, v) }
  | [], cur, p, _ => by simp [written, parseArguments]
  | (k, vs) :: gs, cur, p, h => by
    have hrest := fun g hg => h g (List.mem_cons_of_mem _ hg)
    obtain ⟨hs, hv⟩ := h (k, vs) (by simp)
    have e : written ((k, vs) :: gs) = k :: (vs ++ written gs) := by simp [written]
    rw [e]
    rcases hs with hk | ⟨hk, hvs⟩ | hk
    · simp only at hk
      rw [parseArguments, hk]
      dsimp only
      rw [parse_none _ _ _ hv, parse_written gs _ _ hrest]
      simp [hk]
    · simp only at hk hvs
      match vs, hvs, hv with
      | v :: vs, _, hv =>
        rw [parseArguments, hk]
        dsimp only
        rw [List.cons_append, parseArguments, hv v (by simp)]
        dsimp only [takeValue]
        rw [parse_none _ _ _ (fun x hx => hv x (by simp [hx])), parse_written gs _ _ hrest]
        simp [hk]
    · simp only at hk
      rw [parseArguments, hk]
      dsimp only
      rw [parse_multi _ _ _ hv, parse_written gs _ _ hrest]
      simp [hk]

/-! ## Lookup -/

theorem given_find {gs : Options} {k : Text} : given gs k = (gs.find? (·.1 = k)).map (·.2) := rfl

theorem find_once : ∀ {gs : Options} {g : Text × List Text}, (gs.map (·.1)).Nodup → g ∈ gs →
    gs.find? (fun x => decide (x.1 = g.1)) = some g
  | x :: gs, g, hn, hg => by
    rw [List.map_cons, List.nodup_cons] at hn
    rcases List.mem_cons.1 hg with h | h
    · subst h; simp
    · have : x.1 ≠ g.1 := fun e => hn.1 (e ▸ List.mem_map_of_mem h)
      rw [List.find?_cons_of_neg (by simpa using this)]
      exact find_once hn.2 h

theorem given_mem {gs : Options} {k : Text} {vs : List Text} (hn : (gs.map (·.1)).Nodup) (h : (k, vs) ∈ gs) :
    given gs k = some vs := by
  have := find_once hn h
  simp only at this
  simp [given, this]

theorem mem_of_given {gs : Options} {k : Text} {vs : List Text} (h : given gs k = some vs) : (k, vs) ∈ gs := by
  unfold given at h
  rw [Option.map_eq_some_iff] at h
  obtain ⟨g, hg, e⟩ := h
  have h1 := List.find?_some hg
  have h2 := List.mem_of_find?_eq_some hg
  simp only [decide_eq_true_eq] at h1
  rw [← h1, ← e]; exact h2

theorem given_none {gs : Options} {k : Text} (h : given gs k = none) : k ∉ gs.map (·.1) := by
  intro hk
  obtain ⟨g, hg, e⟩ := List.mem_map.1 hk
  unfold given at h
  rw [Option.map_eq_none_iff, List.find?_eq_none] at h
  exact h g hg (by simp [e])

/-- The only element with a key. -/
theorem filter_key : ∀ {gs : Options} {k : Text}, (gs.map (·.1)).Nodup →
    gs.filter (fun g => decide (g.1 = k)) = ((given gs k).map fun vs => (k, vs)).toList
  | [], _, _ => rfl
  | x :: gs, k, hn => by
    rw [List.map_cons, List.nodup_cons] at hn
    by_cases h : x.1 = k
    · have : gs.filter (fun g => decide (g.1 = k)) = [] := by
        rw [List.filter_eq_nil_iff]
        intro g hg; simp only [decide_eq_true_eq]; intro e
        exact hn.1 (List.mem_map.2 ⟨g, hg, by rw [e, h]⟩)
      rw [List.filter_cons_of_pos (by simpa using h), this]
      subst h
      simp [given]
    · rw [List.filter_cons_of_neg (by simpa using h), filter_key hn.2]
      simp [given, h]

theorem find_ones : ∀ (gs : Options) (k : Text), kind k = some .one → (gs.map (·.1)).Nodup →
    (((gs.filter fun g => kind g.1 = some .one).map fun g => (g.1, g.2.headD ([] : Text))).reverse.find?
      (fun x => decide (x.1 = k))).map (·.2) = (given gs k).map fun vs => vs.headD []
  | [], _, _, _ => rfl
  | x :: gs, k, hk, hn => by
    rw [List.map_cons, List.nodup_cons] at hn
    have ih := find_ones gs k hk hn.2
    by_cases h : x.1 = k
    · have hx : kind x.1 = some .one := h ▸ hk
      have hg : given gs k = none := by
        cases hg : given gs k with
        | none => rfl
        | some vs => exact absurd (List.mem_map.2 ⟨_, mem_of_given hg, h.symm⟩) hn.1
      rw [hg, Option.map_none, Option.map_eq_none_iff] at ih
      rw [List.filter_cons_of_pos (by simpa using hx), List.map_cons, List.reverse_cons, List.find?_append, ih]
      simp [given, h]
    · have e : given (x :: gs) k = given gs k := by simp [given, h]
      rw [e, ← ih]
      by_cases hx : kind x.1 = some .one
      · rw [List.filter_cons_of_pos (by simpa using hx), List.map_cons, List.reverse_cons, List.find?_append]
        simp [h]
      · rw [List.filter_cons_of_neg (by simpa using hx)]

theorem multis_of : ∀ (gs : Options) (k : Text), kind k = some .multi → (gs.map (·.1)).Nodup →
    (((gs.filter fun g => kind g.1 = some .multi).flatMap fun g => g.2.map fun v => (g.1, v)).filter
      (fun x => decide (x.1 = k))).map (·.2) = (given gs k).getD []
  | [], _, _, _ => rfl
  | x :: gs, k, hk, hn => by
    rw [List.map_cons, List.nodup_cons] at hn
    have ih := multis_of gs k hk hn.2
    by_cases h : x.1 = k
    · have hx : kind x.1 = some .multi := h ▸ hk
      have hg : given gs k = none := by
        cases hg : given gs k with
        | none => rfl
        | some vs => exact absurd (List.mem_map.2 ⟨_, mem_of_given hg, h.symm⟩) hn.1
      rw [hg, Option.getD_none] at ih
      rw [List.filter_cons_of_pos (by simpa using hx), List.flatMap_cons, List.filter_append, List.map_append, ih]
      have e1 : (x.2.map fun v => (x.1, v)).filter (fun y => decide (y.1 = k)) = x.2.map fun v => (x.1, v) := by
        rw [List.filter_eq_self]; intro a ha
        obtain ⟨v, -, rfl⟩ := List.mem_map.1 ha
        simpa using h
      rw [e1]
      simp [given, h, Function.comp_def]
    · have e : given (x :: gs) k = given gs k := by simp [given, h]
      rw [e, ← ih]
      by_cases hx : kind x.1 = some .multi
      · rw [List.filter_cons_of_pos (by simpa using hx), List.flatMap_cons, List.filter_append, List.map_append]
        have e1 : (x.2.map fun v => (x.1, v)).filter (fun y => decide (y.1 = k)) = [] := by
          rw [List.filter_eq_nil_iff]; intro a ha
          obtain ⟨v, -, rfl⟩ := List.mem_map.1 ha
          simpa using h
        rw [e1]; rfl
      · rw [List.filter_cons_of_neg (by simpa using hx)]

end Verif.Args
