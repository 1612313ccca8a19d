import Verif.Extract.Lemmas
import Verif.Viz.TextLemmas

/-! # C156: the file of a picture is the picture -/

namespace Verif.Extract

open Verif.Viz Verif.Viz.Spec

/-! ## Text and lines -/

theorem fileText_lines : ∀ {t : Str}, EndsLine t → fileText (lines t).dropLast = t := by
  intro t
  have key : ∀ t : Str, fileText (lines t).dropLast ++ (lines t).getLast?.getD [] = t := by
    intro t
    induction t with
    | nil => rfl
    | cons c t ih =>
      rw [lines]
      by_cases hc : c = '\n'
      · subst hc
        rw [if_pos rfl]
        obtain ⟨l, ls, e⟩ := lines_cons t
        rw [e] at ih ⊢
        rw [List.dropLast_cons_of_ne_nil (by simp)]
        simp only [fileText, List.flatMap_cons, List.getLast?_cons_cons] at ih ⊢
        simpa using ih
      · rw [if_neg hc]
        obtain ⟨l, ls, e⟩ := lines_cons t
        rw [e] at ih ⊢
        cases ls with
        | nil => simpa [fileText] using ih
        | cons m ls =>
          simp only [List.dropLast_cons₂, fileText, List.flatMap_cons, List.getLast?_cons_cons,
            List.cons_append] at ih ⊢
          rw [ih]
  rintro ⟨p, rfl⟩
  have h2 := key (p ++ ['\n'])
  have h3 : (lines (p ++ ['\n'])).getLast?.getD [] = [] := by
    clear h2 key
    induction p with
    | nil => rfl
    | cons c p ih =>
      rw [List.cons_append, lines]
      obtain ⟨l, ls, e⟩ := lines_cons (p ++ ['\n'])
      rw [e] at ih ⊢
      split
      · simpa using ih
      · cases ls with
        | nil =>
          have : l = [] := by simpa using ih
          subst this
          have hl : ∀ t : Str, (lines t).length = 1 → '\n' ∉ t := by
            intro t
            induction t with
            | nil => simp
            | cons d t iht =>
              intro h
              rw [lines] at h
              obtain ⟨l', ls', e'⟩ := lines_cons t
              by_cases hd : d = '\n'
              · rw [if_pos hd, e'] at h; simp at h
              · rw [if_neg hd, e'] at h
                simp only [List.length_cons] at h
                have := iht (by rw [e']; simpa using h)
                simp [this, Ne.symm hd]
          exact absurd (show '\n' ∈ p ++ ['\n'] by simp) (hl _ (by rw [e]; rfl))
        | cons m ls => simpa using ih
  rw [h3, List.append_nil] at h2
  exact h2

theorem lines_newline : ∀ {t l : Str}, l ∈ lines t → '\n' ∉ l
  | [], l, h => by simp [lines] at h; simp [h]
  | c :: t, l, h => by
    rw [lines] at h
    obtain ⟨m, ls, e⟩ := lines_cons t
    have ih : ∀ x ∈ m :: ls, '\n' ∉ x := fun x hx => lines_newline (t := t) (e ▸ hx)
    by_cases hc : c = '\n'
    · rw [if_pos hc, e] at h
      rcases List.mem_cons.1 h with h | h
      · simp [h]
      · exact ih l h
    · rw [if_neg hc, e] at h
      rcases List.mem_cons.1 h with h | h
      · subst h; simp [Ne.symm hc, ih m (by simp)]
      · exact ih l (by simp [h])

theorem lines_mem {d : Char} : ∀ {t l : Str}, l ∈ lines t → d ∉ t → d ∉ l
  | [], l, h, _ => by simp [lines] at h; simp [h]
  | c :: t, l, h, hd => by
    rw [lines] at h
    obtain ⟨m, ls, e⟩ := lines_cons t
    have hdt : d ∉ t := fun x => hd (by simp [x])
    have ih : ∀ x ∈ m :: ls, d ∉ x := fun x hx => lines_mem (t := t) (e ▸ hx) hdt
    by_cases hc : c = '\n'
    · rw [if_pos hc, e] at h
      rcases List.mem_cons.1 h with h | h
      · simp [h]
      · exact ih l h
    · rw [if_neg hc, e] at h
      rcases List.mem_cons.1 h with h | h
      · subst h
        have : d ≠ c := fun x => hd (by simp [x])
        simp [this, ih m (by simp)]
      · exact ih l (by simp [h])

theorem shown_line {esc l : Str} (h : '\n' ∉ l) : shown esc l = l := by
  unfold shown
  induction l with
  | nil => rfl
  | cons c l ih =>
    rw [List.flatMap_cons, ih (fun m => h (by simp [m])), if_neg (fun e => h (by simp [e]))]
    rfl

theorem shown_append (esc a b : Str) : shown esc (a ++ b) = shown esc a ++ shown esc b := by
  simp [shown]

theorem shown_file {esc : Str} : ∀ {ls : List Str}, (∀ l ∈ ls, '\n' ∉ l) →
    shown esc (fileText ls) = ls.flatMap (· ++ esc)
  | [], _ => rfl
  | l :: ls, h => by
    have ih := shown_file (esc := esc) (ls := ls) (fun x hx => h x (by simp [hx]))
    unfold fileText at ih ⊢
    rw [List.flatMap_cons, List.flatMap_cons, shown_append, shown_append, ih, shown_line (h l (by simp))]
    simp [shown]

/-- The message as lines. -/
theorem shown_message {esc : Str} {ls : List Str} (h : ∀ l ∈ ls, '\n' ∉ l) :
    shown esc (message (fileText ls)) =
      ("subgraph debug".toList :: "~~~~START".toList :: ls).flatMap (· ++ esc) ++ "~~~~END".toList := by
  have e : "subgraph debug\n~~~~START\n".toList =
      fileText ["subgraph debug".toList, "~~~~START".toList] := by decide
  unfold message
  rw [e, shown_append, shown_line (l := "~~~~END".toList) (by decide)]
  congr 1
  rw [← shown_file (esc := esc) (ls := "subgraph debug".toList :: "~~~~START".toList :: ls)]
  · simp [fileText]
  · intro l hl
    rcases List.mem_cons.1 hl with hl | hl
    · subst hl; decide
    · rcases List.mem_cons.1 hl with hl | hl
      · subst hl; decide
      · exact h l hl

theorem noMark_infix {l m : Str} (h : NoMark m) (hi : l <:+: m) : NoMark l := fun hm => h (hm.trans hi)

theorem noMark_unescape {ls : List Str} (h : ∀ l ∈ ls, NoMark l) : ∀ l ∈ unescape ls, NoMark l := by
  intro l hl
  obtain ⟨a, ha, hla⟩ := List.mem_flatMap.1 hl
  obtain ⟨b, hb, hab⟩ := List.mem_flatMap.1 ha
  exact noMark_infix (h b hb) (((break_infix _ _ _).1 l hla).trans ((break_infix _ _ _).1 a hab))

theorem noMark_break {pat l : Str} (h : NoMark l) : ∀ x ∈ breakAt pat 0 l, NoMark x :=
  fun x hx => noMark_infix h ((break_infix _ _ _).1 x hx)

/-- The lines of the message in what the two `awk` commands print. -/
theorem unescape_line {esc front tail : Str} {bs : List Str} (hesc : Escape esc) (hb : ∀ l ∈ bs, '\\' ∉ l)
    (ht : NoMark tail) : ∃ p e q,
    unescape [front ++ (("subgraph debug".toList :: "~~~~START".toList :: bs).flatMap (· ++ esc) ++
      "~~~~END".toList) ++ tail] = p ++ "~~~~START".toList :: (bs ++ ("~~~~END".toList ++ e) :: q) ∧
      ∀ l ∈ q, NoMark l := by
  have hb' : ∀ l ∈ "subgraph debug".toList :: "~~~~START".toList :: bs, '\\' ∉ l := by
    intro l hl
    rcases List.mem_cons.1 hl with hl | hl
    · subst hl; decide
    · rcases List.mem_cons.1 hl with hl | hl
      · subst hl; decide
      · exact hb l hl
  obtain ⟨h, r, htl⟩ : ∃ h r, breakAt "\\012".toList 0 tail = h :: r := by
    cases e : breakAt "\\012".toList 0 tail with
    | nil => exact absurd e (break_ne _ _ _)
    | cons h r => exact ⟨h, r, rfl⟩
  have hend := break_plain (pat := "\\012".toList) rfl (x := "~~~~END".toList) (by decide) htl
  have hnm := noMark_break ht (pat := "\\012".toList)
  rw [htl] at hnm
  obtain ⟨h', r', htl'⟩ : ∃ h' r', breakAt "\\n".toList 0 h = h' :: r' := by
    cases e : breakAt "\\n".toList 0 h with
    | nil => exact absurd e (break_ne _ _ _)
    | cons h' r' => exact ⟨h', r', rfl⟩
  have hend' := break_plain (pat := "\\n".toList) rfl (x := "~~~~END".toList) (by decide) htl'
  have hnm' := noMark_break (hnm h (by simp)) (pat := "\\n".toList)
  rw [htl'] at hnm'
  have hq : ∀ l ∈ r' ++ r.flatMap (breakAt "\\n".toList 0), NoMark l := by
    intro l hl
    rcases List.mem_append.1 hl with hl | hl
    · exact hnm' l (by simp [hl])
    · obtain ⟨a, ha, hla⟩ := List.mem_flatMap.1 hl
      exact noMark_break (hnm a (by simp [ha])) l hla
  have plainN : ∀ l : Str, '\\' ∉ l → breakAt "\\n".toList 0 l = [l] := fun l hl => by
    have := break_plain (pat := "\\n".toList) rfl (x := l) hl (y := []) rfl
    simpa using this
  have flatN : ∀ ls : List Str, (∀ l ∈ ls, '\\' ∉ l) → ls.flatMap (breakAt "\\n".toList 0) = ls := by
    intro ls
    induction ls with
    | nil => intro; rfl
    | cons l ls ih =>
      intro hl
      rw [List.flatMap_cons, plainN l (hl l (by simp)), ih (fun x hx => hl x (by simp [hx]))]
      rfl
  have hs : "subgraph debug".toList = 's' :: "ubgraph debug".toList := by decide
  unfold unescape
  rw [List.flatMap_cons, List.flatMap_nil, List.append_nil, List.append_assoc, List.append_assoc]
  rcases hesc with rfl | rfl
  · have e1 := break_lines (pat := "\\012".toList) rfl ("~~~~END".toList ++ tail) hb'
    rw [hend] at e1
    have e2 : ∃ p w, breakAt "\\012".toList 0 (front ++ (("subgraph debug".toList :: "~~~~START".toList ::
        bs).flatMap (· ++ "\\012".toList) ++ ("~~~~END".toList ++ tail))) =
        p ++ (w ++ "subgraph debug".toList) :: ("~~~~START".toList :: bs ++ ("~~~~END".toList ++ h) :: r) := by
      have := break_front (pat := "\\012".toList) (c := 's') (by decide) (v := (("ubgraph debug".toList ++
        "\\012".toList) ++ ("~~~~START".toList :: bs).flatMap (· ++ "\\012".toList)) ++
        ("~~~~END".toList ++ tail)) (h := "subgraph debug".toList)
        (r := "~~~~START".toList :: bs ++ ("~~~~END".toList ++ h) :: r) front 0 (by omega) (by
          rw [List.flatMap_cons, hs] at e1
          rw [hs]
          exact e1)
      obtain ⟨p, w, e⟩ := this
      refine ⟨p, w, ?_⟩
      rw [List.flatMap_cons]
      exact e
    obtain ⟨p, w, e2⟩ := e2
    rw [e2]
    refine ⟨p.flatMap (breakAt "\\n".toList 0) ++ breakAt "\\n".toList 0 (w ++ "subgraph debug".toList), h',
      r' ++ r.flatMap (breakAt "\\n".toList 0), ?_, hq⟩
    rw [List.flatMap_append, List.flatMap_cons, List.flatMap_append,
      flatN ("~~~~START".toList :: bs) (fun l hl => hb' l (by simp at hl ⊢; exact .inr hl)), List.flatMap_cons, hend']
    simp
  · have e1 := break_other hend hb'
    have e2 : ∃ p w, breakAt "\\012".toList 0 (front ++ (("subgraph debug".toList :: "~~~~START".toList ::
        bs).flatMap (· ++ "\\n".toList) ++ ("~~~~END".toList ++ tail))) =
        p ++ (w ++ (("subgraph debug".toList :: "~~~~START".toList :: bs).flatMap (· ++ "\\n".toList) ++
          ("~~~~END".toList ++ h))) :: r := by
      have := break_front (pat := "\\012".toList) (c := 's') (by decide) (v := (("ubgraph debug".toList ++
        "\\n".toList) ++ ("~~~~START".toList :: bs).flatMap (· ++ "\\n".toList)) ++
        ("~~~~END".toList ++ tail)) front 0 (by omega) (by
          rw [List.flatMap_cons, hs] at e1
          exact e1)
      obtain ⟨p, w, e⟩ := this
      refine ⟨p, w, ?_⟩
      rw [List.flatMap_cons]
      exact e
    obtain ⟨p, w, e2⟩ := e2
    rw [e2, List.flatMap_append, List.flatMap_cons]
    have e3 := break_lines (pat := "\\n".toList) rfl ("~~~~END".toList ++ h) hb'
    rw [hend'] at e3
    have e4 : ∃ p w', breakAt "\\n".toList 0 (w ++ (("subgraph debug".toList :: "~~~~START".toList ::
        bs).flatMap (· ++ "\\n".toList) ++ ("~~~~END".toList ++ h))) =
        p ++ (w' ++ "subgraph debug".toList) :: ("~~~~START".toList :: bs ++ ("~~~~END".toList ++ h') :: r') := by
      have := break_front (pat := "\\n".toList) (c := 's') (by decide) (v := (("ubgraph debug".toList ++
        "\\n".toList) ++ ("~~~~START".toList :: bs).flatMap (· ++ "\\n".toList)) ++
        ("~~~~END".toList ++ h)) (h := "subgraph debug".toList)
        (r := "~~~~START".toList :: bs ++ ("~~~~END".toList ++ h') :: r') w 0 (by omega) (by
          rw [List.flatMap_cons, hs] at e3
          rw [hs]
          exact e3)
      obtain ⟨p, w, e⟩ := this
      refine ⟨p, w, ?_⟩
      rw [List.flatMap_cons]
      exact e
    obtain ⟨p', w', e4⟩ := e4
    rw [e4]
    exact ⟨p.flatMap (breakAt "\\n".toList 0) ++ p' ++ [w' ++ "subgraph debug".toList], h',
      r' ++ r.flatMap (breakAt "\\n".toList 0), by simp, hq⟩

/-- C156, where the picture has no backslash: whatever the compiler prints before (other pictures, too) and after
the message, as long as the mark of the end does not occur after it, the file is the picture. -/
theorem C156_file_partial {esc front tail picture : Str} {before after : List Str} (hesc : Escape esc)
    (hb : '\\' ∉ picture) (he : EndsLine picture) (hs : ∀ l ∈ lines picture, ¬ "~~~~START".toList <+: l)
    (ht : NoMark tail) (ha : ∀ l ∈ after, NoMark l) :
    fileText (extract (before ++ errorLine esc front tail picture :: after)) = picture := by
  have hf := fileText_lines he
  have hmem : ∀ l ∈ (lines picture).dropLast, l ∈ lines picture := fun l hl => List.dropLast_subset _ hl
  obtain ⟨p, e, q, hu, hq⟩ := unescape_line (front := front) hesc (bs := (lines picture).dropLast)
    (fun l hl => lines_mem (hmem l hl) hb) ht
  have hline : errorLine esc front tail picture = front ++ (("subgraph debug".toList :: "~~~~START".toList ::
      (lines picture).dropLast).flatMap (· ++ esc) ++ "~~~~END".toList) ++ tail := by
    unfold errorLine
    conv_lhs => rw [← hf, shown_message (fun l hl => lines_newline (hmem l hl))]
  rw [← hline] at hu
  have hall : unescape (before ++ errorLine esc front tail picture :: after) =
      (unescape before ++ p) ++ "~~~~START".toList :: ((lines picture).dropLast ++
        ("~~~~END".toList ++ e) :: (q ++ unescape after)) := by
    have : ∀ a b : List Str, unescape (a ++ b) = unescape a ++ unescape b := by simp [unescape]
    rw [this, show errorLine esc front tail picture :: after = [errorLine esc front tail picture] ++ after from rfl,
      this, hu]
    simp
  rw [extract_lines hall (fun l hl => hs l (hmem l hl)), hf]
  intro l hl hp
  rcases List.mem_append.1 hl with hl | hl
  · exact hq l hl hp.isInfix
  · exact noMark_unescape ha l hl hp.isInfix

/-! ## Pictures of flows -/

theorem toId_mem {c : Char} {s : Str} (h : c ∈ toId s) : c = '_' ∨ c ∈ s := by
  simp only [toId, List.mem_cons, List.mem_map] at h
  rcases h with h | ⟨d, hd, e⟩
  · exact .inl h
  · split at e
    · exact .inl e.symm
    · exact .inr (e ▸ hd)

theorem join_mem {c : Char} : ∀ {ls : List Str}, c ∈ joinLines ls → c = '\n' ∨ ∃ l ∈ ls, c ∈ l
  | [], h => by cases h
  | [a], h => .inr ⟨a, by simp, h⟩
  | a :: b :: ls, h => by
    rw [joinLines, List.mem_append, List.mem_cons] at h
    rcases h with h | h | h
    · exact .inr ⟨a, by simp, h⟩
    · exact .inl h
    · rcases join_mem h with h | ⟨l, hl, h⟩
      · exact .inl h
      · exact .inr ⟨l, List.mem_cons_of_mem _ hl, h⟩

/-- A character that is not in the names and not among those that the renderer writes. -/
theorem visualize_mem {N : Names} {name : Str} {ns : List Flow.Leaf} {es : List VEdge} {c : Char}
    (hc : c = '~' ∨ c = '\\') (hn : ∀ x, c ∉ N.text x) (hk : ∀ x, c ∉ N.cond x) (hname : c ∉ name) :
    c ∉ visualize (mermaid N) name ns es := by
  have h_ : c ≠ '_' := by rcases hc with rfl | rfl <;> decide
  have hid : ∀ x, c ∉ toId (N.text x) := fun x h => (toId_mem h).elim h_ (hn x)
  have hnode : ∀ l, c ∉ (mermaid N).node l := by
    intro l
    show c ∉ (if N.text l.name = "start".toList ∨ N.text l.name = "end".toList then
      "  ".toList ++ toId (N.text l.name) ++ "((".toList ++ N.text l.name ++ "))".toList
    else "  ".toList ++ toId (N.text l.name) ++ toBox N l)
    have ha := hn l.name
    have hb := hid l.name
    rcases hc with rfl | rfl
    · split
      · simp [ha, hb]
      · rw [toBox]
        split <;> simp [ha, hb]
    · split
      · simp [ha, hb]
      · rw [toBox]
        split <;> simp [ha, hb]
  have hedge : ∀ e, c ∉ (mermaid N).edge e := by
    intro e
    show c ∉ (if N.cond e.cond = "always".toList then
      "  ".toList ++ toId (N.text e.src.name) ++ " --> ".toList ++ toId (N.text e.dst.name)
    else
      "  ".toList ++ toId (N.text e.src.name) ++ " --".toList ++ N.cond e.cond ++ "--> ".toList ++
        toId (N.text e.dst.name))
    have h1 := hid e.src.name
    have h2 := hid e.dst.name
    have h3 := hk e.cond
    rcases hc with rfl | rfl <;> split <;> simp [h1, h2, h3]
  have hnl : c ≠ '\n' := by rcases hc with rfl | rfl <;> decide
  intro h
  unfold visualize at h
  simp only [List.mem_append, List.mem_cons] at h
  have hpro : c ∉ (mermaid N).prologue name := by
    show c ∉ "---\ntitle: ".toList ++ name ++ "\n---\nflowchart TD".toList
    rcases hc with rfl | rfl <;> simp [hname]
  rcases h with ((h | h | h) | h | h) | h | h
  · exact hpro h
  · exact hnl h
  · rcases join_mem h with h | ⟨l, hl, h⟩
    · exact hnl h
    · obtain ⟨x, -, rfl⟩ := List.mem_map.1 hl
      exact hnode x h
  · exact hnl h
  · rcases join_mem h with h | ⟨l, hl, h⟩
    · exact hnl h
    · obtain ⟨x, -, rfl⟩ := List.mem_map.1 hl
      exact hedge x h
  · exact hnl h
  · cases h

/-- C156 for flows: where names and conditions have no backslash and no `~`, the file that `generate_flow_graph`
makes is the picture of the part of the flow between the two actions (C100 says what is in the picture). -/
theorem C156_flow_partial {N : Names} {first last : Nat} {fs : List Flow.Frag} {picture : Str}
    (hp : debug N (mermaid N) first last fs = some picture)
    (hn : ∀ x, '\\' ∉ N.text x ∧ '~' ∉ N.text x) (hc : ∀ x, '\\' ∉ N.cond x ∧ '~' ∉ N.cond x)
    {esc front tail : Str} {before after : List Str} (hesc : Escape esc) (ht : NoMark tail)
    (ha : ∀ l ∈ after, NoMark l) :
    fileText (extract (before ++ errorLine esc front tail picture :: after)) = picture := by
  simp only [debug, Option.bind_eq_bind, Option.bind_eq_some_iff] at hp
  obtain ⟨ss, -, p, -, h⟩ := hp
  cases h
  have hname : ∀ c, (c = '~' ∨ c = '\\') → (∀ x, c ∉ N.text x) → c ∉ debugName N first last := by
    intro c hc hx h
    simp only [debugName, List.mem_append] at h
    rcases h with (h | h) | h
    · exact hx _ h
    · rcases hc with rfl | rfl <;> exact absurd h (by decide)
    · exact hx _ h
  refine C156_file_partial hesc ?_ ?_ ?_ ht ha
  · exact visualize_mem (.inr rfl) (fun x => (hn x).1) (fun x => (hc x).1)
      (hname _ (.inr rfl) fun x => (hn x).1)
  · exact ⟨_, rfl⟩
  · intro l hl hs
    refine lines_mem (d := '~') hl ?_ (hs.subset (by decide))
    exact visualize_mem (.inl rfl) (fun x => (hn x).2) (fun x => (hc x).2)
      (hname _ (.inl rfl) fun x => (hn x).2)

/-- C156 does not hold for a name with a backslash and `n`: the line is broken. -/
theorem C156_violated_backslash :
    let picture := "---\ntitle: a -> b\\n\n---\nflowchart TD\n".toList
    fileText (extract [errorLine "\\012".toList "x.hpp:1: error: ".toList [] picture]) =
      "---\ntitle: a -> b\n\n---\nflowchart TD\n".toList := by
  decide +kernel

/-- The assumptions can be met: an earlier picture, text after the message. -/
example : fileText (extract (["other".toList, "a~~~~START\\012~~~~END".toList] ++
    errorLine "\\012".toList "C:\\new\\x.hpp:1: error: ".toList "\"".toList
      "---\ntitle: b -> c\n---\nflowchart TD\n  _b(b)\n  _c(c)\n  _b --> _c\n".toList ::
    ["note: in instantiation".toList])) =
    "---\ntitle: b -> c\n---\nflowchart TD\n  _b(b)\n  _c(c)\n  _b --> _c\n".toList := by
  apply C156_file_partial (.inl rfl) (by decide +kernel) ⟨"---\ntitle: b -> c\n---\nflowchart TD\n  _b(b)\n  _c(c)\n  _b --> _c".toList,
    by decide +kernel⟩ (by decide +kernel) (by unfold NoMark; decide +kernel) (by unfold NoMark; decide +kernel)

end Verif.Extract
