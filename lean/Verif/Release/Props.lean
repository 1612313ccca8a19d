import Verif.Release.Lemmas
/-!
# Properties of the single-header release: C134, C135
-/
namespace Verif.Release

variable {subst : String → String} {fs : Files} {cond : Nat → Bool}

theorem systemsBefore_sub (n : Nat) (out : List Item) : ∀ q ∈ systemsBefore n out, q ∈ systems out := by
  induction out generalizing n with
  | nil => intro q hq; simp [systemsBefore] at hq
  | cons x out ih =>
    intro q hq
    cases x with
    | sys p =>
      rw [systemsBefore] at hq
      simp only [systems, List.filterMap_cons]
      rcases List.mem_cons.1 hq with rfl | hq
      · exact List.mem_cons_self ..
      · exact List.mem_cons_of_mem _ (ih n q hq)
    | text s =>
      simp only [systems, List.filterMap_cons]
      cases n with
      | zero => simp [systemsBefore] at hq
      | succ n => exact ih n q hq

theorem systemsBefore_texts (n : Nat) (a b : List Item) (ha : systems a = []) :
    systemsBefore n (a ++ b) =
      if n < (texts a).length then [] else systemsBefore (n - (texts a).length) b := by
  induction a generalizing n with
  | nil => simp [texts]
  | cons x a ih =>
    cases x with
    | sys p => simp [systems] at ha
    | text s =>
      have ha' : systems a = [] := by simpa [systems] using ha
      have hl : (texts (.text s :: a)).length = (texts a).length + 1 := by simp [texts]
      rw [hl]
      cases n with
      | zero => simp [systemsBefore]
      | succ n =>
        rw [List.cons_append, systemsBefore, ih n ha']
        by_cases h : n < (texts a).length
        · rw [if_pos h, if_pos (by omega)]
        · rw [if_neg h, if_neg (by omega)]
          congr 1
          omega

theorem systemsBefore_sys (n : Nat) (a b : List Item) (ha : texts a = []) :
    ∀ q ∈ systems a, q ∈ systemsBefore n (a ++ b) := by
  induction a with
  | nil => intro q hq; simp [systems] at hq
  | cons x a ih =>
    cases x with
    | text s => simp [texts] at ha
    | sys p =>
      have ha' : texts a = [] := by simpa [texts] using ha
      intro q hq
      rw [List.cons_append, systemsBefore]
      simp only [systems, List.filterMap_cons] at hq
      rcases List.mem_cons.1 hq with rfl | hq
      · exact List.mem_cons_self ..
      · exact List.mem_cons_of_mem _ (ih ha' q hq)

/-- The script ends, however headers include each other, and does not need more depth than there are
headers. -/
theorem process_ends {main : Path} {d : Nat} (hm : (fs.lookup main).isSome = true)
    (hd : fs.length ≤ d) : ∃ st, process subst fs d main {} = some st := by
  obtain ⟨st, h, _⟩ := process_total (subst := subst) d main {} hm (by
    refine Nat.le_trans (List.length_filter_le ..) ?_
    rw [List.length_map]
    exact hd)
  exact ⟨st, h⟩

/-- The state of the script after the main header, and what the compiler sees of it. -/
theorem process_main (hT : Tidy fs) {main : Path} {ls : List Line} (hls : fs.lookup main = some ls)
    {d : Nat} {st : St} (h : process subst fs d main {} = some st) (cond : Nat → Bool) :
    ∃ out, library fs cond d main = some out ∧ (∀ q ∈ systems out, q ∈ st.sys) ∧
      Reads cond st.content ((texts out).map subst) [] [] := by
  obtain ⟨out, s', h1, h2, h3⟩ := right (subst := subst) (cond := cond) hT d main ls {} st {} hls
    (by simp) (by intro q; simp) rfl h
  refine ⟨out, by simp [library, hls, h1], h3.sys, ?_⟩
  obtain ⟨c, hc, hr⟩ := h3.content
  rw [h2] at hr
  simpa [hc] using hr

theorem printed_of {st : St} {i : Nat} (h : st.mark = some i) :
    printed st = st.content.take i ++ ([.blank] ++ (sorted st.sys).map .inc ++ [.blank]) ++
      st.content.drop i ++ [.blank] := by
  simp [printed, h, sliceTo, sliceFrom]

theorem inserted {st : St} : ∀ l ∈ ([.blank] ++ (sorted st.sys).map .inc ++ [.blank] : List Line),
    l = .blank ∨ l.isInc = true := by
  intro l hl
  simp only [List.mem_append, List.mem_cons, List.mem_map, List.not_mem_nil, or_false] at hl
  rcases hl with (rfl | ⟨q, _, rfl⟩) | rfl
  · exact .inl rfl
  · exact .inr rfl
  · exact .inl rfl

/-- C135 (partial): if the main header includes anything, a compiler sees in the release all lines of
text that it sees in the library, once, in the same order. Missing: that the system headers come
before the text that needs them (`C135_violated_late`, `C135_violated_condition`), main headers that
include nothing (`C135_violated_twice`), and library headers included under conditions
(`C135_violated_lost`). -/
theorem C135_text_partial (hT : Tidy fs) {main : Path} {ls : List Line}
    (hls : fs.lookup main = some ls) (hinc : ∃ l ∈ ls, l.isInc = true) {d : Nat} (hd : fs.length ≤ d) :
    ∃ r, release subst fs d main = some r ∧ ∀ cond, ∃ out out', library fs cond d main = some out ∧
      alone cond r = some out' ∧ texts out' = (texts out).map subst := by
  obtain ⟨st, h⟩ := process_ends (subst := subst) (main := main) (by rw [hls]; rfl) hd
  refine ⟨printed st, by simp [release, h], fun cond => ?_⟩
  obtain ⟨out, h1, h2, h3⟩ := process_main hT hls h cond
  have hmark : st.mark.isSome = true := by
    cases d with
    | zero => simp [process] at h
    | succ d =>
      rw [process, hls] at h
      simp only [List.contains_nil, if_false, Bool.false_eq_true] at h
      exact fold_marked (process_marked d) _ h (.inr hinc)
  obtain ⟨i, hi⟩ := Option.isSome_iff_exists.1 hmark
  have hr := h3 {} rfl
  rw [← List.take_append_drop i st.content] at hr
  obtain ⟨o1, o2, ox, t1, e1, _, e3, e4, _⟩ := read_printed (inserted (st := st)) hr
  refine ⟨out, o1 ++ ox ++ o2, h1, ?_, ?_⟩
  · rw [alone, printed_of hi, see]
    rw [readAlone] at e4
    rw [e4]
    rfl
  · rw [texts_append, texts_append, e3, List.append_nil, ← texts_append, ← e1, texts_map]

/-- The text before the first include begins with the guard. -/
theorem guard_first {a0 b0 a b : List Line} {p : Path} (h : a0 ++ .once :: b0 = a ++ .inc p :: b)
    (h0 : ∀ l ∈ a0, ∃ x, l = .text x ∨ l = .blank) : ∃ x, a = a0 ++ .once :: x ∧ b0 = x ++ .inc p :: b := by
  rcases List.append_eq_append_iff.1 h with ⟨x, h1, h2⟩ | ⟨x, h1, h2⟩
  · cases x with
    | nil => simp at h2
    | cons y x =>
      simp only [List.cons_append, List.cons.injEq] at h2
      obtain ⟨rfl, h2⟩ := h2
      exact ⟨x, h1, h2⟩
  · cases x with
    | nil => simp at h2
    | cons y x =>
      simp only [List.cons_append, List.cons.injEq] at h2
      obtain ⟨rfl, _⟩ := h2
      obtain ⟨x, e | e⟩ := h0 (.inc p) (by rw [h1]; simp) <;> cases e

/-- C134: the release stands for the library: it includes no library headers any more and only system
headers that some library header includes; a compiler sees in it the lines of text that it sees in the
library, once, in the same order (with the version filled in), and before each line at least the system
headers that it saw before. -/
theorem C134_release (hT : Tidy fs) {main : Path} {ls : List Line} (hls : fs.lookup main = some ls)
    (hf : FirstInclude ls) {d : Nat} (hd : fs.length ≤ d) :
    ∃ r, release subst fs d main = some r ∧
      (∀ q, .inc q ∈ r → fs.lookup q = none ∧ ∃ p ls, fs.lookup p = some ls ∧ .inc q ∈ ls) ∧
      ∀ cond, ∃ out out', library fs cond d main = some out ∧ alone cond r = some out' ∧
        texts out' = (texts out).map subst ∧
        ∀ n, ∀ q ∈ systemsBefore n out, q ∈ systemsBefore n out' := by
  obtain ⟨st, h⟩ := process_ends (subst := subst) (main := main) (by rw [hls]; rfl) hd
  have hcol := process_collects d main st h
  obtain ⟨a, p, b, hsplit, ha, hopen, l0, hl0, hl0'⟩ := hf
  obtain ⟨⟨a0, b0, hg, ha0⟩, hclosed⟩ := hT main ls hls
  obtain ⟨x, hax, hbx⟩ := guard_first (hg.symm.trans hsplit) ha0
  -- the script on the main header
  cases d with
  | zero => simp [process] at h
  | succ d =>
  rw [process, hls] at h
  simp only [List.contains_nil, if_false, Bool.false_eq_true] at h
  rw [hsplit, List.foldlM_append, fold_plain a ha] at h
  let ca := (a.filter (fun l => decide (l ≠ .once))).map (substLine subst)
  let st2 : St := { visited := [main], content := ca }
  have h : (Line.inc p :: b).foldlM (step subst fs (process subst fs d)) st2 = some st := by
    simpa [st2, ca] using h
  have hca : 0 < ca.length := by
    rw [List.length_map]
    exact List.length_pos_of_mem (List.mem_filter.2 ⟨hl0, by simpa using hl0'⟩)
  have hmark : st.mark = some ca.length := by
    obtain ⟨k, hk⟩ : ∃ k, ca.length = k + 1 := ⟨ca.length - 1, by omega⟩
    rw [hk]
    rw [List.foldlM_cons] at h
    have hm : (setMark st2).mark = some (k + 1) := by simp [setMark, st2, hk]
    cases hst : step subst fs (process subst fs d) st2 (.inc p) with
    | none => rw [hst] at h; cases h
    | some st3 =>
      rw [hst] at h
      refine fold_keep (process_keep d) b h ?_
      simp only [step] at hst
      split at hst
      · exact process_keep d _ _ _ hst hm
      · cases hst
        rw [addSys_mark]
        exact hm
  refine ⟨printed st, ?_, ?_, fun cond => ?_⟩
  · rw [release, process, hls]
    simp only [List.contains_nil, if_false, Bool.false_eq_true]
    rw [hsplit, List.foldlM_append, fold_plain a ha]
    have : (Line.inc p :: b).foldlM (step subst fs (process subst fs d))
      { visited := [main], content := [] ++ (a.filter (fun l => decide (l ≠ .once))).map (substLine subst) } =
        some st := by simpa [st2, ca] using h
    show Option.map printed (List.foldlM _ _ _) = _
    rw [this]
    rfl
  · intro q hq
    rw [printed_of hmark] at hq
    simp only [List.mem_append, List.mem_cons, List.mem_map, List.not_mem_nil, or_false,
      reduceCtorEq, false_or, or_false] at hq
    have hno : Line.inc q ∉ st.content := fun hc => by simpa [Line.kept] using hcol.1 _ hc
    rcases hq with (hq | ⟨r, hr, e⟩) | hq
    · exact absurd (List.mem_of_mem_take hq) hno
    · cases e
      exact hcol.2 _ (mem_sorted.1 hr)
    · exact absurd (List.mem_of_mem_drop hq) hno
  -- what the compiler sees
  obtain ⟨o1, s1, st1, e1, e2, e3, e4, e5, e6, e7, e8, e9⟩ :=
    begin_right (subst := subst) (fs := fs) (cond := cond) (d := d) (cur := main) (st := {}) (s := {})
      ha0 (by intro q; simp) rfl
  have hgoes := goes_of_closed hclosed
  rw [hg] at hgoes
  obtain ⟨m, hg1, hg2⟩ := goes_append hgoes
  have hm : 0 = m := goes_text ha0 hg1
  subst hm
  have hg3 : Goes fs 0 b0 0 := by
    obtain ⟨_, m, h1, h2⟩ := hg2
    simp only [nesting, Option.some.injEq] at h1
    subst h1
    exact h2
  rw [hbx] at hg3
  obtain ⟨m, hgx, hgb⟩ := goes_append hg3
  have hm : m = 0 := by
    have hga : openAfter 0 a = some m := by
      refine openAfter_goes (fs := fs) ?_
      rw [hax]
      have : Goes fs 0 (.once :: x) m := ⟨by simp [Line.isLib], 0, rfl, hgx⟩
      have hcat : ∀ (u v : List Line) (i j k : Nat), Goes fs i u j → Goes fs j v k →
          Goes fs i (u ++ v) k := by
        intro u
        induction u with
        | nil => intro v i j k h1 h2; cases h1; exact h2
        | cons y u ih =>
          rintro v i j k ⟨h1, n, h2, h3⟩ h4
          exact ⟨h1, n, h2, ih v n j k h3 h4⟩
      exact hcat a0 _ 0 0 m hg1 this
    rw [hopen] at hga
    exact (Option.some.inj hga).symm
  subst hm
  -- the rest of the lines before the first include
  have hxinc : ∀ l ∈ x, l.isInc = false := fun l hl => ha l (by rw [hax]; simp [hl])
  have hfx : (x).foldlM (step subst fs (process subst fs d)) st1 = some st2 := by
    have h1 : (a0 ++ [Line.once] ++ x).foldlM (step subst fs (process subst fs d))
        { visited := [main] } = some st2 := by
      have : a0 ++ [Line.once] ++ x = a := by rw [hax]; simp
      rw [this, fold_plain a ha]
      simp [st2, ca]
    rw [List.foldlM_append] at h1
    have e1 : (a0 ++ [Line.once]).foldlM (step subst fs (process subst fs d))
        { visited := [main] } = some st1 := e1
    rw [e1] at h1
    exact h1
  obtain ⟨o2, s2, f1, f2, f3⟩ := lines_right (right hT d) x hgx (by rw [e3]; rfl) e9.known e4 hfx
  obtain ⟨o3, s3, g1, g2, g3⟩ := lines_right (right hT d) (.inc p :: b) hgb f2 f3.known
    (f3.grows _ e4) h
  have hs2 : s2.open_ = [] := List.length_eq_zero_iff.1 f2
  have hs3 : s3.open_ = [] := List.length_eq_zero_iff.1 g2
  have ho12 : systems (o1 ++ o2) = [] := by
    rw [systems_append, e5, see_plain x hxinc _ f1]
    rfl
  have f13 := e9.trans f3
  obtain ⟨c12, hc12, hr12⟩ := f13.content
  obtain ⟨c3, hc3, hr3⟩ := g3.content
  have hc12 : c12 = ca := by simpa [st2] using hc12.symm
  subst hc12
  have hc3 : st.content = ca ++ c3 := hc3
  have htake : st.content.take ca.length = ca := by rw [hc3]; simp
  have hdrop : st.content.drop ca.length = c3 := by rw [hc3]; simp
  have hr := (hr12.append hr3) {} rfl
  rw [hs3] at hr
  obtain ⟨p1, p2, px, t1, k1, k2, k3, k4, k5⟩ := read_printed (inserted (st := st)) hr
  have hr1 := hr12 {} rfl
  rw [k2] at hr1
  simp only [Option.some.injEq, Prod.mk.injEq] at hr1
  obtain ⟨hp1, ht1⟩ := hr1
  have hlive : t1.live = true := by rw [ht1]; simp [PSt.live, hs2]
  refine ⟨o1 ++ o2 ++ o3, p1 ++ px ++ p2, ?_, ?_, ?_, ?_⟩
  · rw [library, hls, Option.bind_some, see, hg, hbx]
    have : a0 ++ Line.once :: (x ++ Line.inc p :: b) = a0 ++ [Line.once] ++ x ++ (Line.inc p :: b) := by
      simp
    rw [this, seeLines_append, seeLines_append, e2]
    simp [f1, g1]
  · rw [alone, printed_of hmark, htake, hdrop, see]
    rw [readAlone] at k4
    rw [k4]
    rfl
  · rw [texts_append, texts_append, k3, List.append_nil, ← texts_append, ← k1, texts_map,
      texts_append (o1 ++ o2), List.map_append]
  · intro n q hq
    rw [systemsBefore_texts n (o1 ++ o2) o3 ho12] at hq
    split at hq
    · cases hq
    · next hn =>
      rw [List.append_assoc, systemsBefore_texts n p1 _ (by rw [hp1, systems_map])]
      have hlen : (texts p1).length = (texts (o1 ++ o2)).length := by rw [hp1, texts_map]; simp
      rw [if_neg (by rw [hlen]; exact hn)]
      refine systemsBefore_sys _ _ _ k3 _ (k5 hlive q ?_)
      have : q ∈ st.sys := g3.sys q (systemsBefore_sub _ _ q hq)
      simp only [List.mem_append, List.mem_cons, List.mem_map, List.not_mem_nil, or_false,
        reduceCtorEq, false_or, or_false]
      exact ⟨q, mem_sorted.2 this, rfl⟩

/-! ## Deciding the hypotheses -/

/-- `Guarded`, computed. -/
def guardedB : List Line → Bool
  | .once :: _ => true
  | .text _ :: ls | .blank :: ls => guardedB ls
  | _ => false

theorem guarded_of {ls : List Line} (h : guardedB ls = true) : Guarded ls := by
  induction ls with
  | nil => simp [guardedB] at h
  | cons l ls ih =>
    cases l with
    | once => exact ⟨[], ls, rfl, by simp⟩
    | text s =>
      obtain ⟨a, b, rfl, ha⟩ := ih h
      refine ⟨.text s :: a, b, rfl, fun l hl => ?_⟩
      rcases List.mem_cons.1 hl with rfl | hl
      · exact ⟨s, .inl rfl⟩
      · exact ha l hl
    | blank =>
      obtain ⟨a, b, rfl, ha⟩ := ih h
      refine ⟨.blank :: a, b, rfl, fun l hl => ?_⟩
      rcases List.mem_cons.1 hl with rfl | hl
      · exact ⟨"", .inr rfl⟩
      · exact ha l hl
    | _ => simp [guardedB] at h

/-- `Closed`, computed. -/
def closedB (fs : Files) : Nat → List Line → Bool
  | n, [] => n == 0
  | n, l :: ls => (!l.isLib fs || n == 0) && (match nesting n l with
    | some m => closedB fs m ls
    | none => false)

theorem closed_of {ls : List Line} {n : Nat} (h : closedB fs n ls = true) : Closed fs n ls := by
  induction ls generalizing n with
  | nil => simpa [closedB, Closed] using h
  | cons l ls ih =>
    rw [closedB, Bool.and_eq_true] at h
    refine ⟨fun hl => by simpa [hl] using h.1, ?_⟩
    cases hm : nesting n l with
    | none => rw [hm] at h; simp at h
    | some m =>
      rw [hm] at h
      exact ⟨m, rfl, ih h.2⟩

theorem lookup_mem {fs : Files} {p : Path} {ls : List Line} (h : fs.lookup p = some ls) : (p, ls) ∈ fs := by
  induction fs with
  | nil => simp at h
  | cons x fs ih =>
    obtain ⟨q, l⟩ := x
    rw [List.lookup_cons] at h
    by_cases e : (p == q) = true
    · rw [e] at h
      cases h
      rw [beq_iff_eq] at e
      simp [e]
    · simp only [Bool.not_eq_true] at e
      rw [e] at h
      exact List.mem_cons_of_mem _ (ih h)

theorem tidy_of (h : fs.all (fun x => guardedB x.2 && closedB fs 0 x.2) = true) : Tidy fs := by
  intro p ls hls
  have := List.all_eq_true.1 h _ (lookup_mem hls)
  rw [Bool.and_eq_true] at this
  exact ⟨guarded_of this.1, closed_of this.2⟩

/-! ## Other libraries -/

/-- Each header is guarded. -/
def AllGuarded (fs : Files) : Prop := ∀ p ls, fs.lookup p = some ls → Guarded ls

theorem allGuarded_of (h : fs.all (fun x => guardedB x.2) = true) : AllGuarded fs :=
  fun _ _ hls => guarded_of (List.all_eq_true.1 h _ (lookup_mem hls))

/-- C135 is violated: a main header that includes nothing is in the release twice
(`content_lines[:None]` and `content_lines[None:]` are both the whole list). -/
theorem C135_violated_twice : ∃ fs main r, AllGuarded fs ∧ Tidy fs ∧ release id fs 9 main = some r ∧
    library fs (fun _ => true) 9 main = some [.text "struct x {};"] ∧
    alone (fun _ => true) r = some [.text "struct x {};", .text "struct x {};"] :=
  ⟨[(0, [.once, .text "struct x {};"])], 0,
    [.text "struct x {};", .blank, .blank, .text "struct x {};", .blank],
    allGuarded_of (by decide), tidy_of (by decide), by decide, by decide, by decide⟩

/-- C135 is violated: when nothing comes before the first include, the place of the system headers is
number 0, which the script takes for not set; they come after text that needs them. -/
theorem C135_violated_late : ∃ fs main r out out', AllGuarded fs ∧ Tidy fs ∧
    release id fs 9 main = some r ∧
    library fs (fun _ => true) 9 main = some out ∧ alone (fun _ => true) r = some out' ∧
    systemsBefore 0 out = [7] ∧ systemsBefore 0 out' = [] :=
  ⟨[(0, [.once, .inc 7, .text "std::uint32_t x;", .inc 8])], 0,
    [.text "std::uint32_t x;", .blank, .inc 7, .inc 8, .blank, .blank],
    [.sys 7, .text "std::uint32_t x;", .sys 8], [.text "std::uint32_t x;", .sys 7, .sys 8],
    allGuarded_of (by decide), tidy_of (by decide), by decide +kernel, by decide, by decide, by decide, by decide⟩

/-- C135 is violated: when the first include is under a condition, all system headers are. -/
theorem C135_violated_condition : ∃ fs main r out out', AllGuarded fs ∧ Tidy fs ∧
    release id fs 9 main = some r ∧
    library fs (fun _ => false) 9 main = some out ∧ alone (fun _ => false) r = some out' ∧
    systems out = [8] ∧ systems out' = [] :=
  ⟨[(0, [.once, .text "#define A", .cond 0, .inc 7, .endif, .inc 8])], 0,
    [.text "#define A", .cond 0, .blank, .inc 7, .inc 8, .blank, .endif, .blank],
    [.text "#define A", .sys 8], [.text "#define A"],
    allGuarded_of (by decide), tidy_of (by decide), by decide +kernel, by decide, by decide, by decide, by decide⟩

/-- C135 is violated: a library header that is included first under a condition is under this condition
in the release, also for those who include it without. -/
theorem C135_violated_lost : ∃ fs main r out out', AllGuarded fs ∧
    release id fs 9 main = some r ∧
    library fs (fun _ => false) 9 main = some out ∧ alone (fun _ => false) r = some out' ∧
    texts out = ["a", "x"] ∧ texts out' = ["a"] :=
  ⟨[(0, [.once, .text "a", .cond 0, .inc 1, .endif, .inc 1]), (1, [.once, .text "x"])], 0,
    [.text "a", .cond 0, .blank, .blank, .text "x", .endif, .blank],
    [.text "a", .text "x"], [.text "a"],
    allGuarded_of (by decide), by decide +kernel, by decide, by decide, by decide, by decide⟩

/-! ## Examples -/

/-- Headers that include each other and system headers. -/
def exFs : Files :=
  [(0, [.once, .blank, .text "// ..~~VERSION~~..", .inc 1, .inc 2, .text "main"]),
   (1, [.once, .blank, .inc 7, .inc 2, .text "one"]),
   (2, [.once, .blank, .inc 1, .cond 5, .inc 8, .text "two a", .els, .text "two b", .endif])]

def exSubst : String → String := fun s => if s = "// ..~~VERSION~~.." then "// v1" else s

example : ∃ r, release exSubst exFs 3 0 = some r ∧ ∀ cond, ∃ out out',
    library exFs cond 3 0 = some out ∧ alone cond r = some out' ∧
    texts out' = (texts out).map exSubst ∧
    ∀ n, ∀ q ∈ systemsBefore n out, q ∈ systemsBefore n out' := by
  obtain ⟨r, h1, _, h2⟩ := C134_release (fs := exFs) (subst := exSubst) (main := 0) (d := 3)
    (tidy_of (by decide)) rfl
    ⟨[.once, .blank, .text "// ..~~VERSION~~.."], 1, _, rfl, by decide, rfl, .blank, by decide, by decide⟩
    (by decide)
  exact ⟨r, h1, h2⟩

example : release exSubst exFs 3 0 = some [.blank, .text "// v1", .blank, .inc 7, .inc 8, .blank, .blank,
    .blank, .cond 5, .text "two a", .els, .text "two b", .endif, .text "one", .text "main", .blank] := by
  decide +kernel

example : library exFs (fun _ => false) 3 0 = some [.text "// ..~~VERSION~~..", .sys 7, .text "two b",
    .text "one", .text "main"] := by decide +kernel

end Verif.Release
