import Verif.Release.Spec
/-! # Lemmas about the single-header release -/
namespace Verif.Release

variable {subst : String → String} {fs : Files} {cond : Nat → Bool}

/-! ## Reading lines -/

theorem seeLines_append (cur : Path) (inc : Path → List Line → PSt → Option (List Item × PSt))
    (a b : List Line) (s : PSt) : seeLines fs cond cur inc (a ++ b) s =
      (seeLines fs cond cur inc a s).bind fun r =>
        (seeLines fs cond cur inc b r.2).map fun q => (r.1 ++ q.1, q.2) := by
  induction a generalizing s with
  | nil => simp [seeLines]
  | cons l a ih =>
    simp only [List.cons_append, seeLines]
    cases seeLine fs cond cur inc l s with
    | none => rfl
    | some r =>
      simp only [Option.bind_some, ih]
      cases seeLines fs cond cur inc a r.2 with
      | none => rfl
      | some q =>
        simp only [Option.bind_some, Option.map_some, Option.map_map]
        cases seeLines fs cond cur inc b q.2 with
        | none => rfl
        | some u => simp

theorem texts_append (a b : List Item) : texts (a ++ b) = texts a ++ texts b := by
  simp [texts]

theorem systems_append (a b : List Item) : systems (a ++ b) = systems a ++ systems b := by
  simp [systems]

theorem texts_map (l : List String) : texts (l.map .text) = l := by
  induction l with
  | nil => rfl
  | cons a l ih => simp only [texts, List.map_cons, List.filterMap_cons] at ih ⊢; rw [ih]

theorem systems_map (l : List String) : systems (l.map .text) = [] := by
  induction l with
  | nil => rfl
  | cons a l ih => simp only [systems, List.map_cons, List.filterMap_cons] at ih ⊢; exact ih

/-- Reading the release: no files. -/
abbrev readAlone (cond : Nat → Bool) (ls : List Line) (t : PSt) : Option (List Item × PSt) :=
  seeLines [] cond 0 (see [] cond 0) ls t

/-- The content `c` reads as the texts `ts` and takes the open conditions from `o` to `o'`. -/
def Reads (cond : Nat → Bool) (c : List Line) (ts : List String) (o o' : List Bool) : Prop :=
  ∀ t : PSt, t.open_ = o → readAlone cond c t = some (ts.map .text, { t with open_ := o' })

theorem Reads.nil (o : List Bool) : Reads cond [] [] o o := by
  intro t h
  cases t
  simp only at h
  simp [readAlone, seeLines, h]

theorem Reads.append {a b : List Line} {ta tb : List String} {o o' o'' : List Bool}
    (h : Reads cond a ta o o') (h' : Reads cond b tb o' o'') : Reads cond (a ++ b) (ta ++ tb) o o'' := by
  intro t ht
  rw [readAlone, seeLines_append]
  have h1 := h t ht
  have h2 := h' { t with open_ := o' } rfl
  rw [readAlone] at h1 h2
  rw [h1, Option.bind_some, h2]
  simp

/-- A line that is neither an include nor `#pragma once`: it is kept. -/
def Line.kept : Line → Bool
  | .inc _ | .once => false
  | _ => true

theorem step_kept {rec : Path → St → Option St} {st : St} {l : Line} (h : l.kept = true) :
    step subst fs rec st l = some { st with content := st.content ++ [substLine subst l] } := by
  cases l <;> simp_all [step, Line.kept]

/-- A line that is kept is read in the release as in the library. -/
theorem see_kept {cur : Path} {inc : Path → List Line → PSt → Option (List Item × PSt)} {l : Line}
    (h : l.kept = true) {n m : Nat} (hn : nesting n l = some m) (s : PSt) (hs : s.open_.length = n) :
    ∃ out s', seeLine fs cond cur inc l s = some (out, s') ∧ s'.open_.length = m ∧ s'.once = s.once ∧
      systems out = [] ∧
      Reads cond [substLine subst l] ((texts out).map subst) s.open_ s'.open_ := by
  cases l with
  | inc q => simp [Line.kept] at h
  | once => simp [Line.kept] at h
  | cond k =>
    simp only [nesting, Option.some.injEq] at hn
    refine ⟨[], _, rfl, by simp [hs, hn], rfl, rfl, ?_⟩
    intro t ht
    simp [readAlone, seeLines, substLine, seeLine, ht, texts]
  | els =>
    simp only [nesting] at hn
    split at hn
    · cases hn
    · next h0 =>
      cases ho : s.open_ with
      | nil => rw [ho] at hs; exact absurd hs.symm h0
      | cons b bs =>
        refine ⟨[], { s with open_ := (!b) :: bs }, by simp [seeLine, ho], ?_, rfl, rfl, ?_⟩
        · rw [ho] at hs; simp only [Option.some.injEq] at hn; simpa [← hn] using hs
        · intro t ht
          simp [readAlone, seeLines, substLine, seeLine, ht, texts]
  | endif =>
    simp only [nesting] at hn
    split at hn
    · cases hn
    · next h0 =>
      cases ho : s.open_ with
      | nil => rw [ho] at hs; exact absurd hs.symm h0
      | cons b bs =>
        refine ⟨[], { s with open_ := bs }, by simp [seeLine, ho], ?_, rfl, rfl, ?_⟩
        · rw [ho] at hs; simp only [Option.some.injEq] at hn
          simp only [List.length_cons] at hs
          simp only
          omega
        · intro t ht
          simp [readAlone, seeLines, substLine, seeLine, ht, texts]
  | text x =>
    simp only [nesting, Option.some.injEq] at hn
    refine ⟨if s.live then [.text x] else [], s, rfl, by rw [hs, hn], rfl, ?_, ?_⟩
    · split <;> rfl
    · intro t ht
      have : t.live = s.live := by simp [PSt.live, ht]
      cases t
      simp only at ht
      subst ht
      simp only [readAlone, seeLines, substLine, seeLine, this]
      cases s.live <;> simp [texts]
  | blank =>
    simp only [nesting, Option.some.injEq] at hn
    refine ⟨[], s, rfl, by rw [hs, hn], rfl, rfl, ?_⟩
    intro t ht
    cases t
    simp only at ht
    subst ht
    simp [readAlone, seeLines, substLine, seeLine, texts]

/-! ## The script follows the compiler -/

/-- The same headers are known. -/
def Known (s : PSt) (st : St) : Prop := ∀ q, q ∈ s.once ↔ q ∈ st.visited

/-- From `st` to `st'` the script has kept what the compiler sees as `out` between `s` and `s'`. -/
structure Follows (subst : String → String) (cond : Nat → Bool) (st st' : St) (s s' : PSt)
    (out : List Item) : Prop where
  known : Known s' st'
  grows : ∀ q ∈ st.visited, q ∈ st'.visited
  keeps : ∀ q ∈ st.sys, q ∈ st'.sys
  sys : ∀ q ∈ systems out, q ∈ st'.sys
  content : ∃ c, st'.content = st.content ++ c ∧
    Reads cond c ((texts out).map subst) s.open_ s'.open_

theorem Follows.trans {st st' st'' : St} {s s' s'' : PSt} {o o' : List Item}
    (h : Follows subst cond st st' s s' o) (h' : Follows subst cond st' st'' s' s'' o') :
    Follows subst cond st st'' s s'' (o ++ o') where
  known := h'.known
  grows := fun q hq => h'.grows q (h.grows q hq)
  keeps := fun q hq => h'.keeps q (h.keeps q hq)
  sys := by
    intro q hq
    rw [systems_append, List.mem_append] at hq
    rcases hq with hq | hq
    · exact h'.keeps q (h.sys q hq)
    · exact h'.sys q hq
  content := by
    obtain ⟨c, hc, hr⟩ := h.content
    obtain ⟨c', hc', hr'⟩ := h'.content
    refine ⟨c ++ c', by rw [hc', hc, List.append_assoc], ?_⟩
    rw [texts_append, List.map_append]
    exact hr.append hr'

theorem Follows.same {st st' : St} {s : PSt} (hk : Known s st) (h1 : st'.visited = st.visited)
    (h2 : st'.content = st.content) (h3 : ∀ q ∈ st.sys, q ∈ st'.sys) (out : List Item)
    (h4 : texts out = []) (h5 : ∀ q ∈ systems out, q ∈ st'.sys) :
    Follows subst cond st st' s s out where
  known := by intro q; rw [h1]; exact hk q
  grows := by rw [h1]; exact fun _ h => h
  keeps := h3
  sys := h5
  content := ⟨[], by simp [h2], by rw [h4]; exact .nil _⟩

theorem setMark_visited (st : St) : (setMark st).visited = st.visited := by
  unfold setMark; split <;> rfl
theorem setMark_content (st : St) : (setMark st).content = st.content := by
  unfold setMark; split <;> rfl
theorem setMark_sys (st : St) : (setMark st).sys = st.sys := by
  unfold setMark; split <;> rfl
theorem addSys_visited (q : Path) (st : St) : (addSys q st).visited = st.visited := by
  unfold addSys; split <;> rfl
theorem addSys_content (q : Path) (st : St) : (addSys q st).content = st.content := by
  unfold addSys; split <;> rfl
theorem mem_addSys {q r : Path} {st : St} : r ∈ (addSys q st).sys ↔ r = q ∨ r ∈ st.sys := by
  unfold addSys
  split
  · next h =>
    constructor
    · exact .inr
    · rintro (rfl | h')
      · exact List.contains_iff_mem.1 h
      · exact h'
  · simp

/-- What is to be shown of `process` with the bound `d`. -/
def Right (subst : String → String) (fs : Files) (cond : Nat → Bool) (d : Nat) : Prop :=
  ∀ p ls st st' s, fs.lookup p = some ls → p ∉ st.visited → Known s st → s.open_ = [] →
    process subst fs d p st = some st' →
    ∃ out s', see fs cond d p ls s = some (out, s') ∧ s'.open_ = [] ∧ Follows subst cond st st' s s' out

theorem known_of_eq {s : PSt} {st st' : St} (h : Known s st) (e : st'.visited = st.visited) :
    Known s st' := by intro q; rw [e]; exact h q

theorem step_right {d : Nat} (hd : Right subst fs cond d) {cur : Path} {l : Line} {n m : Nat}
    (hl : l.isLib fs = true → n = 0) (hn : nesting n l = some m) {st st' : St} {s : PSt}
    (hs : s.open_.length = n) (hk : Known s st) (hc : cur ∈ st.visited)
    (h : step subst fs (process subst fs d) st l = some st') :
    ∃ out s', seeLine fs cond cur (see fs cond d) l s = some (out, s') ∧ s'.open_.length = m ∧
      Follows subst cond st st' s s' out := by
  by_cases hkept : l.kept = true
  · obtain ⟨out, s', h1, h2, h3, h4, h5⟩ :=
      see_kept (subst := subst) (fs := fs) (cond := cond) (cur := cur) (inc := see fs cond d) hkept hn s hs
    rw [step_kept hkept] at h
    cases h
    refine ⟨out, s', h1, h2, ?_, fun _ hq => hq, fun _ hq => hq, by simp [h4], _, rfl, h5⟩
    intro q
    rw [h3]
    exact hk q
  · cases l with
    | once =>
      simp only [nesting, Option.some.injEq] at hn
      simp only [step, Option.some.injEq] at h
      subst h
      refine ⟨[], _, rfl, ?_, ?_, fun _ hq => hq, fun _ hq => hq, by simp [systems], [], by simp, ?_⟩
      · split <;> simp [hs, hn]
      · split
        · intro q
          simp only [List.mem_cons]
          rw [hk q]
          constructor
          · rintro (rfl | h)
            · exact hc
            · exact h
          · exact .inr
        · exact hk
      · have : (if s.live then { s with once := cur :: s.once } else s).open_ = s.open_ := by
          split <;> rfl
        rw [this]
        exact .nil _
    | inc q =>
      simp only [nesting, Option.some.injEq] at hn
      subst hn
      simp only [step] at h
      by_cases hq : (fs.lookup q).isSome = true
      · rw [if_pos hq] at h
        have h0 : n = 0 := hl (by simpa [Line.isLib] using hq)
        subst h0
        have ho : s.open_ = [] := List.length_eq_zero_iff.1 hs
        have hlive : s.live = true := by simp [PSt.live, ho]
        obtain ⟨ls, hls⟩ := Option.isSome_iff_exists.1 hq
        have hk' : Known s (setMark st) := known_of_eq hk (setMark_visited st)
        simp only [seeLine, hlive, hls, if_true]
        by_cases hin : q ∈ s.once
        · have hin' : q ∈ (setMark st).visited := (hk' q).1 hin
          have : process subst fs d q (setMark st) = some (setMark st) := by
            cases d <;> simp [process, hin']
          rw [this] at h
          cases h
          refine ⟨[], s, by simp [hin], hs,
            .same hk (setMark_visited st) (setMark_content st) (by rw [setMark_sys]; exact fun _ h => h)
              _ rfl (by simp [systems])⟩
        · have hin' : q ∉ (setMark st).visited := fun h => hin ((hk' q).2 h)
          obtain ⟨out, s', h1, h2, h3⟩ := hd q ls (setMark st) st' s hls hin' hk' ho h
          refine ⟨out, s', by simp [hin, h1], by simp [h2], ?_⟩
          have := (Follows.same (subst := subst) (cond := cond) hk (setMark_visited st)
            (setMark_content st) (by rw [setMark_sys]; exact fun _ h => h) [] rfl
            (by simp [systems])).trans h3
          simpa using this
      · rw [if_neg hq] at h
        cases h
        have hnone : fs.lookup q = none := Option.not_isSome_iff_eq_none.1 hq
        simp only [seeLine, hnone]
        by_cases hlive : s.live = true
        · rw [if_pos hlive]
          refine ⟨_, s, rfl, hs, .same hk (by rw [addSys_visited, setMark_visited])
            (by rw [addSys_content, setMark_content])
            (fun r hr => mem_addSys.2 (.inr (by rwa [setMark_sys]))) _ rfl ?_⟩
          intro r hr
          simp [systems] at hr
          exact mem_addSys.2 (.inl hr)
        · rw [if_neg hlive]
          exact ⟨_, s, rfl, hs, .same hk (by rw [addSys_visited, setMark_visited])
            (by rw [addSys_content, setMark_content])
            (fun r hr => mem_addSys.2 (.inr (by rwa [setMark_sys]))) _ rfl (by simp [systems])⟩
    | _ => simp [Line.kept] at hkept

/-- `Closed`, with conditions left open at the end. -/
def Goes (fs : Files) : Nat → List Line → Nat → Prop
  | n, [], m => n = m
  | n, l :: ls, k => (l.isLib fs = true → n = 0) ∧ ∃ m, nesting n l = some m ∧ Goes fs m ls k

theorem goes_of_closed {ls : List Line} {n : Nat} (h : Closed fs n ls) : Goes fs n ls 0 := by
  induction ls generalizing n with
  | nil => exact h
  | cons l ls ih =>
    obtain ⟨h1, m, h2, h3⟩ := h
    exact ⟨h1, m, h2, ih h3⟩

theorem goes_append {a b : List Line} {n k : Nat} (h : Goes fs n (a ++ b) k) :
    ∃ m, Goes fs n a m ∧ Goes fs m b k := by
  induction a generalizing n with
  | nil => exact ⟨n, rfl, h⟩
  | cons l a ih =>
    obtain ⟨h1, m, h2, h3⟩ := h
    obtain ⟨r, h4, h5⟩ := ih h3
    exact ⟨r, ⟨h1, m, h2, h4⟩, h5⟩

theorem openAfter_goes {a : List Line} {n k : Nat} (h : Goes fs n a k) : openAfter n a = some k := by
  induction a generalizing n with
  | nil => exact congrArg some h
  | cons l a ih =>
    obtain ⟨_, m, h2, h3⟩ := h
    rw [openAfter, h2, Option.bind_some, ih h3]

theorem lines_right {d : Nat} (hd : Right subst fs cond d) {cur : Path} (ls : List Line) {n m : Nat}
    (hg : Goes fs n ls m) {st st' : St} {s : PSt}
    (hs : s.open_.length = n) (hk : Known s st) (hcur : cur ∈ st.visited)
    (h : ls.foldlM (step subst fs (process subst fs d)) st = some st') :
    ∃ out s', seeLines fs cond cur (see fs cond d) ls s = some (out, s') ∧
      s'.open_.length = m ∧ Follows subst cond st st' s s' out := by
  induction ls generalizing n st s with
  | nil =>
    cases h
    exact ⟨[], s, rfl, hs.trans hg, .same hk rfl rfl (fun _ h => h) [] rfl (by simp [systems])⟩
  | cons l ls ih =>
    obtain ⟨h1, k, h2, h3⟩ := hg
    rw [List.foldlM_cons] at h
    cases hst : step subst fs (process subst fs d) st l with
    | none => rw [hst] at h; cases h
    | some st1 =>
      rw [hst] at h
      obtain ⟨o1, s1, e1, e2, e3⟩ := step_right hd h1 h2 hs hk hcur hst
      obtain ⟨o2, s2, f1, f2, f3⟩ := ih h3 e2 e3.known (e3.grows _ hcur) h
      refine ⟨o1 ++ o2, s2, ?_, f2, e3.trans f3⟩
      simp [seeLines, e1, f1]

/-- Text before `#pragma once`. -/
theorem prefix_right {rec : Path → St → Option St} {cur : Path}
    {inc : Path → List Line → PSt → Option (List Item × PSt)} (a : List Line)
    (ha : ∀ l ∈ a, ∃ x, l = .text x ∨ l = .blank) (st : St) (s : PSt) :
    a.foldlM (step subst fs rec) st = some { st with content := st.content ++ a.map (substLine subst) } ∧
    ∃ out, seeLines fs cond cur inc a s = some (out, s) ∧ systems out = [] ∧
      Reads cond (a.map (substLine subst)) ((texts out).map subst) s.open_ s.open_ := by
  induction a generalizing st with
  | nil => exact ⟨by simp, [], rfl, rfl, .nil _⟩
  | cons l a ih =>
    have hl : l.kept = true ∧ nesting s.open_.length l = some s.open_.length := by
      obtain ⟨x, rfl | rfl⟩ := ha l (List.mem_cons_self ..) <;> exact ⟨rfl, rfl⟩
    obtain ⟨o1, s1, e1, e2, e3, e4, e5⟩ := see_kept (subst := subst) (fs := fs) (cond := cond)
      (cur := cur) (inc := inc) hl.1 hl.2 s rfl
    have hs1 : s1 = s := by
      obtain ⟨x, rfl | rfl⟩ := ha l (List.mem_cons_self ..) <;>
        · simp only [seeLine, Option.some.injEq, Prod.mk.injEq] at e1
          exact e1.2.symm
    subst hs1
    obtain ⟨h1, o2, h2, h3, h4⟩ := ih (fun x hx => ha x (List.mem_cons_of_mem _ hx))
      { st with content := st.content ++ [substLine subst l] }
    refine ⟨?_, o1 ++ o2, ?_, by rw [systems_append, e4, h3]; rfl, ?_⟩
    · rw [List.foldlM_cons, step_kept hl.1]
      show List.foldlM _ _ _ = _
      rw [h1]
      simp
    · simp [seeLines, e1, h2]
    · rw [texts_append, List.map_append]
      exact e5.append h4

theorem goes_text {a : List Line} (ha : ∀ l ∈ a, ∃ x, l = .text x ∨ l = .blank) {n m : Nat}
    (h : Goes fs n a m) : n = m := by
  induction a generalizing n with
  | nil => exact h
  | cons l a ih =>
    obtain ⟨_, k, h2, h3⟩ := h
    have : n = k := by
      obtain ⟨x, rfl | rfl⟩ := ha l (List.mem_cons_self ..) <;> simpa [nesting] using h2
    exact this.trans (ih (fun x hx => ha x (List.mem_cons_of_mem _ hx)) h3)

/-- The beginning of a file: up to `#pragma once`. -/
theorem begin_right {d : Nat} {cur : Path} {a : List Line}
    (ha : ∀ l ∈ a, ∃ x, l = .text x ∨ l = .blank) {st : St} {s : PSt} (hk : Known s st)
    (ho : s.open_ = []) :
    ∃ out s' st', (a ++ [Line.once]).foldlM (step subst fs (process subst fs d))
        { st with visited := cur :: st.visited } = some st' ∧
      seeLines fs cond cur (see fs cond d) (a ++ [.once]) s = some (out, s') ∧ s'.open_ = [] ∧
      cur ∈ st'.visited ∧ systems out = [] ∧ st'.mark = st.mark ∧ st'.sys = st.sys ∧
      st'.content = st.content ++ a.map (substLine subst) ∧
      Follows subst cond st st' s s' out := by
  obtain ⟨h1, out, h2, h3, h4⟩ := prefix_right (subst := subst) (fs := fs) (cond := cond) (cur := cur)
    (rec := process subst fs d) (inc := see fs cond d) a ha { st with visited := cur :: st.visited } s
  have hlive : s.live = true := by simp [PSt.live, ho]
  refine ⟨out, { s with once := cur :: s.once },
    { st with visited := cur :: st.visited, content := st.content ++ a.map (substLine subst) },
    ?_, ?_, ho, List.mem_cons_self .., h3, rfl, rfl, rfl, ?_⟩
  · rw [List.foldlM_append, h1]
    rfl
  · rw [seeLines_append, h2]
    simp [seeLines, seeLine, hlive]
  · refine ⟨?_, fun _ hq => List.mem_cons_of_mem _ hq, fun _ hq => hq, by simp [h3], _, rfl, h4⟩
    intro q
    simp only [List.mem_cons]
    rw [hk q]

theorem right (hT : Tidy fs) (d : Nat) : Right subst fs cond d := by
  induction d with
  | zero =>
    intro p ls st st' s _ hp _ _ h
    simp [process, hp] at h
  | succ d ih =>
    intro p ls st st' s hls hp hk ho h
    obtain ⟨⟨a, b, rfl, ha⟩, hc⟩ := hT p ls hls
    rw [process, hls] at h
    simp only [List.contains_iff_mem, hp, if_false] at h
    have hsplit : a ++ Line.once :: b = (a ++ [Line.once]) ++ b := by simp
    rw [hsplit, List.foldlM_append] at h
    obtain ⟨o1, s1, st1, e1, e2, e3, e4, _, _, _, _, e5⟩ :=
      begin_right (subst := subst) (fs := fs) (cond := cond) (d := d) (cur := p) ha hk ho
    rw [e1] at h
    obtain ⟨m, hg1, hg2⟩ := goes_append (goes_of_closed hc)
    have hm : 0 = m := goes_text ha hg1
    subst hm
    have hgb : Goes fs 0 b 0 := by
      obtain ⟨_, m, h1, h2⟩ := hg2
      simp only [nesting, Option.some.injEq] at h1
      subst h1
      exact h2
    obtain ⟨o2, s2, f1, f2, f3⟩ := lines_right ih b hgb (by rw [e3]; rfl) e5.known e4 h
    refine ⟨o1 ++ o2, s2, ?_, List.length_eq_zero_iff.1 f2, e5.trans f3⟩
    rw [see, hsplit, seeLines_append, e2]
    simp [f1]

/-! ## The script comes to an end -/

/-- The headers not read yet. -/
def left (fs : Files) (st : St) : List Path := (fs.map (·.1)).filter (fun p => !st.visited.contains p)

theorem filter_length_le {l : List Path} {f g : Path → Bool} (h : ∀ x ∈ l, f x = true → g x = true) :
    (l.filter f).length ≤ (l.filter g).length := by
  induction l with
  | nil => simp
  | cons x l ih =>
    have ih := ih (fun y hy => h y (List.mem_cons_of_mem _ hy))
    have hx := h x (List.mem_cons_self ..)
    rw [List.filter_cons, List.filter_cons]
    split <;> split <;> simp_all <;> omega

theorem filter_length_lt {l : List Path} {f g : Path → Bool} (h : ∀ x ∈ l, f x = true → g x = true)
    {y : Path} (hy : y ∈ l) (hf : f y = false) (hg : g y = true) :
    (l.filter f).length < (l.filter g).length := by
  induction l with
  | nil => cases hy
  | cons x l ih =>
    have hle := filter_length_le (fun y hy => h y (List.mem_cons_of_mem _ hy))
    rw [List.filter_cons, List.filter_cons]
    rcases List.mem_cons.1 hy with rfl | hy
    · simp [hf, hg]
      omega
    · have := ih (fun y hy => h y (List.mem_cons_of_mem _ hy)) hy
      have hx := h x (List.mem_cons_self ..)
      split <;> split <;> simp_all <;> omega

theorem mem_of_lookup {l : Files} {p : Path} (h : (l.lookup p).isSome = true) : p ∈ l.map (·.1) := by
  induction l with
  | nil => simp at h
  | cons x l ih =>
    obtain ⟨q, ls⟩ := x
    rw [List.lookup_cons] at h
    by_cases e : (p == q) = true
    · rw [beq_iff_eq] at e
      simp [e]
    · simp only [Bool.not_eq_true] at e
      rw [e] at h
      exact List.mem_cons_of_mem _ (ih h)

theorem left_mono {st st' : St} (h : ∀ q ∈ st.visited, q ∈ st'.visited) :
    (left fs st').length ≤ (left fs st).length := by
  refine filter_length_le fun x _ hx => ?_
  simp only [Bool.not_eq_true', List.contains_eq_mem, decide_eq_false_iff_not] at hx ⊢
  exact fun h' => hx (h x h')

theorem process_total (d : Nat) (p : Path) (st : St) (hp : (fs.lookup p).isSome = true)
    (hd : (left fs st).length ≤ d) :
    ∃ st', process subst fs d p st = some st' ∧ ∀ q ∈ st.visited, q ∈ st'.visited := by
  induction d generalizing p st with
  | zero =>
    have hl : left fs st = [] := List.length_eq_zero_iff.1 (Nat.le_zero.1 hd)
    have : p ∈ st.visited := by
      have h1 := mem_of_lookup hp
      by_cases h : p ∈ st.visited
      · exact h
      · have : p ∈ left fs st := List.mem_filter.2 ⟨h1, by simpa using h⟩
        rw [hl] at this
        cases this
    exact ⟨st, by simp [process, this], fun _ h => h⟩
  | succ d ih =>
    by_cases hv : p ∈ st.visited
    · exact ⟨st, by simp [process, hv], fun _ h => h⟩
    · obtain ⟨ls, hls⟩ := Option.isSome_iff_exists.1 hp
      have hfold : ∀ (ls : List Line) (st : St), (left fs st).length ≤ d →
          ∃ st', ls.foldlM (step subst fs (process subst fs d)) st = some st' ∧
            ∀ q ∈ st.visited, q ∈ st'.visited := by
        intro ls
        induction ls with
        | nil => exact fun st _ => ⟨st, rfl, fun _ h => h⟩
        | cons l ls ihl =>
          intro st hst
          have hstep : ∃ st1, step subst fs (process subst fs d) st l = some st1 ∧
              ∀ q ∈ st.visited, q ∈ st1.visited := by
            by_cases hk : l.kept = true
            · exact ⟨_, step_kept hk, fun _ h => h⟩
            · cases l with
              | once => exact ⟨st, rfl, fun _ h => h⟩
              | inc q =>
                simp only [step]
                by_cases hq : (fs.lookup q).isSome = true
                · rw [if_pos hq]
                  obtain ⟨st1, h1, h2⟩ := ih q (setMark st) hq (by
                    refine Nat.le_trans (left_mono ?_) hst
                    rw [setMark_visited]
                    exact fun _ h => h)
                  exact ⟨st1, h1, fun r hr => h2 r (by rwa [setMark_visited])⟩
                · rw [if_neg hq]
                  exact ⟨_, rfl, fun r hr => by rwa [addSys_visited, setMark_visited]⟩
              | _ => simp [Line.kept] at hk
          obtain ⟨st1, h1, h2⟩ := hstep
          obtain ⟨st2, h3, h4⟩ := ihl st1 (Nat.le_trans (left_mono h2) hst)
          exact ⟨st2, by rw [List.foldlM_cons, h1]; exact h3, fun q hq => h4 q (h2 q hq)⟩
      have hlt : (left fs { st with visited := p :: st.visited }).length < (left fs st).length := by
        refine filter_length_lt (fun x _ hx => ?_) (mem_of_lookup hp) (by simp) (by simpa using hv)
        simp only [Bool.not_eq_true', List.contains_eq_mem, decide_eq_false_iff_not,
          List.mem_cons, not_or] at hx ⊢
        exact hx.2
      obtain ⟨st', h1, h2⟩ := hfold ls { st with visited := p :: st.visited } (by omega)
      refine ⟨st', ?_, fun q hq => h2 q (List.mem_cons_of_mem _ hq)⟩
      rw [process, hls]
      simp only [List.contains_iff_mem, hv, if_false]
      exact h1

/-! ## Where the system headers go -/

theorem setMark_keep {st : St} {k : Nat} (h : st.mark = some (k + 1)) : (setMark st).mark = some (k + 1) := by
  simp [setMark, h]

theorem addSys_mark (q : Path) (st : St) : (addSys q st).mark = st.mark := by
  unfold addSys; split <;> rfl

theorem fold_keep {k : Nat} {rec : Path → St → Option St}
    (hr : ∀ p st st', rec p st = some st' → st.mark = some (k + 1) → st'.mark = some (k + 1))
    (ls : List Line) {st st' : St} (h : ls.foldlM (step subst fs rec) st = some st')
    (hm : st.mark = some (k + 1)) : st'.mark = some (k + 1) := by
  induction ls generalizing st with
  | nil => cases h; exact hm
  | cons l ls ih =>
    rw [List.foldlM_cons] at h
    cases hst : step subst fs rec st l with
    | none => rw [hst] at h; cases h
    | some st1 =>
      rw [hst] at h
      refine ih h ?_
      by_cases hk : l.kept = true
      · rw [step_kept hk] at hst
        cases hst
        exact hm
      · cases l with
        | once => cases hst; exact hm
        | inc q =>
          simp only [step] at hst
          split at hst
          · exact hr _ _ _ hst (setMark_keep hm)
          · cases hst
            rw [addSys_mark]
            exact setMark_keep hm
        | _ => simp [Line.kept] at hk

theorem process_keep {k : Nat} (d : Nat) (p : Path) (st st' : St)
    (h : process subst fs d p st = some st') (hm : st.mark = some (k + 1)) : st'.mark = some (k + 1) := by
  induction d generalizing p st st' with
  | zero =>
    simp only [process] at h
    split at h
    · cases h; exact hm
    · cases h
  | succ d ih =>
    simp only [process] at h
    split at h
    · cases h; exact hm
    · split at h
      · cases h
      · exact fold_keep ih _ h hm

/-- A mark that is set stays set. -/
theorem fold_marked {rec : Path → St → Option St}
    (hr : ∀ p st st', rec p st = some st' → st.mark.isSome = true → st'.mark.isSome = true)
    (ls : List Line) {st st' : St} (h : ls.foldlM (step subst fs rec) st = some st')
    (hm : st.mark.isSome = true ∨ ∃ l ∈ ls, l.isInc = true) : st'.mark.isSome = true := by
  have hset : ∀ st : St, (setMark st).mark.isSome = true := by
    intro st; unfold setMark; split <;> simp_all
  induction ls generalizing st with
  | nil => cases h; simpa using hm
  | cons l ls ih =>
    rw [List.foldlM_cons] at h
    cases hst : step subst fs rec st l with
    | none => rw [hst] at h; cases h
    | some st1 =>
      rw [hst] at h
      refine ih h ?_
      by_cases hi : l.isInc = true
      · left
        cases l with
        | inc q =>
          simp only [step] at hst
          split at hst
          · exact hr _ _ _ hst (hset st)
          · cases hst
            rw [addSys_mark]
            exact hset st
        | _ => simp [Line.isInc] at hi
      · rcases hm with hm | ⟨l', h1, h2⟩
        · left
          cases l with
          | inc q => simp [Line.isInc] at hi
          | once => cases hst; exact hm
          | _ => cases hst; exact hm
        · rcases List.mem_cons.1 h1 with rfl | h1
          · exact absurd h2 hi
          · exact .inr ⟨l', h1, h2⟩

theorem process_marked (d : Nat) (p : Path) (st st' : St) (h : process subst fs d p st = some st')
    (hm : st.mark.isSome = true) : st'.mark.isSome = true := by
  induction d generalizing p st st' with
  | zero =>
    simp only [process] at h
    split at h
    · cases h; exact hm
    · cases h
  | succ d ih =>
    simp only [process] at h
    split at h
    · cases h; exact hm
    · split at h
      · cases h
      · exact fold_marked ih _ h (.inl hm)

/-- Lines without includes leave no mark. -/
theorem fold_plain {rec : Path → St → Option St} (ls : List Line) (hl : ∀ l ∈ ls, l.isInc = false)
    (st : St) : ls.foldlM (step subst fs rec) st =
      some { st with content := st.content ++ (ls.filter (fun l => decide (l ≠ .once))).map (substLine subst) } := by
  induction ls generalizing st with
  | nil => simp
  | cons l ls ih =>
    have ih := ih (fun x hx => hl x (List.mem_cons_of_mem _ hx))
    rw [List.foldlM_cons]
    cases l with
    | inc q => exact absurd (hl _ (List.mem_cons_self ..)) (by simp [Line.isInc])
    | once =>
      show List.foldlM _ _ _ = _
      rw [ih]
      simp
    | _ =>
      show List.foldlM _ _ _ = _
      rw [ih]
      simp

/-- Lines without includes show no system headers. -/
theorem see_plain {cur : Path} {inc : Path → List Line → PSt → Option (List Item × PSt)}
    (ls : List Line) (hl : ∀ l ∈ ls, l.isInc = false) (s : PSt) {out : List Item} {s' : PSt}
    (h : seeLines fs cond cur inc ls s = some (out, s')) : systems out = [] := by
  induction ls generalizing s out with
  | nil => cases h; rfl
  | cons l ls ih =>
    rw [seeLines] at h
    cases h1 : seeLine fs cond cur inc l s with
    | none => rw [h1] at h; cases h
    | some r =>
      rw [h1, Option.bind_some] at h
      cases h2 : seeLines fs cond cur inc ls r.2 with
      | none => rw [h2] at h; cases h
      | some q =>
        rw [h2] at h
        cases h
        rw [systems_append, ih (fun x hx => hl x (List.mem_cons_of_mem _ hx)) _ h2, List.append_nil]
        cases l with
        | inc q => exact absurd (hl _ (List.mem_cons_self ..)) (by simp [Line.isInc])
        | els => simp only [seeLine] at h1; split at h1 <;> cases h1; rfl
        | endif => simp only [seeLine] at h1; split at h1 <;> cases h1; rfl
        | text x => cases h1; split <;> rfl
        | _ => cases h1; rfl

/-! ## Reading the release -/

/-- Includes of system headers and empty lines do not change what else is read. -/
theorem read_includes (x : List Line) (hx : ∀ l ∈ x, l = .blank ∨ l.isInc = true) (t : PSt) :
    ∃ out, readAlone cond x t = some (out, t) ∧ texts out = [] ∧
      (t.live = true → ∀ q, .inc q ∈ x → q ∈ systems out) := by
  induction x with
  | nil => exact ⟨[], rfl, rfl, by simp⟩
  | cons l x ih =>
    obtain ⟨out, h1, h2, h3⟩ := ih (fun y hy => hx y (List.mem_cons_of_mem _ hy))
    rw [readAlone] at h1
    rcases hx l (List.mem_cons_self ..) with rfl | hi
    · refine ⟨out, ?_, h2, ?_⟩
      · simp [readAlone, seeLines, seeLine, h1]
      · intro ht q hq
        exact h3 ht q (by simpa using hq)
    · cases l with
      | inc q =>
        by_cases ht : t.live = true
        · refine ⟨.sys q :: out, ?_, by simpa [texts] using h2, ?_⟩
          · simp [readAlone, seeLines, seeLine, ht, h1]
          · intro _ r hr
            simp only [List.mem_cons, Line.inc.injEq] at hr
            rcases hr with rfl | hr
            · simp [systems]
            · have := h3 ht r hr
              simp only [systems, List.filterMap_cons] at this ⊢
              exact List.mem_cons_of_mem _ this
        · refine ⟨out, ?_, h2, fun h => absurd h ht⟩
          simp [readAlone, seeLines, seeLine, ht, h1]
      | _ => simp [Line.isInc] at hi

/-- A file put together. -/
theorem read_printed {c1 c2 x : List Line} (hx : ∀ l ∈ x, l = .blank ∨ l.isInc = true) {t t' : PSt}
    {out : List Item} (h : readAlone cond (c1 ++ c2) t = some (out, t')) :
    ∃ o1 o2 ox t1, out = o1 ++ o2 ∧ readAlone cond c1 t = some (o1, t1) ∧ texts ox = [] ∧
      readAlone cond (c1 ++ x ++ c2 ++ [.blank]) t = some (o1 ++ ox ++ o2, t') ∧
      (t1.live = true → ∀ q, .inc q ∈ x → q ∈ systems ox) := by
  rw [readAlone, seeLines_append] at h
  cases h1 : readAlone cond c1 t with
  | none => rw [readAlone] at h1; rw [h1] at h; cases h
  | some r =>
    rw [readAlone] at h1
    rw [h1, Option.bind_some] at h
    cases h2 : readAlone cond c2 r.2 with
    | none => rw [readAlone] at h2; rw [h2] at h; cases h
    | some q =>
      rw [readAlone] at h2
      rw [h2] at h
      cases h
      obtain ⟨ox, h3, h4, h5⟩ := read_includes (cond := cond) x hx r.2
      rw [readAlone] at h3
      refine ⟨r.1, q.1, ox, r.2, rfl, rfl, h4, ?_, h5⟩
      rw [readAlone, seeLines_append, seeLines_append, seeLines_append, h1, Option.bind_some, h3,
        Option.map_some, Option.bind_some, h2]
      simp [seeLines, seeLine]

/-! ## What the script collects -/

/-- A property of the state that reading headers keeps. -/
theorem process_inv {I : St → Prop} (hmark : ∀ st, I st → I (setMark st))
    (hvis : ∀ st p, I st → I { st with visited := p :: st.visited })
    (hsys : ∀ st q p ls, I st → fs.lookup p = some ls → .inc q ∈ ls → fs.lookup q = none → I (addSys q st))
    (hcont : ∀ st l, I st → l.kept = true → I { st with content := st.content ++ [substLine subst l] })
    (d : Nat) (p : Path) (st st' : St) (h : process subst fs d p st = some st') (hI : I st) : I st' := by
  induction d generalizing p st st' with
  | zero =>
    simp only [process] at h
    split at h
    · cases h; exact hI
    · cases h
  | succ d ih =>
    simp only [process] at h
    split at h
    · cases h; exact hI
    · split at h
      · cases h
      · next ls hls =>
        have : ∀ (ls' : List Line) (st : St), (∀ l ∈ ls', l ∈ ls) →
            ls'.foldlM (step subst fs (process subst fs d)) st = some st' → I st → I st' := by
          intro ls'
          induction ls' with
          | nil => intro st _ h hI; cases h; exact hI
          | cons l ls' ihl =>
            intro st hsub h hI
            rw [List.foldlM_cons] at h
            cases hst : step subst fs (process subst fs d) st l with
            | none => rw [hst] at h; cases h
            | some st1 =>
              rw [hst] at h
              refine ihl st1 (fun x hx => hsub x (List.mem_cons_of_mem _ hx)) h ?_
              by_cases hk : l.kept = true
              · rw [step_kept hk] at hst
                cases hst
                exact hcont st l hI hk
              · cases l with
                | once => cases hst; exact hI
                | inc q =>
                  simp only [step] at hst
                  split at hst
                  · exact ih _ _ _ hst (hmark st hI)
                  · next hq =>
                    cases hst
                    exact hsys _ q p ls (hmark st hI) hls (hsub _ (List.mem_cons_self ..))
                      (Option.not_isSome_iff_eq_none.1 hq)
                | _ => simp [Line.kept] at hk
        exact this ls _ (fun _ h => h) h (hvis st p hI)

theorem kept_subst {l : Line} (h : l.kept = true) : (substLine subst l).kept = true := by
  cases l <;> simp_all [substLine, Line.kept]

/-- The content has no includes, and the system headers are those that headers name. -/
theorem process_collects (d : Nat) (p : Path) (st : St) (h : process subst fs d p {} = some st) :
    (∀ l ∈ st.content, l.kept = true) ∧
      ∀ q ∈ st.sys, fs.lookup q = none ∧ ∃ p ls, fs.lookup p = some ls ∧ .inc q ∈ ls := by
  refine process_inv (subst := subst) (fs := fs)
    (I := fun st => (∀ l ∈ st.content, l.kept = true) ∧
      ∀ q ∈ st.sys, fs.lookup q = none ∧ ∃ p ls, fs.lookup p = some ls ∧ .inc q ∈ ls)
    ?_ ?_ ?_ ?_ d p {} st h ⟨by simp, by simp⟩
  · intro st hI
    rw [setMark_content, setMark_sys]
    exact hI
  · exact fun st p hI => hI
  · intro st q p ls hI hls hq hnone
    refine ⟨by rw [addSys_content]; exact hI.1, fun r hr => ?_⟩
    rcases mem_addSys.1 hr with rfl | hr
    · exact ⟨hnone, p, ls, hls, hq⟩
    · exact hI.2 r hr
  · intro st l hI hk
    refine ⟨fun x hx => ?_, hI.2⟩
    rcases List.mem_append.1 hx with hx | hx
    · exact hI.1 x hx
    · rw [List.mem_singleton.1 hx]
      exact kept_subst hk

theorem mem_insertSorted {q r : Path} {l : List Path} : q ∈ insertSorted r l ↔ q = r ∨ q ∈ l := by
  induction l with
  | nil => simp [insertSorted]
  | cons p l ih =>
    rw [insertSorted]
    split
    · simp
    · simp only [List.mem_cons, ih]
      constructor
      · rintro (h | h | h)
        · exact .inr (.inl h)
        · exact .inl h
        · exact .inr (.inr h)
      · rintro (h | h | h)
        · exact .inr (.inl h)
        · exact .inl h
        · exact .inr (.inr h)

theorem mem_sorted {q : Path} {l : List Path} : q ∈ sorted l ↔ q ∈ l := by
  induction l with
  | nil => simp [sorted]
  | cons p l ih => rw [sorted, mem_insertSorted, ih, List.mem_cons]

end Verif.Release
