import Verif.Release.Repo
/-!
# Programs that include the release

A program is a list of lines that include headers. With the library, a second include of the main header
has no effect; the release has no guard.
-/
namespace Verif.Release

variable {subst : String → String} {fs : Files} {cond : Nat → Bool}

/-- What the compiler sees of a program with headers `fs`. -/
def program (fs : Files) (cond : Nat → Bool) (depth : Nat) (ls : List Line) : Option (List Item) :=
  (seeLines fs cond 0 (see fs cond depth) ls {}).map (·.1)

/-- The lines have no guard and include no library header. -/
def Plain (fs : Files) (ls : List Line) : Prop :=
  .once ∉ ls ∧ ∀ q, .inc q ∈ ls → fs.lookup q = none

theorem seeLines_plain {f g : Files} {c c' : Path}
    {i i' : Path → List Line → PSt → Option (List Item × PSt)} (ls : List Line)
    (hf : Plain f ls) (hg : Plain g ls) (s t : PSt) (ho : s.open_ = t.open_) :
    seeLines f cond c i ls s =
      (seeLines g cond c' i' ls t).map fun r => (r.1, { r.2 with once := s.once }) := by
  induction ls generalizing s t with
  | nil => cases s; cases t; simp only at ho; subst ho; rfl
  | cons l ls ih =>
    have hf' : Plain f ls := ⟨fun h => hf.1 (List.mem_cons_of_mem _ h),
      fun q h => hf.2 q (List.mem_cons_of_mem _ h)⟩
    have hg' : Plain g ls := ⟨fun h => hg.1 (List.mem_cons_of_mem _ h),
      fun q h => hg.2 q (List.mem_cons_of_mem _ h)⟩
    have hlive : s.live = t.live := by simp [PSt.live, ho]
    have key : seeLine f cond c i l s =
        (seeLine g cond c' i' l t).map fun r => (r.1, { r.2 with once := s.once }) := by
      obtain ⟨so, sp⟩ := s
      obtain ⟨to, tp⟩ := t
      simp only at ho
      subst ho
      cases l with
      | inc q =>
        simp only [seeLine, hf.2 q (List.mem_cons_self ..), hg.2 q (List.mem_cons_self ..), hlive]
        split <;> rfl
      | once => exact absurd (List.mem_cons_self ..) hf.1
      | els => cases sp <;> rfl
      | endif => cases sp <;> rfl
      | text x => simp only [seeLine, hlive, Option.map_some]
      | _ => rfl
    rw [seeLines, seeLines, key]
    cases h : seeLine g cond c' i' l t with
    | none => rfl
    | some r =>
      simp only [Option.map_some, Option.bind_some]
      rw [ih hf' hg' { r.2 with once := s.once } r.2 rfl]
      simp only [Option.map_map]
      rfl

/-- A plain list of lines leaves the guards as they are. -/
theorem seeLines_once {c : Path} {i : Path → List Line → PSt → Option (List Item × PSt)}
    {ls : List Line} (hf : Plain fs ls) {s s' : PSt} {out : List Item}
    (h : seeLines fs cond c i ls s = some (out, s')) : s'.once = s.once := by
  rw [seeLines_plain (c' := c) (i' := i) ls hf hf s s rfl] at h
  obtain ⟨r, _, e⟩ := Option.map_eq_some_iff.1 h
  cases e
  rfl

/-- The number of conditions open after plain lines. -/
theorem seeLines_open {c : Path} {i : Path → List Line → PSt → Option (List Item × PSt)}
    (ls : List Line) (hf : Plain fs ls) {n m : Nat} (hn : openAfter n ls = some m) (s : PSt)
    (hs : s.open_.length = n) :
    ∃ out s', seeLines fs cond c i ls s = some (out, s') ∧ s'.open_.length = m := by
  induction ls generalizing n s with
  | nil =>
    simp only [openAfter, Option.some.injEq] at hn
    exact ⟨[], s, rfl, hs.trans hn⟩
  | cons l ls ih =>
    have hf' : Plain fs ls := ⟨fun h => hf.1 (List.mem_cons_of_mem _ h),
      fun q h => hf.2 q (List.mem_cons_of_mem _ h)⟩
    rw [openAfter] at hn
    cases hk : nesting n l with
    | none => rw [hk] at hn; cases hn
    | some k =>
      rw [hk, Option.bind_some] at hn
      have : ∃ out s', seeLine fs cond c i l s = some (out, s') ∧ s'.open_.length = k := by
        by_cases hkept : l.kept = true
        · obtain ⟨out, s', h1, h2, _⟩ :=
            see_kept (subst := id) (fs := fs) (cond := cond) (cur := c) (inc := i) hkept hk s hs
          exact ⟨out, s', h1, h2⟩
        · cases l with
          | inc q =>
            simp only [nesting, Option.some.injEq] at hk
            simp only [seeLine, hf.2 q (List.mem_cons_self ..)]
            split
            · exact ⟨_, _, rfl, hs.trans hk⟩
            · exact ⟨_, _, rfl, hs.trans hk⟩
          | once => exact absurd (List.mem_cons_self ..) hf.1
          | _ => simp [Line.kept] at hkept
      obtain ⟨o1, s1, h1, h2⟩ := this
      obtain ⟨o2, s2, h3, h4⟩ := ih hf' hn s1 h2
      exact ⟨o1 ++ o2, s2, by simp [seeLines, h1, h3], h4⟩

theorem fold_visited {p : Path} {d : Nat} (ls : List Line) {st st' : St}
    (h : ls.foldlM (step subst fs (process subst fs d)) st = some st') (hp : p ∈ st.visited) :
    p ∈ st'.visited := by
  induction ls generalizing st with
  | nil => cases h; exact hp
  | cons l ls ih =>
    rw [List.foldlM_cons] at h
    cases h1 : step subst fs (process subst fs d) st l with
    | none => rw [h1] at h; cases h
    | some st1 =>
      rw [h1] at h
      refine ih h ?_
      cases l with
      | inc q =>
        simp only [step] at h1
        split at h1
        · refine process_inv (subst := subst) (fs := fs) (I := fun st => p ∈ st.visited)
            ?_ ?_ ?_ ?_ d q _ st1 h1 (by rw [setMark_visited]; exact hp)
          · intro st h; rwa [setMark_visited]
          · exact fun st q h => List.mem_cons_of_mem _ h
          · intro st q _ _ h _ _ _; rwa [addSys_visited]
          · exact fun st l h _ => h
        · cases h1
          rwa [addSys_visited, setMark_visited]
      | once => cases h1; exact hp
      | _ => cases h1; exact hp

/-- The release of tidy headers, whose main header includes anything: it is plain, and is read to its
end without a condition left open; the library leaves the main header guarded. -/
theorem release_reads (hT : Tidy fs) {main : Path} {ls : List Line} (hls : fs.lookup main = some ls)
    (hinc : ∃ l ∈ ls, l.isInc = true) {d : Nat} {r : List Line}
    (h : release subst fs d main = some r) (cond : Nat → Bool) :
    Plain fs r ∧ ∃ out out' s, see fs cond d main ls {} = some (out, s) ∧ main ∈ s.once ∧
      s.open_ = [] ∧ readAlone cond r {} = some (out', {}) := by
  obtain ⟨st, hst, rfl⟩ := Option.map_eq_some_iff.1 h
  clear h
  have h := hst
  clear hst
  have hcol := process_collects d main st h
  obtain ⟨o, s, h1, h2, h3⟩ := right (subst := subst) (cond := cond) hT d main ls {} st {} hls
    (by simp) (by intro q; simp) rfl h
  have hv : main ∈ st.visited := by
    cases d with
    | zero => simp [process] at h
    | succ d =>
      rw [process, hls] at h
      simp only [List.contains_nil, if_false, Bool.false_eq_true] at h
      exact fold_visited ls h (List.mem_cons_self ..)
  have hmark : st.mark.isSome = true := by
    cases d with
    | zero => simp [process] at h
    | succ d =>
      rw [process, hls] at h
      simp only [List.contains_nil, if_false, Bool.false_eq_true] at h
      exact fold_marked (process_marked d) _ h (.inr hinc)
  obtain ⟨i, hi⟩ := Option.isSome_iff_exists.1 hmark
  obtain ⟨c, hc, hr⟩ := h3.content
  have hc : st.content = c := by simpa using hc
  subst hc
  have hr := hr {} rfl
  rw [h2, ← List.take_append_drop i st.content] at hr
  obtain ⟨o1, o2, ox, t1, _, _, _, e4, _⟩ := read_printed (inserted (st := st)) hr
  refine ⟨⟨?_, ?_⟩, o, o1 ++ ox ++ o2, s, h1, (h3.known main).2 hv, h2, ?_⟩
  · intro hm
    rw [printed_of hi] at hm
    simp only [List.mem_append, List.mem_cons, List.mem_map, List.not_mem_nil, or_false,
      reduceCtorEq, false_or, or_false, and_false, exists_false] at hm
    have hno : Line.once ∉ st.content := fun hc => by simpa [Line.kept] using hcol.1 _ hc
    rcases hm with hm | hm
    · exact hno (List.mem_of_mem_take hm)
    · exact hno (List.mem_of_mem_drop hm)
  · intro q hq
    rw [printed_of hi] at hq
    simp only [List.mem_append, List.mem_cons, List.mem_map, List.not_mem_nil, or_false,
      reduceCtorEq, false_or, or_false] at hq
    have hno : Line.inc q ∉ st.content := fun hc => by simpa [Line.kept] using hcol.1 _ hc
    rcases hq with (hq | ⟨p, hp, e⟩) | hq
    · exact absurd (List.mem_of_mem_take hq) hno
    · cases e
      exact (hcol.2 _ (mem_sorted.1 hp)).1
    · exact absurd (List.mem_of_mem_drop hq) hno
  · rw [printed_of hi]
    exact e4

/-- A plain list of lines as the only header. -/
theorem plain_single {main : Path} {r ls : List Line} (hm : (fs.lookup main).isSome = true)
    (h : Plain fs ls) : Plain [(main, r)] ls := by
  refine ⟨h.1, fun q hq => ?_⟩
  have := h.2 q hq
  rw [List.lookup_cons]
  by_cases e : (q == main) = true
  · rw [beq_iff_eq] at e
    rw [e] at this
    rw [this] at hm
    cases hm
  · simp only [Bool.not_eq_true] at e
    rw [e]
    rfl

theorem see_single {main : Path} {ls r : List Line} (hls : fs.lookup main = some ls) (hp : Plain fs r)
    {out : List Item} (h : readAlone cond r {} = some (out, {})) (d : Nat) :
    see [(main, r)] cond (d + 1) main r {} = some (out, {}) := by
  rw [see, seeLines_plain (g := []) (c' := 0) (i' := see [] cond 0) r
    (plain_single (by rw [hls]; rfl) hp) ⟨hp.1, fun _ _ => rfl⟩ {} {} rfl]
  rw [readAlone] at h
  rw [h]
  rfl

/-- C136 is violated, for every library: the release has no guard. A program that includes the main
header twice (say in two of its own headers) sees the library once, but the release twice: each
definition is there again. -/
theorem C136_violated_guard (hT : Tidy fs) {main : Path} {ls : List Line}
    (hls : fs.lookup main = some ls) (hinc : ∃ l ∈ ls, l.isInc = true) {d : Nat} (hd : fs.length ≤ d) :
    ∃ r, release subst fs d main = some r ∧ ∀ cond, ∃ out out',
      program fs cond d [.inc main] = some out ∧
      program fs cond d [.inc main, .inc main] = some out ∧
      program [(main, r)] cond d [.inc main] = some out' ∧
      program [(main, r)] cond d [.inc main, .inc main] = some (out' ++ out') ∧
      texts out' = (texts out).map subst := by
  obtain ⟨r, h, hr⟩ := C135_text_partial (subst := subst) hT hls hinc hd
  refine ⟨r, h, fun cond => ?_⟩
  obtain ⟨o, o', h1, h2, h3⟩ := hr cond
  obtain ⟨hp, out, out', s, e1, e2, e3, e4⟩ := release_reads hT hls hinc h cond
  rw [library, hls, Option.bind_some, e1] at h1
  cases h1
  rw [alone, see, show seeLines [] cond 0 (see [] cond 0) r {} = _ from e4] at h2
  cases h2
  have hlive : s.live = true := by simp [PSt.live, e3]
  have hlive0 : ({} : PSt).live = true := rfl
  have hd0 : 0 < d := by
    cases fs with
    | nil => simp at hls
    | cons x fs => simp only [List.length_cons] at hd; omega
  obtain ⟨k, rfl⟩ : ∃ k, d = k + 1 := ⟨d - 1, by omega⟩
  have hs := see_single (fs := fs) hls hp e4 k
  have hlook : List.lookup main [(main, r)] = some r := by simp
  refine ⟨out, out', ?_, ?_, ?_, ?_, h3⟩
  · simp [program, seeLines, seeLine, hlive0, hls, e1]
  · simp [program, seeLines, seeLine, hlive0, hls, e1, hlive, e2]
  · simp [program, seeLines, seeLine, hlive0, hs]
  · simp [program, seeLines, seeLine, hlive0, hs]

/-- C136 (partial): a program that includes the main header once, not under a condition, sees with the
release what it sees with the library, in the same place. Missing: programs that include it again
(`C136_violated_guard`). -/
theorem C136_once_partial (hT : Tidy fs) {main : Path} {ls : List Line}
    (hls : fs.lookup main = some ls) (hf : FirstInclude ls) {d : Nat} (hd : fs.length ≤ d) :
    ∃ r, release subst fs d main = some r ∧ ∀ cond a b, Plain fs a → openAfter 0 a = some 0 →
      Plain fs b → openAfter 0 b = some 0 →
      ∃ oa o o' ob, program fs cond d (a ++ .inc main :: b) = some (oa ++ o ++ ob) ∧
        program [(main, r)] cond d (a ++ .inc main :: b) = some (oa ++ o' ++ ob) ∧
        program fs cond d a = some oa ∧ program fs cond d b = some ob ∧
        texts o' = (texts o).map subst ∧
        ∀ n, ∀ q ∈ systemsBefore n o, q ∈ systemsBefore n o' := by
  have hinc : ∃ l ∈ ls, l.isInc = true := by
    obtain ⟨a, p, b, rfl, _⟩ := hf
    exact ⟨.inc p, by simp, rfl⟩
  obtain ⟨r, h, _, hr⟩ := C134_release (subst := subst) hT hls hf hd
  refine ⟨r, h, fun cond a b ha hao hb hbo => ?_⟩
  obtain ⟨o, o', h1, h2, h3, h4⟩ := hr cond
  obtain ⟨hp, out, out', s, e1, e2, e3, e4⟩ := release_reads hT hls hinc h cond
  rw [library, hls, Option.bind_some, e1] at h1
  cases h1
  rw [alone, see, show seeLines [] cond 0 (see [] cond 0) r {} = _ from e4] at h2
  cases h2
  have hd0 : 0 < d := by
    cases fs with
    | nil => simp at hls
    | cons x fs => simp only [List.length_cons] at hd; omega
  obtain ⟨k, rfl⟩ : ∃ k, d = k + 1 := ⟨d - 1, by omega⟩
  have hs := see_single (fs := fs) hls hp e4 k
  have hm : (fs.lookup main).isSome = true := by rw [hls]; rfl
  -- before
  obtain ⟨oa, sa, a1, a2⟩ := seeLines_open (fs := fs) (cond := cond) (c := 0)
    (i := see fs cond (k + 1)) a ha hao {} rfl
  have hsa : sa = {} := by
    have := seeLines_once ha a1
    cases sa
    simp only at this a2
    rw [this, List.length_eq_zero_iff.1 a2]
  subst hsa
  have a3 := seeLines_plain (cond := cond) (c := 0) (c' := 0) (i := see [(main, r)] cond (k + 1))
    (i' := see fs cond (k + 1)) a (plain_single (r := r) hm ha) ha {} {} rfl
  rw [a1] at a3
  -- after
  obtain ⟨ob, sb, b1, b2⟩ := seeLines_open (fs := fs) (cond := cond) (c := 0)
    (i := see fs cond (k + 1)) b hb hbo {} rfl
  have b3 := seeLines_plain (cond := cond) (c := 0) (c' := 0) (i := see [(main, r)] cond (k + 1))
    (i' := see fs cond (k + 1)) b (plain_single (r := r) hm hb) hb {} {} rfl
  rw [b1] at b3
  have b4 := seeLines_plain (cond := cond) (c := 0) (c' := 0) (i := see fs cond (k + 1))
    (i' := see fs cond (k + 1)) b hb hb s {} e3
  rw [b1] at b4
  have hlive0 : ({} : PSt).live = true := rfl
  refine ⟨oa, out, out', ob, ?_, ?_, ?_, ?_, h3, h4⟩
  · rw [program, seeLines_append, a1]
    simp [seeLines, seeLine, hlive0, hls, e1, b4]
  · rw [program, seeLines_append, a3]
    simp [seeLines, seeLine, hlive0, hs, b3]
  · simp [program, a1]
  · simp [program, b1]

/-- C136 is violated for this library: a program that includes `cib/cib.hpp` of the release twice sees
the text of its 36 lines, and of all headers, twice. -/
theorem C136_violated_this_library :
    ∃ r, release id Repo.headers 96 18 = some r ∧ ∃ out out',
      program Repo.headers (fun _ => true) 96 [.inc 18, .inc 18] = some out ∧
      program [(18, r)] (fun _ => true) 96 [.inc 18, .inc 18] = some out' ∧
      (texts out).count "cib/cib.hpp 3-35" = 1 ∧ (texts out').count "cib/cib.hpp 3-35" = 2 := by
  obtain ⟨r, h, hr⟩ := C136_violated_guard (subst := id) Repo.tidy (main := 18) (d := 96)
    (ls := [.once, .blank, .text "cib/cib.hpp 3-35", .inc 19,
      .inc 49, .inc 56, .inc 108, .inc 110, .inc 120, .inc 121, .inc 122])
    (by decide +kernel) ⟨.inc 19, by decide, rfl⟩ (by decide)
  obtain ⟨out, out', _, h2, _, h4, h5⟩ := hr (fun _ => true)
  refine ⟨r, h, out, _, h2, h4, ?_, ?_⟩
  · have : (program Repo.headers (fun _ => true) 96 [.inc 18, .inc 18]).map
      (fun o => (texts o).count "cib/cib.hpp 3-35") = some 1 := by decide +kernel
    rw [h2] at this
    simpa using this
  · have : (program Repo.headers (fun _ => true) 96 [.inc 18, .inc 18]).map
      (fun o => (texts o).count "cib/cib.hpp 3-35") = some 1 := by decide +kernel
    rw [h2] at this
    have : (texts out).count "cib/cib.hpp 3-35" = 1 := by simpa using this
    rw [texts_append, List.count_append, h5, List.map_id, this]

/-! ## Examples -/

/-- A program with text and a system header around the include. -/
example : ∃ r, release exSubst exFs 3 0 = some r ∧ ∃ oa o o' ob,
    program exFs (fun _ => true) 3 ([.text "#define X", .inc 7] ++ .inc 0 :: [.text "int main() {}"]) =
      some (oa ++ o ++ ob) ∧
    program [(0, r)] (fun _ => true) 3 ([.text "#define X", .inc 7] ++ .inc 0 :: [.text "int main() {}"]) =
      some (oa ++ o' ++ ob) ∧ texts o' = (texts o).map exSubst := by
  obtain ⟨r, h, hr⟩ := C136_once_partial (fs := exFs) (subst := exSubst) (main := 0) (d := 3)
    (tidy_of (by decide)) rfl
    ⟨[.once, .blank, .text "// ..~~VERSION~~.."], 1, _, rfl, by decide, rfl, .blank, by decide, by decide⟩
    (by decide)
  obtain ⟨oa, o, o', ob, h1, h2, _, _, h3, _⟩ := hr (fun _ => true) [.text "#define X", .inc 7]
    [.text "int main() {}"] ⟨by decide, by intro q hq; simp at hq; subst hq; decide⟩ (by decide)
    ⟨by decide, by intro q hq; simp at hq⟩ (by decide)
  exact ⟨r, h, oa, o, o', ob, h1, h2, h3⟩

end Verif.Release
