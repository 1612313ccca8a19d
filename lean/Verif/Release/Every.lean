import Verif.Release.Again
/-! # Programs that include the release any number of times -/
namespace Verif.Release

variable {subst : String → String} {fs : Files}

/-- Plain lines in which all conditions are closed again. -/
def AllClosed (fs : Files) (ls : List Line) : Prop := Plain fs ls ∧ openAfter 0 ls = some 0

/-- What closed lines show, in any state without open conditions. -/
theorem closed_sees {cond : Nat → Bool} {d : Nat} {g : Files} {b : List Line} (hb : AllClosed fs b) (hg : Plain g b)
    (s : PSt) (hs : s.open_ = []) : ∃ o, program fs cond d b = some o ∧
      seeLines g cond 0 (see g cond d) b s = some (o, s) := by
  obtain ⟨o, t, b1, b2⟩ := seeLines_open (fs := fs) (cond := cond) (c := 0) (i := see fs cond d) b hb.1 hb.2 {} rfl
  have h := seeLines_plain (cond := cond) (c := 0) (c' := 0) (i := see g cond d) (i' := see fs cond d) b hg hb.1 s {} hs
  rw [b1] at h
  refine ⟨o, by rw [program, b1]; rfl, ?_⟩
  rw [h]
  cases s
  simp only at hs
  subst hs
  simp only [Option.map_some, Option.some.injEq, Prod.mk.injEq, true_and, PSt.mk.injEq, and_true]
  exact List.length_eq_zero_iff.1 b2

/-- **C136** for a program that includes the main header any number of times, not under conditions, with any lines
before, between and after: with the library it sees the text of the library once, at the first of these places; with the
release it sees the text of the release at each of them. -/
theorem C136_every (hT : Tidy fs) {main : Path} {ls : List Line}
    (hls : fs.lookup main = some ls) (hf : FirstInclude ls) {d : Nat} (hd : fs.length ≤ d) :
    ∃ r, release subst fs d main = some r ∧ ∀ cond, ∃ out out' : List Item, texts out' = (texts out).map subst ∧
      ∀ (a b : List Line) (bs : List (List Line)), (∀ x ∈ a :: b :: bs, AllClosed fs x) →
      ∃ f : List Line → List Item, (∀ x ∈ a :: b :: bs, program fs cond d x = some (f x)) ∧
        program fs cond d (a ++ (b :: bs).flatMap (.inc main :: ·)) = some (f a ++ (out ++ (f b ++ bs.flatMap f))) ∧
        program [(main, r)] cond d (a ++ (b :: bs).flatMap (.inc main :: ·)) =
          some (f a ++ (out' ++ (f b ++ bs.flatMap fun x => out' ++ f x))) := by
  have hinc : ∃ l ∈ ls, l.isInc = true := by
    obtain ⟨a, p, b, rfl, _⟩ := hf
    exact ⟨.inc p, by simp, rfl⟩
  obtain ⟨r, h, _, hr⟩ := C134_release (subst := subst) hT hls hf hd
  refine ⟨r, h, fun cond => ?_⟩
  obtain ⟨o, o', h1, h2, h3, -⟩ := hr cond
  obtain ⟨hp, out, out', s, e1, e2, e3, e4⟩ := release_reads hT hls hinc h cond
  rw [library, hls, Option.bind_some, e1] at h1
  cases h1
  rw [alone, see, show seeLines [] cond 0 (see [] cond 0) r {} = _ from e4] at h2
  cases h2
  have hd0 : 0 < d := by
    cases fs with
    | nil => simp at hls
    | cons x fs => simp only [List.length_cons] at hd; omega
  obtain ⟨k, rfl⟩ : ∃ k, d = k + 1 := ⟨d - 1, by omega⟩
  have hs := see_single (fs := fs) hls hp e4 k
  have hm : (fs.lookup main).isSome = true := by rw [hls]; rfl
  have hlive0 : ({} : PSt).live = true := rfl
  have hlive : s.live = true := by simp [PSt.live, e3]
  refine ⟨out, out', h3, fun a b bs hc => ?_⟩
  let f : List Line → List Item := fun x => (program fs cond (k + 1) x).getD []
  have hfx : ∀ x, AllClosed fs x → program fs cond (k + 1) x = some (f x) ∧
      (∀ t : PSt, t.open_ = [] → seeLines fs cond 0 (see fs cond (k + 1)) x t = some (f x, t)) ∧
      seeLines [(main, r)] cond 0 (see [(main, r)] cond (k + 1)) x {} = some (f x, {}) := by
    intro x hx
    obtain ⟨o, p1, -⟩ := closed_sees (cond := cond) (d := k + 1) hx hx.1 {} rfl
    have hfo : f x = o := by simp only [f, p1, Option.getD_some]
    refine ⟨by rw [hfo]; exact p1, fun t ht => ?_, ?_⟩
    · obtain ⟨o2, p2, p3⟩ := closed_sees (cond := cond) (d := k + 1) hx hx.1 t ht
      rw [p1] at p2
      cases p2
      rw [hfo]
      exact p3
    · obtain ⟨o2, p2, p3⟩ := closed_sees (cond := cond) (d := k + 1) hx (plain_single (r := r) hm hx.1) {} rfl
      rw [p1] at p2
      cases p2
      rw [hfo]
      exact p3
  refine ⟨f, fun x hx => (hfx x (hc x hx)).1, ?_, ?_⟩
  · have rest : ∀ l : List (List Line), (∀ x ∈ l, AllClosed fs x) →
        seeLines fs cond 0 (see fs cond (k + 1)) (l.flatMap (.inc main :: ·)) s = some (l.flatMap f, s) := by
      intro l hl
      induction l with
      | nil => rfl
      | cons x l ih =>
        have i1 := ih fun y hy => hl y (List.mem_cons_of_mem _ hy)
        have i2 := (hfx x (hl x List.mem_cons_self)).2.1 s e3
        rw [List.flatMap_cons, List.cons_append, seeLines]
        simp [seeLine, hlive, hls, e2, seeLines_append, i1, i2]
    have hr := rest bs fun x hx => hc x (by simp [hx])
    have ha := (hfx a (hc a (by simp))).2.1 {} rfl
    have hb := (hfx b (hc b (by simp))).2.1 s e3
    rw [program, seeLines_append, ha]
    simp [seeLines, seeLine, hlive0, hls, e1, seeLines_append, hb, hr]
  · have rest : ∀ l : List (List Line), (∀ x ∈ l, AllClosed fs x) →
        seeLines [(main, r)] cond 0 (see [(main, r)] cond (k + 1)) (l.flatMap (.inc main :: ·)) {} =
          some (l.flatMap (fun x => out' ++ f x), {}) := by
      intro l hl
      induction l with
      | nil => rfl
      | cons x l ih =>
        have i1 := ih fun y hy => hl y (List.mem_cons_of_mem _ hy)
        have i2 := (hfx x (hl x List.mem_cons_self)).2.2
        rw [List.flatMap_cons, List.cons_append, seeLines]
        simp [seeLine, hlive0, hs, seeLines_append, i1, i2]
    have hr := rest bs fun x hx => hc x (by simp [hx])
    have ha := (hfx a (hc a (by simp))).2.2
    have hb := (hfx b (hc b (by simp))).2.2
    rw [program, seeLines_append, ha]
    simp [seeLines, seeLine, hlive0, hs, seeLines_append, hb, hr]

/-- Lines that are closed: a system header and text under a condition. -/
example : AllClosed [(1, [])] [.inc 7, .cond 0, .text "x", .endif] := by
  refine ⟨⟨by decide, ?_⟩, by decide⟩
  intro q hq
  have : q = 7 := by simpa using hq
  subst this
  rfl

end Verif.Release
