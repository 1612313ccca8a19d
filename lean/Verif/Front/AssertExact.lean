import Verif.Front.LogProps
/-! # Which asserted expressions are reported as they should be -/
namespace Verif.Front
open Spec

variable {S : Type}

/-- **C105** (part) A failing assertion, for every expression in which the braces pair up: the panic gets the expression
as written; for each field that the expression seems to have, one argument is taken away from the extra ones. -/
theorem C105_assert_exact (c : Fixed) (s s' : Sys S) (x : Exec) (e : Str) (args : List Log.CType)
    (hc : x.call = .assert e args) (hh : x.holds = false) (ps : List Piece) (hp : ∀ p ∈ ps, p.Ok)
    (he : e = ps.flatMap Piece.render) (h : s.step c x = some s') :
    ∃ p, s'.panics = s.panics ++ [p] ∧ p.fmt = "Assertion failure: ".toList ++ e ∧
      p.args = (args.zip x.vals).take (ps.filter Piece.isField).length ∧
      p.extra = (args.zip x.vals).drop (ps.filter Piece.isField).length ∧ p.loggers = s'.loggers := by
  rw [(C105_assert c s x e args hc).2 hh] at h
  have hok : ∀ p ∈ Piece.text "Assertion failure: ".toList :: ps, p.Ok := by
    intro p hm
    rcases List.mem_cons.mp hm with rfl | hm
    · exact ⟨by decide, by decide⟩
    · exact hp p hm
  have h1 := (C105_fatal c s s' { x with call := .fatal ⟨"Assertion failure: ".toList ++ e, args⟩ }
    ⟨"Assertion failure: ".toList ++ e, args⟩ rfl (.text "Assertion failure: ".toList :: ps) hok
    (by rw [List.flatMap_cons, he]; rfl) h).1
  exact ⟨_, h1, rfl, rfl, rfl, rfl⟩

/-- **C105** (part) All arguments of a failing assertion that has some are extra exactly if the expression has no field. -/
theorem C105_extra_exact (c : Fixed) (s s' : Sys S) (x : Exec) (e : Str) (args : List Log.CType)
    (hc : x.call = .assert e args) (hh : x.holds = false) (ps : List Piece) (hp : ∀ p ∈ ps, p.Ok)
    (he : e = ps.flatMap Piece.render) (ha : args.zip x.vals ≠ []) (h : s.step c x = some s') :
    (∃ p, s'.panics = s.panics ++ [p] ∧ p.args = [] ∧ p.extra = args.zip x.vals) ↔ ∀ q ∈ ps, q.isField = false := by
  obtain ⟨p, h1, -, h2, h3, -⟩ := C105_assert_exact c s s' x e args hc hh ps hp he h
  have hl : (∀ q ∈ ps, q.isField = false) ↔ (ps.filter Piece.isField).length = 0 := by
    rw [List.length_eq_zero_iff, List.filter_eq_nil_iff]
    simp
  have hz : 0 < (args.zip x.vals).length := List.length_pos_iff.mpr ha
  rw [hl]
  constructor
  · rintro ⟨q, g1, g2, -⟩
    rw [h1] at g1
    have := List.append_cancel_left g1
    simp only [List.cons.injEq, and_true] at this
    subst this
    rw [h2] at g2
    have := congrArg List.length g2
    rw [List.length_take, List.length_nil] at this
    omega
  · intro h0
    refine ⟨p, h1, ?_, ?_⟩
    · rw [h2, h0, List.take_zero]
    · rw [h3, h0, List.drop_zero]

/-- An expression with a field and one with doubled braces only. -/
example : "a == T{1}".toList = [Piece.text "a == T".toList, .field "1".toList].flatMap Piece.render ∧
    "f({{}}) > 2".toList = [Piece.text "f(".toList, .openBrace, .closeBrace, .text ") > 2".toList].flatMap Piece.render ∧
    (exSys.step exFixed (exExec [] (.assert "a == T{1}".toList [.prim .int]) [77] 5)).isSome ∧
    (exSys.step exFixed (exExec [] (.assert "f({{}}) > 2".toList [.prim .int]) [77] 5)).isSome ∧
    (exExec [] (.assert "a == T{1}".toList [.prim .int]) [77] 5).holds = false := by decide +kernel

end Verif.Front
