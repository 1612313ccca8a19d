import Verif.Front.Spec

/-! # Where log environments hold (C102) -/
namespace Verif.Front
open Spec

/-! ## Helpers -/

theorem visible_skip (p : Code) : ∀ n t, visible (n + 1) ((toks p).reverse ++ t) = visible (n + 1) t := by
  induction p with
  | done => intro n t; rfl
  | env ss rest ih => intro n t; simp [toks, ih, visible]
  | call c rest ih => intro n t; simp [toks, ih, visible]
  | block body rest ihb ihr => intro n t; simp [toks, ihb, ihr, visible]
  | withEnv ss body rest ihb ihr => intro n t; simp [toks, ihb, ihr, visible]

theorem sameBlock_skip (p : Code) :
    ∀ n t, sameBlock (n + 1) ((toks p).reverse ++ t) = sameBlock (n + 1) t := by
  induction p with
  | done => intro n t; rfl
  | env ss rest ih => intro n t; simp [toks, ih, sameBlock]
  | call c rest ih => intro n t; simp [toks, ih, sameBlock]
  | block body rest ihb ihr => intro n t; simp [toks, ihb, ihr, sameBlock]
  | withEnv ss body rest ihb ihr => intro n t; simp [toks, ihb, ihr, sameBlock]

theorem callsFrom_append (t u : List Tok) : ∀ before,
    callsFrom before (t ++ u) = callsFrom before t ++ callsFrom (t.reverse ++ before) u := by
  induction t with
  | nil => intro _; rfl
  | cons x t ih => intro before; cases x <;> simp [callsFrom, ih]

theorem sites_calls (e : Env) (p : Code) : ∀ d before ss, d = sameBlock 0 before →
    sites d ((visible 0 before).flatten ++ e) p = some ss →
    ss = (callsFrom before (toks p)).map fun c => (c.1.flatten ++ e, c.2) := by
  induction p with
  | done => intro d before ss _ h; simpa [sites, toks, callsFrom] using h.symm
  | env qs rest ih =>
    intro d before ss hd h
    rw [sites] at h
    split at h
    · exact absurd h (by simp)
    · rw [toks, callsFrom]
      · exact ih true (.decl qs :: before) ss rfl (by rw [visible]; simpa using h)
      · intro c hc; cases hc
  | call c rest ih =>
    intro d before ss hd h
    rw [sites] at h
    split at h
    · obtain ⟨ts, ht, rfl⟩ := Option.map_eq_some_iff.mp h
      rw [toks, callsFrom, List.map_cons]
      rw [ih d (.call c :: before) ts (by rw [hd]; rfl) (by rw [visible]; exact ht)]
    · exact absurd h (by simp)
  | block body rest ihb ihr =>
    intro d before ss hd h
    simp only [sites, bind, Option.bind_eq_some_iff, pure, Option.some.injEq] at h
    obtain ⟨bs, hb, rs, hr, rfl⟩ := h
    rw [toks, callsFrom, callsFrom_append, callsFrom, List.map_append]
    · congr 1
      · exact ihb false (.open :: before) bs rfl (by rw [visible]; exact hb)
      · refine ihr d _ rs ?_ ?_
        · rw [sameBlock, sameBlock_skip, sameBlock]; exact hd
        · rw [visible, visible_skip, visible]; exact hr
    all_goals (intro c hc; cases hc)
  | withEnv qs body rest ihb ihr =>
    intro d before ss hd h
    simp only [sites, bind, Option.bind_eq_some_iff, pure, Option.some.injEq] at h
    obtain ⟨bs, hb, rs, hr, rfl⟩ := h
    rw [toks, callsFrom, callsFrom, callsFrom_append, callsFrom, List.map_append]
    · congr 1
      · exact ihb true (.decl qs :: .open :: before) bs rfl (by rw [visible, visible]; simpa using hb)
      · refine ihr d _ rs ?_ ?_
        · rw [sameBlock, sameBlock_skip, sameBlock, sameBlock]; exact hd
        · rw [visible, visible_skip, visible, visible]; exact hr
    all_goals (intro c hc; cases hc)

theorem split_cons {α : Type} {P : List α → α → List α → Prop} (x : α) (t : List α) :
    (∀ pre y post, x :: t = pre ++ y :: post → P pre y post) ↔
      P [] x t ∧ ∀ pre y post, t = pre ++ y :: post → P (x :: pre) y post := by
  constructor
  · intro h
    exact ⟨h [] x t rfl, fun pre y post e => h (x :: pre) y post (by rw [e]; rfl)⟩
  · rintro ⟨h0, h1⟩ pre y post e
    cases pre with
    | nil => cases e; exact h0
    | cons z pre => cases e; exact h1 pre y post rfl

/-- What a place asks of the text before it. -/
def fine (e : Env) (before : List Tok) : Tok → Prop
  | .decl _ => sameBlock 0 before = false
  | .call c => c.compiles ((visible 0 before).flatten ++ e) = true
  | _ => True

theorem split_append {α : Type} {P : List α → α → List α → Prop} (t u : List α) :
    (∀ pre y post, t ++ u = pre ++ y :: post → P pre y post) ↔
      (∀ pre y post, t = pre ++ y :: post → P pre y (post ++ u)) ∧
      ∀ pre y post, u = pre ++ y :: post → P (t ++ pre) y post := by
  induction t generalizing P with
  | nil => simp
  | cons x t ih =>
    rw [List.cons_append, split_cons, split_cons (P := fun a b c => P a b (c ++ u)), ih]
    simp only [List.cons_append, and_assoc]

theorem sites_isSome (e : Env) (p : Code) : ∀ d before, d = sameBlock 0 before →
    ((sites d ((visible 0 before).flatten ++ e) p).isSome ↔
      ∀ pre x post, toks p = pre ++ x :: post → fine e (pre.reverse ++ before) x) := by
  induction p with
  | done => intro d before _; simp [sites, toks]
  | env qs rest ih =>
    intro d before hd
    rw [sites, toks, split_cons (P := fun pre x _ => fine e (pre.reverse ++ before) x)]
    have := ih true (.decl qs :: before) rfl
    rw [visible, List.flatten_cons, List.append_assoc] at this
    simp only [List.reverse_cons, List.append_assoc, List.singleton_append, List.reverse_nil,
      List.nil_append]
    rw [← this, fine, ← hd]
    cases d <;> simp
  | call c rest ih =>
    intro d before hd
    rw [sites, toks, split_cons (P := fun pre x _ => fine e (pre.reverse ++ before) x)]
    have := ih d (.call c :: before) (by rw [hd]; rfl)
    rw [visible] at this
    simp only [List.reverse_cons, List.append_assoc, List.singleton_append, List.reverse_nil,
      List.nil_append]
    rw [← this, fine]
    split <;> simp_all
  | block body rest ihb ihr =>
    intro d before hd
    have hb := ihb false (.open :: before) rfl
    have hr := ihr d (.close :: ((toks body).reverse ++ .open :: before))
      (by rw [sameBlock, sameBlock_skip, sameBlock]; exact hd)
    rw [visible] at hb
    rw [visible, visible_skip, visible] at hr
    rw [toks, split_cons (P := fun pre x _ => fine e (pre.reverse ++ before) x),
      split_append (P := fun pre x _ => fine e ((Tok.open :: pre).reverse ++ before) x),
      split_cons (P := fun pre x _ => fine e ((Tok.open :: (toks body ++ pre)).reverse ++ before) x)]
    simp only [List.reverse_cons, List.append_assoc, List.singleton_append, List.reverse_nil,
      List.nil_append, List.reverse_append, List.cons_append]
    rw [← hb, ← hr]
    simp only [fine, true_and, sites, bind, pure]
    cases sites false ((visible 0 before).flatten ++ e) body <;>
      cases sites d ((visible 0 before).flatten ++ e) rest <;> simp
  | withEnv qs body rest ihb ihr =>
    intro d before hd
    have hb := ihb true (.decl qs :: .open :: before) rfl
    have hr := ihr d (.close :: ((toks body).reverse ++ .decl qs :: .open :: before))
      (by rw [sameBlock, sameBlock_skip, sameBlock, sameBlock]; exact hd)
    rw [visible, visible, List.flatten_cons, List.append_assoc] at hb
    rw [visible, visible_skip, visible, visible] at hr
    rw [toks, split_cons (P := fun pre x _ => fine e (pre.reverse ++ before) x),
      split_cons (P := fun pre x _ => fine e ((Tok.open :: pre).reverse ++ before) x),
      split_append (P := fun pre x _ => fine e ((Tok.open :: Tok.decl qs :: pre).reverse ++ before) x),
      split_cons (P := fun pre x _ =>
        fine e ((Tok.open :: Tok.decl qs :: (toks body ++ pre)).reverse ++ before) x)]
    simp only [List.reverse_cons, List.append_assoc, List.singleton_append, List.reverse_nil,
      List.nil_append, List.reverse_append, List.cons_append]
    rw [← hb, ← hr]
    simp only [fine, true_and, sites, bind, pure, sameBlock]
    cases sites true (qs ++ ((visible 0 before).flatten ++ e)) body <;>
      cases sites d ((visible 0 before).flatten ++ e) rest <;> simp

theorem ask_append {α : Type} (q : Setting → Option α) (d e : Env) :
    ask q (d ++ e) = (ask q d).or (ask q e) := by
  simp [ask, List.filterMap_append, List.head?_append]

theorem ask_none {α : Type} (q : Setting → Option α) (d : Env) : ask q d = none ↔ ∀ s ∈ d, q s = none := by
  simp [ask]

theorem findSome?_ask {α : Type} (q : Setting → Option α) (e : Env) : e.findSome? q = ask q e := by
  induction e with
  | nil => rfl
  | cons s e ih =>
    rw [List.findSome?_cons, ask, List.filterMap_cons, ih]
    cases q s <;> rfl

theorem getLevel_eq (e : Env) : getLevel e = ask level? e := findSome?_ask level? e
theorem getModule_eq (e : Env) : getModule e = (ask module? e).getD "default".toList := by
  rw [getModule, ← findSome?_ask]; rfl
theorem getFlavor_eq (e : Env) : getFlavor e = (ask flavor? e).getD none := by
  rw [getFlavor, ← findSome?_ask]; rfl
theorem getUnit_eq (e : Env) : getUnit e = ask unit? e := findSome?_ask unit? e
theorem getWriter_eq (e : Env) : getWriter e = ask writer? e := findSome?_ask writer? e

theorem ask_flatten {α : Type} (q : Setting → Option α) (ds : List (List Setting)) (a : α) :
    ask q ds.flatten = some a ↔ Nearest q ds a := by
  induction ds with
  | nil => simp [ask, Nearest]
  | cons d ds ih =>
    rw [List.flatten_cons, ask_append]
    constructor
    · intro h
      cases hd : ask q d with
      | some b =>
        rw [hd] at h
        cases h
        exact ⟨[], d, ds, rfl, by simp, hd⟩
      | none =>
        rw [hd, Option.none_or, ih] at h
        obtain ⟨p, d', r, rfl, hp, ha⟩ := h
        refine ⟨d :: p, d', r, rfl, ?_, ha⟩
        intro x hx
        rcases List.mem_cons.mp hx with rfl | hx
        · exact (ask_none q x).mp hd
        · exact hp x hx
    · rintro ⟨p, d', r, e, hp, ha⟩
      cases p with
      | nil => cases e; rw [ha]; rfl
      | cons x p =>
        cases e
        rw [(ask_none q _).mpr (hp _ List.mem_cons_self), Option.none_or, ih]
        exact ⟨p, d', r, rfl, fun y hy => hp y (List.mem_cons_of_mem _ hy), ha⟩

/-! ## C102 -/

/-- The log statements of code that compiles stand in it in the order of the text, and each of them sees
the declarations before it in the blocks that are still open, the nearest first, then those around the
code. -/
theorem C102_scope (e : Env) (p : Code) (ss : List (Env × Call)) (h : sites false e p = some ss) :
    ss = (callsFrom [] (toks p)).map fun c => (c.1.flatten ++ e, c.2) :=
  sites_calls e p false [] ss rfl (by rw [visible]; exact h)

/-- The level, the module, the flavor, the unit and the writer of a statement are those of the nearest
declaration that gives one. -/
theorem C102_nearest (ds : List (List Setting)) (x : Nat) (m : Str) (f : Option Nat) :
    (getLevel ds.flatten = some x ↔ Nearest level? ds x) ∧
    (getUnit ds.flatten = some x ↔ Nearest unit? ds x) ∧
    (getWriter ds.flatten = some x ↔ Nearest writer? ds x) ∧
    (getModule ds.flatten = m ↔
      Nearest module? ds m ∨ (∀ d ∈ ds, ∀ s ∈ d, module? s = none) ∧ m = "default".toList) ∧
    (getFlavor ds.flatten = f ↔ Nearest flavor? ds f ∨ (∀ d ∈ ds, ∀ s ∈ d, flavor? s = none) ∧ f = none) := by
  have key : ∀ {α : Type} (q : Setting → Option α) (a b : α), (ask q ds.flatten).getD b = a ↔
      Nearest q ds a ∨ (∀ d ∈ ds, ∀ s ∈ d, q s = none) ∧ a = b := by
    intro α q a b
    rw [← ask_flatten]
    have hn := ask_none q ds.flatten
    rw [List.forall_mem_flatten] at hn
    cases h : ask q ds.flatten with
    | none =>
      have h0 := (h ▸ hn).mp rfl
      simp only [Option.getD_none, reduceCtorEq, false_or]
      exact ⟨fun e => ⟨h0, e.symm⟩, fun e => e.2.symm⟩
    | some v =>
      rw [h] at hn
      simp only [Option.getD_some, Option.some.injEq]
      constructor
      · exact Or.inl
      · rintro (h1 | ⟨h1, -⟩)
        · exact h1
        · exact absurd (hn.mpr h1) (by simp)
  rw [getLevel_eq, getUnit_eq, getWriter_eq, getModule_eq, getFlavor_eq, ask_flatten, ask_flatten,
    ask_flatten]
  exact ⟨Iff.rfl, Iff.rfl, Iff.rfl, key _ _ _, key _ _ _⟩

/-- Code compiles exactly when no block has two declarations (the one of `CIB_WITH_LOG_ENV` counts for the
block after it) and every statement compiles with what it sees. -/
theorem C102_compiles (e : Env) (p : Code) : (sites false e p).isSome ↔
    (∀ pre ss post, toks p = pre ++ .decl ss :: post → sameBlock 0 pre.reverse = false) ∧
    ∀ pre c post, toks p = pre ++ .call c :: post →
      c.compiles ((visible 0 pre.reverse).flatten ++ e) = true := by
  have := sites_isSome e p false [] rfl
  rw [visible] at this
  simp only [List.flatten_nil, List.nil_append, List.append_nil] at this
  rw [this]
  constructor
  · intro h
    exact ⟨fun pre ss post he => h pre _ post he, fun pre c post he => h pre _ post he⟩
  · rintro ⟨h1, h2⟩ pre x post he
    cases x with
    | decl ss => exact h1 pre ss post he
    | call c => exact h2 pre c post he
    | «open» => trivial
    | close => trivial

theorem specs_text (s t : Str) (h : '{' ∉ s) : specs (s ++ t) = specs t := by
  induction s with
  | nil => rfl
  | cons a s ih =>
    have ha : a ≠ '{' := fun e => h (by rw [e]; exact List.mem_cons_self)
    rw [List.cons_append, specs, ih fun h' => h (List.mem_cons_of_mem _ h')]
    · intro x hx; exact absurd hx ha
    · intro hx; exact absurd hx ha

theorem specs_pieces (ps : List Piece) (h : ∀ p ∈ ps, p.Ok) :
    specs (ps.flatMap Piece.render) = (ps.filter Piece.isField).length := by
  induction ps with
  | nil => rfl
  | cons p ps ih =>
    have ih := ih fun q hq => h q (List.mem_cons_of_mem _ hq)
    have hp := h p List.mem_cons_self
    rw [List.flatMap_cons, List.filter_cons]
    cases p with
    | text s => rw [Piece.render, specs_text s _ hp.1, ih]; rfl
    | openBrace =>
      rw [Piece.render, List.cons_append, List.cons_append, specs, List.nil_append, ih]; rfl
    | closeBrace =>
      rw [Piece.render, specs_text _ _ (by decide), ih]; rfl
    | field s =>
      have h2 : specs ((s ++ ['}']) ++ ps.flatMap Piece.render) = specs (ps.flatMap Piece.render) :=
        specs_text _ _ (by
          simp only [List.mem_append, List.mem_singleton, not_or]
          exact ⟨hp.1, by decide⟩)
      rw [Piece.render, List.cons_append, List.cons_append, specs]
      · rw [h2, ih]; rfl
      · intro t ht
        cases s with
        | nil => cases ht
        | cons a s =>
          cases ht
          exact hp.1 List.mem_cons_self

/-- What a statement needs to compile: `CIB_LOG` a level among the declarations that it sees, a fatal error an
argument for every field of its text, an assertion one for every field of its expression; the others
nothing. -/
theorem C102_needs (e : Env) (ps : List Piece) (hp : ∀ p ∈ ps, p.Ok) (m : Msg) (l : Nat) (f : Option Nat)
    (args : List Log.CType) :
    ((Call.log m).compiles e ↔ ∃ l, Setting.level l ∈ e) ∧
    (Call.atLevel l m).compiles e ∧ (Call.version f).compiles e ∧
    ((Call.fatal ⟨ps.flatMap Piece.render, args⟩).compiles e ↔
      (ps.filter Piece.isField).length ≤ args.length) ∧
    ((Call.assert (ps.flatMap Piece.render) args).compiles e ↔
      (ps.filter Piece.isField).length ≤ args.length) := by
  refine ⟨?_, rfl, rfl, ?_, ?_⟩
  · rw [Call.compiles, getLevel_eq]
    constructor
    · intro h
      obtain ⟨a, ha⟩ := Option.isSome_iff_exists.mp h
      rw [ask] at ha
      have := List.mem_of_mem_head? ha
      obtain ⟨s, hs, h2⟩ := List.mem_filterMap.mp this
      cases s <;> cases h2
      exact ⟨_, hs⟩
    · rintro ⟨l, hl⟩
      cases h : ask level? e with
      | some _ => rfl
      | none => cases (ask_none level? e).mp h _ hl
  · simp only [Call.compiles, specs_pieces ps hp, decide_eq_true_eq]
  · have h : specs (assertText (ps.flatMap Piece.render)) = (ps.filter Piece.isField).length := by
      have hn : '{' ∉ "Assertion failure: ".toList := by decide +kernel
      unfold assertText
      generalize "Assertion failure: ".toList = a at hn
      rw [specs_text a _ hn, specs_pieces ps hp]
    rw [Call.compiles, h, decide_eq_true_eq]

example : "bad {{{}}} {}".toList =
      [Piece.text "bad ".toList, .openBrace, .field [], .closeBrace, .text " ".toList, .field []].flatMap Piece.render ∧
    (Call.fatal ⟨"bad {{{}}} {}".toList, [.prim .int, .prim .int]⟩).compiles [] ∧
    ¬ (Call.fatal ⟨"bad {{{}}} {}".toList, [.prim .int]⟩).compiles [] :=
  ⟨by decide +kernel, by decide +kernel, by decide +kernel⟩

/-- A declaration in a block has no effect on what stands after the block. -/
theorem C102_outside (e : Env) (body rest : Code) (ss : List (Env × Call))
    (h : sites false e (.block body rest) = some ss) :
    ∃ a b, ss = a ++ b ∧ sites false e body = some a ∧ sites false e rest = some b := by
  simp only [sites, bind, Option.bind_eq_some_iff, pure, Option.some.injEq] at h
  obtain ⟨a, ha, b, hb, rfl⟩ := h
  exact ⟨a, b, rfl, ha, hb⟩

/-- A namespace with a module; a function with its own level and module, a block with another one, and a
statement after it. -/
def exCode : Code :=
  .env [.module "ns".toList]
    (.block (.env [.level 4, .module "fn".toList]
      (.call (.log ⟨"one".toList, []⟩)
      (.block (.env [.module "inner".toList, .unit 3] (.call (.log ⟨"two".toList, []⟩) .done))
      (.withEnv [.level 2] (.call (.log ⟨"three".toList, []⟩) .done)
      (.call (.log ⟨"four".toList, []⟩) .done)))))
    (.call (.atLevel 3 ⟨"five".toList, []⟩) .done))

example : (sites false [] exCode).map (fun ss => ss.map fun s => (getLevel s.1, getModule s.1, getUnit s.1)) =
    some [(some 4, "fn".toList, none), (some 4, "inner".toList, some 3), (some 2, "fn".toList, none),
      (some 4, "fn".toList, none), (none, "ns".toList, none)] := by decide +kernel

example : sites false [] (.env [.level 4] (.env [.level 5] .done)) = none ∧
    sites false [] (.withEnv [.level 4] (.env [.level 5] .done) .done) = none ∧
    (sites false [] (.withEnv [.level 4] (.block (.env [.level 5] .done) .done) .done)).isSome ∧
    sites false [] (.call (.log ⟨[], []⟩) .done) = none := by decide +kernel

end Verif.Front
