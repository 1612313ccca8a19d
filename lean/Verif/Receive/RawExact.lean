import Verif.Receive.DefProps
/-! # Where the conditions of a definition are tested on raw storage -/
namespace Verif.Receive
open Verif.Match Verif.Message Verif.Bits

variable {N : Numbering} {env : Env} {W : Nat}

/-! ## Specification -/

/-- The field was declared with an option asking for `c`, and was `f0` before that option (or with none, and `c` is no
condition); the options after it give an initial value, a name or a place. -/
def AskedOf (N : Numbering) (f f0 : MField) (c : Cond) : Prop :=
  (∃ name t opts, f = field N name t opts ∧ (∀ o ∈ opts, o.asks = none) ∧ c = .any) ∨
  ∃ name t pre o post, f = field N name t (pre ++ o :: post) ∧ f0 = field N name t pre ∧ o.asks = some c ∧
    c.Typed (ty N f0) ∧ ∀ p ∈ post, p.isDefault = true ∨ p.renames = true ∨ p.moves = true

/-- The number at the place of the field; a field without a place is zero. -/
def heldAt (N : Numbering) (f : MField) (r : List (BitVec W)) : Int :=
  if f.fld.ats = [] then 0 else held (signed N f) f.fld r

/-- The place of the field is in the storage, or it has none. -/
def Placed (f : MField) (bits : Nat) : Prop := f.fld.ats = [] ∨ (f.fld.Legal ∧ f.fld.Within bits)

/-! ## Properties -/

theorem heldAt_value (hW : Narrow W) {f : MField} {r : List (BitVec W)} (h : Placed f (r.length * W)) :
    value N W f r = some (heldAt N f r) ∧ (ty N f).InRange (heldAt N f r) := by
  rw [heldAt]
  split
  · next h0 => exact ⟨value_unlocated f h0 r, inRange_zero _⟩
  · next h0 =>
    obtain ⟨h1, h2⟩ := h.resolve_left h0
    exact value_held hW f h1 r h2

theorem asked_cond (hW : Narrow W) {f f0 : MField} {c : Cond} (h : AskedOf N f f0 c) {r : List (BitVec W)}
    (hp : Placed f0 (r.length * W)) :
    LS (Readable N W (.raw r)) (matcher N f) ∧ PosTree (matcher N f) ∧
      (c.NotLt → eval revalLeaf (matcher N f) (seen N env W (.raw r)) = c.holds env (heldAt N f0 r)) := by
  rcases h with ⟨name, t, opts, rfl, ho, rfl⟩ | ⟨name, t, pre, o, post, rfl, rfl, ho, ht, hq⟩
  · rw [show matcher N (field N name t opts) = .always from fold_free opts _ (by simp [newField]) ho]
    exact ⟨by simp, trivial, fun _ => rfl⟩
  · have h1 := fold_quiet (N := N) post (declare N (field N name t pre) o) (fun p hp' => by
      rcases hq p hp' with h | h | h <;> simp [staysPut, keepsName, h])
    have hm : matcher N (field N name t (pre ++ o :: post)) = condMatcher N (field N name t pre) c := by
      rw [field_append]
      exact h1.1.trans (declare_asks _ o c ho)
    have hv := heldAt_value (N := N) hW hp
    rw [hm]
    exact cond_ok (by rw [extractField, hv.1]) hv.2 c ht

/-- **C88** (part) On raw storage each condition is tested at the place that the field had when the condition was given,
for every definition; a condition given before any place is tested on zero. -/
theorem C88_raw_exact (hW : Narrow W) (fs : List MField) (was : MField → MField) (cond : MField → Cond)
    (h : ∀ f ∈ fs, AskedOf N f (was f) (cond f) ∧ (cond f).NotLt) (r : List (BitVec W))
    (hp : ∀ f ∈ fs, Placed (was f) (r.length * W)) :
    accepts N env W (.raw r) (plainMatcher N fs) =
      some (fs.all fun f => (cond f).holds env (heldAt N (was f) r)) :=
  plain_accepts fs _ fun f hf =>
    have hc := asked_cond (env := env) hW (h f hf).1 (hp f hf)
    ⟨hc.1, hc.2.1, hc.2.2 (h f hf).2⟩

theorem matcher_rest {f g : MField} (h : g.rest = f.rest) : matcher N g = matcher N f := by
  simp only [matcher, h]

/-- Definitions made from others: only the conditions of the parts count, where the parts had the fields. -/
theorem composed_raw (hW : Narrow W) (out : List MField) (src : MField → Prop) (was : MField → MField)
    (cond : MField → Cond) (h1 : ∀ g ∈ out, ∃ f, src f ∧ g.rest = f.rest) (h2 : ∀ f, src f → ∃ g ∈ out, g.rest = f.rest)
    (hc : ∀ f, src f → AskedOf N f (was f) (cond f) ∧ (cond f).NotLt) (r : List (BitVec W))
    (hp : ∀ f, src f → Placed (was f) (r.length * W)) :
    accepts N env W (.raw r) (plainMatcher N out) = some true ↔
      ∀ f, src f → (cond f).holds env (heldAt N (was f) r) = true := by
  rw [plain_accepts out (fun g => eval revalLeaf (matcher N g) (seen N env W (.raw r))) (by
    intro g hg
    obtain ⟨f, hf, e⟩ := h1 g hg
    have := asked_cond (env := env) hW (hc f hf).1 (hp f hf)
    rw [matcher_rest e]
    exact ⟨this.1, this.2.1, rfl⟩)]
  simp only [Option.some.injEq, List.all_eq_true]
  constructor
  · intro h f hf
    obtain ⟨g, hg, e⟩ := h2 f hf
    rw [← (asked_cond (env := env) hW (hc f hf).1 (hp f hf)).2.2 (hc f hf).2, ← matcher_rest e]
    exact h g hg
  · intro h g hg
    obtain ⟨f, hf, e⟩ := h1 g hg
    rw [matcher_rest e, (asked_cond (env := env) hW (hc f hf).1 (hp f hf)).2.2 (hc f hf).2]
    exact h f hf

/-- **C90** (part) Raw storage of a packed definition is accepted exactly when every field of every part satisfies its
condition at the place that it had in its part, as if each part began at the first bit. -/
theorem C90_pack_raw_exact (hW : Narrow W) {A : Nat} (ms : List (List MField)) (out : List MField)
    (h : pack A ms = some out) (was : MField → MField) (cond : MField → Cond)
    (hc : ∀ m ∈ ms, ∀ f ∈ m, AskedOf N f (was f) (cond f) ∧ (cond f).NotLt) (r : List (BitVec W))
    (hp : ∀ m ∈ ms, ∀ f ∈ m, Placed (was f) (r.length * W)) :
    accepts N env W (.raw r) (plainMatcher N out) = some true ↔
      ∀ m ∈ ms, ∀ f ∈ m, (cond f).holds env (heldAt N (was f) r) = true := by
  have hmem := C20_pack_fields ms out h
  rw [composed_raw hW out (fun f => ∃ m ∈ ms, f ∈ m) was cond
    (fun g hg => by
      obtain ⟨i, m, f, hm, hf, rfl⟩ := (hmem g).1 hg
      exact ⟨f, ⟨m, List.mem_of_getElem? hm, hf⟩, rfl⟩)
    (fun f ⟨m, hm, hf⟩ => by
      obtain ⟨i, hi⟩ := List.getElem?_of_mem hm
      exact ⟨_, (hmem _).2 ⟨i, m, f, hi, hf, rfl⟩, rfl⟩)
    (fun f ⟨m, hm, hf⟩ => hc m hm f hf) r (fun f ⟨m, hm, hf⟩ => hp m hm f hf)]
  exact ⟨fun h m hm f hf => h f ⟨m, hm, hf⟩, fun h f ⟨m, hm, hf⟩ => h m hm f hf⟩

/-- **C90** (part) Raw storage of a relaxed definition is accepted exactly when every field satisfies its condition at
the place that its declaration gives; a field without a place is tested as zero, wherever it was put. -/
theorem C90_relaxed_raw_exact (hW : Narrow W) (fs out : List MField) (h : relaxed fs = some out)
    (hlf : ∀ f ∈ fs, f.fld.Legal) (was : MField → MField) (cond : MField → Cond)
    (hc : ∀ f ∈ fs, AskedOf N f (was f) (cond f) ∧ (cond f).NotLt) (r : List (BitVec W))
    (hp : ∀ f ∈ fs, Placed (was f) (r.length * W)) :
    accepts N env W (.raw r) (plainMatcher N out) = some true ↔
      ∀ f ∈ fs, (cond f).holds env (heldAt N (was f) r) = true := by
  obtain ⟨k1, k2, _, k4, k5⟩ := C21_relaxed fs out h hlf
  exact composed_raw hW out (· ∈ fs) was cond
    (fun g hg => by
      obtain ⟨f, hf, _, _, _, e4⟩ := k5 g hg
      exact ⟨f, hf, e4⟩)
    (fun f hf => by
      cases hloc : f.located with
      | true => exact ⟨f, k1 f hf hloc, rfl⟩
      | false =>
        obtain ⟨k, hk, _⟩ := k2 f hf hloc
        exact ⟨_, hk, rfl⟩)
    hc r hp

/-- The field whose place follows the condition: it was asked for 5 when it had no place. -/
example (N : Numbering) : AskedOf N (exLate N) (newField N 0 u8) (.eq 5) ∧ Placed (newField N 0 u8) 8 := by
  refine ⟨.inr ⟨0, u8, [], .equalTo 5, [.located [⟨7, 0⟩]], rfl, rfl, rfl, ?_, by simp [Opt.moves]⟩, .inl rfl⟩
  rw [typed_u8 (by simp [newField, u8]) rfl]
  show IntTy.InRange _ _; decide

/-- The parts of the pack of `C90_violated_pack_raw`. -/
example (N : Numbering) : ∀ m ∈ [[exByte N], [exReq N]], ∀ f ∈ m, ∃ f0 c, AskedOf N f f0 c ∧ c.NotLt ∧ Placed f0 16 := by
  have h1 : AskedOf N (exByte N) (exByte N) .any := .inl ⟨_, _, _, rfl, by simp [Opt.asks], rfl⟩
  have h2 : AskedOf N (exReq N) (field N 1 u8 [.located [⟨7, 0⟩]]) (.eq 5) := by
    refine .inr ⟨1, u8, [.located [⟨7, 0⟩]], .required 5, [], rfl, rfl, rfl, ?_, by simp⟩
    rw [typed_u8 (by simp [field, declare, newField, u8]) rfl]
    show IntTy.InRange _ _; decide
  have hp : Placed (field N 1 u8 [.located [⟨7, 0⟩]]) 16 := by
    refine .inr ⟨?_, ?_⟩
    · simp [field, declare, newField, u8, Fld.Legal, At.valid, At.size]
    · show (Fld.mk [⟨7, 0⟩] 8).Within 16
      unfold Fld.Within; decide
  have hp0 : Placed (exByte N) 16 := by
    refine .inr ⟨?_, ?_⟩
    · simp [exByte, field, declare, newField, u8, Fld.Legal, At.valid, At.size]
    · show (Fld.mk [⟨7, 0⟩] 8).Within 16
      unfold Fld.Within; decide
  intro m hm f hf
  simp only [List.mem_cons, List.not_mem_nil, or_false] at hm
  rcases hm with rfl | rfl
  · rw [List.mem_singleton] at hf; subst hf; exact ⟨_, _, h1, trivial, hp0⟩
  · rw [List.mem_singleton] at hf; subst hf; exact ⟨_, _, h2, trivial, hp⟩

end Verif.Receive
