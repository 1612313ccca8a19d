import Verif.Receive.DefProps
import Verif.Object.BitLemmas
/-! # C166: which messages a matcher can be used with, and what it then asks -/
namespace Verif.Receive
open Verif.Match Verif.Message Verif.Bits

variable {N : Numbering} {env : Env} {W : Nat}

/-- A field is mentioned in a matcher, in a comparison or a predicate on its value. -/
inductive Mentions (N : Numbering) (f : MField) : M RLeaf → Prop where
  | rel {op g v} : N.fieldOf g.name = some f → Mentions N f (.leaf (.rel op g v))
  | pred {i p} : N.predOf i = some (.field f p) → Mentions N f (.leaf (.pred i))
  | not {m} : Mentions N f m → Mentions N f (.not m)
  | andL {l r} : Mentions N f l → Mentions N f (.and l r)
  | andR {l r} : Mentions N f r → Mentions N f (.and l r)
  | orL {l r} : Mentions N f l → Mentions N f (.or l r)
  | orR {l r} : Mentions N f r → Mentions N f (.or l r)

/-- Every comparison is on a field, every predicate is one that was given. -/
def Known (N : Numbering) : M RLeaf → Prop
  | .always | .never => True
  | .leaf (.rel _ g _) => ∃ f, N.fieldOf g.name = some f
  | .leaf (.pred i) => ∃ p, N.predOf i = some p
  | .not m => Known N m
  | .and l r | .or l r => Known N l ∧ Known N r

/-- What a matcher says when fields have the values `look`. -/
def verdict (N : Numbering) (env : Env) (look : MField → Int) : M RLeaf → Bool
  | .always => true
  | .never => false
  | .leaf (.rel op g v) => ((N.fieldOf g.name).map fun f => op.app (look f) v).getD false
  | .leaf (.pred i) => ((N.predOf i).map fun
      | .field f p => env.fieldPred p (look f)
      | .cond k => env.cond k).getD false
  | .not m => !verdict N env look m
  | .and l r => verdict N env look l && verdict N env look r
  | .or l r => verdict N env look l || verdict N env look r

theorem mem_fieldsOf (m : M RLeaf) (f : MField) : f ∈ fieldsOf N m ↔ Mentions N f m := by
  induction m with
  | always => exact ⟨fun h => (by cases h), fun h => (by cases h)⟩
  | never => exact ⟨fun h => (by cases h), fun h => (by cases h)⟩
  | leaf a =>
    cases a with
    | rel op g v =>
      simp only [fieldsOf, Option.mem_toList, Option.mem_def]
      exact ⟨.rel, fun h => by cases h; assumption⟩
    | pred i =>
      simp only [fieldsOf]
      constructor
      · intro h
        split at h
        · next f' p hp => rw [List.mem_singleton] at h; subst h; exact .pred hp
        · cases h
      · intro h
        cases h with
        | pred hp => rw [hp]; exact List.mem_singleton.2 rfl
  | not m ih => rw [fieldsOf, ih]; exact ⟨.not, fun h => by cases h; assumption⟩
  | and l r ihl ihr =>
    rw [fieldsOf, List.mem_append, ihl, ihr]
    exact ⟨fun h => h.elim .andL .andR, fun h => by cases h with | andL h => exact .inl h | andR h => exact .inr h⟩
  | or l r ihl ihr =>
    rw [fieldsOf, List.mem_append, ihl, ihr]
    exact ⟨fun h => h.elim .orL .orR, fun h => by cases h with | orL h => exact .inl h | orR h => exact .inr h⟩

/-- **C166**: a matcher can be used with a message object exactly when the message has a field for each name
that the matcher mentions anywhere. -/
theorem C166_compiles (fs : List MField) (r : List (BitVec W)) (m : M RLeaf) :
    compiles N (.msg fs r) m = true ↔ ∀ f, Mentions N f m → ∃ g ∈ fs, g.name = f.name := by
  simp only [compiles, List.all_eq_true, mem_fieldsOf]
  refine forall_congr' fun f => imp_congr_right fun _ => ?_
  simp [find, List.find?_isSome]

/-- It can be used with every raw storage. -/
theorem C166_raw (r : List (BitVec W)) (m : M RLeaf) : compiles N (.raw r) m = true := rfl

theorem evalM_verdict (d : Data W) (look : MField → Int) (m : M RLeaf) (hk : Known N m)
    (h : ∀ f, Mentions N f m → extractField N W d f = some (look f)) : evalM N env W d m = some (verdict N env look m) := by
  induction m with
  | always => rfl
  | never => rfl
  | leaf a =>
    cases a with
    | rel op g v =>
      obtain ⟨f, hf⟩ := hk
      simp only [evalM, evalLeaf, verdict, hf, Option.bind_some, h f (.rel hf), Option.map_some, Option.getD_some]
    | pred i =>
      obtain ⟨p, hp⟩ := hk
      cases p with
      | field f p => simp only [evalM, evalLeaf, verdict, hp, h f (.pred hp), Option.map_some, Option.getD_some]
      | cond k => simp only [evalM, evalLeaf, verdict, hp, Option.map_some, Option.getD_some]
  | not m ih => rw [evalM, ih hk fun f hf => h f (.not hf)]; rfl
  | and l r ihl ihr =>
    rw [evalM, ihl hk.1 fun f hf => h f (.andL hf), ihr hk.2 fun f hf => h f (.andR hf), Option.bind_some, verdict]
    cases verdict N env look l <;> simp
  | or l r ihl ihr =>
    rw [evalM, ihl hk.1 fun f hf => h f (.orL hf), ihr hk.2 fun f hf => h f (.orR hf), Option.bind_some, verdict]
    cases verdict N env look l <;> simp

/-- **C166**: it then has an answer for every content, the one of the formula on the values of the message's
own fields of those names. -/
theorem C166_answer (hW : Narrow W) (fs : List MField) (r : List (BitVec W)) (m : M RLeaf) (hk : Known N m)
    (hc : ∀ f, Mentions N f m → ∃ g ∈ fs, g.name = f.name)
    (hl : ∀ g ∈ fs, g.fld.Legal ∧ g.fld.Within (r.length * W)) :
    accepts N env W (.msg fs r) m = some (verdict N env (fun f => heldBy N fs r f.name) m) := by
  rw [accepts, if_pos ((C166_compiles fs r m).2 hc)]
  refine evalM_verdict _ _ m hk fun f hf => ?_
  obtain ⟨g, hg, he⟩ := hc f hf
  have e : (fs.find? fun g => g.name == f.name) = fs.find? fun g => decide (g.name = f.name) := by
    congr 1
  simp only [extractField, find, heldBy, e]
  cases h : fs.find? fun g => decide (g.name = f.name) with
  | none => exact absurd (List.find?_eq_none.1 h g hg) (by simp [he])
  | some g' =>
    have hg' := List.mem_of_find?_eq_some h
    exact (value_held hW g' (hl g' hg').1 r (hl g' hg').2).1

/-- **C166**: on raw storage, the one of the formula on the bits where the mentioned fields are. -/
theorem C166_raw_answer (hW : Narrow W) (r : List (BitVec W)) (m : M RLeaf) (hk : Known N m)
    (hl : ∀ f, Mentions N f m → f.fld.Legal ∧ f.fld.Within (r.length * W)) :
    accepts N env W (.raw r) m = some (verdict N env (fun f => held (signed N f) f.fld r) m) := by
  rw [accepts, if_pos (C166_raw r m)]
  refine evalM_verdict _ _ m hk fun f hf => ?_
  exact (value_held hW f (hl f hf).1 r (hl f hf).2).1

/-- A negated comparison on a field that the message lacks. -/
example (N : Numbering) (r : List (BitVec 8)) : compiles N (.msg [exByte N] r)
    (.not (.leaf (.rel .eq (toField N (exReq N)) 5))) = false ∧
    compiles N (.msg [exReq N, exByte N] r) (.not (.leaf (.rel .eq (toField N (exReq N)) 5))) = true := by
  constructor
  · rw [← Bool.not_eq_true, C166_compiles]
    intro h
    obtain ⟨g, hg, he⟩ := h (exReq N) (.not (.rel (N.field_ok _)))
    rw [List.mem_singleton] at hg
    subst hg
    revert he
    simp [exByte, exReq, field, declare, newField, setMatcher]
  · rw [C166_compiles]
    intro f h
    cases h with
    | not h => cases h with
      | rel h =>
        rw [toField, N.field_ok] at h
        cases h
        exact ⟨_, List.mem_cons_self, rfl⟩

end Verif.Receive
