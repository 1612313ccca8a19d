import Verif.Message.Props
/-!
# C18: a history of `set` calls
-/
namespace Verif.Message
open Verif.Bits

variable {W n : Nat} {fs : List MField}

/-- What a call writes into a field: the last value given for it, or its default; nothing if the field is
not named, or is reset and has no default. -/
def SetOp.writes (f : MField) : SetOp → Option Nat
  | .values vs => lastNamed vs f.name
  | .names ns => if f.name ∈ ns then f.dflt.val? else none

/-- What a history writes into a field: what the last call did that wrote it. -/
def written (f : MField) : List SetOp → Option Nat
  | [] => none
  | op :: ops => (written f ops).or (op.writes f)

theorem named_fields {ns : List Nat} (h : setNamesOk fs ns = true) :
    ∃ gs : List MField, gs.map (·.name) = ns ∧ ∀ g ∈ gs, g ∈ fs := by
  replace h : ∀ m ∈ ns, (find fs m).isSome = true := List.all_eq_true.1 h
  induction ns with
  | nil => exact ⟨[], rfl, by simp⟩
  | cons m ms ih =>
    obtain ⟨gs, h1, h2⟩ := ih (fun m hm => h m (List.mem_cons_of_mem _ hm))
    obtain ⟨f, hf⟩ := Option.isSome_iff_exists.1 (h m (by simp))
    refine ⟨f :: gs, ?_, ?_⟩
    · rw [List.map_cons, h1]
      congr 1
      simpa using List.find?_some hf
    · intro g hg
      rcases List.mem_cons.1 hg with rfl | hg
      · exact List.mem_of_find?_eq_some hf
      · exact h2 g hg

theorem SetOp.run_writes (L : Layout W n fs) (op : SetOp) (hop : op.ok fs = true)
    (r : List (BitVec W)) (hr : r.length = n) :
    ∃ r', op.run W fs r = some r' ∧ r'.length = n ∧
      (∀ f ∈ fs, ∀ v, op.writes f = some v → get W fs r' f.name = some (v % 2 ^ f.bits)) ∧
      ∀ f ∈ fs, op.writes f = none → get W fs r' f.name = get W fs r f.name := by
  cases op with
  | values vs =>
    obtain ⟨r', h1, h2, h3, h4, _⟩ := C18_set_changes_only_named L r hr vs (setOk_names hop)
    exact ⟨r', h1, h2, h3, h4⟩
  | names ns =>
    obtain ⟨gs, rfl, hgs⟩ := named_fields hop
    obtain ⟨r', h1, h2, h3, h4⟩ := C18_set_defaults L r hr gs hgs
    have hmem : ∀ f ∈ fs, f.name ∈ gs.map (·.name) ↔ f ∈ gs := by
      intro f hf
      constructor
      · intro h
        obtain ⟨g, hg, e⟩ := List.mem_map.1 h
        have h5 := find_eq L.names (hgs g hg)
        rw [e, find_eq L.names hf] at h5
        cases h5
        exact hg
      · exact fun h => List.mem_map.2 ⟨f, h, rfl⟩
    refine ⟨r', h1, h2, fun f hf v hv => ?_, fun f hf hv => ?_⟩
    · simp only [SetOp.writes, hmem f hf] at hv
      split at hv
      · next hg => exact h3 f hg v hv
      · cases hv
    · simp only [SetOp.writes, hmem f hf] at hv
      split at hv
      · exact h4 f hf (.inr hv)
      · next hg => exact h4 f hf (.inl hg)

/-- C18: after a history of `set` calls that compile, with values or with names only, each field has what
the last call wrote that wrote it, and fields that no call wrote are as before. -/
theorem C18_history (L : Layout W n fs) (ops : List SetOp) (hops : ∀ op ∈ ops, op.ok fs = true)
    (r : List (BitVec W)) (hr : r.length = n) :
    ∃ r', runOps W fs r ops = some r' ∧ r'.length = n ∧
      (∀ f ∈ fs, ∀ v, written f ops = some v → get W fs r' f.name = some (v % 2 ^ f.bits)) ∧
      ∀ f ∈ fs, written f ops = none → get W fs r' f.name = get W fs r f.name := by
  induction ops generalizing r with
  | nil => exact ⟨r, rfl, hr, fun _ _ _ h => (by cases h), fun _ _ _ => rfl⟩
  | cons op ops ih =>
    obtain ⟨r1, h1, h2, h3, h4⟩ := op.run_writes L (hops op (by simp)) r hr
    obtain ⟨r2, k1, k2, k3, k4⟩ := ih (fun o ho => hops o (List.mem_cons_of_mem _ ho)) r1 h2
    refine ⟨r2, ?_, k2, fun f hf v hv => ?_, fun f hf hv => ?_⟩
    · rw [runOps, List.foldlM_cons, h1]
      exact k1
    · rw [written] at hv
      cases hw : written f ops with
      | some u =>
        rw [hw] at hv
        cases hv
        exact k3 f hf _ hw
      | none =>
        rw [hw, Option.none_or] at hv
        rw [k4 f hf hw]
        exact h3 f hf v hv
    · rw [written, Option.or_eq_none_iff] at hv
      rw [k4 f hf hv.1]
      exact h4 f hf hv.2

example : (construct 32 2 exFields [(2, 5)]).bind (fun r => runOps 32 exFields r
      [.values [(0, 1), (2, 9)], .names [1, 0], .values [(2, 4)]]) = some [0xA0000507#32, 4#32] ∧
    exFields.map (fun f => (f.name, written f [.values [(0, 1), (2, 9)], .names [1, 0], .values [(2, 4)]])) =
      [(0, some 7), (1, some 0xA5), (2, some 4)] := by decide +kernel

end Verif.Message
