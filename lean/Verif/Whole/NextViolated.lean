import Verif.Whole.NextCases
/-! # A history of two builds with a wrong line -/
namespace Verif.Whole
open Verif.Symbols (Text nmLine nmChar)
open Verif.Json (J)

/-- `INFO("{{}}")` -/
def exBr : Statement := { exUp with fmt := [.lit t!"{}"] }

noncomputable def exBrOld : Build := exBuild exHash (exInput [exBr])

def exBrEntries : List (Option Symbols.Entry) :=
  [none, some (.message (exBr.msg exNames)), some (.module exBr.modMsg)]

theorem exBrEntries_eq : (exInput [exBr]).symbols.mapM Symbols.readLine = some exBrEntries := by decide +kernel

theorem exBrOld_sound : Sound exHash coding (exInput [exBr]) where
  extras := fun y hy => (List.not_mem_nil hy).elim
  enums := by decide
  limit := by decide
  stable := by
    intro s hs es he
    rw [exBrEntries_eq] at he
    cases he
    have : s = ([], []) := by
      have h : Json.readStable (exInput [exBr]).stable = some ([], []) := by decide +kernel
      rw [h] at hs
      exact (Option.some.inj hs).symm
    subst this
    refine ⟨?_, ?_, ?_, ?_, ?_⟩
    · unfold Catalog.NoCollision; decide +kernel
    · unfold Catalog.NoCollision; decide +kernel
    · unfold Catalog.OneMessagePerId; decide +kernel
    · unfold Catalog.OneMessagePerId; decide +kernel
    · decide +kernel

theorem exBrOld_done : exBrOld.Done coding := by
  have h : (script exHash coding (exInput [exBr])).isSome = true := by decide +kernel
  exact exBuild_done h exBrOld_sound

noncomputable def exBrFile : List (Json.PyKey × J) := ((J.obj exBrOld.out.json).file.obj?).getD []

/-- The next version of the program has `INFO("down")` instead. -/
noncomputable def exBrInput : Input := { exInput [exDown] with stable := [exBrFile], reserved := [] }

noncomputable def exBrNew : Build := exBuild exHash' exBrInput

def exBrRead : List Json.Message × List Json.Module :=
  ([⟨Json.code t!"{{}}", [], 4, [], []⟩], [⟨Json.code t!"m", 0⟩])

theorem exBrRead_eq : Json.readStable [exBrFile] = some exBrRead := by decide +kernel

def exBrEntries' : List (Option Symbols.Entry) :=
  [none, some (.message (exDown.msg exNames)), some (.module exDown.modMsg)]

theorem exBrEntries'_eq : exBrInput.symbols.mapM Symbols.readLine = some exBrEntries' := by
  have h : (exInput [exDown]).symbols.mapM Symbols.readLine = some exBrEntries' := by decide +kernel
  exact h

theorem exBrNew_sound : Sound exHash' coding exBrInput where
  extras := fun y hy => (List.not_mem_nil hy).elim
  enums := by decide
  limit := by decide
  stable := by
    intro s hs es he
    rw [exBrEntries'_eq] at he
    cases he
    have : s = exBrRead := (Option.some.inj (hs.symm.trans exBrRead_eq))
    subst this
    refine ⟨?_, ?_, ?_, ?_, ?_⟩
    · unfold Catalog.NoCollision; decide +kernel
    · unfold Catalog.NoCollision; decide +kernel
    · unfold Catalog.OneMessagePerId; decide +kernel
    · unfold Catalog.OneMessagePerId; decide +kernel
    · decide +kernel

theorem exBrNew_done : exBrNew.Done coding := by
  have h : (script exHash' coding exBrInput).isSome = true := by decide +kernel
  exact exBuild_done h exBrNew_sound

theorem exBr_history : exBrOld.History coding exBrNew := by
  refine .next (.here exBrOld_done) ⟨⟨exBrFile, ?_, rfl⟩, rfl, ?_⟩ exBrNew_done
  · have h : ((J.obj exBrOld.out.json).file.obj?).isSome = true := by decide +kernel
    rw [exBrFile]
    cases hf : (J.obj exBrOld.out.json).file with
    | obj l => rfl
    | _ => rw [hf] at h; cases h
  · intro s hs es he
    rw [show exBrNew.x = exBrInput from rfl, exBrEntries'_eq] at he
    cases he
    have : s = exBrRead := (Option.some.inj (hs.symm.trans exBrRead_eq))
    subst this
    constructor <;> decide +kernel

theorem exBr_lists : Lists (exInput [exBr]) exNames [exBr] where
  messages := fun s hs => ⟨17, false, false, List.mem_cons_of_mem _ (List.mem_flatMap.2 ⟨s, hs, List.mem_cons_self⟩)⟩
  modules := fun s hs =>
    ⟨17, false, false, List.mem_cons_of_mem _ (List.mem_flatMap.2 ⟨s, hs, List.mem_cons_of_mem _ List.mem_cons_self⟩)⟩
  only := by
    intro l hl
    rcases List.mem_cons.1 hl with rfl | hl
    · exact .inr (by decide +kernel)
    · obtain ⟨s, hs, hl⟩ := List.mem_flatMap.1 hl
      refine .inl ⟨s, hs, 17, false, false, ?_⟩
      simpa using hl

theorem exBr_has : exBrOld.Has exNames exBr := by
  refine ⟨[exBr], List.mem_singleton_self _, exBr_lists, ?_, ?_⟩
  · intro a ha b hb
    rw [List.mem_singleton.1 ha, List.mem_singleton.1 hb]
    exact ⟨fun _ _ => rfl, fun _ => rfl⟩
  · intro t ht
    rw [List.mem_singleton.1 ht]
    exact ⟨⟨by simp [exBr, exUp, Statement.sym], by decide, ⟨by decide, by decide⟩, by simp [exBr, exUp, Statement.sym],
      by simp [exBr, exUp, Statement.sym]⟩, by decide, ⟨by decide, by decide⟩⟩

/-- **C167** is violated: a log of a build with `INFO("{{}}")`, shown with the JSON file of the next build (of
`INFO("down")`), has the line `{{}}` instead of `{}`. -/
theorem C167_violated_braces : ∃ (a b : Build) (s : Statement) (bs : List Nat) (line : Text),
    a.History coding b ∧ a.Has exNames s ∧ IdsFit a.out ∧
    s.record coding a.out exNames = some bs ∧ s.line b.x.enums exNames = some line ∧
    decode (J.obj b.out.json).file bs ≠ ([line], true) := by
  have h : ((exBr.record coding exBrOld.out exNames).map fun bs => decode (J.obj exBrNew.out.json).file bs) =
      some ([t!"{{}}"], true) := by decide +kernel
  obtain ⟨bs, h1, h2⟩ := Option.map_eq_some_iff.1 h
  refine ⟨exBrOld, exBrNew, exBr, bs, t!"{}", exBr_history, exBr_has, ?_, h1, by decide +kernel, ?_⟩
  · have h3 : exBrOld.out.messages.map (·.id) = [4] := by decide +kernel
    intro o ho
    have : o.id ∈ exBrOld.out.messages.map (·.id) := List.mem_map_of_mem ho
    rw [h3] at this
    simp at this
    omega
  · rw [h2]
    decide
end Verif.Whole
