import Verif.Whole.Cases
import Verif.Whole.Next
/-! # A history of two builds -/
namespace Verif.Whole
open Verif.Symbols (Text nmLine nmChar)
open Verif.Json (J)

/-- A build, if the script succeeds. -/
noncomputable def exBuild (hash : Catalog.Text → Nat) (x : Input) : Build :=
  ⟨hash, x, (script hash coding x).getD ⟨[], [], []⟩⟩

theorem exBuild_done {hash : Catalog.Text → Nat} {x : Input} (h : (script hash coding x).isSome = true)
    (hs : Sound hash coding x) : (exBuild hash x).Done coding := by
  obtain ⟨o, ho⟩ := Option.isSome_iff_exists.1 h
  refine ⟨?_, hs⟩
  simp only [exBuild, ho, Option.getD_some]

/-- The build of `INFO("up")` and `ERROR("{{x}}={} {:04x}", Color::BLUE, -5)`. -/
noncomputable def exOld : Build :=
  exBuild exHash (exInput [exUp, exX])

/-- `INFO("down")` -/
def exDown : Statement := { exUp with fmt := [.lit t!"down"] }

/-- Another hash. -/
def exHash' (t : Catalog.Text) : Nat := 2 * exHash t + 1

noncomputable def exFile : List (Json.PyKey × J) :=
  ((J.obj exOld.out.json).file.obj?).getD []

/-- The next version of the program does not have the first statement any more, but `INFO("down")`. -/
noncomputable def exNewInput : Input := { exInput [exDown, exX] with stable := [exFile], reserved := [] }

noncomputable def exNew : Build :=
  exBuild exHash' exNewInput

theorem exOld_done : exOld.Done coding := by
  have h : (script exHash coding (exInput [exUp, exX])).isSome = true := by decide +kernel
  exact exBuild_done h ex_sound

/-- What the second build reads. -/
def exRead : List Json.Message × List Json.Module :=
  ([⟨Json.code t!"up", [], 4, [], []⟩,
    ⟨Json.code t!"{{x}}={} {:04x}", [Json.code t!"encode_enum<Color, unsigned char, 4>", Json.code t!"encode_32<int>"], 5, [], []⟩],
   [⟨Json.code t!"m", 0⟩])

theorem exRead_eq : Json.readStable [exFile] = some exRead := by decide +kernel

def exEntries' : List (Option Symbols.Entry) :=
  [none, some (.message (exDown.msg exNames)), some (.module exDown.modMsg), some (.message (exX.msg exNames)),
    some (.module exX.modMsg)]

theorem exEntries'_eq : exNewInput.symbols.mapM Symbols.readLine = some exEntries' := by
  have h : (exInput [exDown, exX]).symbols.mapM Symbols.readLine = some exEntries' := by decide +kernel
  exact h

theorem exNew_sound : Sound exHash' coding exNewInput where
  extras := fun y hy => (List.not_mem_nil hy).elim
  enums := by decide
  limit := by decide
  stable := by
    intro s hs es he
    rw [exEntries'_eq] at he
    cases he
    have : s = exRead := (Option.some.inj (hs.symm.trans exRead_eq))
    subst this
    refine ⟨?_, ?_, ?_, ?_, ?_⟩
    · unfold Catalog.NoCollision; decide +kernel
    · unfold Catalog.NoCollision; decide +kernel
    · unfold Catalog.OneMessagePerId; decide +kernel
    · unfold Catalog.OneMessagePerId; decide +kernel
    · decide +kernel

theorem exNew_done : exNew.Done coding := by
  have h : (script exHash' coding exNewInput).isSome = true := by decide +kernel
  exact exBuild_done h exNew_sound

theorem ex_history : exOld.History coding exNew := by
  refine .next (.here exOld_done) ⟨⟨exFile, ?_, rfl⟩, rfl, ?_⟩ exNew_done
  · have h : ((J.obj exOld.out.json).file.obj?).isSome = true := by decide +kernel
    rw [exFile]
    cases hf : (J.obj exOld.out.json).file with
    | obj l => rfl
    | _ => rw [hf] at h; cases h
  · intro s hs es he
    rw [show exNew.x = exNewInput from rfl, exEntries'_eq] at he
    cases he
    have : s = exRead := (Option.some.inj (hs.symm.trans exRead_eq))
    subst this
    constructor <;> decide +kernel

/-- The ids: those of the first build are kept, the new message has an id of its own. -/
example : exOld.out.messages.map (fun o => (o.text, o.id)) =
      [(Json.code t!"up", 4), (Json.code t!"{{x}}={} {:04x}", 5)] ∧
    exNew.out.messages.map (fun o => (o.text, o.id)) =
      [(Json.code t!"down", 0), (Json.code t!"{{x}}={} {:04x}", 5)] := by decide +kernel

/-- A log of both programs. -/
def exLog : List (Bool × Statement) := [(false, exUp), (false, exX), (true, exDown), (false, exUp), (true, exX)]

example : ((exLog.mapM fun (p : Bool × Statement) => p.2.record coding (if p.1 then exNew else exOld).out exNames).map fun bss =>
    decode (J.obj exNew.out.json).file bss.flatten) =
      some ([t!"up", t!"ERROR [m] {x}=BLUE -005", t!"down", t!"up", t!"ERROR [m] {x}=BLUE -005"], true) := by decide +kernel

theorem ex_oneType (s : Statement) (hs : s.fmt ≠ exX.fmt) (h1 : chars (Render.fmtText s.fmt) ≠ chars (Render.fmtText exX.fmt))
    (h2 : s.mod = exX.mod) : OneType exNames [s, exX] := by
  intro a ha b hb
  simp at ha hb
  rcases ha with rfl | rfl <;> rcases hb with rfl | rfl
  · exact ⟨fun _ _ => rfl, fun _ => rfl⟩
  · exact ⟨fun h => absurd h h1, fun _ => h2⟩
  · exact ⟨fun h => absurd h.symm h1, fun _ => h2.symm⟩
  · exact ⟨fun _ _ => rfl, fun _ => rfl⟩

/-- The statements of the first build meet what `C167_logs_partial` asks of them. -/
example : ∀ s ∈ [exUp, exX], exOld.Has exNames s ∧ s.Fine exNew.x.enums exNames := by
  intro s hs
  refine ⟨⟨_, hs, ex_lists, ex_oneType exUp (by decide) (by decide) rfl, ?_⟩, ?_⟩
  · intro t ht
    simp at ht
    rcases ht with rfl | rfl
    · exact exUp_readable
    · exact exX_readable
  · simp at hs
    rcases hs with rfl | rfl
    · exact exUp_fine
    · exact exX_fine

end Verif.Whole
