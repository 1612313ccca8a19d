import Mathlib.Logic.Equiv.List
import Mathlib.Data.Countable.Basic
import Verif.Whole.Props
/-! # Programs for which lines are right, and programs for which they are not -/
namespace Verif.Whole
open Verif.Symbols (Text nmLine nmChar)
open Verif.Json (J)

/-! ## A coding -/

instance : Countable Char := Function.Injective.countable (f := Char.toNat) fun a b h => by
  rw [← Char.ofNat_toNat a, h, Char.ofNat_toNat]

instance : Countable Symbols.NamedArg :=
  Function.Injective.countable (f := fun a : Symbols.NamedArg => (a.name, a.first, a.last)) fun a b h => by
    cases a; cases b
    simpa using h

instance : Countable Symbols.Tag :=
  Function.Injective.countable (f := fun a : Symbols.Tag => (a.name, a.value)) fun a b h => by
    cases a; cases b
    simpa using h

/-- There is a coding; no details are 0. -/
noncomputable def coding : Coding :=
  let f := Classical.choose (exists_injective_nat Details)
  have hf := Classical.choose_spec (exists_injective_nat Details)
  { enc := fun d => if d = ([], [], []) then 0 else f d + 1
    dec := fun n => match n with
      | 0 => ([], [], [])
      | n + 1 => Function.invFun f n
    dec_enc := fun d => by
      by_cases h : d = ([], [], [])
      · simp [h]
      · simp only [h, if_false]
        exact Function.leftInverse_invFun hf d }

/-! ## A program -/

def exHash (t : Catalog.Text) : Nat := t.foldl (fun h c => 1114112 * h + c + 1) 0

def exNames (n : Nat) : Text := if n = 0 then t!"Color" else t!"Shape"

/-- `enum class Color : std::uint8_t { RED, BLUE = 200 };` -/
def exEnums : List (Text × List (Text × Int)) := [(t!"Color", [(t!"RED", 0), (t!"BLUE", 200)])]

/-- `INFO("up")` -/
def exUp : Statement := ⟨4, [.lit t!"up"], [], t!"m", 0, -1, [], [], [], -1, []⟩

/-- `ERROR("{{x}}={} {:04x}", Color::BLUE, -5)` -/
def exX : Statement :=
  ⟨2, [.lit t!"{x}=", .plain, .lit t!" ", .spec true 4 'x'], [(.enumClass 0 .uchar, 200), (.prim .int, -5)], t!"m", 0, -1, [],
    [], [], -1, []⟩

def exInput (ss : List Statement) : Input :=
  ⟨t!"a.o:" :: ss.flatMap fun s => [nmLine 17 false false t!"catalog" ((s.sym exNames).type false nmChar),
      nmLine 17 false false t!"module" (s.mod.type false nmChar)], [], [(0, 3)], false, 127, [], exEnums⟩

/-- The lines that the decoder prints. -/
noncomputable def exLines (ss : List Statement) : Option (List Text × Bool) :=
  (script exHash coding (exInput ss)).bind fun out =>
  (ss.mapM (Statement.record coding out exNames)).map fun bss => decode (J.obj out.json).file bss.flatten

example : exLines [exUp, exX, exUp] =
    some ([t!"up", t!"ERROR [m] {x}=BLUE -005", t!"up"], true) := by decide +kernel

example : [exUp, exX, exUp].mapM (Statement.line exEnums exNames) =
    some [t!"up", t!"ERROR [m] {x}=BLUE -005", t!"up"] := by decide +kernel

theorem exUp_fine : exUp.Fine exEnums exNames where
  level := by decide
  unit := by decide
  ascii := by decide
  pieces := by simp [exUp, Render.PyOk]
  parens := fun t ht => by
    have : t = t!"up" := by simpa [exUp] using ht
    rw [this]; decide
  braces := fun _ t ht => by
    have : t = t!"up" := by simpa [exUp] using ht
    rw [this]; decide
  args := by simp [exUp]
  named := by simp [exUp]
  types := by simp [exUp]

theorem exX_fine : exX.Fine exEnums exNames where
  level := by decide
  unit := by decide
  ascii := by decide
  pieces := by
    simp only [exX, Render.PyOk, and_true]
    exact ⟨fun p h => (by cases h), ⟨_, rfl, by simp [Render.Integer]⟩, by decide⟩
  parens := fun t ht => by
    have : t = t!"{x}=" ∨ t = t!" " := by simpa [exX] using ht
    rcases this with rfl | rfl <;> decide
  braces := fun h => by cases h
  args := by
    intro a ha
    have : a = (.enumClass 0 .uchar, 200) ∨ a = (.prim .int, -5) := by simpa [exX] using ha
    rcases this with rfl | rfl
    · exact ⟨⟨fun s h => (by rcases h with h | h <;> cases h), by decide⟩, .inr (by decide), fun s h => (by cases h)⟩
    · exact ⟨⟨fun s h => (by rcases h with h | h <;> cases h), by decide⟩, .inl ⟨_, rfl⟩, fun h => (by cases h.1)⟩
  named := by
    intro a ha e v h
    have : a = (.enumClass 0 .uchar, 200) ∨ a = (.prim .int, -5) := by simpa [exX] using ha
    rcases this with rfl | rfl
    · cases h
      exact ⟨_, t!"BLUE", List.mem_cons_self, by decide, fun n hn => by
        have : Log.listed .uchar 200 = 200 := by decide
        rw [this] at hn
        simpa using hn⟩
    · cases h
  types := by
    intro a ha e v h
    have : a = (.enumClass 0 .uchar, 200) ∨ a = (.prim .int, -5) := by simpa [exX] using ha
    rcases this with rfl | rfl
    · cases h; decide
    · cases h

theorem exUp_readable : exUp.Readable exNames where
  message := ⟨by simp [exUp, Statement.sym], by decide, ⟨by decide, by decide⟩, by simp [exUp, Statement.sym], by simp [exUp, Statement.sym]⟩
  modSuffix := by decide
  module := ⟨by decide, by decide⟩

theorem exX_readable : exX.Readable exNames where
  message := by
    refine ⟨?_, by decide, ⟨by decide, by decide⟩, by simp [exX, Statement.sym], by simp [exX, Statement.sym]⟩
    intro a ha
    have : a = t!"encode_enum<Color, unsigned char, 4>" ∨ a = t!"encode_32<int>" := by
      revert ha
      rw [show (exX.sym exNames).args = [t!"encode_enum<Color, unsigned char, 4>", t!"encode_32<int>"] by decide +kernel]
      simp
    rcases this with rfl | rfl
    · exact ⟨by decide, ⟨⟨_, _, rfl, by decide⟩, '>', t!"encode_enum<Color, unsigned char, 4", rfl, by decide⟩, by decide⟩
    · exact ⟨by decide, ⟨⟨_, _, rfl, by decide⟩, '>', t!"encode_32<int", rfl, by decide⟩, by decide⟩
  modSuffix := by decide
  module := ⟨by decide, by decide⟩

/-- The entries that are read. -/
def exEntries : List (Option Symbols.Entry) :=
  [none, some (.message (exUp.msg exNames)), some (.module exUp.modMsg), some (.message (exX.msg exNames)),
    some (.module exX.modMsg)]

theorem ex_entries : (exInput [exUp, exX]).symbols.mapM Symbols.readLine = some exEntries := by decide +kernel

theorem ex_sound : Sound exHash coding (exInput [exUp, exX]) where
  extras := fun y hy => (List.not_mem_nil hy).elim
  enums := by decide
  limit := by decide
  stable := by
    intro s hs es he
    rw [ex_entries] at he
    cases he
    have : s = ([], []) := by
      have h : Json.readStable (exInput [exUp, exX]).stable = some ([], []) := by decide +kernel
      rw [h] at hs
      exact (Option.some.inj hs).symm
    subst this
    refine ⟨?_, ?_, ?_, ?_, ?_⟩
    · unfold Catalog.NoCollision; decide +kernel
    · unfold Catalog.NoCollision; decide +kernel
    · unfold Catalog.OneMessagePerId; decide +kernel
    · unfold Catalog.OneMessagePerId; decide +kernel
    · decide +kernel

theorem ex_lists : Lists (exInput [exUp, exX]) exNames [exUp, exX] where
  messages := fun s hs => ⟨17, false, false, List.mem_cons_of_mem _ (List.mem_flatMap.2 ⟨s, hs, List.mem_cons_self⟩)⟩
  modules := fun s hs =>
    ⟨17, false, false, List.mem_cons_of_mem _ (List.mem_flatMap.2 ⟨s, hs, List.mem_cons_of_mem _ List.mem_cons_self⟩)⟩
  only := by
    intro l hl
    rcases List.mem_cons.1 hl with rfl | hl
    · exact .inr (by decide +kernel)
    · obtain ⟨s, hs, hl⟩ := List.mem_flatMap.1 hl
      refine .inl ⟨s, hs, 17, false, false, ?_⟩
      simpa using hl

example : ∃ out, script exHash coding (exInput [exUp, exX]) = some out ∧ Sound exHash coding (exInput [exUp, exX]) ∧ IdsFit out ∧
    Lists (exInput [exUp, exX]) exNames [exUp, exX] ∧
    (∀ s ∈ [exUp, exX], s.Fine (exInput [exUp, exX]).enums exNames ∧ s.Readable exNames) ∧ OneType exNames [exUp, exX] := by
  have h : ∃ out, script exHash coding (exInput [exUp, exX]) = some out ∧ out.messages.map (·.id) = [4, 5] := by
    have h : (script exHash coding (exInput [exUp, exX])).map (fun out => out.messages.map (·.id)) = some [4, 5] := by
      decide +kernel
    obtain ⟨out, h1, h2⟩ := Option.map_eq_some_iff.1 h
    exact ⟨out, h1, h2⟩
  obtain ⟨out, h1, h2⟩ := h
  refine ⟨out, h1, ex_sound, ?_, ex_lists, ?_, ?_⟩
  · intro o ho
    have : o.id ∈ out.messages.map (·.id) := List.mem_map_of_mem ho
    rw [h2] at this
    simp at this
    omega
  · intro s hs
    simp at hs
    rcases hs with rfl | rfl
    · exact ⟨exUp_fine, exUp_readable⟩
    · exact ⟨exX_fine, exX_readable⟩
  · intro s hs t ht
    simp at hs ht
    rcases hs with rfl | rfl <;> rcases ht with rfl | rfl
    · exact ⟨fun _ _ => rfl, fun _ => rfl⟩
    · exact ⟨fun h => absurd h (by decide), fun _ => rfl⟩
    · exact ⟨fun h => absurd h (by decide), fun _ => rfl⟩
    · exact ⟨fun _ _ => rfl, fun _ => rfl⟩

/-! ## Programs with wrong lines -/

/-- `INFO("{{}}")` is shown with the braces of the format string, as messages without arguments are not formatted. -/
theorem C153_violated_braces : let s : Statement := ⟨4, [.lit t!"{}"], [], t!"m", 0, -1, [], [], [], -1, []⟩
    s.line exEnums exNames = some t!"{}" ∧ exLines [s] = some ([t!"{{}}"], true) := by decide +kernel

/-- Two statements with the same text, one of which has a tag: there is a definition for one, and the program does not
link. -/
theorem C153_violated_tags : let s : Statement := ⟨4, [.lit t!"up"], [], t!"m", 0, -1, [], [([97], [98])], [], -1, []⟩
    exLines [exUp] = some ([t!"up"], true) ∧ exLines [s, exUp] = none ∧ exLines [exUp, s] = none ∧
    (script exHash coding (exInput [exUp, s])).isSome = true := by decide +kernel

end Verif.Whole
