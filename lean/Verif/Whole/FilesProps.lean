import Verif.Whole.FilesModel
import Verif.Whole.Cases

/-! # Which files `gen_str_catalog` writes -/
namespace Verif.Whole
open Verif.Symbols (Text)
open Verif.Json (J PyKey)
open Verif.Catalog (Item)

/-- The run of `Verif.Whole.Model`, with its reading apart. -/
theorem script_read (hash : Catalog.Text → Nat) (C : Coding) (x : Input) : script hash C x =
    (scriptRead hash C x).bind fun r => (Catalog.checkModuleLimit r.modules x.limit).bind fun _ =>
      (Json.writeJson (r.messages.map (toJson C)) (r.modules.map toJsonMod) x.enums x.extras
        (r.oldMessages.map (toJson C)) (r.oldModules.map toJsonMod)).map fun json => ⟨r.messages, r.modules, json⟩ := by
  rw [script, scriptRead]
  cases Json.readStable x.stable with
  | none => rfl
  | some s =>
    rw [Option.bind_some, Option.bind_some]
    cases x.symbols.mapM Symbols.readLine with
    | none => rfl
    | some es =>
      rw [Option.bind_some, Option.map_some, Option.bind_some]
      dsimp only [Catalog.runModules]
      cases Catalog.checkModuleLimit _ x.limit with
      | none => rfl
      | some u => rfl

section
variable {hash : Catalog.Text → Nat} {C : Coding} {cpp : Reading → CppText} {xml : Reading → Option Xml.El}
  {x : Input} {a : Paths} {fs fs' : Files}

/-- The three files have different names. -/
def Paths.Distinct (a : Paths) : Prop :=
  (∀ p, a.cpp = some p → a.json ≠ some p ∧ a.xml ≠ some p) ∧ ∀ p, a.json = some p → a.xml ≠ some p

theorem put_same (fs : Files) (p : Text) (c : Content) : put fs p c p = some c := if_pos rfl
theorem put_other (fs : Files) {p q : Text} (c : Content) (h : q ≠ p) : put fs p c q = fs q := if_neg h

theorem cppStep_true {p : Option Text} {t : CppText} {f : Files} (h : cppStep p t fs = (f, true)) :
    (p = none ∧ f = fs) ∨ ∃ q u, p = some q ∧ t = .text u ∧ f = put fs q (.cpp u) := by
  cases p with
  | none => cases h; exact .inl ⟨rfl, rfl⟩
  | some q =>
    cases t with
    | refused => cases h
    | cut => cases h
    | text u => cases h; exact .inr ⟨q, u, rfl, rfl, rfl⟩

theorem cppStep_false {p : Option Text} {t : CppText} {f : Files} (h : cppStep p t fs = (f, false)) :
    ∃ q, p = some q ∧ ∀ z, z ≠ q → f z = fs z := by
  cases p with
  | none => cases h
  | some q =>
    cases t with
    | refused => cases h; exact ⟨q, rfl, fun _ _ => rfl⟩
    | cut => cases h; exact ⟨q, rfl, fun z hz => put_other fs _ hz⟩
    | text u => cases h

theorem outStep_true {p : Option Text} {c : Option Content} {f : Files} (h : outStep p c fs = (f, true)) :
    (p = none ∧ f = fs) ∨ ∃ q u, p = some q ∧ c = some u ∧ f = put fs q u := by
  cases p with
  | none => cases h; exact .inl ⟨rfl, rfl⟩
  | some q =>
    cases c with
    | none => cases h
    | some u => cases h; exact .inr ⟨q, u, rfl, rfl, rfl⟩

theorem outStep_false {p : Option Text} {c : Option Content} {f : Files} (h : outStep p c fs = (f, false)) :
    p ≠ none ∧ f = fs := by
  cases p with
  | none => cases h
  | some q =>
    cases c with
    | none => cases h; exact ⟨Option.some_ne_none q, rfl⟩
    | some u => cases h

/-- What happens after reading. -/
theorem genMain_cases {ok : Bool} (h : genMain hash C cpp xml x a fs = (fs', ok)) :
    (scriptRead hash C x = none ∧ fs' = fs ∧ ok = false) ∨ ∃ r, scriptRead hash C x = some r ∧
      ((cppStep a.cpp (cpp r) fs = (fs', false) ∧ ok = false) ∨
      ∃ f1, cppStep a.cpp (cpp r) fs = (f1, true) ∧
        ((Catalog.checkModuleLimit r.modules x.limit = none ∧ fs' = f1 ∧ ok = false) ∨
        ∃ j, j = (script hash C x).map (fun out => Content.json out.json) ∧
          ((outStep a.json j f1 = (fs', false) ∧ ok = false) ∨
          ∃ f2, outStep a.json j f1 = (f2, true) ∧ outStep a.xml ((xml r).map .xml) f2 = (fs', ok)))) := by
  rw [genMain] at h
  cases hr : scriptRead hash C x with
  | none =>
    rw [hr] at h
    cases h
    exact .inl ⟨rfl, rfl, rfl⟩
  | some r =>
    rw [hr] at h
    dsimp only at h
    refine .inr ⟨r, rfl, ?_⟩
    generalize hs1 : cppStep a.cpp (cpp r) fs = s1 at h
    obtain ⟨f1, b1⟩ := s1
    cases b1 with
    | false => cases h; exact .inl ⟨rfl, rfl⟩
    | true =>
      refine .inr ⟨f1, rfl, ?_⟩
      rw [if_neg (by simp)] at h
      have hs := script_read hash C x
      rw [hr, Option.bind_some] at hs
      cases hc : Catalog.checkModuleLimit r.modules x.limit with
      | none =>
        rw [hc] at h
        cases h
        exact .inl ⟨rfl, rfl, rfl⟩
      | some u =>
        rw [hc] at h hs
        rw [if_neg (by simp)] at h
        rw [Option.bind_some] at hs
        refine .inr ⟨_, rfl, ?_⟩
        rw [hs, Option.map_map]
        generalize hs2 : outStep a.json _ f1 = s2 at h
        obtain ⟨f2, b2⟩ := s2
        have hs2' := hs2
        cases b2 with
        | false => cases h; exact .inl ⟨hs2, rfl⟩
        | true => exact .inr ⟨f2, hs2, h⟩

theorem map_json {o : Option Output} {u : Content} (h : (o.map fun out => Content.json out.json) = some u) :
    ∃ out, o = some out ∧ u = .json out.json := by
  obtain ⟨out, h1, h2⟩ := Option.map_eq_some_iff.1 h
  exact ⟨out, h1, h2.symm⟩

/-- **C175** A run that ends well has written each file that was asked for, the JSON file with what `script` gives,
and no other file. -/
theorem C175_written_partial (hd : a.Distinct) (h : genMain hash C cpp xml x a fs = (fs', true)) :
    (∀ p, a.json = some p → ∃ out, script hash C x = some out ∧ fs' p = some (.json out.json)) ∧
    (∀ p, a.cpp = some p → ∃ r t, scriptRead hash C x = some r ∧ cpp r = .text t ∧ fs' p = some (.cpp t)) ∧
    (∀ p, a.xml = some p → ∃ r e, scriptRead hash C x = some r ∧ xml r = some e ∧ fs' p = some (.xml e)) ∧
    ∀ q, a.cpp ≠ some q → a.json ≠ some q → a.xml ≠ some q → fs' q = fs q := by
  rcases genMain_cases h with ⟨-, -, ho⟩ | ⟨r, hr, ⟨-, ho⟩ | ⟨f1, h1, ⟨-, -, ho⟩ | ⟨j, rfl, ⟨-, ho⟩ | ⟨f2, h2, h3⟩⟩⟩⟩
  · cases ho
  · cases ho
  · cases ho
  · cases ho
  have hcpp : ∀ q, a.cpp ≠ some q → f1 q = fs q := by
    intro q hq
    rcases cppStep_true h1 with ⟨-, rfl⟩ | ⟨z, u, hz, -, rfl⟩
    · rfl
    · exact put_other _ _ fun he => hq (by rw [hz, he])
  have hjson : ∀ q, a.json ≠ some q → f2 q = f1 q := by
    intro q hq
    rcases outStep_true h2 with ⟨-, rfl⟩ | ⟨z, u, hz, -, rfl⟩
    · rfl
    · exact put_other _ _ fun he => hq (by rw [hz, he])
  have hxml : ∀ q, a.xml ≠ some q → fs' q = f2 q := by
    intro q hq
    rcases outStep_true h3 with ⟨-, rfl⟩ | ⟨z, u, hz, -, rfl⟩
    · rfl
    · exact put_other _ _ fun he => hq (by rw [hz, he])
  refine ⟨fun p hp => ?_, fun p hp => ?_, fun p hp => ?_, fun q q1 q2 q3 => ?_⟩
  · rcases outStep_true h2 with ⟨hn, -⟩ | ⟨z, u, hz, hu, rfl⟩
    · rw [hn] at hp; cases hp
    · obtain ⟨out, ho, rfl⟩ := map_json hu
      cases hp.symm.trans hz
      exact ⟨out, ho, by rw [hxml p (hd.2 p hp), put_same]⟩
  · rcases cppStep_true h1 with ⟨hn, -⟩ | ⟨z, u, hz, hu, rfl⟩
    · rw [hn] at hp; cases hp
    · cases hp.symm.trans hz
      exact ⟨r, u, hr, hu, by rw [hxml p (hd.1 p hp).2, hjson p (hd.1 p hp).1, put_same]⟩
  · rcases outStep_true h3 with ⟨hn, -⟩ | ⟨z, u, hz, hu, rfl⟩
    · rw [hn] at hp; cases hp
    · obtain ⟨e, he, rfl⟩ := Option.map_eq_some_iff.1 hu
      cases hp.symm.trans hz
      exact ⟨r, e, hr, he, put_same ..⟩
  · rw [hxml q q3, hjson q q2, hcpp q q1]

/-- **C175** A run that fails while it reads changes no file. -/
theorem C175_read_partial (h : scriptRead hash C x = none) : genMain hash C cpp xml x a fs = (fs, false) := by
  rw [genMain, h]

/-- **C175** A run that fails leaves all files but those for C++ and JSON as they were, in particular the XML file;
the JSON file is changed only if it is written as asked for. -/
theorem C175_failed_partial (h : genMain hash C cpp xml x a fs = (fs', false)) :
    (∀ q, a.cpp ≠ some q → a.json ≠ some q → fs' q = fs q) ∧
    ∀ p, a.json = some p → a.cpp ≠ some p →
      fs' p = fs p ∨ ∃ out, script hash C x = some out ∧ fs' p = some (.json out.json) := by
  have hcpp : ∀ {r f1}, cppStep a.cpp (cpp r) fs = (f1, true) → ∀ q, a.cpp ≠ some q → f1 q = fs q := by
    intro r f1 h1 q hq
    rcases cppStep_true h1 with ⟨-, rfl⟩ | ⟨z, u, hz, -, rfl⟩
    · rfl
    · exact put_other _ _ fun he => hq (by rw [hz, he])
  rcases genMain_cases h with ⟨-, rfl, -⟩ | ⟨r, hr, ⟨h1, -⟩ | ⟨f1, h1, ⟨-, rfl, -⟩ | ⟨j, rfl, ⟨h2, -⟩ | ⟨f2, h2, h3⟩⟩⟩⟩
  · exact ⟨fun _ _ _ => rfl, fun _ _ _ => .inl rfl⟩
  · obtain ⟨z, hz, hf⟩ := cppStep_false h1
    exact ⟨fun q hq _ => hf q fun he => hq (by rw [hz, he]), fun p _ hp => .inl (hf p fun he => hp (by rw [hz, he]))⟩
  · exact ⟨fun q hq _ => hcpp h1 q hq, fun p _ hp => .inl (hcpp h1 p hp)⟩
  · obtain ⟨-, rfl⟩ := outStep_false h2
    exact ⟨fun q hq _ => hcpp h1 q hq, fun p _ hp => .inl (hcpp h1 p hp)⟩
  · obtain ⟨-, rfl⟩ := outStep_false h3
    rcases outStep_true h2 with ⟨-, rfl⟩ | ⟨z, u, hz, hu, rfl⟩
    · exact ⟨fun q hq _ => hcpp h1 q hq, fun p _ hp => .inl (hcpp h1 p hp)⟩
    · obtain ⟨out, ho, rfl⟩ := map_json hu
      refine ⟨fun q hq hj => ?_, fun p hp _ => .inr ⟨out, ho, ?_⟩⟩
      · rw [put_other _ _ fun he => hj (by rw [hz, he])]
        exact hcpp h1 q hq
      · cases hp.symm.trans hz
        exact put_same ..

/-- **C175** A run that was not asked for C++ and XML and fails changes nothing. -/
theorem C175_json_partial (hc : a.cpp = none) (hx : a.xml = none)
    (h : genMain hash C cpp xml x a fs = (fs', false)) : fs' = fs := by
  rcases genMain_cases h with ⟨-, rfl, -⟩ | ⟨r, hr, ⟨h1, -⟩ | ⟨f1, h1, ⟨-, rfl, -⟩ | ⟨j, rfl, ⟨h2, -⟩ | ⟨f2, h2, h3⟩⟩⟩⟩
  · rfl
  · obtain ⟨z, hz, -⟩ := cppStep_false h1
    rw [hc] at hz
    cases hz
  · rw [hc] at h1
    cases h1
    rfl
  · rw [hc] at h1
    cases h1
    exact (outStep_false h2).2
  · exact absurd hx (outStep_false h3).1

/-- **C175 violated** When a module has an id above the limit, the run fails, and leaves a new C++ file next to the
old JSON file. -/
theorem C175_violated_limit {r : Reading} {p : Text} {t : Text} (hr : scriptRead hash C x = some r)
    (hl : ∃ m ∈ r.modules, x.limit < m.id) (hp : a.cpp = some p) (ht : cpp r = .text t) :
    genMain hash C cpp xml x a fs = (put fs p (.cpp t), false) := by
  have hc : Catalog.checkModuleLimit r.modules x.limit = none := by
    obtain ⟨m, hm, hi⟩ := hl
    rw [Catalog.checkModuleLimit, if_pos]
    rw [List.any_eq_true]
    exact ⟨m, hm, decide_eq_true hi⟩
  rw [genMain, hr]
  dsimp only
  rw [hp, ht, hc]
  rfl

/-- **C175 violated** When a declaration of an enumeration cannot be made, the run fails, and leaves an empty C++
file. -/
theorem C175_violated_cut {r : Reading} {p : Text} (hr : scriptRead hash C x = some r) (hp : a.cpp = some p)
    (ht : cpp r = .cut) : genMain hash C cpp xml x a fs = (put fs p .empty, false) := by
  rw [genMain, hr]
  dsimp only
  rw [hp, ht]
  rfl

end

/-- A program with two modules, of which one may have an id. -/
def exTwo : Input := { exInput [exUp, { exUp with module := t!"n" }] with limit := 0 }

/-- It is read, and a module has an id above the limit. -/
example : ∃ r, scriptRead exHash coding exTwo = some r ∧ ∃ m ∈ r.modules, exTwo.limit < m.id := by
  have h : (scriptRead exHash coding exTwo).map (fun r => r.modules.map (·.id)) = some [0, 1] := by decide +kernel
  obtain ⟨r, h1, h2⟩ := Option.map_eq_some_iff.1 h
  have : (1 : Int) ∈ r.modules.map (·.id) := by rw [h2]; decide
  obtain ⟨m, hm, hi⟩ := List.mem_map.1 this
  exact ⟨r, h1, m, hm, by rw [hi]; decide⟩

/-- With both modules allowed the run ends well. -/
example : (genMain exHash coding (fun _ => .text t!"int i;") (fun _ => none) (exInput [exUp])
    ⟨some t!"a.cpp", some t!"a.json", none⟩ fun _ => none).2 = true := by decide +kernel
example : Paths.Distinct ⟨some t!"a.cpp", some t!"a.json", none⟩ := by
  refine ⟨fun p hp => ?_, fun p hp => by simp⟩
  cases hp
  decide

end Verif.Whole
