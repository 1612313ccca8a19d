import Mathlib.Data.List.Nodup
import Verif.Whole.Cases
/-! # The first build of a program -/
namespace Verif.Whole
open Verif.Symbols (Text codes)
open Verif.Json (J PyKey)
open Verif.Catalog (Item same)

theorem loop_first (key : Catalog.Key) (n : Nat) (is : List Item) :
    ∀ o ∈ Catalog.assignLoop key [] [] n is, ∃ k : Nat, o.id = k ∧ k < n + is.length := by
  induction is generalizing n with
  | nil => exact fun o ho => (List.not_mem_nil ho).elim
  | cons i is ih =>
    intro o ho
    have hn : Catalog.nextId [] [] n = n := by
      rw [Catalog.nextId]
      have : Catalog.bound [] [] - n = 0 := by simp [Catalog.bound, Catalog.Dict.values]
      rw [this, Catalog.search]
    rw [Catalog.assignLoop, show Catalog.Dict.get? [] (key.of i) = none from rfl] at ho
    dsimp only at ho
    rw [hn] at ho
    rcases List.mem_cons.1 ho with rfl | ho
    · exact ⟨n, rfl, by rw [List.length_cons]; omega⟩
    · obtain ⟨k, e, h⟩ := ih (n + 1) o ho
      exact ⟨k, e, by rw [List.length_cons]; omega⟩

/-- Ids are given from 0 on; there are no more than different keys. -/
theorem run_first {key : Catalog.Key} {items : List Item} (hid : ∀ i ∈ items, i.id = -1) (forget : Bool) {ks : List Nat}
    (hk : ∀ i ∈ items, key.of i ∈ ks) :
    ∀ o ∈ (Catalog.run key [[]] [] forget items).1, 0 ≤ o.id ∧ o.id < ks.length := by
  have hw : Catalog.withExplicit key (Catalog.unique key items) (Catalog.readStable key [[]]) = [] := by
    rw [Catalog.withExplicit, List.filter_eq_nil_iff.2]
    · rfl
    · intro i hi
      simp [hid i (Catalog.mem_unique hi)]
  intro o ho
  rw [Catalog.run_fst, hw] at ho
  obtain ⟨k, e, h⟩ := loop_first key 0 _ o ho
  have hlen : (Catalog.sort (Catalog.unique key items)).length ≤ ks.length := by
    rw [(Catalog.sort_perm _).length_eq, ← List.length_map (f := key.of)]
    refine (List.Nodup.subperm (Catalog.unique_nodup key items) ?_).length_le
    intro x hx
    obtain ⟨i, hi, rfl⟩ := List.mem_map.1 hx
    exact hk i (Catalog.mem_unique hi)
  omega

theorem mapM_some {α β : Type} {f : α → Option β} {l : List α} (h : ∀ a ∈ l, ∃ b, f a = some b) :
    ∃ r, l.mapM f = some r := by
  induction l with
  | nil => exact ⟨[], rfl⟩
  | cons a l ih =>
    obtain ⟨b, hb⟩ := h a List.mem_cons_self
    obtain ⟨r, hr⟩ := ih fun c hc => h c (List.mem_cons_of_mem _ hc)
    exact ⟨b :: r, by rw [List.mapM_cons, hb, hr]; rfl⟩

/-- The first build of a program with at most 2^28 statements and 128 modules, all without explicit ids: the script
succeeds, the program links and the lines are those that the statements say. Part of the claim as in
`C153_program_partial`. -/
theorem C153_first_partial (hash : Catalog.Text → Nat) (C : Coding) (x : Input)
    (h0 : x.stable = [] ∧ x.reserved = [] ∧ x.extras = [] ∧ x.limit = 127) (he : (x.enums.map Prod.fst).Nodup)
    (names : Nat → Text) (ss : List Statement) (hl : Lists x names ss)
    (hf : ∀ s ∈ ss, s.Fine x.enums names ∧ s.Readable names) (ht : OneType names ss)
    (hnew : ∀ s ∈ ss, s.id = -1 ∧ s.modId = -1)
    (hc : Catalog.NoCollision (Catalog.msgKey hash) (ss.map fun s => ofSymbol C (s.msg names)))
    (hc' : Catalog.NoCollision (Catalog.modKey hash) (ss.map fun s => ofSymbolMod C s.modMsg))
    (hn : ss.length ≤ 2 ^ 28) (hm : ∃ l : List Text, l.length ≤ 128 ∧ ∀ s ∈ ss, s.module ∈ l) :
    ∃ out bss lines, script hash C x = some out ∧ ss.mapM (Statement.record C out names) = some bss ∧
      ss.mapM (Statement.line x.enums names) = some lines ∧ decode (J.obj out.json).file bss.flatten = (lines, true) := by
  obtain ⟨hst, hres, hex, hlim⟩ := h0
  -- what is read
  have hread : ∀ l ∈ x.symbols, ∃ e, Symbols.readLine l = some e ∧
      (e = none ∨ ∃ s ∈ ss, e = some (.message (s.msg names)) ∨ e = some (.module s.modMsg)) := by
    intro l hl'
    rcases hl.only l hl' with ⟨s, hs, n, long, gap, rfl | rfl⟩ | h
    · exact ⟨_, Symbols.C137_message_partial n long gap _ (hf s hs).2.message, .inr ⟨s, hs, .inl rfl⟩⟩
    · exact ⟨_, Symbols.C137_module_partial n long gap _ (hf s hs).2.modSuffix (hf s hs).2.module, .inr ⟨s, hs, .inr rfl⟩⟩
    · exact ⟨_, h, .inl rfl⟩
  obtain ⟨es, hes⟩ := mapM_some fun l hl' => (hread l hl').imp fun e h => h.1
  have hes' : ∀ e ∈ es, e = none ∨ ∃ s ∈ ss, e = some (.message (s.msg names)) ∨ e = some (.module s.modMsg) := by
    intro e h
    obtain ⟨l, hl', h1⟩ := (mapM_mem hes).2 e h
    obtain ⟨e', h2, h3⟩ := hread l hl'
    rw [h1] at h2
    cases h2
    exact h3
  have hitems : ∀ i ∈ (es.filterMap messageOf?).map (ofSymbol C), ∃ s ∈ ss, i = ofSymbol C (s.msg names) := by
    intro i hi
    obtain ⟨m, hm, rfl⟩ := List.mem_map.1 hi
    obtain ⟨e, he, q⟩ := List.mem_filterMap.1 hm
    rcases hes' e he with rfl | ⟨t, htt, rfl | rfl⟩
    · cases q
    · cases q; exact ⟨t, htt, rfl⟩
    · cases q
  have hmods : ∀ i ∈ (es.filterMap moduleOf?).map (ofSymbolMod C), ∃ s ∈ ss, i = ofSymbolMod C s.modMsg := by
    intro i hi
    obtain ⟨m, hm, rfl⟩ := List.mem_map.1 hi
    obtain ⟨e, he, q⟩ := List.mem_filterMap.1 hm
    rcases hes' e he with rfl | ⟨t, htt, rfl | rfl⟩
    · cases q
    · cases q
    · cases q; exact ⟨t, htt, rfl⟩
  have hids : ∀ i ∈ (es.filterMap messageOf?).map (ofSymbol C), i.id = -1 := by
    intro i hi
    obtain ⟨s, hs, rfl⟩ := hitems i hi
    exact (hnew s hs).1
  have hmids : ∀ i ∈ (es.filterMap moduleOf?).map (ofSymbolMod C), i.id = -1 := by
    intro i hi
    obtain ⟨s, hs, rfl⟩ := hmods i hi
    exact (hnew s hs).2
  -- ids
  have hfit := run_first (key := Catalog.msgKey hash) hids x.forget
    (ks := ss.map fun s => (Catalog.msgKey hash).of (ofSymbol C (s.msg names))) (by
      intro i hi
      obtain ⟨s, hs, rfl⟩ := hitems i hi
      exact List.mem_map.2 ⟨s, hs, rfl⟩)
  obtain ⟨ms, hms, hmem⟩ := hm
  have hmfit := run_first (key := Catalog.modKey hash) hmids x.forget
    (ks := ms.map fun m => hash (codes (chars m))) (by
      intro i hi
      obtain ⟨s, hs, rfl⟩ := hmods i hi
      exact List.mem_map.2 ⟨s.module, hmem s hs, rfl⟩)
  rw [List.length_map] at hfit hmfit
  have hstable : Json.readStable x.stable = some ([], []) := by rw [hst]; decide +kernel
  have hlimit := (Catalog.C50_limit (Catalog.modKey hash) [[]] x.forget x.limit
    ((es.filterMap moduleOf?).map (ofSymbolMod C))).1.2 (by
      intro m hm
      have := hmfit m hm
      rw [hlim]
      omega)
  obtain ⟨r, hr⟩ := Option.isSome_iff_exists.1 hlimit
  have hrun := ((Catalog.C50_limit _ _ _ _ _).2 r hr).1
  obtain ⟨new, hnew'⟩ := Json.addEnums_some (es := Json.dupdate [] (x.enums.map fun e => (e.1, Json.byValue e.2))) (enums := [])
    fun e h => (List.not_mem_nil h).elim
  have hs : ∃ out, script hash C x = some out ∧
      out.messages = (Catalog.run (Catalog.msgKey hash) [[]] [] x.forget ((es.filterMap messageOf?).map (ofSymbol C))).1 := by
    rw [script, hstable, Option.bind_some, hes, Option.bind_some]
    simp only [List.map_nil]
    rw [hr, Option.bind_some, Json.writeJson, hex, hres]
    dsimp only [List.foldl_nil]
    rw [show ∀ a b : J, Json.dget [(PyKey.str t!"messages", a), (.str t!"modules", b), (.str t!"enums", .obj [])]
      (.str t!"enums") = some (.obj []) from fun a b => by rfl]
    simp only [Option.bind_some, J.obj?, hnew', Option.map_some]
    exact ⟨_, rfl, rfl⟩
  obtain ⟨out, hs, hout⟩ := hs
  have hx : Sound hash C x := by
    refine ⟨by rw [hex]; exact fun y hy => (List.not_mem_nil hy).elim, he, by omega, ?_⟩
    intro s hs es' hes''
    rw [hstable] at hs
    rw [hes] at hes''
    cases hs
    cases hes''
    have hexp : ∀ items : List Item, (∀ i ∈ items, i.id = -1) → Catalog.explicit items = [] := fun items h =>
      List.filter_eq_nil_iff.2 fun i hi => by simp [h i hi]
    simp only [List.map_nil, List.nil_append]
    rw [hexp _ hids, hexp _ hmids]
    refine ⟨?_, ?_, fun a ha => (List.not_mem_nil ha).elim, fun a ha => (List.not_mem_nil ha).elim,
      fun a ha => (List.not_mem_nil ha).elim⟩
    · intro a ha b hb
      obtain ⟨s, hs, rfl⟩ := hitems a ha
      obtain ⟨t, ht, rfl⟩ := hitems b hb
      exact hc _ (List.mem_map.2 ⟨s, hs, rfl⟩) _ (List.mem_map.2 ⟨t, ht, rfl⟩)
    · intro a ha b hb
      obtain ⟨s, hs, rfl⟩ := hmods a ha
      obtain ⟨t, ht, rfl⟩ := hmods b hb
      exact hc' _ (List.mem_map.2 ⟨s, hs, rfl⟩) _ (List.mem_map.2 ⟨t, ht, rfl⟩)
  have hid : IdsFit out := by
    intro o ho
    rw [hout] at ho
    have := hfit o ho
    omega
  obtain ⟨bss, lines, h1, h2, h3⟩ := C153_program_partial hash C x out hs hx hid names ss hl hf ht
  exact ⟨out, bss, lines, hs, h1, h2, h3⟩

/-- A program, built for the first time, with two statements. -/
def exFirst : Input := { exInput [exUp, exX] with reserved := [] }

example : (exFirst.stable = [] ∧ exFirst.reserved = [] ∧ exFirst.extras = [] ∧ exFirst.limit = 127) ∧
    (exFirst.enums.map Prod.fst).Nodup ∧ Lists exFirst exNames [exUp, exX] ∧
    (∀ s ∈ [exUp, exX], s.Fine exFirst.enums exNames ∧ s.Readable exNames) ∧ OneType exNames [exUp, exX] ∧
    (∀ s ∈ [exUp, exX], s.id = -1 ∧ s.modId = -1) ∧
    Catalog.NoCollision (Catalog.msgKey exHash) ([exUp, exX].map fun s => ofSymbol coding (s.msg exNames)) ∧
    Catalog.NoCollision (Catalog.modKey exHash) ([exUp, exX].map fun s => ofSymbolMod coding s.modMsg) ∧
    [exUp, exX].length ≤ 2 ^ 28 ∧ ∃ l : List Text, l.length ≤ 128 ∧ ∀ s ∈ [exUp, exX], s.module ∈ l := by
  refine ⟨⟨rfl, rfl, rfl, rfl⟩, by decide, ⟨ex_lists.messages, ex_lists.modules, ex_lists.only⟩, ?_, ?_, by decide, ?_, ?_,
    by decide, [t!"m"], by decide, by decide⟩
  · intro s hs
    simp at hs
    rcases hs with rfl | rfl
    · exact ⟨exUp_fine, exUp_readable⟩
    · exact ⟨exX_fine, exX_readable⟩
  · intro s hs t ht
    simp at hs ht
    rcases hs with rfl | rfl <;> rcases ht with rfl | rfl
    · exact ⟨fun _ _ => rfl, fun _ => rfl⟩
    · exact ⟨fun h => absurd h (by decide), fun _ => rfl⟩
    · exact ⟨fun h => absurd h (by decide), fun _ => rfl⟩
    · exact ⟨fun _ _ => rfl, fun _ => rfl⟩
  · unfold Catalog.NoCollision; decide +kernel
  · unfold Catalog.NoCollision; decide +kernel

end Verif.Whole
