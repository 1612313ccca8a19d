import Verif.Call.Spec
import Verif.Object.Props
/-!
# C162: a callback reads the message that was handed over
-/
namespace Verif.Call
open Verif.Bits Verif.Message Verif.Object

theorem narrow {fs : List MField} {d : Data} (h : Proper fs d) : Narrow d.W := h.2.1

theorem size_mul {fs : List MField} (h : GoodDef fs) : size fs * 32 = owningSize fs := owningSize_eq h

theorem owningSize_le {fs : List MField} {n : Nat} (h : FitsIn fs (n * 32)) : owningSize fs ≤ n * 32 := by
  have key : ∀ (xs : List Nat) (acc : Nat), acc ≤ n * 32 → (∀ x ∈ xs, x ≤ n * 32) → xs.foldl max acc ≤ n * 32 := by
    intro xs
    induction xs with
    | nil => intro acc h _; exact h
    | cons x xs ih =>
      intro acc h1 h2
      apply ih _ _ (fun y hy => h2 y (by simp [hy]))
      have := h2 x (by simp)
      omega
  apply key _ _ (by omega)
  intro e he
  obtain ⟨p, hp, rfl⟩ := List.mem_map.1 he
  obtain ⟨f, hf, hp⟩ := List.mem_flatMap.1 hp
  have := h f hf p hp
  omega

theorem size_le {fs : List MField} (hg : GoodDef fs) {n : Nat} (h : FitsIn fs (n * 32)) : size fs ≤ n := by
  have := owningSize_le h
  rw [← size_mul hg] at this
  omega

/-- The same bits at the fields: the same numbers. -/
theorem number_congr {fs : List MField} {W V : Nat} {a : List (BitVec W)} {b : List (BitVec V)}
    {g : MField} (h : ∀ p ∈ g.fld.positions, bitAt a p = bitAt b p) :
    valueAt (bitAt a) 0 g = valueAt (bitAt b) 0 g := by
  simp only [valueAt]
  congr 1
  apply List.map_congr_left
  intro p hp
  simpa using h p hp

/-- Elements that hold the fields as the data does. -/
def Shows (fs : List MField) (d x : Data) : Prop :=
  Narrow x.W ∧ FitsIn fs (x.els.length * x.W) ∧
    ∀ g ∈ fs, ∀ p ∈ g.fld.positions, bitAt x.els p = bitAt d.els p

theorem Shows.refl {fs : List MField} {d : Data} (h : Proper fs d) : Shows fs d d :=
  ⟨h.2.1, h.2.2.1, fun _ _ _ _ => rfl⟩

theorem Shows.get {fs : List MField} (hg : GoodDef fs) {d x : Data} (h : Shows fs d x) {g : MField}
    (hm : g ∈ fs) : x.get fs g.name = some (d.number g) := by
  have hf : find fs g.name = some g := by
    have hnd := hg.1
    clear h hg
    induction fs with
    | nil => cases hm
    | cons f fs ih =>
      simp only [List.map_cons, List.nodup_cons] at hnd
      simp only [find, List.find?_cons]
      by_cases he : f.name = g.name
      · rcases List.mem_cons.1 hm with rfl | hm
        · simp
        · exact absurd (List.mem_map.2 ⟨g, hm, he.symm⟩) hnd.1
      · rcases List.mem_cons.1 hm with rfl | hm
        · exact absurd rfl he
        · have := ih hm hnd.2
          simp only [find] at this
          rw [beq_false_of_ne he]; exact this
  simp only [Data.get, Message.get, hf, Option.bind_eq_bind, Option.bind_some]
  exact (read_row h.1 (hg.2 g hm).1).2 ⟨h.2.1 g hm, (number_congr (fs := fs) (h.2.2 g hm)).symm⟩

theorem bitAt_take_of {W n : Nat} (hW : 0 < W) (r : List (BitVec W)) {p : Nat} (hp : p < n * W) :
    bitAt (r.take n) p = bitAt r p := by
  simp only [bitAt]
  have : p / W < n := (Nat.div_lt_iff_lt_mul hW).2 hp
  rw [List.getElem?_take, if_pos this]

theorem fits_size {fs : List MField} (hg : GoodDef fs) : FitsIn fs (size fs * 32) := by
  intro f hf p hp
  rw [size_mul hg]
  exact owningSize_holds hf p hp

/-- A span of the default size. -/
theorem Shows.take {fs : List MField} (hg : GoodDef fs) {d : Data} {kind c} (hf : FitsIn fs (d.els.length * d.W))
    (hW : d.W = 32) : Shows fs d ⟨kind, fs, d.W, d.els.take (size fs), c⟩ := by
  obtain ⟨_, _, W, els, _⟩ := d
  simp only at hW hf; subst hW
  have hl := size_le hg hf
  refine ⟨by simp [Narrow], ?_, ?_⟩
  · simp only [List.length_take, Nat.min_eq_left hl]; exact fits_size hg
  · intro g hm p hp
    exact bitAt_take_of (show 0 < 32 by decide) _ (fits_size hg g hm p hp)

/-- A copy of a view. -/
theorem Shows.copy {fs : List MField} (hg : GoodDef fs) {d : Data} (hf : FitsIn fs (d.els.length * d.W))
    (hW : d.W = 32) {kind c} :
    Shows fs d ⟨kind, fs, defaultW, copyN (size fs) (d.els.map (·.setWidth defaultW)), c⟩ := by
  obtain ⟨_, _, W, els, _⟩ := d
  simp only at hW hf; subst hW
  have hl := size_le hg hf
  have : els.map (·.setWidth defaultW) = els := by
    simp [defaultW]
  refine ⟨by simp [Narrow, defaultW], ?_, ?_⟩
  · simp only [copyN, List.length_append, List.length_take, List.length_replicate, List.length_map]
    rw [show min (min els.length (size fs)) els.length + (size fs - min els.length (size fs)) = size fs by omega]
    exact fits_size hg
  · intro g hm p hp
    simp only [this]
    show bitAt (copyN (W := 32) (size fs) els) p = bitAt els p
    simp only [copyN, Nat.min_eq_right hl, Nat.sub_self, List.replicate_zero, List.append_nil]
    exact bitAt_take_of (by decide) _ (fits_size hg g hm p hp)

theorem copy_length {W : Nat} (n : Nat) (r : List (BitVec W)) : (copyN n r).length = n := by
  simp only [copyN, List.length_append, List.length_take, List.length_replicate]; omega

theorem length_size {fs : List MField} (hg : GoodDef fs) {n : Nat} : n = size fs ↔ n * 32 = owningSize fs := by
  rw [← size_mul hg]; omega

/-- The call, in the three forms. -/
theorem call_eq {fs : List MField} {d : Data} (h : Proper fs d) (f : Fun) :
    call fs f d = select fs ⟨false, f.param⟩ d [(false, .asIs), (false, .view), (false, .owner)] := by
  have hfit := fits_of h.1 h.2.2.1
  obtain ⟨t, p⟩ := f
  cases t
  · simp only [call, branches, select]
    have : ∀ b, attempt fs ⟨false, p⟩ d (true, b) = .no := by
      intro b
      simp only [attempt]
      cases b <;> simp only [Form.of, asView, asOwner, hfit] <;> cases hk : d.kind <;> simp [h.2.2.2, hk]
    simp only [this]
  · simp only [call, branches]
    have : ∀ b, attempt fs ⟨true, p⟩ d (false, b) = .no := by
      intro b
      simp only [attempt]
      cases b <;> simp only [Form.of, asView, asOwner, hfit] <;> cases hk : d.kind <;> simp [h.2.2.2, hk]
    have e : ∀ b, attempt fs ⟨true, p⟩ d (true, b) = attempt fs ⟨false, p⟩ d (false, b) := by
      intro b
      simp only [attempt]
    simp only [select, this, e]


theorem call_any {fs : List MField} {d : Data} (h : Proper fs d) (t : Bool) : call fs ⟨t, .any⟩ d = some d := by
  rw [call_eq h]; simp [select, attempt, Form.of, bind]

theorem call_data {fs : List MField} {d : Data} (h : Proper fs d) (t : Bool) (k : Kind) (W n : Nat) :
    call fs ⟨t, .data k W n⟩ d =
      if (k = .array ∨ k = .span) ∧ d.kind = k ∧ d.W = W ∧ d.els.length = n then some d else none := by
  have hfit := fits_of h.1 h.2.2.1
  have hfs := h.2.2.2
  rw [call_eq h]
  by_cases hc : (k = .array ∨ k = .span) ∧ d.kind = k ∧ d.W = W ∧ d.els.length = n
  · rw [if_pos hc]; simp [select, attempt, Form.of, bind, hc]
  · rw [if_neg hc]
    have no : ∀ x : Data, x.kind = .owner ∨ x.kind = .view → bind fs (.data k W n) x = .no := by
      intro x hx
      rw [bind, if_neg]
      rintro ⟨h1, h2, _⟩
      rw [h2] at hx
      rcases h1 with rfl | rfl <;> simp at hx
    have nd : bind fs (.data k W n) d = .no := by rw [bind, if_neg hc]
    cases hk : d.kind <;> rw [hk] at hfs <;>
      simp [select, attempt, Form.of, nd, asView, asOwner, hk, hfit, hfs, no]

theorem call_constView {fs : List MField} {d : Data} (h : Proper fs d) (t : Bool) :
    call fs ⟨t, .constView⟩ d = if d.W = 32 then some ⟨.view, fs, d.W, d.els.take (size fs), true⟩ else none := by
  have hfit := fits_of h.1 h.2.2.1
  have hfs := h.2.2.2
  rw [call_eq h]
  by_cases hc : d.W = 32
  · have hs : size fs ≤ d.els.length := size_le h.1 (hc ▸ h.2.2.1)
    rw [if_pos hc]
    cases hk : d.kind <;> rw [hk] at hfs <;>
      simp [select, attempt, Form.of, bind, hk, hfs, enough, hc, hs, defaultW]
  · rw [if_neg hc]
    cases hk : d.kind <;> rw [hk] at hfs <;>
      simp [select, attempt, Form.of, bind, asView, asOwner, hk, hfs, enough, hc, defaultW]

theorem call_mutableView {fs : List MField} {d : Data} (h : Proper fs d) (t : Bool) :
    call fs ⟨t, .mutableView⟩ d =
      if d.W = 32 ∧ d.const = false ∧ (d.kind = .span ∨ d.kind = .view ∧ d.els.length = size fs) then
        some ⟨.view, fs, d.W, d.els.take (size fs), false⟩ else none := by
  have hfit := fits_of h.1 h.2.2.1
  have hfs := h.2.2.2
  rw [call_eq h]
  by_cases hc : d.W = 32
  · have hs : size fs ≤ d.els.length := size_le h.1 (hc ▸ h.2.2.1)
    cases hk : d.kind <;> rw [hk] at hfs <;> cases hb : d.const <;>
      simp [select, attempt, Form.of, bind, asView, asOwner, hk, hfs, enough, hc, hs, defaultW, hb]
    by_cases hl : d.els.length = size fs
    · simp [hl]
      obtain ⟨_, _, _, els, _⟩ := d
      simp_all
      rw [← hl, List.take_length]
    · simp [hl]
  · cases hk : d.kind <;> rw [hk] at hfs <;>
      simp [select, attempt, Form.of, bind, asView, asOwner, hk, hfs, enough, hc, defaultW]

theorem call_owning {fs : List MField} {d : Data} (h : Proper fs d) (t : Bool) :
    call fs ⟨t, .owning⟩ d =
      if d.W = 32 ∧ (d.kind = .view ∨ d.els.length = size fs) then
        (if d.kind = .view then some ⟨.owner, fs, defaultW, copyN (size fs) (d.els.map (·.setWidth _)), false⟩
        else if d.kind = .owner then some d else some ⟨.owner, fs, d.W, d.els, false⟩) else none := by
  have hfit := fits_of h.1 h.2.2.1
  have hfs := h.2.2.2
  rw [call_eq h]
  by_cases hc : d.W = 32 ∧ d.els.length = size fs
  · have hfit' : fits fs 32 (size fs) = true := by rw [← hc.2]; rw [← hc.1]; exact hfit
    cases hk : d.kind <;> rw [hk] at hfs <;>
      simp [select, attempt, Form.of, bind, asView, asOwner, hk, hfs, hfit', defaultW, copy_length, hc]
  · cases hk : d.kind <;> rw [hk] at hfs <;>
      simp [select, attempt, Form.of, bind, asView, asOwner, hk, hfs, hfit, defaultW, copy_length, hc]

theorem call_someView {fs : List MField} {d : Data} (h : Proper fs d) (t : Bool) :
    call fs ⟨t, .someView⟩ d =
      some ⟨.view, fs, d.W, d.els, match d.kind with | .array | .owner => true | _ => d.const⟩ := by
  have hfit := fits_of h.1 h.2.2.1
  have hfs := h.2.2.2
  rw [call_eq h]
  cases hk : d.kind <;> rw [hk] at hfs <;>
    simp [select, attempt, Form.of, bind, asView, hk, hfs, hfit]
  obtain ⟨_, _, _, els, _⟩ := d
  simp_all

theorem call_someOwner {fs : List MField} {d : Data} (h : Proper fs d) (t : Bool) :
    call fs ⟨t, .someOwner⟩ d =
      if d.kind = .view then
        (if d.W = 32 then some ⟨.owner, fs, defaultW, copyN (size fs) (d.els.map (·.setWidth _)), false⟩ else none)
      else if d.kind = .owner then some d else some ⟨.owner, fs, d.W, d.els, false⟩ := by
  have hfit := fits_of h.1 h.2.2.1
  have hfs := h.2.2.2
  rw [call_eq h]
  cases hk : d.kind <;> rw [hk] at hfs <;>
    simp [select, attempt, Form.of, bind, asView, asOwner, hk, hfs, hfit, defaultW]

theorem Shows.same {fs : List MField} {d : Data} (h : Proper fs d) {k c fs'} :
    Shows fs d ⟨k, fs', d.W, d.els, c⟩ :=
  ⟨h.2.1, h.2.2.1, fun _ _ _ _ => rfl⟩

/-- All at once. -/
theorem call_facts {fs : List MField} {d : Data} (h : Proper fs d) {f : Fun} {x : Data} (hc : call fs f d = some x) :
    Shows fs d x ∧ Asked fs d x f.param := by
  obtain ⟨t, p⟩ := f
  have hsz := fun hW : d.W = 32 => size_le h.1 (hW ▸ h.2.2.1 : FitsIn fs (d.els.length * 32))
  have hfs := h.2.2.2
  cases p with
  | any => rw [call_any h] at hc; cases hc; exact ⟨.refl h, rfl⟩
  | data k W n =>
    rw [call_data h] at hc
    split at hc
    · cases hc; exact ⟨.refl h, rfl⟩
    · cases hc
  | constView =>
    rw [call_constView h] at hc
    split at hc
    · next hW =>
      cases hc
      refine ⟨.take h.1 h.2.2.1 hW, rfl, rfl, rfl, hW, ?_⟩
      simp [Nat.min_eq_left (hsz hW), size_mul h.1]
    · cases hc
  | mutableView =>
    rw [call_mutableView h] at hc
    split at hc
    · next hW =>
      cases hc
      refine ⟨.take h.1 h.2.2.1 hW.1, rfl, rfl, rfl, hW.1, ?_⟩
      simp [Nat.min_eq_left (hsz hW.1), size_mul h.1]
    · cases hc
  | owning =>
    rw [call_owning h] at hc
    split at hc
    · next hW =>
      split at hc
      · cases hc
        exact ⟨.copy h.1 h.2.2.1 hW.1, rfl, rfl, rfl, by rw [copy_length, size_mul h.1]⟩
      · next hv =>
        have hl := (length_size h.1).1 (hW.2.resolve_left hv)
        split at hc
        · next ho => cases hc; exact ⟨.refl h, ho, hfs (.inl ho), hW.1, hl⟩
        · cases hc; exact ⟨.same h, rfl, rfl, hW.1, hl⟩
    · cases hc
  | someView =>
    rw [call_someView h] at hc
    cases hc
    refine ⟨.same h, rfl, rfl, ?_⟩
    cases hk : d.kind <;> simp
  | someOwner =>
    rw [call_someOwner h] at hc
    split at hc
    · split at hc
      · next hW => cases hc; exact ⟨.copy h.1 h.2.2.1 hW, rfl, rfl⟩
      · cases hc
    · split at hc
      · next ho => cases hc; exact ⟨.refl h, ho, hfs (.inl ho)⟩
      · cases hc; exact ⟨.same h, rfl, rfl⟩

/-- C162: what the function gets has, for each field, the number at the field's bits in the data. -/
theorem C162_reads {fs : List MField} {d : Data} (h : Proper fs d) {f : Fun} {x : Data} (hc : call fs f d = some x) :
    ∀ g ∈ fs, x.get fs g.name = some (d.number g) :=
  fun _ hm => (call_facts h hc).1.get h.1 hm

/-- C162: the function gets what it asked for. -/
theorem C162_asked {fs : List MField} {d : Data} (h : Proper fs d) {f : Fun} {x : Data} (hc : call fs f d = some x) :
    Asked fs d x f.param :=
  (call_facts h hc).2

/-- C162: exactly when the call compiles. -/
theorem C162_compiles_exact {fs : List MField} {d : Data} (h : Proper fs d) (f : Fun) :
    (∃ x, call fs f d = some x) ↔ Takes fs d f.param := by
  obtain ⟨t, p⟩ := f
  cases p with
  | any => simp [call_any h, Takes]
  | data k W n => rw [call_data h]; split <;> simp_all [Takes]
  | constView => rw [call_constView h]; split <;> simp_all [Takes]
  | mutableView => rw [call_mutableView h, Takes, ← length_size h.1]; split <;> simp_all
  | owning =>
    rw [call_owning h, Takes, ← length_size h.1]
    split
    · next hc =>
      refine iff_of_true ?_ hc
      split
      · exact ⟨_, rfl⟩
      · split <;> exact ⟨_, rfl⟩
    · next hc => exact iff_of_false (by simp) hc
  | someView => simp [call_someView h, Takes]
  | someOwner =>
    rw [call_someOwner h, Takes]
    split
    · next hk => split <;> simp_all
    · next hk => split <;> simp_all

/-- Partial: with data of 32-bit elements, functions that take a constant view, a view or an owning message of any
size, or anything compile; also those that take an owning message of the default size, from views and when the data has that
size. Missing: longer arrays and spans for these (`C162_violated_owning`). -/
theorem C162_compiles_partial {fs : List MField} {d : Data} (h : Proper fs d) (hW : d.W = 32) (t : Bool) (p : Param)
    (hp : p = .any ∨ p = .constView ∨ p = .someView ∨ p = .someOwner ∨
      p = .owning ∧ (d.kind = .view ∨ d.els.length * 32 = owningSize fs)) :
    ∃ x, call fs ⟨t, p⟩ d = some x ∧ ∀ g ∈ fs, x.get fs g.name = some (d.number g) := by
  obtain ⟨x, hx⟩ := (C162_compiles_exact h ⟨t, p⟩).2 (by
    rcases hp with rfl | rfl | rfl | rfl | ⟨rfl, hp⟩
    · trivial
    · exact hW
    · trivial
    · exact fun _ => hW
    · exact ⟨hW, hp⟩)
  exact ⟨x, hx, C162_reads h hx⟩

/-! Three words for a message of two; with the nexus as template argument. -/

def exData (k : Kind) : Data := ⟨k, if k = .owner ∨ k = .view then exMsg else [], 32, [0x50000A07, 0xDEADBEEF, 0x77], true⟩

theorem exData_proper (k : Kind) : Proper exMsg (exData k) := by
  refine ⟨exMsg_good, .inr (.inr rfl), ?_, ?_⟩
  · show FitsIn exMsg (3 * 32)
    unfold FitsIn; decide
  · intro h
    show (if k = .owner ∨ k = .view then exMsg else []) = exMsg
    exact if_pos h

example : (call exMsg ⟨true, .constView⟩ (exData .array)).map (fun x => exMsg.map fun g => x.get exMsg g.name) =
    some [some 7, some 0x5A, some 0xDEADBEEF] := by decide +kernel
example : exMsg.map (exData .array).number = [7, 0x5A, 0xDEADBEEF] := by decide +kernel
example : (call exMsg ⟨false, .owning⟩ (exData .view)).map (fun x => exMsg.map fun g => x.get exMsg g.name) =
    some [some 7, some 0x5A, some 0xDEADBEEF] := by decide +kernel

/-- A function that takes an owning message cannot be called with an array that is longer than the message, although
one that takes a view can, and although an owning message can be made from such an array. -/
theorem C162_violated_owning :
    Proper exMsg (exData .array) ∧ call exMsg ⟨false, .owning⟩ (exData .array) = none ∧
      (∃ x, call exMsg ⟨false, .constView⟩ (exData .array) = some x) ∧
      (Object.start.run [.array 32 [0x50000A07, 0xDEADBEEF, 0x77], .owningFrom exMsg 0 []]).isSome := by
  refine ⟨exData_proper _, by decide +kernel, ⟨_, call_constView (exData_proper _) false⟩, by decide +kernel⟩

/-- Functions that take the default view cannot be called with bytes. -/
theorem C162_bytes {fs : List MField} {d : Data} (h : Proper fs d) (hW : d.W = 8) (t : Bool) :
    call fs ⟨t, .constView⟩ d = none ∧ call fs ⟨t, .owning⟩ d = none ∧ ∃ x, call fs ⟨t, .someView⟩ d = some x := by
  rw [call_constView h, call_owning h, call_someView h]
  simp [hW]

end Verif.Call
