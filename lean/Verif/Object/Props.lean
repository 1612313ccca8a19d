import Verif.Object.DefinedLemmas

/-!
# Properties C116–C121: message objects in memory
-/
namespace Verif.Object
open Verif.Bits Verif.Message

/-! ## Example

`exMsg` has a field 0 in bits 0-7 with default 7, a field 1 in two pieces with a constant default, and a field 2
in bits 32-63 without default. `exPart` is a message whose only field is the word of field 2. -/

def exMsg : List MField :=
  [⟨0, ⟨[⟨7, 0⟩], 8⟩, .value 7, 0⟩, ⟨1, ⟨[⟨31, 28⟩, ⟨11, 8⟩], 16⟩, .const 0xA5, 0⟩,
   ⟨2, ⟨[⟨63, 32⟩], 32⟩, .without, 0⟩]

def exPart : List MField := [⟨5, ⟨[⟨31, 0⟩], 32⟩, .without, 0⟩]

theorem exMsg_good : GoodDef exMsg :=
  ⟨by decide, fun f hf => by
    simp only [exMsg, List.mem_cons, List.not_mem_nil, or_false] at hf
    rcases hf with rfl | rfl | rfl <;>
      exact ⟨by simp [Fld.Legal, At.valid, At.size], by unfold Fld.NonOverlapping; decide⟩⟩

theorem exPart_good : GoodDef exPart :=
  ⟨by decide, fun f hf => by
    simp only [exPart, List.mem_cons, List.not_mem_nil, or_false] at hf
    subst hf
    exact ⟨by simp [Fld.Legal, At.valid, At.size], by unfold Fld.NonOverlapping; decide⟩⟩

/-- An owning message (variable 0), a view of it (1), a value through the view, a copy by `as_owning` (2), a copy
(3), another value through the message, a view of its second word (4), a value through that one, and a constant
view (5). -/
def exProg : List Stmt :=
  [.owning exMsg [(2, 0xDEADBEEF)], .view exMsg 0 [], .set 1 (.values [(0, 0x155)]), .asOwning 1, .copy 0,
   .index 0 0 9, .spanView exPart 0 1 1 [], .set 4 (.values [(5, 0x1234)]), .asConst 1]

theorem exProg_good : ∀ t ∈ exProg, t.Good := by
  intro t ht
  simp only [exProg, List.mem_cons, List.not_mem_nil, or_false] at ht
  rcases ht with rfl | rfl | rfl | rfl | rfl | rfl | rfl | rfl | rfl <;>
    first | exact exMsg_good | exact exPart_good | trivial

/-! ## C116 -/

theorem messageGet_iff {s : St} {w : World} (h : Good s w) {x : Obj} (hx : Fine s.mem x)
    {r : List (BitVec x.W)} (hr : s.data x = some r) {n v : Nat} :
    Message.get x.W x.fs r n = some v ↔ ∃ f, named x.fs n = some f ∧ (Window.of x).Holds f ∧
      v = valueAt (w.bit x.store) (x.off * x.W) f := by
  have hW := h.wf.narrow hx
  obtain ⟨st, e1, e2, e3, e4, e5⟩ := data_some hr
  have hbit := h.sim.bits _ _ e1
  have hval : ∀ f : MField, (Window.of x).Holds f →
      valueAt (bitAt r) 0 f = valueAt (w.bit x.store) (x.off * x.W) f := by
    intro f hf
    simp only [valueAt]
    congr 1
    apply List.map_congr_left
    intro p hp
    rw [e5 hW.pos, hbit]
    have : p < x.len * x.W := hf p hp
    simp [this]
  simp only [Message.get, Option.bind_eq_bind, Option.bind_eq_some_iff, named_eq]
  constructor
  · rintro ⟨f, hf, hv⟩
    obtain ⟨h1, h2⟩ := (read_row hW (hx.fields.2 f (find_mem hf).1).1).1 hv
    rw [e4] at h1
    exact ⟨f, hf, h1, by rw [h2, hval f h1]⟩
  · rintro ⟨f, hf, hh, rfl⟩
    refine ⟨f, hf, (read_row hW (hx.fields.2 f (find_mem hf).1).1).2 ⟨?_, (hval f hh).symm⟩⟩
    rw [e4]; exact hh

theorem get_iff {s : St} {w : World} (h : Good s w) {i n v : Nat} :
    s.get i n = some v ↔ ∃ x f, w.vars[i]? = some x ∧ x.kind ≠ .array ∧ named x.fs n = some f ∧ x.Holds f ∧
      v = valueAt (w.bit x.row) x.lo f := by
  simp only [St.get, Option.bind_eq_bind, Option.bind_eq_some_iff]
  constructor
  · rintro ⟨x, hx, hv⟩
    split at hv
    · cases hv
    · next hk =>
      simp only [Option.bind_eq_some_iff] at hv
      obtain ⟨r, hr, hv⟩ := hv
      obtain ⟨f, h1, h2, h3⟩ := (messageGet_iff h (h.wf.fine x (List.mem_of_getElem? hx)) hr).1 hv
      exact ⟨_, f, h.sim.get hx, hk, h1, h2, h3⟩
  · rintro ⟨X, f, hX, hk, h1, h2, h3⟩
    rw [h.sim.vars, List.getElem?_map, Option.map_eq_some_iff] at hX
    obtain ⟨x, hx, rfl⟩ := hX
    have hfine := h.wf.fine x (List.mem_of_getElem? hx)
    obtain ⟨r, hr⟩ := data_defined hfine
    refine ⟨x, hx, ?_⟩
    rw [if_neg (by simpa [Window.of] using hk), hr]
    exact (messageGet_iff h hfine hr).2 ⟨f, h1, h2, h3⟩

/-- C116: whatever a program does with arrays, owning messages and views (as long as it compiles and stays in
its storages), a field of a message reads the number that is at its bits, when memory is nothing but rows of
bits on which every statement acts as in the specification. A field can be read just if it lies inside the
message's storage. -/
theorem C116_memory_of_bits {p : List Stmt} (hp : ∀ t ∈ p, t.Good) {s : St} (h : start.run p = some s)
    (i n v : Nat) :
    s.get i n = some v ↔ ∃ x f, (World.run p).vars[i]? = some x ∧ x.kind ≠ .array ∧ named x.fs n = some f ∧
      x.Holds f ∧ v = valueAt ((World.run p).bit x.row) x.lo f :=
  get_iff (run_good hp start_good h)

example : (start.run exProg).map (fun s => (s.get 0 0, s.get 0 1, s.get 0 2)) =
    some (some 9, some 0xA5, some 0x1234) := by decide +kernel
example : valueAt ((World.run exProg).bit 0) 0 exMsg[2] = 0x1234 := by decide +kernel

/-- C116: a program compiles and stays in its storages if its variables are what it takes them for, its fields lie
inside the storages, and it gives values to fields that can be set, through no constant view; all fields of its
messages can be read. -/
theorem C116_defined {p : List Stmt} (hp : ∀ t ∈ p, t.Good) (hl : LegalFrom 0 ⟨0, fun _ _ => false, []⟩ p) :
    ∃ s, start.run p = some s ∧ ∀ i x, (World.run p).vars[i]? = some x → x.kind ≠ .array → ∀ f ∈ x.fs,
      s.get i f.name = some (valueAt ((World.run p).bit x.row) x.lo f) := by
  obtain ⟨s, hs, hf⟩ := run_defined start_good (by intro x hx; cases hx) hp hl
  refine ⟨s, hs, fun i x hx hk f hfx => ?_⟩
  have hg := run_good hp start_good hs
  refine (C116_memory_of_bits hp hs i f.name _).2 ⟨x, f, hx, hk, ?_, hf x (List.mem_of_getElem? hx) f hfx, rfl⟩
  have hx' : (p.foldl World.step ⟨0, fun _ _ => false, []⟩).vars[i]? = some x := hx
  rw [hg.sim.vars, List.getElem?_map, Option.map_eq_some_iff] at hx'
  obtain ⟨o, ho, rfl⟩ := hx'
  rw [named_eq]
  exact find_eq (hg.wf.fine o (List.mem_of_getElem? ho)).fields.1 hfx


/-- C116: and a program that compiles and has no undefined behaviour is like that, but for one bit by which a field
may reach beyond its storage (C12). So nothing is set through a constant view, no constant field is set, no
mutable view is assigned a constant one, and so on. -/
theorem C116_only {p : List Stmt} (hp : ∀ t ∈ p, t.Good) {s : St} (h : start.run p = some s) :
    LegalFrom 1 ⟨0, fun _ _ => false, []⟩ p := run_only start_good hp h

example : LegalFrom 0 ⟨0, fun _ _ => false, []⟩ exProg := by
  refine ⟨⟨?_, ?_⟩, ⟨_, rfl, .inr ⟨rfl, rfl⟩, by unfold FitsIn; decide +kernel, settable_nil _⟩, ⟨_, rfl, by simp, .inr rfl, ?_⟩,
    ⟨_, rfl, rfl⟩,
    ⟨_, rfl⟩, ⟨_, rfl, ?_, rfl, ?_⟩, ⟨_, rfl, ?_, by unfold FitsIn; decide +kernel, settable_nil _, .inl rfl⟩, ⟨_, rfl, by simp, .inr rfl, ?_⟩,
    ⟨_, rfl, by simp⟩, trivial⟩
  · intro nv h
    simp only [List.mem_singleton] at h; subst h
    exact ⟨_, rfl, .inl rfl⟩
  · intro f hf
    simp only [exMsg, List.mem_cons, List.not_mem_nil, or_false] at hf
    rcases hf with rfl | rfl | rfl
    · left; simp
    · left; simp
    · exact .inr ⟨_, List.mem_singleton.2 rfl, rfl⟩
  · intro nv h
    simp only [List.mem_singleton] at h; subst h
    exact ⟨_, rfl, .inr ⟨_, rfl⟩⟩
  · exact nofun
  · intro nv h
    simp only [List.mem_singleton] at h; subst h
    exact ⟨_, rfl, .inr ⟨_, rfl⟩⟩
  · decide +kernel
  · intro nv h
    simp only [List.mem_singleton] at h; subst h
    exact ⟨_, rfl, .inl rfl⟩

theorem equivGo_iff {s : St} {w : World} (h : Good s w) {x y : Obj} (hx : Fine s.mem x) (hy : Fine s.mem y)
    (hfs : x.fs = y.fs) {a : List (BitVec x.W)} {b : List (BitVec y.W)} (ha : s.data x = some a)
    (hb : s.data y = some b) : ∀ (gs : List MField), (∀ f ∈ gs, f ∈ x.fs) → ∀ e : Bool,
      equivGo x.W y.W x.fs a b gs = some e →
      (e = true ↔ ∀ f ∈ gs, valueAt (w.bit x.store) (x.off * x.W) f = valueAt (w.bit y.store) (y.off * y.W) f) := by
  intro gs
  induction gs with
  | nil => intro _ e he; cases he; simp
  | cons f gs ih =>
    intro hgs e he
    simp only [equivGo, Option.bind_eq_bind, Option.bind_eq_some_iff] at he
    obtain ⟨v, hv, u, hu, he⟩ := he
    have hn : named x.fs f.name = some f := by rw [named_eq]; exact find_eq hx.fields.1 (hgs f (by simp))
    obtain ⟨f1, h1, _, h3⟩ := (messageGet_iff h hx ha).1 hv
    rw [hfs] at hu
    obtain ⟨f2, h4, _, h6⟩ := (messageGet_iff h hy hb).1 hu
    rw [hn] at h1; cases h1
    rw [← hfs, hn] at h4; cases h4
    split at he
    · next hvu =>
      rw [ih (fun g hg => hgs g (by simp [hg])) e he]
      simp only [List.forall_mem_cons]
      rw [← h3, ← h6]
      simp [hvu]
    · next hvu =>
      cases he
      simp only [List.forall_mem_cons, ← h3, ← h6]
      simp [hvu]

/-- C116: two messages are equivalent just if all their fields are the same numbers, whatever storages they are
in, and whatever lies between the fields. -/
theorem C116_equivalent {p : List Stmt} (hp : ∀ t ∈ p, t.Good) {s : St} (h : start.run p = some s)
    (i j : Nat) (e : Bool) (he : s.equivalent i j = some e) :
    ∃ x y, (World.run p).vars[i]? = some x ∧ (World.run p).vars[j]? = some y ∧ x.fs = y.fs ∧
      (e = true ↔ ∀ f ∈ x.fs,
        valueAt ((World.run p).bit x.row) x.lo f = valueAt ((World.run p).bit y.row) y.lo f) := by
  have hg := run_good hp start_good h
  simp only [St.equivalent, Option.bind_eq_bind, Option.bind_eq_some_iff] at he
  obtain ⟨x, hx, y, hy, he⟩ := he
  split at he
  · cases he
  · next hk =>
    simp only [not_or, Decidable.not_not] at hk
    simp only [Option.bind_eq_some_iff] at he
    obtain ⟨a, ha, b, hb, he⟩ := he
    exact ⟨_, _, hg.sim.get hx, hg.sim.get hy, hk.2.2.1,
      equivGo_iff hg (hg.wf.fine x (List.mem_of_getElem? hx)) (hg.wf.fine y (List.mem_of_getElem? hy)) hk.2.2.1
        ha hb x.fs (fun f hf => hf) e he⟩

/-- Messages 0 and 1 (a view of it) agree, 0 and its copy 3 do not any more. -/
example : (start.run exProg).map (fun s => (s.equivalent 0 1, s.equivalent 2 3, s.equivalent 0 3)) =
    some (some true, some true, some false) := by decide +kernel

/-! ## C117 -/

theorem data_congr {s s' : St} {x : Obj} (h : s'.mem[x.store]? = s.mem[x.store]?) : s'.data x = s.data x := by
  simp only [St.data, h]

/-- A window of a variable after a program. -/
theorem window_obj {s : St} {w : World} (h : Good s w) {i : Nat} {X : Window} (hX : w.vars[i]? = some X) :
    ∃ x, s.objs[i]? = some x ∧ X = Window.of x := by
  rw [h.sim.vars, List.getElem?_map, Option.map_eq_some_iff] at hX
  obtain ⟨x, hx, rfl⟩ := hX
  exact ⟨x, hx, rfl⟩

/-- C117: a message is not changed by statements that do not name it, a view of the same storage, or the array
behind it: at any point of a program, if the rest of the program names no variable on the row of `k`, then
`k` reads the same at the end. -/
theorem C117_separate {p q : List Stmt} (hp : ∀ t ∈ p ++ q, t.Good) {s1 s2 : St} (h1 : start.run p = some s1)
    (h2 : s1.run q = some s2) {k : Nat} {y : Window} (hy : (World.run p).vars[k]? = some y)
    (hq : ∀ t ∈ q, ∀ i ∈ t.names, ∀ x, (World.run p).vars[i]? = some x → x.row ≠ y.row) :
    (∀ n, s2.get k n = s1.get k n) ∧ ∀ f, valueAt ((World.run (p ++ q)).bit y.row) y.lo f =
      valueAt ((World.run p).bit y.row) y.lo f := by
  have hg := run_good (fun t ht => hp t (by simp [ht])) start_good h1
  have hg2 := run_good (fun t ht => hp t (by simp [ht])) hg h2
  obtain ⟨o, ho, rfl⟩ := window_obj hg hy
  have hlen := (List.getElem?_eq_some_iff.1 ho).1
  obtain ⟨st, e1, _⟩ := (hg.wf.fine o (List.mem_of_getElem? ho)).inside
  have hmem : s2.mem[o.store]? = s1.mem[o.store]? := by
    refine run_frame hg (fun t ht => hp t (by simp [ht])) h2 (List.getElem?_eq_some_iff.1 e1).1
      ⟨s1.objs.length, ?_, ?_⟩
    · intro t ht i hi _ x hx _
      exact hq t ht i hi _ (hg.sim.get hx)
    · intro j x hj hx
      have := (List.getElem?_eq_some_iff.1 hx).1
      omega
  have hstay : s2.objs[k]? = some o := by
    refine run_stays hg (fun t ht => hp t (by simp [ht])) h2 ho (.inl fun t ht => ?_)
    cases t with
    | assign i j =>
      intro hik
      exact hq _ ht i (by simp [Stmt.names]) _ (by rw [hik]; exact hy) rfl
    | _ => trivial
  constructor
  · intro n
    simp only [St.get, hstay, ho, Option.bind_eq_bind, Option.bind_some]
    rw [data_congr hmem]
  · intro f
    have h3 : (World.run p).bit (Window.of o).row = st.bits := hg.sim.bits _ _ e1
    have h4 : (World.run (p ++ q)).bit (Window.of o).row = st.bits := by
      have : World.run (p ++ q) = q.foldl World.step (World.run p) := by simp [World.run]
      rw [this]; exact hg2.sim.bits _ _ (hmem.trans e1)
    rw [h3, h4]

/-- C117: an array or an owning message, from its declaration on, is only changed by statements that name it, or
follow one that names it: a program after the declaration that never names it leaves it alone. This covers
copies (`auto y = x`), `as_owning`, and owning messages made from arrays and views: what happens to their
source afterwards does not show. -/
theorem C117_own_storage {p q : List Stmt} {t : Stmt} (hp : ∀ u ∈ p ++ t :: q, u.Good) {s0 s1 s2 : St}
    (h0 : start.run p = some s0) (ht : s0.step t = some s1) (h2 : s1.run q = some s2) {o : Obj}
    (ho : s1.objs[s0.objs.length]? = some o) (hk : o.kind ≠ .view)
    (hq : ∀ u ∈ q, s0.objs.length ∉ u.names) :
    (∀ n, s2.get s0.objs.length n = s1.get s0.objs.length n) ∧ s2.data o = s1.data o := by
  have hg := run_good (fun t ht => hp t (by simp [ht])) start_good h0
  have hg1 := step_good hg (hp t (by simp)) ht
  have he := step_effect hg.wf ht
  obtain ⟨st, e1, e2, e3, e4⟩ := (hg1.wf.fine o (List.mem_of_getElem? ho)).inside
  have hlen := (List.getElem?_eq_some_iff.1 ho).1
  have hold : ∀ (i : Nat) (x : Obj), s0.objs[i]? = some x → x.store < s0.mem.length := by
    intro i x hx
    obtain ⟨st, h1, _⟩ := (hg.wf.fine x (List.mem_of_getElem? hx)).inside
    exact (List.getElem?_eq_some_iff.1 h1).1
  have hfresh : s0.mem.length ≤ o.store := by
    rcases he.origin _ _ ho with h | ⟨_, h⟩ | ⟨i, hi, x, hx, e, _⟩
    · have := (List.getElem?_eq_some_iff.1 h).1; omega
    · exact h
    · exact absurd e hk
  have hmem : s2.mem[o.store]? = s1.mem[o.store]? := by
    refine run_frame hg1 (fun t ht => hp t (by simp [ht])) h2 (List.getElem?_eq_some_iff.1 e1).1
      ⟨s1.objs.length, ?_, ?_⟩
    · intro u hu i hi _ x hx _ hc
      rcases he.origin _ _ hx with h | ⟨h, _⟩ | ⟨j, hj, z, hz, _, e, _⟩
      · have := hold i x h; omega
      · have := (List.getElem?_eq_some_iff.1 hx).1
        have := he.grows.2.2
        have : i = s0.objs.length := by omega
        subst this
        exact hq u hu hi
      · have := hold j z hz; omega
    · intro j x hj hx
      have := (List.getElem?_eq_some_iff.1 hx).1
      omega
  have hstay : s2.objs[s0.objs.length]? = some o :=
    run_stays hg1 (fun t ht => hp t (by simp [ht])) h2 ho (.inr hk)
  refine ⟨fun n => ?_, data_congr hmem⟩
  simp only [St.get, hstay, ho, Option.bind_eq_bind, Option.bind_some]
  rw [data_congr hmem]

/-- The copies 2 and 3 are made after the third and fourth statement; the rest names neither. -/
example : (start.run exProg).map (fun s => (s.get 2 0, s.get 3 0, s.get 2 2, s.get 3 2)) =
    some (some 0x55, some 0x55, some 0xDEADBEEF, some 0xDEADBEEF) := by decide +kernel
example : (start.run (exProg.take 4)).map (fun s => (s.objs.length, (s.objs[2]?).map (·.kind))) =
    some (3, some .owner) := by decide +kernel
example : ∀ u ∈ exProg.drop 4, 2 ∉ u.names := by decide +kernel
example : ((World.run (exProg.take 4)).vars.map (·.row)) = [0, 0, 1] := by decide +kernel

/-! ## C118 -/

theorem get_same {s : St} {i k : Nat} {x : Obj} {c : Bool} (hx : s.objs[i]? = some x) (hxk : x.kind ≠ .array)
    (hk : s.objs[k]? = some ⟨.view, x.fs, x.W, x.len, c, x.store, x.off⟩) (n : Nat) : s.get k n = s.get i n := by
  simp only [St.get, hx, hk, Option.bind_eq_bind, Option.bind_some]
  rw [if_neg hxk, if_neg (by simp)]
  rfl

theorem window_objs {s s' : St} {v : Obj} {vs : List (Nat × Nat)} (h : s.window v vs = some s') :
    s'.objs = s.objs ++ [v] := by
  simp only [St.window] at h
  split at h
  · exact (setOp_effect h).1
  · cases h

/-- A view of all of a message stands for the same elements. -/
theorem views_obj {s s' : St} {t : Stmt} (h : s.step t = some s') {i : Nat} (ht : t.views i) {x : Obj}
    (hx : s.objs[i]? = some x) (hk : x.kind ≠ .array) :
    ∃ c, s'.objs = s.objs ++ [⟨.view, x.fs, x.W, x.len, c, x.store, x.off⟩] := by
  cases t with
  | view fs j vs =>
    cases ht
    simp only [St.step, hx, Option.bind_eq_bind, Option.bind_some] at h
    split at h
    · next hc =>
      rcases hc with hc | hc
      · exact absurd hc hk
      · have := window_objs h
        rw [← hc.2] at this
        exact ⟨_, this⟩
    · cases h
  | constView fs j =>
    cases ht
    simp only [St.step, hx, Option.bind_eq_bind, Option.bind_some] at h
    split at h
    · next hc =>
      rcases hc with hc | hc
      · exact absurd hc hk
      · have := window_objs h
        rw [← hc.2] at this
        exact ⟨_, this⟩
    · cases h
  | asMutable j =>
    cases ht
    simp only [St.step, hx, Option.bind_eq_bind, Option.bind_some] at h
    split at h
    · exact ⟨_, window_objs h⟩
    · cases h
  | asConst j =>
    cases ht
    simp only [St.step, hx, Option.bind_eq_bind, Option.bind_some] at h
    split at h
    · cases h
    · exact ⟨_, window_objs h⟩
  | _ => exact absurd ht (by simp [Stmt.views])

/-- C118: a view of a message shows the message, at all later times and whatever is done to either: every field
reads the same through both (as long as a view is not assigned another one). -/
theorem C118_view_shows_message {p q : List Stmt} {t : Stmt} (hp : ∀ u ∈ p ++ t :: q, u.Good) {s0 s1 s2 : St}
    (h0 : start.run p = some s0) (ht : s0.step t = some s1) (h2 : s1.run q = some s2) {i : Nat} (hv : t.views i)
    {x : Obj} (hx : s0.objs[i]? = some x) (hk : x.kind ≠ .array)
    (hq : ∀ u ∈ q, u.keeps s0.objs.length ∧ (x.kind = .view → u.keeps i)) (n : Nat) :
    s2.get s0.objs.length n = s2.get i n := by
  have hg := run_good (fun t ht => hp t (by simp [ht])) start_good h0
  have hg1 := step_good hg (hp t (by simp)) ht
  obtain ⟨c, ho⟩ := views_obj ht hv hx hk
  have h3 : s2.objs[s0.objs.length]? = some ⟨.view, x.fs, x.W, x.len, c, x.store, x.off⟩ :=
    run_stays hg1 (fun t ht => hp t (by simp [ht])) h2 (by rw [ho]; simp) (.inl fun u hu => (hq u hu).1)
  have h4 : s2.objs[i]? = some x := by
    refine run_stays hg1 (fun t ht => hp t (by simp [ht])) h2 (by rw [ho]; exact append_old hx) ?_
    by_cases hxk : x.kind = .view
    · exact .inl fun u hu => (hq u hu).2 hxk
    · exact .inr hxk
  exact get_same h4 hk h3 n

/-- C118: a view of a part of a message, of another definition (such as the base of an extended message, or
one of several packed messages), shows that part at all later times: a field of the view reads what the
message's field at the same bits reads. -/
theorem C118_part_shows_message {p q : List Stmt} {fs : List MField} {i off len : Nat} {vs : List (Nat × Nat)}
    (hp : ∀ u ∈ p ++ .spanView fs i off len vs :: q, u.Good) {s0 s1 s2 : St}
    (h0 : start.run p = some s0) (ht : s0.step (.spanView fs i off len vs) = some s1) (h2 : s1.run q = some s2)
    {x : Obj} (hx : s0.objs[i]? = some x) (hk : x.kind ≠ .array)
    (hq : ∀ u ∈ q, u.keeps s0.objs.length ∧ (x.kind = .view → u.keeps i)) {f g : MField}
    (hf : f ∈ fs) (hgx : g ∈ x.fs) (hpos : g.fld.positions = f.fld.positions.map (off * x.W + ·)) {v : Nat}
    (hv : s2.get s0.objs.length f.name = some v) : s2.get i g.name = some v := by
  have hg := run_good (fun t ht => hp t (by simp [ht])) start_good h0
  have hg1 := step_good hg (hp _ (by simp)) ht
  have hg2 := run_good (fun t ht => hp t (by simp [ht])) hg1 h2
  have hfs : GoodDef fs := hp (.spanView fs i off len vs) (by simp)
  have hx1 := (hg.wf.fine x (List.mem_of_getElem? hx)).fields
  simp only [St.step, hx, Option.bind_eq_bind, Option.bind_some] at ht
  split at ht
  · next hl =>
    have ho := window_objs ht
    have h3 := run_stays (k := s0.objs.length) hg1 (fun t ht => hp t (by simp [ht])) h2 (by rw [ho]; simp; rfl)
      (.inl fun u hu => (hq u hu).1)
    have h4 : s2.objs[i]? = some x := by
      refine run_stays hg1 (fun t ht => hp t (by simp [ht])) h2 (by rw [ho]; exact append_old hx) ?_
      by_cases hxk : x.kind = .view
      · exact .inl fun u hu => (hq u hu).2 hxk
      · exact .inr hxk
    obtain ⟨X, f', hX, _, hn, hh, rfl⟩ := (get_iff hg2).1 hv
    rw [hg2.sim.get h3] at hX
    cases hX
    have e : named fs f.name = some f := by rw [named_eq]; exact find_eq hfs.1 hf
    simp only [Window.of] at hn
    rw [e] at hn; cases hn
    refine (get_iff hg2).2 ⟨_, g, hg2.sim.get h4, hk, ?_, ?_, ?_⟩
    · rw [named_eq]; exact find_eq hx1.1 hgx
    · intro p hp'
      rw [hpos] at hp'
      obtain ⟨q, hq, rfl⟩ := List.mem_map.1 hp'
      have h5 : q < len * x.W := hh q hq
      have h6 : (off + len) * x.W ≤ x.len * x.W := Nat.mul_le_mul_right _ hl
      rw [Nat.add_mul] at h6
      simp only [Window.of]
      omega
    · simp only [valueAt, hpos, List.map_map, Window.of]
      congr 1
      apply List.map_congr_left
      intro q _
      simp only [Function.comp, Nat.add_mul, Nat.add_assoc]
  · cases ht

/-- The view 1 shows message 0, and the view 4 of its second word shows field 2. -/
example : (start.run exProg).map (fun s => (s.get 1 0, s.get 1 2, s.get 4 5)) =
    some (some 9, some 0x1234, some 0x1234) := by decide +kernel
example : (exMsg[2]).fld.positions = (exPart[0]).fld.positions.map (1 * 32 + ·) := by decide
example : Stmt.views 0 (.view exMsg 0 []) ∧ ∀ u ∈ exProg.drop 2, u.keeps 1 := by
  refine ⟨rfl, ?_⟩
  intro u hu
  simp only [exProg, List.drop_succ_cons, List.drop_zero, List.mem_cons, List.not_mem_nil, or_false] at hu
  rcases hu with rfl | rfl | rfl | rfl | rfl | rfl | rfl <;> trivial

/-! ## C119 -/

/-- A value that is written is read back, as far as the field has bits for it. -/
theorem value_of_write {row : Nat → Bool} {lo : Nat} {f : MField} (hno : f.fld.NonOverlapping) (v : Nat) :
    valueAt (writeAt row lo f v) lo f = v % 2 ^ f.fld.positions.length := by
  apply Nat.eq_of_testBit_eq
  intro i
  rw [valueAt, number_testBit, Nat.testBit_mod_two_pow, List.getElem?_map]
  by_cases hi : i < f.fld.positions.length
  · rw [List.getElem?_eq_getElem hi]
    have hm := List.getElem_mem hi
    have : f.fld.positions.idxOf f.fld.positions[i] = i := List.Nodup.idxOf_getElem hno i hi
    simp [writeAt, hi, this]
  · simp [hi]

theorem value_of_other_write {row : Nat → Bool} {lo : Nat} {f g : MField} (hd : f.fld.Disjoint g.fld) (v : Nat) :
    valueAt (writeAt row lo f v) lo g = valueAt row lo g := by
  simp only [valueAt]
  congr 1
  apply List.map_congr_left
  intro p hp
  simp only [writeAt]
  rw [if_neg]
  rintro ⟨_, h⟩
  rw [Nat.add_sub_cancel_left] at h
  exact hd p h hp

theorem value_of_writes {lo : Nat} {fs : List MField} (hfs : GoodDef fs)
    (hd : ∀ f ∈ fs, ∀ g ∈ fs, f.name ≠ g.name → f.fld.Disjoint g.fld) {f : MField} (hf : f ∈ fs) :
    ∀ (vs : List (Nat × Nat)) (row : Nat → Bool), (∀ nv ∈ vs, (named fs nv.1).isSome) →
      valueAt (writesAt row lo fs vs) lo f = lastOr vs f.name f.fld.positions.length (valueAt row lo f) := by
  intro vs
  induction vs with
  | nil => intro row _; rfl
  | cons nv vs ih =>
    intro row hn
    obtain ⟨g, hg⟩ := Option.isSome_iff_exists.1 (hn nv (by simp))
    simp only [writesAt, hg]
    rw [ih _ fun mv hmv => hn mv (by simp [hmv])]
    rw [named_eq] at hg
    obtain ⟨hgm, hgn⟩ := find_mem hg
    simp only [lastOr, List.reverse_cons, List.find?_append]
    cases hl : vs.reverse.find? (fun nv => nv.1 == f.name) with
    | some mv => simp
    | none =>
      simp only [Option.none_or]
      by_cases hfg : nv.1 = f.name
      · have : g = f := name_inj hfs.1 hgm hf (hgn.trans hfg)
        subst this
        simp [hfg, value_of_write (hfs.2 g hf).2]
      · have hne : g.name ≠ f.name := by rw [hgn]; exact hfg
        simp [hfg, value_of_other_write (hd g hgm f hf hne)]

theorem value_of_bitsOf {w : World} {x : Window} {size : Nat} {f : MField} (hx : x.Holds f)
    (hs : ∀ p ∈ f.fld.positions, p < size) :
    valueAt (w.bitsOf x size) 0 f = valueAt (w.bit x.row) x.lo f := by
  simp only [valueAt]
  congr 1
  apply List.map_congr_left
  intro p hp
  simp [World.bitsOf, hx p hp, hs p hp]

theorem owningSize_holds {fs : List MField} {f : MField} (hf : f ∈ fs) : ∀ p ∈ f.fld.positions, p < owningSize fs := by
  intro p hp
  have h : (p / 32 + 1) * 32 ≤ owningSize fs := by
    apply le_foldl_max
    right
    exact List.mem_map.2 ⟨p, List.mem_flatMap.2 ⟨f, hf, hp⟩, rfl⟩
  omega

theorem setOk_named {fs : List MField} {vs : List (Nat × Nat)} (h : setOk fs vs = true) :
    ∀ nv ∈ vs, (named fs nv.1).isSome := by
  intro nv hnv
  simp only [setOk, List.all_eq_true] at h
  have := h nv hnv
  rw [named_eq]
  cases hfd : find fs nv.1 with
  | none => rw [hfd] at this; simp at this
  | some f => rfl

theorem fresh_var (w : World) (k : Kind) (fs : List MField) (u size : Nat) (row : Nat → Bool) :
    (w.fresh k fs u size row).vars[w.vars.length]? = some ⟨k, fs, u, size, false, w.rows, 0⟩ := by
  simp [World.fresh]

theorem fresh_bit (w : World) (k : Kind) (fs : List MField) (u size : Nat) (row : Nat → Bool) :
    (w.fresh k fs u size row).bit w.rows = row := by
  simp [World.fresh]

/-- A copy: where it is, and what is in it. -/
theorem copies_world {s0 s1 : St} {w : World} (hg : Good s0 w) {t : Stmt}
    (ht : s0.step t = some s1) {i : Nat} {vs : List (Nat × Nat)} (hc : t.copies i vs) {x : Window}
    (hx : w.vars[i]? = some x) (hk : x.kind ≠ .array) :
    ∃ z, (w.step t).vars[s0.objs.length]? = some z ∧ z.kind ≠ .array ∧ z.fs = x.fs ∧
      (∀ f ∈ x.fs, x.Holds f → z.Holds f) ∧ (∀ nv ∈ vs, (named x.fs nv.1).isSome) ∧
      (vs = [] ∧ z.row = x.row ∧ z.lo = x.lo ∧ (w.step t).bit = w.bit ∨
      ∃ size, (∀ f ∈ x.fs, x.Holds f → ∀ p ∈ f.fld.positions, p < size) ∧
        z.lo = 0 ∧ (w.step t).bit z.row = writesAt (w.bitsOf x size) 0 x.fs vs) := by
  have hlen : s0.objs.length = w.vars.length := by rw [hg.sim.vars]; simp
  obtain ⟨o, ho, rfl⟩ := window_obj hg hx
  rw [hlen]
  cases t with
  | copy j =>
    obtain ⟨rfl, rfl⟩ := hc
    simp only [World.step, hx]
    split
    · exact ⟨Window.of o, by simp [World.see], hk, rfl, fun f _ h => h, by simp, .inl ⟨trivial, rfl, rfl, rfl⟩⟩
    · exact ⟨_, fresh_var .., hk, rfl, fun f _ h => h, by simp,
        .inr ⟨(Window.of o).size, fun f _ h => h, rfl, fresh_bit ..⟩⟩
  | asOwning j =>
    obtain ⟨rfl, rfl⟩ := hc
    simp only [World.step, hx]
    exact ⟨_, fresh_var .., by simp, rfl, fun f _ h => h, by simp,
      .inr ⟨(Window.of o).size, fun f _ h => h, rfl, fresh_bit ..⟩⟩
  | ownerFrom fs j us =>
    obtain ⟨rfl, rfl⟩ := hc
    simp only [St.step, ho, Option.bind_eq_bind, Option.bind_some] at ht
    split at ht
    · next hkind =>
      have hfs : o.fs = fs := by
        rcases hkind with h | h
        · exact absurd h hk
        · exact h.2
      subst hfs
      simp only [St.ownerCopy] at ht
      split at ht
      · next hok =>
        simp only [World.step, hx]
        exact ⟨_, fresh_var .., by simp, rfl, fun f _ h => h, setOk_named hok.2,
          .inr ⟨(Window.of o).size, fun f _ h => h, rfl, fresh_bit ..⟩⟩
      · cases ht
    · cases ht
  | owningFrom fs j us =>
    obtain ⟨rfl, rfl⟩ := hc
    simp only [St.step, ho, Option.bind_eq_bind, Option.bind_some] at ht
    split at ht
    · next hkind =>
      have hfs : o.fs = fs := by
        rcases hkind.1 with h | h
        · exact absurd h hk
        · exact h.2
      subst hfs
      simp only [St.ownerCopy] at ht
      split at ht
      · next hok =>
        simp only [World.step, hx]
        exact ⟨_, fresh_var .., by simp, rfl, fun f hf _ => owningSize_holds hf, setOk_named hok.2,
          .inr ⟨owningSize o.fs, fun f hf _ => owningSize_holds hf, rfl, fresh_bit ..⟩⟩
      · cases ht
    · cases ht
  | _ => exact absurd hc (by simp [Stmt.copies])

/-- C119: a copy of a message, `as_owning()` of a view, and an owning message made from a view have the values
of their source when they are made. -/
theorem C119_copy_equal {p : List Stmt} {t : Stmt} (hp : ∀ u ∈ p ++ [t], u.Good) {s0 s1 : St}
    (h0 : start.run p = some s0) (ht : s0.step t = some s1) {i : Nat} (hc : t.copies i []) {n v : Nat}
    (hv : s0.get i n = some v) : s1.get s0.objs.length n = some v := by
  have hg := run_good (fun t ht => hp t (by simp [ht])) start_good h0
  have hg1 := step_good hg (hp t (by simp)) ht
  obtain ⟨x, f, hx, hk, hf, hh, rfl⟩ := (get_iff hg).1 hv
  obtain ⟨z, hz, hzk, hzf, hzh, _, hzv⟩ := copies_world hg ht hc hx hk
  have hfm : f ∈ x.fs := by rw [named_eq] at hf; exact (find_mem hf).1
  refine (get_iff hg1).2 ⟨z, f, hz, hzk, by rw [hzf]; exact hf, hzh f hfm hh, ?_⟩
  rcases hzv with ⟨_, h1, h2, h3⟩ | ⟨size, h1, h2, h3⟩
  · rw [h1, h2, h3]
  · rw [h2, h3]; exact (value_of_bitsOf hh (h1 f hfm hh)).symm

/-- C119: with values given besides, each of these is in its field (as far as the field has bits for it), and
the fields without one have the value of the source, if the fields share no bits. -/
theorem C119_copy_with_values {p : List Stmt} {t : Stmt} (hp : ∀ u ∈ p ++ [t], u.Good) {s0 s1 : St}
    (h0 : start.run p = some s0) (ht : s0.step t = some s1) {i : Nat} {vs : List (Nat × Nat)} (hc : t.copies i vs)
    {x : Obj} (hx : s0.objs[i]? = some x)
    (hd : ∀ f ∈ x.fs, ∀ g ∈ x.fs, f.name ≠ g.name → f.fld.Disjoint g.fld) {f : MField} (hf : f ∈ x.fs) {v : Nat}
    (hv : s0.get i f.name = some v) :
    s1.get s0.objs.length f.name = some (lastOr vs f.name f.fld.positions.length v) := by
  have hg := run_good (fun t ht => hp t (by simp [ht])) start_good h0
  have hg1 := step_good hg (hp t (by simp)) ht
  have hfx := (hg.wf.fine x (List.mem_of_getElem? hx)).fields
  have hfn : named x.fs f.name = some f := by rw [named_eq]; exact find_eq hfx.1 hf
  obtain ⟨X, f', hX, hk, hf', hh, rfl⟩ := (get_iff hg).1 hv
  rw [hg.sim.get hx] at hX; cases hX
  have : f' = f := by
    simp only [Window.of] at hf'
    rw [hfn] at hf'; cases hf'; rfl
  subst this
  obtain ⟨z, hz, hzk, hzf, hzh, hn, hzv⟩ := copies_world hg ht hc (hg.sim.get hx) hk
  refine (get_iff hg1).2 ⟨z, f', hz, hzk, by rw [hzf]; exact hfn, hzh f' hf hh, ?_⟩
  rcases hzv with ⟨h0, h1, h2, h3⟩ | ⟨size, h1, h2, h3⟩
  · rw [h0, h1, h2, h3]; rfl
  · rw [h2, h3]
    have := value_of_writes (lo := 0) hfx hd hf vs
      ((p.foldl World.step ⟨0, fun _ _ => false, []⟩).bitsOf (Window.of x) size) hn
    rw [value_of_bitsOf hh (h1 f' hf hh)] at this
    exact this.symm

/-- An owning message from the view 1, with a value for field 0. -/
example : (start.run (exProg ++ [.ownerFrom exMsg 1 [(0, 0x333)]])).map
      (fun s => (s.get 6 0, s.get 6 1, s.get 6 2, lastOr [(0, 0x333)] 0 8 9, lastOr [(0, 0x333)] 2 32 0x1234)) =
    some (some 0x33, some 0xA5, some 0x1234, 0x33, 0x1234) := by decide +kernel
example : Stmt.copies 1 [(0, 0x333)] (.ownerFrom exMsg 1 [(0, 0x333)]) := ⟨rfl, rfl⟩

/-! ## C120 -/

theorem mapM_some {α β : Type} (f : α → Option β) : ∀ (xs : List α) (ys : List β), xs.mapM f = some ys →
    ys.length = xs.length ∧ ∀ k (hk : k < xs.length), f xs[k] = ys[k]? := by
  intro xs
  induction xs with
  | nil => intro ys h; cases h; simp
  | cons x xs ih =>
    intro ys h
    simp only [List.mapM_cons, Option.bind_eq_bind, Option.bind_eq_some_iff, Option.pure_def, Option.some.injEq] at h
    obtain ⟨y, hy, zs, hzs, rfl⟩ := h
    obtain ⟨h1, h2⟩ := ih zs hzs
    refine ⟨by simp [h1], fun k hk => ?_⟩
    cases k with
    | zero => simpa using hy
    | succ k => simpa using h2 k (by simpa using hk)

/-- C120: structured bindings give one value per field of the definition, and they come in the order of the
fields' lowest bits, whatever the order in which the definition lists the fields. -/
theorem C120_destructure {s : St} {i : Nat} {x : Obj} (hx : s.objs[i]? = some x) {decl : List MField}
    (hdecl : message decl = some x.fs) (hlegal : ∀ f ∈ decl, f.fld.Legal ∧ f.located = true) {vs : List Nat}
    (hvs : s.destructure i = some vs) :
    ∃ order : List MField, order.Perm decl ∧
      order.Pairwise (fun f g => ∀ j k, f.StartsAt j → g.StartsAt k → j ≤ k) ∧ vs.length = order.length ∧
      ∀ k (hk : k < order.length), s.get i (order[k]).name = vs[k]? := by
  have hord := C60_fields_in_order decl x.fs hdecl hlegal
  simp only [St.destructure, hx, Option.bind_eq_bind, Option.bind_some] at hvs
  obtain ⟨h1, h2⟩ := mapM_some _ _ _ hvs
  refine ⟨x.fs, ?_, hord, h1, h2⟩
  simp only [message] at hdecl
  split at hdecl
  · next hn =>
    rw [← Option.some.inj hdecl, uniqueByName, uniqueNames_of_nodup (names_nodup_sortBy hn)]
    exact sortBy_perm _ _
  · cases hdecl

/-- Listed in another order, the fields come as before. -/
example : message [exMsg[2], exMsg[1], exMsg[0]] = some [exMsg[0], exMsg[1], exMsg[2]] := by decide +kernel
example : (start.run exProg).bind (fun s => s.destructure 0) = some [9, 0xA5, 0x1234] := by decide +kernel

/-! ## C121 -/

/-- C121: constant views give no way to change what they show: if a piece of program, of the variables that
exist before it, names only views of constant elements (it may make new variables from them), then it changes
no array and no owning message that exists before it. Which views are constant is said by the specification. -/
theorem C121_const_views {p q : List Stmt} (hp : ∀ t ∈ p ++ q, t.Good) {s1 s2 : St} (h1 : start.run p = some s1)
    (h2 : s1.run q = some s2)
    (hq : ∀ t ∈ q, ∀ i ∈ t.names, ∀ x, (World.run p).vars[i]? = some x → x.const = true) {k : Nat} {y : Obj}
    (hy : s1.objs[k]? = some y) (hk : y.kind ≠ .view) :
    s2.objs[k]? = some y ∧ s2.data y = s1.data y ∧ ∀ n, s2.get k n = s1.get k n := by
  have hg := run_good (fun t ht => hp t (by simp [ht])) start_good h1
  obtain ⟨st, e1, _⟩ := (hg.wf.fine y (List.mem_of_getElem? hy)).inside
  have hmem : s2.mem[y.store]? = s1.mem[y.store]? := by
    refine run_frame hg (fun t ht => hp t (by simp [ht])) h2 (List.getElem?_eq_some_iff.1 e1).1
      ⟨s1.objs.length, ?_, ?_⟩
    · intro t ht i hi _ x hx hc
      have : (Window.of x).const = true := hq t ht i hi _ (hg.sim.get hx)
      rw [show x.const = true from this] at hc; cases hc
    · intro j x hj hx
      have := (List.getElem?_eq_some_iff.1 hx).1
      omega
  have hstay := run_stays hg (fun t ht => hp t (by simp [ht])) h2 hy (.inr hk)
  refine ⟨hstay, data_congr hmem, fun n => ?_⟩
  simp only [St.get, hstay, hy, Option.bind_eq_bind, Option.bind_some]
  rw [data_congr hmem]

/-- C121: setting a field through a constant view does not compile. -/
theorem C121_no_set {p : List Stmt} (hp : ∀ t ∈ p, t.Good) {s : St} (h : start.run p = some s) {i : Nat}
    {x : Window} (hx : (World.run p).vars[i]? = some x) (hc : x.const = true) :
    (∀ nv vs, s.step (.set i (.values (nv :: vs))) = none) ∧ (∀ n ns, s.step (.set i (.names (n :: ns))) = none) ∧
      ∀ n v, s.step (.index i n v) = none := by
  obtain ⟨o, ho, rfl⟩ := window_obj (run_good hp start_good h) hx
  have hc' : o.const = true := hc
  have key : ∀ op, noArgs op = false → s.setOp o op = none := by
    intro op hop
    simp [St.setOp, hop, hc']
  exact ⟨fun nv vs => by simpa [St.step, ho] using key _ rfl, fun n ns => by simpa [St.step, ho] using key _ rfl,
    fun n v => by simpa [St.step, ho] using key _ rfl⟩

/-- An owning message from the constant view 5 can be changed, message 0 does not notice; through the view itself
nothing can be set. -/
example : (start.run (exProg ++ [.asOwning 5, .set 6 (.values [(0, 1)])])).map (fun s => (s.get 6 0, s.get 0 0)) =
    some (some 1, some 9) := by decide +kernel
example : (start.run (exProg ++ [.set 5 (.values [(0, 1)])])).isNone := by decide +kernel
example : ((World.run exProg).vars[5]?).map (·.const) = some true := by decide +kernel

end Verif.Object
