import Verif.Object.BitLemmas

/-! Lemmas: programs keep variables inside their storages, and every statement does to the elements what the
specification does to the rows of bits. -/
namespace Verif.Object
open Verif.Bits Verif.Message

def Store.bits (st : Store) : Nat → Bool := bitAt st.els

def Window.of (x : Obj) : Window := ⟨x.kind, x.fs, x.W, x.len * x.W, x.const, x.store, x.off * x.W⟩

/-- A variable is inside its storage. -/
structure Fine (mem : List Store) (x : Obj) : Prop where
  fields : GoodDef x.fs
  inside : ∃ st, mem[x.store]? = some st ∧ st.W = x.W ∧ x.off + x.len ≤ st.els.length ∧
    (x.kind ≠ .view → x.off = 0 ∧ x.len = st.els.length)
  mutable : x.kind ≠ .view → x.const = false

structure WF (s : St) : Prop where
  width : ∀ st ∈ s.mem, Narrow st.W
  fine : ∀ x ∈ s.objs, Fine s.mem x
  own : ∀ (i j : Nat) (x y : Obj), s.objs[i]? = some x → s.objs[j]? = some y → x.kind ≠ .view → y.kind ≠ .view →
    x.store = y.store → i = j

structure Sim (s : St) (w : World) : Prop where
  rows : w.rows = s.mem.length
  vars : w.vars = s.objs.map Window.of
  bits : ∀ (a : Nat) (st : Store), s.mem[a]? = some st → w.bit a = st.bits

theorem data_some {s : St} {x : Obj} {r : List (BitVec x.W)} (h : s.data x = some r) :
    ∃ st, s.mem[x.store]? = some st ∧ st.W = x.W ∧ x.off + x.len ≤ st.els.length ∧ r.length = x.len ∧
      (0 < x.W → bitAt r = fun p => decide (p < x.len * x.W) && st.bits (x.off * x.W + p)) := by
  simp only [St.data, Option.bind_eq_bind, Option.bind_eq_some_iff] at h
  obtain ⟨st, h1, h2⟩ := h
  split at h2
  · next hW =>
    split at h2
    · next hl =>
      obtain ⟨W, els⟩ := st
      simp only at hW hl h2
      subst hW
      simp only [Option.pure_def, Option.some.injEq] at h2
      subst h2
      refine ⟨_, h1, rfl, hl, by simp; omega, fun hW => ?_⟩
      funext p
      simp only [Store.bits]
      rw [map_cast_self, bitAt_take hW, bitAt_drop hW]
    · cases h2
  · cases h2

theorem data_defined {s : St} {x : Obj} (h : Fine s.mem x) : ∃ r, s.data x = some r := by
  obtain ⟨st, h1, h2, h3, _⟩ := h.inside
  simp [St.data, h1, h2, h3]

theorem put_some {s s' : St} {x : Obj} {r : List (BitVec x.W)} (h : s.put x r = some s') {st : Store}
    (hst : s.mem[x.store]? = some st) (hin : x.off + x.len ≤ st.els.length) (hr : r.length = x.len) :
    s'.objs = s.objs ∧ ∃ st', s'.mem = s.mem.set x.store st' ∧ st'.W = st.W ∧ st'.els.length = st.els.length ∧
      (0 < x.W → st'.bits = fun q => if x.off * x.W ≤ q ∧ q < x.off * x.W + x.len * x.W then
        bitAt r (q - x.off * x.W) else st.bits q) := by
  simp only [St.put, hst, Option.bind_eq_bind, Option.bind_some] at h
  split at h
  · next hW =>
    obtain ⟨W, els⟩ := st
    simp only at hW hin h
    subst hW
    simp only [Option.pure_def, Option.some.injEq] at h
    subst h
    refine ⟨rfl, _, rfl, rfl, by simp; omega, fun hW => ?_⟩
    funext q
    have h1 : (els.take x.off ++ r).length = x.off + x.len := by simp; omega
    have h2 : (els.take x.off).length = x.off := by simp; omega
    simp only [Store.bits]
    rw [map_cast_self, bitAt_append hW, h1, Nat.add_mul]
    by_cases hq : q < x.off * x.W + x.len * x.W
    · rw [if_pos hq, bitAt_append hW, h2]
      by_cases hq2 : q < x.off * x.W
      · rw [if_pos hq2, if_neg (by omega), bitAt_take hW]; simp [hq2]
      · rw [if_neg hq2, if_pos (by omega)]
    · rw [if_neg hq, if_neg (by omega), bitAt_drop hW, Nat.add_mul]
      congr 1; omega
  · cases h

/-- A row with a part of it replaced, as writes. -/
theorem splice_row {fs : List MField} {lo size : Nat} {row loc loc' : Nat → Bool} {vs : List (Nat × Nat)}
    (hin : InsideAll fs size vs) (h1 : loc = fun p => decide (p < size) && row (lo + p))
    (h2 : loc' = writesAt loc 0 fs vs) :
    (fun q => if lo ≤ q ∧ q < lo + size then loc' (q - lo) else row q) = writesAt row lo fs vs := by
  funext q
  by_cases h : lo ≤ q ∧ q < lo + size
  · rw [if_pos h, h2]
    obtain ⟨p, rfl⟩ : ∃ p, q = lo + p := ⟨q - lo, by omega⟩
    rw [writesAt_shift, Nat.add_sub_cancel_left]
    apply writesAt_congr
    rw [h1]
    simp; omega
  · rw [if_neg h]
    by_cases hq : q < lo
    · rw [writesAt_low _ _ _ _ _ hq]
    · rw [writesAt_high _ _ size _ _ _ hin (by omega)]

/-! ## The invariant -/

theorem WF.narrow {s : St} (h : WF s) {x : Obj} (hx : Fine s.mem x) : Narrow x.W := by
  obtain ⟨st, h1, h2, _⟩ := hx.inside
  rw [← h2]; exact h.width st (List.mem_of_getElem? h1)

theorem Fine.mono {mem mem' : List Store} {x : Obj} (h : Fine mem x)
    (hm : ∀ (a : Nat) (st : Store), mem[a]? = some st →
      ∃ st', mem'[a]? = some st' ∧ st'.W = st.W ∧ st'.els.length = st.els.length) : Fine mem' x := by
  obtain ⟨st, h1, h2, h3, h4⟩ := h.inside
  obtain ⟨st', e1, e2, e3⟩ := hm _ _ h1
  refine ⟨h.fields, ⟨st', e1, by omega, by omega, ?_⟩, h.mutable⟩
  intro hk; obtain ⟨k1, k2⟩ := h4 hk; exact ⟨k1, by omega⟩

/-- Memory with one storage changed. -/
theorem WF.setMem {s : St} (h : WF s) {a : Nat} {st st' : Store} (hst : s.mem[a]? = some st)
    (hW : st'.W = st.W) (hl : st'.els.length = st.els.length) : WF ⟨s.mem.set a st', s.objs⟩ := by
  have ha := (List.getElem?_eq_some_iff.1 hst).1
  refine ⟨?_, ?_, h.own⟩
  · intro st1 h1
    rcases List.mem_or_eq_of_mem_set h1 with h1 | rfl
    · exact h.width _ h1
    · rw [hW]; exact h.width _ (List.mem_of_getElem? hst)
  · intro x hx
    refine (h.fine x hx).mono fun b st1 hb => ?_
    by_cases hab : a = b
    · subst hab
      rw [hst] at hb; cases hb
      exact ⟨st', by simp [ha], hW, hl⟩
    · exact ⟨st1, by simp [List.getElem?_set_ne hab, hb], rfl, rfl⟩

theorem WF.addView {s : St} (h : WF s) {v : Obj} (hk : v.kind = .view) (hv : Fine s.mem v) :
    WF ⟨s.mem, s.objs ++ [v]⟩ := by
  refine ⟨h.width, ?_, ?_⟩
  · intro x hx
    rcases List.mem_append.1 hx with hx | hx
    · exact h.fine x hx
    · simp only [List.mem_singleton] at hx; subst hx; exact hv
  · intro i j x y hx hy kx ky e
    have aux : ∀ (i : Nat) (x : Obj), (s.objs ++ [v])[i]? = some x → x.kind ≠ .view → s.objs[i]? = some x := by
      intro i x hx kx
      rw [List.getElem?_append] at hx
      split at hx
      · exact hx
      · rw [List.getElem?_singleton] at hx
        split at hx
        · cases hx; exact absurd hk kx
        · cases hx
    exact h.own i j x y (aux i x hx kx) (aux j y hy ky) kx ky e

/-- A view that now stands for something else. -/
theorem WF.rebind {s : St} (h : WF s) {i : Nat} {x v : Obj} (hx : s.objs[i]? = some x) (hk : v.kind = .view)
    (hv : Fine s.mem v) : WF ⟨s.mem, s.objs.set i v⟩ := by
  have hi := (List.getElem?_eq_some_iff.1 hx).1
  refine ⟨h.width, ?_, ?_⟩
  · intro y hy
    rcases List.mem_or_eq_of_mem_set hy with hy | rfl
    · exact h.fine y hy
    · exact hv
  · intro j k y z hy hz ky kz e
    have aux : ∀ (j : Nat) (y : Obj), (s.objs.set i v)[j]? = some y → y.kind ≠ .view → s.objs[j]? = some y := by
      intro j y hy ky
      by_cases hij : i = j
      · subst hij
        rw [List.getElem?_set_self hi] at hy
        cases hy; exact absurd hk ky
      · rwa [List.getElem?_set_ne hij] at hy
    exact h.own j k y z (aux j y hy ky) (aux k z hz kz) ky kz e

theorem WF.alloc {s : St} (h : WF s) (k : Kind) {fs : List MField} (hfs : GoodDef fs) {W : Nat} (hW : Narrow W)
    (r : List (BitVec W)) : WF (s.alloc k fs W r) := by
  have grow : ∀ (a : Nat) (st : Store), s.mem[a]? = some st → (s.mem ++ [⟨W, r⟩])[a]? = some st := by
    intro a st ha
    rw [List.getElem?_append_left (List.getElem?_eq_some_iff.1 ha).1]; exact ha
  have last : (s.mem ++ [⟨W, r⟩])[s.mem.length]? = some ⟨W, r⟩ := by simp
  have below : ∀ (x : Obj), x ∈ s.objs → x.store < s.mem.length := by
    intro x hx
    obtain ⟨st, h1, _⟩ := (h.fine x hx).inside
    exact (List.getElem?_eq_some_iff.1 h1).1
  refine ⟨?_, ?_, ?_⟩
  · intro st hst
    rcases List.mem_append.1 hst with hst | hst
    · exact h.width st hst
    · simp only [List.mem_singleton] at hst; subst hst; exact hW
  · intro x hx
    rcases List.mem_append.1 hx with hx | hx
    · exact (h.fine x hx).mono fun a st ha => ⟨st, grow a st ha, rfl, rfl⟩
    · simp only [List.mem_singleton] at hx; subst hx
      exact ⟨hfs, ⟨_, last, rfl, by simp, by simp⟩, fun _ => rfl⟩
  · intro i j x y hx hy kx ky e
    have aux : ∀ (i : Nat) (x : Obj), (s.objs ++ [⟨k, fs, W, r.length, false, s.mem.length, 0⟩])[i]? = some x →
        s.objs[i]? = some x ∨ (i = s.objs.length ∧ x.store = s.mem.length) := by
      intro i x hx
      rw [List.getElem?_append] at hx
      split at hx
      · exact .inl hx
      · rw [List.getElem?_singleton] at hx
        split at hx
        · cases hx; exact .inr ⟨by omega, rfl⟩
        · cases hx
    rcases aux i x hx with hx | ⟨hi, hx⟩ <;> rcases aux j y hy with hy | ⟨hj, hy⟩
    · exact h.own i j x y hx hy kx ky e
    · have := below x (List.mem_of_getElem? hx); omega
    · have := below y (List.mem_of_getElem? hy); omega
    · omega

/-! ## Simulation -/

theorem Sim.get {s : St} {w : World} (h : Sim s w) {i : Nat} {x : Obj} (hx : s.objs[i]? = some x) :
    w.vars[i]? = some (Window.of x) := by
  rw [h.vars]; simp [hx]

theorem Sim.update {s : St} {w : World} (h : Sim s w) {a : Nat} {st : Store} (ha : a < s.mem.length)
    {row : Nat → Bool} (hr : st.bits = row) : Sim ⟨s.mem.set a st, s.objs⟩ (w.update a row) := by
  refine ⟨by simpa [World.update] using h.rows, h.vars, ?_⟩
  intro b st' hb
  simp only [World.update]
  by_cases hab : b = a
  · subst hab
    rw [if_pos rfl]
    simp only [List.getElem?_set_self ha, Option.some.injEq] at hb
    subst hb; exact hr.symm
  · rw [if_neg hab]
    simp only [List.getElem?_set_ne (Ne.symm hab)] at hb
    exact h.bits b st' hb

theorem Sim.alloc {s : St} {w : World} (h : Sim s w) (k : Kind) (fs : List MField) {W : Nat} (r : List (BitVec W))
    {row : Nat → Bool} (hr : bitAt r = row) : Sim (s.alloc k fs W r) (w.fresh k fs W (r.length * W) row) := by
  refine ⟨by simp [World.fresh, St.alloc, h.rows], ?_, ?_⟩
  · simp [World.fresh, St.alloc, h.vars, h.rows, Window.of]
  · intro b st' hb
    simp only [World.fresh, h.rows, St.alloc] at hb ⊢
    by_cases hab : b = s.mem.length
    · subst hab
      simp only [List.getElem?_concat_length, Option.some.injEq] at hb
      subst hb; rw [if_pos rfl]; exact hr.symm
    · rw [if_neg hab]
      rw [List.getElem?_append] at hb
      split at hb
      · exact h.bits b st' hb
      · rw [List.getElem?_singleton, if_neg (by omega)] at hb; cases hb

theorem Sim.see {s : St} {w : World} (h : Sim s w) (v : Obj) :
    Sim ⟨s.mem, s.objs ++ [v]⟩ (w.see (Window.of v)) :=
  ⟨h.rows, by simp [World.see, h.vars], h.bits⟩

/-- Both at once. -/
structure Good (s : St) (w : World) : Prop where
  wf : WF s
  sim : Sim s w

theorem writes_nil (w : World) (x : Window) : w.writes x [] = w := by
  simp only [World.writes, writesAt, World.update]
  congr 1
  funext b
  split
  · next h => rw [h]
  · rfl

theorem noArgs_values {op : SetOp} (h : noArgs op = true) (fs : List MField) : valuesOf fs op = [] := by
  cases op with
  | values vs => cases vs with
    | nil => rfl
    | cons v vs => simp [noArgs] at h
  | names ns => cases ns with
    | nil => rfl
    | cons v vs => simp [noArgs] at h

theorem runOp_values {W : Nat} {fs : List MField} {op : SetOp} (h : op.ok fs = true) (r : List (BitVec W)) :
    op.run W fs r = setValues W fs r (valuesOf fs op) := by
  cases op with
  | values vs => rfl
  | names ns =>
    simp only [SetOp.ok, setNamesOk, List.all_eq_true] at h
    exact setDefaults_values ns r h

/-- `set` on a variable. -/
theorem setOp_good {s s' : St} {w : World} (h : Good s w) {x : Obj} (hx : Fine s.mem x) {op : SetOp}
    (hs : s.setOp x op = some s') :
    Good s' (w.writes (Window.of x) (valuesOf x.fs op)) ∧ s'.objs = s.objs := by
  simp only [St.setOp] at hs
  split at hs
  · cases hs
  · split at hs
    · next hn =>
      cases hs
      rw [noArgs_values hn, writes_nil]
      exact ⟨h, rfl⟩
    · split at hs
      · next hok =>
        simp only [Option.bind_eq_bind, Option.bind_eq_some_iff] at hs
        obtain ⟨r, h1, r', h2, h3⟩ := hs
        obtain ⟨st, e1, e2, e3, e4, e5⟩ := data_some h1
        have hW := h.wf.narrow hx
        rw [runOp_values hok.2] at h2
        obtain ⟨g1, g2, g3⟩ := setValues_row hW hx.fields _ _ _ h2
        obtain ⟨k1, st', k2, k3, k4, k5⟩ := put_some h3 e1 e3 (by omega)
        obtain ⟨m', o'⟩ := s'
        simp only at k1 k2
        subst k1 k2
        have ha := (List.getElem?_eq_some_iff.1 e1).1
        refine ⟨⟨h.wf.setMem e1 k3 k4, ?_⟩, rfl⟩
        apply h.sim.update ha
        rw [k5 hW.pos]
        have hrow : w.bit (Window.of x).row = st.bits := h.sim.bits _ _ e1
        rw [hrow]
        rw [e4] at g1
        exact splice_row g1 (e5 hW.pos) g3
      · cases hs

/-- A new view. -/
theorem window_good {s s' : St} {w : World} (h : Good s w) {v : Obj} (hk : v.kind = .view) (hv : Fine s.mem v)
    {vs : List (Nat × Nat)} (hs : s.window v vs = some s') :
    Good s' ((w.see (Window.of v)).writes (Window.of v) vs) ∧ s'.objs = s.objs ++ [v] := by
  simp only [St.window] at hs
  split at hs
  · have h' : Good ⟨s.mem, s.objs ++ [v]⟩ (w.see (Window.of v)) := ⟨h.wf.addView hk hv, h.sim.see v⟩
    exact setOp_good h' hv hs
  · cases hs

theorem copied_row {W n : Nat} (hW : 0 < W) (r : List (BitVec W)) {row : Nat → Bool} {lo : Nat}
    (h : bitAt r = fun p => decide (p < r.length * W) && row (lo + p)) :
    (r.take (min r.length n) ++ List.replicate (n - min r.length n) (0 : BitVec W)).length = n ∧
    bitAt (r.take (min r.length n) ++ List.replicate (n - min r.length n) (0 : BitVec W)) =
      fun q => decide (q < r.length * W) && decide (q < n * W) && row (lo + q) := by
  refine ⟨by simp; omega, ?_⟩
  have hl : (r.take (min r.length n)).length = min r.length n := by simp
  funext q
  rw [bitAt_append hW, bitAt_replicate, hl, bitAt_take hW, h]
  have hmin : q < min r.length n * W ↔ q < r.length * W ∧ q < n * W := by
    have : min r.length n * W = min (r.length * W) (n * W) := by
      rw [Nat.min_def, Nat.min_def]
      by_cases hc : r.length ≤ n
      · rw [if_pos hc, if_pos (Nat.mul_le_mul_right _ hc)]
      · have : ¬ r.length * W ≤ n * W := by
          have := Nat.mul_lt_mul_of_pos_right (show n < r.length by omega) hW
          omega
        rw [if_neg hc, if_neg this]
    rw [this]; omega
  by_cases hq : q < min r.length n * W
  · rw [if_pos hq, decide_eq_true hq, decide_eq_true (hmin.1 hq).1, decide_eq_true (hmin.1 hq).2]; simp [(hmin.1 hq).1]
  · rw [if_neg hq]
    have := fun h1 h2 => hq (hmin.2 ⟨h1, h2⟩)
    by_cases h1 : q < r.length * W
    · rw [decide_eq_false (this h1)]; simp
    · rw [decide_eq_false h1]; simp

/-- A new owning message with a copy. -/
theorem ownerCopy_good {s s' : St} {w : World} (h : Good s w) {fs : List MField} (hfs : GoodDef fs) {x : Obj}
    (hx : Fine s.mem x) {n : Nat} {vs : List (Nat × Nat)} (hs : s.ownerCopy fs x n vs = some s') :
    Good s' (w.fresh .owner fs x.W (n * x.W) (writesAt (w.bitsOf (Window.of x) (n * x.W)) 0 fs vs)) ∧
      ∃ r : List (BitVec x.W), s' = s.alloc .owner fs x.W r := by
  simp only [St.ownerCopy] at hs
  split at hs
  · simp only [Option.bind_eq_bind, Option.bind_eq_some_iff, Option.pure_def, Option.some.injEq] at hs
    obtain ⟨r, h1, r', h2, rfl⟩ := hs
    obtain ⟨st, e1, e2, e3, e4, e5⟩ := data_some h1
    have hW := h.wf.narrow hx
    have hrow : w.bit (Window.of x).row = st.bits := h.sim.bits _ _ e1
    obtain ⟨c1, c2⟩ := copied_row (n := n) hW.pos r (row := st.bits) (lo := x.off * x.W) (by rw [e4]; exact e5 hW.pos)
    obtain ⟨g1, g2, g3⟩ := setValues_row hW hfs _ _ _ h2
    refine ⟨⟨h.wf.alloc _ hfs hW r', ?_⟩, r', rfl⟩
    rw [c1] at g2
    have := h.sim.alloc .owner fs r' rfl
    rw [g2, g3, c2, e4] at this
    have hb : w.bitsOf (Window.of x) (n * x.W) = fun q => decide (q < x.len * x.W) && decide (q < n * x.W) &&
        st.bits (x.off * x.W + q) := by
      unfold World.bitsOf; rw [hrow]; rfl
    rw [hb]; exact this
  · cases hs

/-- The storage of `msg::owning`. -/
theorem owningSize_eq {fs : List MField} (hfs : GoodDef fs) : storageSize 32 fs * 32 = owningSize fs := by
  have hN : AnyWidth 32 := by simp [AnyWidth]
  apply Nat.le_antisymm
  · have key : ∀ (xs : List Nat) (n acc : Nat), acc * 32 ≤ n → (∀ x ∈ xs, x * 32 ≤ n) →
        xs.foldl max acc * 32 ≤ n := by
      intro xs
      induction xs with
      | nil => intro n acc h _; exact h
      | cons x xs ih =>
        intro n acc h1 h2
        apply ih _ _ _ (fun y hy => h2 y (by simp [hy]))
        have := h2 x (by simp)
        omega
    apply key _ _ _ (by omega)
    intro e he
    obtain ⟨f, hf, rfl⟩ := List.mem_map.1 he
    apply key _ _ _ (by omega)
    intro e he
    simp only [List.map_map, List.mem_map, Function.comp] at he
    obtain ⟨a, ha, rfl⟩ := he
    have hv := valid_le ((hfs.2 f hf).1.1 a ha)
    have hle : (a.msb / 32 + 1) * 32 ≤ owningSize fs := by
      apply le_foldl_max
      right
      refine List.mem_map.2 ⟨a.msb, List.mem_flatMap.2 ⟨f, hf, ?_⟩, rfl⟩
      exact (mem_fld_positions _ _).2 ⟨a, ha, hv.1, Nat.le_refl _⟩
    refine Nat.le_trans ?_ hle
    simp only [Loc.extentIn, At.loc, At.size]
    omega
  · have key : ∀ (xs : List Nat) (n acc : Nat), acc ≤ n → (∀ x ∈ xs, x ≤ n) → xs.foldl max acc ≤ n := by
      intro xs
      induction xs with
      | nil => intro n acc h _; exact h
      | cons x xs ih =>
        intro n acc h1 h2
        apply ih _ _ _ (fun y hy => h2 y (by simp [hy]))
        have := h2 x (by simp)
        omega
    apply key _ _ _ (by omega)
    intro e he
    obtain ⟨p, hp, rfl⟩ := List.mem_map.1 he
    obtain ⟨f, hf, hp⟩ := List.mem_flatMap.1 hp
    have := within_storageSize hN hf (hfs.2 f hf).1 p hp
    omega

theorem bitAt_map_cast {W V : Nat} (h : W = V) (r : List (BitVec W)) : bitAt (r.map (·.cast h)) = bitAt r := by
  subst h; simp

theorem Fine.view {mem : List Store} {x : Obj} (h : Fine mem x) {fs : List MField} (hfs : GoodDef fs) (c : Bool)
    {len off : Nat} (hl : off + len ≤ x.len) :
    Fine mem ⟨.view, fs, x.W, len, c, x.store, x.off + off⟩ := by
  obtain ⟨st, h1, h2, h3, h4⟩ := h.inside
  exact ⟨hfs, ⟨st, h1, h2, by simp only; omega, by simp⟩, by simp⟩

/-- A statement. -/
theorem step_good {s s' : St} {w : World} (h : Good s w) {t : Stmt} (ht : t.Good) (hs : s.step t = some s') :
    Good s' (w.step t) := by
  have fine : ∀ (i : Nat) (x : Obj), s.objs[i]? = some x → Fine s.mem x :=
    fun i x hx => h.wf.fine x (List.mem_of_getElem? hx)
  cases t with
  | array W els =>
    simp only [St.step, Option.some.injEq] at hs
    subst hs
    have hW : Narrow W := ht
    refine ⟨h.wf.alloc _ ⟨by simp, by simp⟩ hW _, ?_⟩
    have hr : bitAt (els.map (BitVec.ofNat W)) = fun q => ((els[q / W]?).getD 0).testBit (q % W) := by
      funext q
      simp only [bitAt, List.getElem?_map]
      cases els[q / W]? with
      | none => simp
      | some e =>
        simp only [Option.map_some, Option.getD_some, BitVec.getLsbD_ofNat]
        simp [Nat.mod_lt q hW.pos]
    have := h.sim.alloc .array [] _ hr
    rw [List.length_map] at this
    exact this
  | poke i k v =>
    simp only [St.step, Option.bind_eq_bind, Option.bind_eq_some_iff] at hs
    obtain ⟨x, hx, hs⟩ := hs
    split at hs
    · next hk =>
      simp only [Option.bind_eq_some_iff] at hs
      obtain ⟨r, h1, h3⟩ := hs
      obtain ⟨st, e1, e2, e3, e4, e5⟩ := data_some h1
      have hW := h.wf.narrow (fine i x hx)
      obtain ⟨k1, st', k2, k3, k4, k5⟩ := put_some h3 e1 e3 (by simpa using e4)
      obtain ⟨m', o'⟩ := s'
      simp only at k1 k2
      subst k1 k2
      have ha := (List.getElem?_eq_some_iff.1 e1).1
      simp only [World.step, h.sim.get hx]
      refine ⟨h.wf.setMem e1 k3 k4, ?_⟩
      apply h.sim.update ha
      rw [k5 hW.pos]
      have hrow : w.bit (Window.of x).row = st.bits := h.sim.bits _ _ e1
      rw [hrow]
      funext q
      show _ = if x.off * x.W + k * x.W ≤ q ∧ q < x.off * x.W + k * x.W + x.W then
        v.testBit (q - (x.off * x.W + k * x.W)) else st.bits q
      rw [bitAt_set _ _ _ (by omega), e5 hW.pos]
      have hkl : k * x.W + x.W ≤ x.len * x.W := by
        rw [← Nat.succ_mul]; exact Nat.mul_le_mul_right _ hk.2
      by_cases hq : x.off * x.W ≤ q ∧ q < x.off * x.W + x.len * x.W
      · rw [if_pos hq]
        obtain ⟨p, rfl⟩ : ∃ p, q = x.off * x.W + p := ⟨q - x.off * x.W, by omega⟩
        rw [Nat.add_sub_cancel_left]
        by_cases hp : p / x.W = k
        · subst hp
          have h1 := Nat.div_add_mod p x.W
          have h2 := Nat.mod_lt p hW.pos
          rw [Nat.mul_comm] at h1
          rw [if_pos rfl, if_pos (by omega), BitVec.getLsbD_ofNat]
          have : x.off * x.W + p - (x.off * x.W + p / x.W * x.W) = p % x.W := by omega
          rw [this]; simp [h2]
        · rw [if_neg hp, if_neg]
          · simp; omega
          · intro hc
            apply hp
            have : k ≤ p / x.W := (Nat.le_div_iff_mul_le hW.pos).2 (by omega)
            have : p / x.W < k + 1 := (Nat.div_lt_iff_lt_mul hW.pos).2 (by rw [Nat.succ_mul]; omega)
            omega
      · rw [if_neg hq, if_neg (by omega)]
    · cases hs
  | owning fs vs =>
    simp only [St.step] at hs
    split at hs
    · simp only [Option.bind_eq_bind, Option.bind_eq_some_iff, Option.pure_def, Option.some.injEq] at hs
      obtain ⟨r, h1, rfl⟩ := hs
      simp only [construct, Option.bind_eq_bind, Option.bind_eq_some_iff] at h1
      obtain ⟨r0, h0, h1⟩ := h1
      have hfs : GoodDef fs := ht
      have hW : Narrow defaultW := .inr (.inr rfl)
      rw [setDefaults_values] at h0
      · obtain ⟨_, g2, g3⟩ := setValues_row hW hfs _ _ _ h0
        obtain ⟨_, g5, g6⟩ := setValues_row hW hfs _ _ _ h1
        refine ⟨h.wf.alloc _ hfs hW _, ?_⟩
        have := h.sim.alloc .owner fs r rfl
        have hl : r.length = storageSize 32 fs := by rw [g5, g2]; simp [defaultW]
        rw [g6, g3] at this
        have hz : bitAt (List.replicate (storageSize defaultW fs) (0 : BitVec defaultW)) = fun _ => false :=
          funext fun q => bitAt_replicate _ q
        rw [hz, hl] at this
        simp only [World.step, ← owningSize_eq hfs]
        exact this
      · intro n hn
        obtain ⟨f, hf, rfl⟩ := List.mem_map.1 hn
        rw [find_eq hfs.1 hf]; rfl
    · cases hs
  | owningFrom fs i vs =>
    simp only [St.step, Option.bind_eq_bind, Option.bind_eq_some_iff] at hs
    obtain ⟨x, hx, hs⟩ := hs
    split at hs
    · next hk =>
      obtain ⟨g, _⟩ := ownerCopy_good h ht (fine i x hx) hs
      simp only [World.step, h.sim.get hx]
      have hfs : GoodDef fs := ht
      rw [hk.2] at g
      simp only [← owningSize_eq hfs]
      exact g
    · cases hs
  | ownerFrom fs i vs =>
    simp only [St.step, Option.bind_eq_bind, Option.bind_eq_some_iff] at hs
    obtain ⟨x, hx, hs⟩ := hs
    split at hs
    · obtain ⟨g, _⟩ := ownerCopy_good h ht (fine i x hx) hs
      simp only [World.step, h.sim.get hx]
      exact g
    · cases hs
  | asOwning i =>
    simp only [St.step, Option.bind_eq_bind, Option.bind_eq_some_iff] at hs
    obtain ⟨x, hx, hs⟩ := hs
    split at hs
    · obtain ⟨g, _⟩ := ownerCopy_good h (fine i x hx).fields (fine i x hx) hs
      simp only [World.step, h.sim.get hx]
      exact g
    · cases hs
  | view fs i vs =>
    simp only [St.step, Option.bind_eq_bind, Option.bind_eq_some_iff] at hs
    obtain ⟨x, hx, hs⟩ := hs
    split at hs
    · next hk =>
      obtain ⟨g, _⟩ := window_good h rfl ((fine i x hx).view (off := 0) ht false (by omega)) hs
      have hc : x.const = false := (fine i x hx).mutable (by rcases hk with hk | hk <;> simp [hk])
      simp only [World.step, h.sim.get hx]
      simpa only [Window.of, hc, Nat.add_zero] using g
    · cases hs
  | constView fs i =>
    simp only [St.step, Option.bind_eq_bind, Option.bind_eq_some_iff] at hs
    obtain ⟨x, hx, hs⟩ := hs
    split at hs
    · next hk =>
      obtain ⟨g, _⟩ := window_good h rfl ((fine i x hx).view (off := 0) ht true (by omega)) hs
      simp only [World.step, h.sim.get hx]
      rw [writes_nil] at g
      exact g
    · cases hs
  | spanView fs i off len vs =>
    simp only [St.step, Option.bind_eq_bind, Option.bind_eq_some_iff] at hs
    obtain ⟨x, hx, hs⟩ := hs
    split at hs
    · next hk =>
      obtain ⟨g, _⟩ := window_good h rfl ((fine i x hx).view ht x.const hk) hs
      simp only [World.step, h.sim.get hx]
      simp only [Window.of, Nat.add_mul] at g ⊢
      exact g
    · cases hs
  | asMutable i =>
    simp only [St.step, Option.bind_eq_bind, Option.bind_eq_some_iff] at hs
    obtain ⟨x, hx, hs⟩ := hs
    split at hs
    · next hk =>
      obtain ⟨g, _⟩ := window_good h rfl ((fine i x hx).view (off := 0) (fine i x hx).fields false (by omega)) hs
      have hc : x.const = false := (fine i x hx).mutable (by simp [hk])
      simp only [World.step, h.sim.get hx]
      rw [writes_nil] at g
      simpa only [Window.of, hc, Nat.add_zero] using g
    · cases hs
  | asConst i =>
    simp only [St.step, Option.bind_eq_bind, Option.bind_eq_some_iff] at hs
    obtain ⟨x, hx, hs⟩ := hs
    split at hs
    · cases hs
    · next hk =>
      obtain ⟨g, _⟩ := window_good h rfl ((fine i x hx).view (off := 0) (fine i x hx).fields true (by omega)) hs
      simp only [World.step, h.sim.get hx]
      rw [writes_nil] at g
      exact g
  | narrow i len =>
    simp only [St.step, Option.bind_eq_bind, Option.bind_eq_some_iff] at hs
    obtain ⟨x, hx, hs⟩ := hs
    split at hs
    · next hk =>
      obtain ⟨g, _⟩ := window_good h rfl ((fine i x hx).view (off := 0) (len := len) (fine i x hx).fields true
        (by omega)) hs
      simp only [World.step, h.sim.get hx]
      rw [writes_nil] at g
      exact g
    · cases hs
  | copy i =>
    simp only [St.step, Option.bind_eq_bind, Option.bind_eq_some_iff] at hs
    obtain ⟨x, hx, hs⟩ := hs
    simp only [World.step, h.sim.get hx]
    split at hs
    · next hk =>
      cases hs
      rw [if_pos (by simpa [Window.of] using hk)]
      exact ⟨h.wf.addView hk (fine i x hx), h.sim.see x⟩
    · next hk =>
      rw [if_neg (by simpa [Window.of] using hk)]
      simp only [Option.bind_eq_some_iff, Option.pure_def, Option.some.injEq] at hs
      obtain ⟨r, h1, rfl⟩ := hs
      obtain ⟨st, e1, e2, e3, e4, e5⟩ := data_some h1
      have hW := h.wf.narrow (fine i x hx)
      have hrow : w.bit (Window.of x).row = st.bits := h.sim.bits _ _ e1
      refine ⟨h.wf.alloc _ (fine i x hx).fields hW r, ?_⟩
      have := h.sim.alloc x.kind x.fs r rfl
      rw [e4, e5 hW.pos] at this
      have hb : w.bitsOf (Window.of x) (Window.of x).size = fun q => decide (q < x.len * x.W) &&
          st.bits (x.off * x.W + q) := by
        unfold World.bitsOf; rw [hrow]; funext q
        show (decide (q < x.len * x.W) && decide (q < x.len * x.W) && st.bits (x.off * x.W + q)) = _
        rw [Bool.and_self]
      rw [hb]; exact this
  | assign i j =>
    simp only [St.step, Option.bind_eq_bind, Option.bind_eq_some_iff] at hs
    obtain ⟨x, hx, y, hy, hs⟩ := hs
    simp only [World.step, h.sim.get hx, h.sim.get hy]
    split at hs
    · next hsame =>
      split at hs
      · next hk =>
        cases hs
        rw [if_pos (by simpa [Window.of] using hk)]
        refine ⟨h.wf.rebind hx (hsame.1 ▸ hk) (fine j y hy), h.sim.rows, ?_, h.sim.bits⟩
        simp only [h.sim.vars, List.map_set]
      · next hk =>
        rw [if_neg (by simpa [Window.of] using hk)]
        simp only [Option.bind_eq_some_iff] at hs
        obtain ⟨r, h1, h3⟩ := hs
        obtain ⟨st, e1, e2, e3, e4, e5⟩ := data_some h1
        obtain ⟨sx, x1, x2, x3, x4⟩ := (fine i x hx).inside
        obtain ⟨x5, x6⟩ := x4 hk
        have hW := h.wf.narrow (fine i x hx)
        have hWy := h.wf.narrow (fine j y hy)
        obtain ⟨k1, st', k2, k3, k4, k5⟩ := put_some h3 x1 x3 (by rw [List.length_map, e4, hsame.2.2.2.1])
        obtain ⟨m', o'⟩ := s'
        simp only at k1 k2
        subst k1 k2
        have ha := (List.getElem?_eq_some_iff.1 x1).1
        refine ⟨h.wf.setMem x1 k3 k4, ?_⟩
        apply h.sim.update ha
        rw [k5 hW.pos]
        have hrow : w.bit (Window.of y).row = st.bits := h.sim.bits _ _ e1
        have hb : w.bitsOf (Window.of y) (Window.of y).size = bitAt r := by
          rw [e5 hWy.pos]; unfold World.bitsOf; rw [hrow]; funext q
          show (decide (q < y.len * y.W) && decide (q < y.len * y.W) && st.bits (y.off * y.W + q)) = _
          rw [Bool.and_self]
        rw [hb]
        funext q
        rw [x5, bitAt_map_cast, hsame.2.2.2.1, hsame.2.2.1]
        simp only [Nat.zero_mul, Nat.zero_le, true_and, Nat.zero_add, Nat.sub_zero]
        split
        · rfl
        · next hq =>
          rw [bitAt_outside hWy.pos r (by rw [e4]; omega), Store.bits]
          refine bitAt_outside ?_ _ ?_
          · rw [x2]; exact hW.pos
          · rw [← x6, x2, hsame.2.2.1, hsame.2.2.2.1]; omega
    · cases hs
  | set i op =>
    simp only [St.step, Option.bind_eq_bind, Option.bind_eq_some_iff] at hs
    obtain ⟨x, hx, hs⟩ := hs
    simp only [World.step, h.sim.get hx]
    exact (setOp_good h (fine i x hx) hs).1
  | index i n v =>
    simp only [St.step, Option.bind_eq_bind, Option.bind_eq_some_iff] at hs
    obtain ⟨x, hx, hs⟩ := hs
    simp only [World.step, h.sim.get hx]
    exact (setOp_good h (fine i x hx) hs).1

theorem run_good {p : List Stmt} (hp : ∀ t ∈ p, t.Good) : ∀ {s s' : St} {w : World}, Good s w →
    s.run p = some s' → Good s' (p.foldl World.step w) := by
  induction p with
  | nil => intro s s' w h hs; cases hs; exact h
  | cons t p ih =>
    intro s s' w h hs
    simp only [St.run, List.foldlM_cons, Option.bind_eq_bind, Option.bind_eq_some_iff] at hs
    obtain ⟨s1, h1, h2⟩ := hs
    exact ih (fun t ht => hp t (by simp [ht])) (step_good h (hp t (by simp)) h1) h2

theorem start_good : Good start ⟨0, fun _ _ => false, []⟩ :=
  ⟨⟨by simp [start], by simp [start], by simp [start]⟩, ⟨rfl, rfl, by simp [start]⟩⟩

end Verif.Object
