import Verif.Object.Lemmas

/-! Lemmas: which storages and variables a statement changes, and where new variables come from. -/
namespace Verif.Object
open Verif.Bits Verif.Message

structure Effect (s s' : St) (t : Stmt) : Prop where
  grows : s.mem.length ≤ s'.mem.length ∧ s.objs.length ≤ s'.objs.length ∧ s'.objs.length ≤ s.objs.length + 1
  origin : ∀ (k : Nat) (z : Obj), s'.objs[k]? = some z →
    s.objs[k]? = some z ∨ (s.objs.length ≤ k ∧ s.mem.length ≤ z.store) ∨
    ∃ i ∈ t.names, ∃ x, s.objs[i]? = some x ∧ z.kind = .view ∧ z.store = x.store ∧
      (x.const = true → z.const = true)
  stays : ∀ (k : Nat) (x : Obj), s.objs[k]? = some x → t.keeps k ∨ x.kind ≠ .view → s'.objs[k]? = some x
  frame : ∀ a, a < s.mem.length →
    (∀ i ∈ t.names, ∀ x, s.objs[i]? = some x → x.const = false → x.store ≠ a) → s'.mem[a]? = s.mem[a]?

theorem setOp_effect {s s' : St} {x : Obj} {op : SetOp} (h : s.setOp x op = some s') :
    s'.objs = s.objs ∧ s'.mem.length = s.mem.length ∧
      ∀ a, (x.const = false → x.store ≠ a) → s'.mem[a]? = s.mem[a]? := by
  simp only [St.setOp] at h
  split at h
  · cases h
  · split at h
    · cases h; exact ⟨rfl, rfl, fun _ _ => rfl⟩
    · split at h
      · next hok =>
        simp only [Option.bind_eq_bind, Option.bind_eq_some_iff] at h
        obtain ⟨r, h1, r', h2, h3⟩ := h
        simp only [St.put, Option.bind_eq_bind, Option.bind_eq_some_iff] at h3
        obtain ⟨st, h4, h5⟩ := h3
        split at h5
        · cases h5
          refine ⟨rfl, by simp, fun a ha => ?_⟩
          simp [List.getElem?_set_ne (ha hok.1)]
        · cases h5
      · cases h

theorem put_effect {s s' : St} {x : Obj} {r : List (BitVec x.W)} (h : s.put x r = some s') :
    s'.objs = s.objs ∧ s'.mem.length = s.mem.length ∧ ∀ a, x.store ≠ a → s'.mem[a]? = s.mem[a]? := by
  simp only [St.put, Option.bind_eq_bind, Option.bind_eq_some_iff] at h
  obtain ⟨st, h4, h5⟩ := h
  split at h5
  · cases h5
    exact ⟨rfl, by simp, fun a ha => by simp [List.getElem?_set_ne ha]⟩
  · cases h5

theorem append_cases {α : Type} {l : List α} {v z : α} {k : Nat} (h : (l ++ [v])[k]? = some z) :
    l[k]? = some z ∨ (k = l.length ∧ z = v) := by
  rw [List.getElem?_append] at h
  split at h
  · exact .inl h
  · rw [List.getElem?_singleton] at h
    split at h
    · cases h; exact .inr ⟨by omega, rfl⟩
    · cases h

theorem append_old {α : Type} {l : List α} {v x : α} {k : Nat} (h : l[k]? = some x) : (l ++ [v])[k]? = some x := by
  rw [List.getElem?_append_left (List.getElem?_eq_some_iff.1 h).1]; exact h

theorem alloc_effect {s : St} (k : Kind) (fs : List MField) {W : Nat} (r : List (BitVec W)) (t : Stmt) :
    Effect s (s.alloc k fs W r) t := by
  refine ⟨by simp [St.alloc], ?_, ?_, ?_⟩
  · intro j z hz
    rcases append_cases hz with hz | ⟨hz, rfl⟩
    · exact .inl hz
    · exact .inr (.inl ⟨by omega, Nat.le_refl _⟩)
  · intro j x hx _
    exact append_old hx
  · intro a ha _
    simp only [St.alloc]
    rw [List.getElem?_append_left ha]

/-- `v` stands for something in the storage of the named `x`. -/
theorem window_effect {s s' : St} {v x : Obj} {i : Nat} {vs : List (Nat × Nat)} {t : Stmt}
    (h : s.window v vs = some s') (hi : i ∈ t.names) (hx : s.objs[i]? = some x) (hkv : v.kind = .view)
    (hst : v.store = x.store) (hc : x.const = true → v.const = true) (hvs : x.const = false ∨ v.const = true) : Effect s s' t := by
  simp only [St.window] at h
  split at h
  · obtain ⟨h1, h2, h3⟩ := setOp_effect h
    refine ⟨by simp [h1, h2], ?_, ?_, ?_⟩
    · intro j z hz
      rw [h1] at hz
      rcases append_cases hz with hz | ⟨hz, rfl⟩
      · exact .inl hz
      · exact .inr (.inr ⟨i, hi, x, hx, hkv, hst, hc⟩)
    · intro j y hy _
      rw [h1]; exact append_old hy
    · intro a ha hf
      rw [h3 a]
      intro hvc
      rw [hst]
      exact hf i hi x hx (by rcases hvs with h | h; exact h; rw [h] at hvc; cases hvc)
  · cases h

theorem set_effect {s s' : St} {x : Obj} {i : Nat} {op : SetOp} {t : Stmt} (h : s.setOp x op = some s')
    (hi : i ∈ t.names) (hx : s.objs[i]? = some x) : Effect s s' t := by
  obtain ⟨h1, h2, h3⟩ := setOp_effect h
  refine ⟨by simp [h1, h2], ?_, ?_, ?_⟩
  · intro j z hz; rw [h1] at hz; exact .inl hz
  · intro j y hy _; rw [h1]; exact hy
  · intro a ha hf; exact h3 a (hf i hi x hx)

theorem step_effect {s s' : St} (hwf : WF s) {t : Stmt} (h : s.step t = some s') : Effect s s' t := by
  have mutable : ∀ (i : Nat) (x : Obj), s.objs[i]? = some x → x.kind ≠ .view → x.const = false :=
    fun i x hx => (hwf.fine x (List.mem_of_getElem? hx)).mutable
  cases t with
  | array W els => cases h; exact alloc_effect ..
  | poke i k v =>
    simp only [St.step, Option.bind_eq_bind, Option.bind_eq_some_iff] at h
    obtain ⟨x, hx, h⟩ := h
    split at h
    · next hk =>
      simp only [Option.bind_eq_some_iff] at h
      obtain ⟨r, _, h⟩ := h
      obtain ⟨h1, h2, h3⟩ := put_effect h
      refine ⟨by simp [h1, h2], ?_, ?_, ?_⟩
      · intro j z hz; rw [h1] at hz; exact .inl hz
      · intro j y hy _; rw [h1]; exact hy
      · intro a ha hf
        exact h3 a (hf i (by simp [Stmt.names]) x hx (mutable i x hx (by simp [hk.1])))
    · cases h
  | owning fs vs =>
    simp only [St.step] at h
    split at h
    · simp only [Option.bind_eq_bind, Option.bind_eq_some_iff, Option.pure_def, Option.some.injEq] at h
      obtain ⟨r, _, rfl⟩ := h
      exact alloc_effect ..
    · cases h
  | owningFrom fs i vs =>
    simp only [St.step, Option.bind_eq_bind, Option.bind_eq_some_iff] at h
    obtain ⟨x, hx, h⟩ := h
    split at h
    · simp only [St.ownerCopy] at h
      split at h
      · simp only [Option.bind_eq_bind, Option.bind_eq_some_iff, Option.pure_def, Option.some.injEq] at h
        obtain ⟨_, _, r, _, rfl⟩ := h
        exact alloc_effect ..
      · cases h
    · cases h
  | ownerFrom fs i vs =>
    simp only [St.step, Option.bind_eq_bind, Option.bind_eq_some_iff] at h
    obtain ⟨x, hx, h⟩ := h
    split at h
    · simp only [St.ownerCopy] at h
      split at h
      · simp only [Option.bind_eq_bind, Option.bind_eq_some_iff, Option.pure_def, Option.some.injEq] at h
        obtain ⟨_, _, r, _, rfl⟩ := h
        exact alloc_effect ..
      · cases h
    · cases h
  | asOwning i =>
    simp only [St.step, Option.bind_eq_bind, Option.bind_eq_some_iff] at h
    obtain ⟨x, hx, h⟩ := h
    split at h
    · simp only [St.ownerCopy] at h
      split at h
      · simp only [Option.bind_eq_bind, Option.bind_eq_some_iff, Option.pure_def, Option.some.injEq] at h
        obtain ⟨_, _, r, _, rfl⟩ := h
        exact alloc_effect ..
      · cases h
    · cases h
  | view fs i vs =>
    simp only [St.step, Option.bind_eq_bind, Option.bind_eq_some_iff] at h
    obtain ⟨x, hx, h⟩ := h
    split at h
    · next hk =>
      have hm := mutable i x hx (by rcases hk with hk | hk <;> simp [hk])
      exact window_effect h (by simp [Stmt.names]) hx rfl rfl (by simp [hm]) (.inl hm)
    · cases h
  | constView fs i =>
    simp only [St.step, Option.bind_eq_bind, Option.bind_eq_some_iff] at h
    obtain ⟨x, hx, h⟩ := h
    split at h
    · exact window_effect h (by simp [Stmt.names]) hx rfl rfl (by simp) (.inr rfl)
    · cases h
  | spanView fs i off len vs =>
    simp only [St.step, Option.bind_eq_bind, Option.bind_eq_some_iff] at h
    obtain ⟨x, hx, h⟩ := h
    split at h
    · exact window_effect h (by simp [Stmt.names]) hx rfl rfl (by simp) (by cases x.const <;> simp)
    · cases h
  | asMutable i =>
    simp only [St.step, Option.bind_eq_bind, Option.bind_eq_some_iff] at h
    obtain ⟨x, hx, h⟩ := h
    split at h
    · next hk =>
      have hm := mutable i x hx (by simp [hk])
      exact window_effect h (by simp [Stmt.names]) hx rfl rfl (by simp [hm]) (.inl hm)
    · cases h
  | asConst i =>
    simp only [St.step, Option.bind_eq_bind, Option.bind_eq_some_iff] at h
    obtain ⟨x, hx, h⟩ := h
    split at h
    · cases h
    · exact window_effect h (by simp [Stmt.names]) hx rfl rfl (by simp) (.inr rfl)
  | narrow i len =>
    simp only [St.step, Option.bind_eq_bind, Option.bind_eq_some_iff] at h
    obtain ⟨x, hx, h⟩ := h
    split at h
    · exact window_effect h (by simp [Stmt.names]) hx rfl rfl (by simp) (.inr rfl)
    · cases h
  | copy i =>
    simp only [St.step, Option.bind_eq_bind, Option.bind_eq_some_iff] at h
    obtain ⟨x, hx, h⟩ := h
    split at h
    · next hk =>
      cases h
      refine ⟨by simp, ?_, fun j y hy _ => append_old hy, fun _ _ _ => rfl⟩
      intro j z hz
      rcases append_cases hz with hz | ⟨hz, rfl⟩
      · exact .inl hz
      · exact .inr (.inr ⟨i, by simp [Stmt.names], z, hx, hk, rfl, fun h => h⟩)
    · simp only [Option.bind_eq_some_iff, Option.pure_def, Option.some.injEq] at h
      obtain ⟨r, _, rfl⟩ := h
      exact alloc_effect ..
  | assign i j =>
    simp only [St.step, Option.bind_eq_bind, Option.bind_eq_some_iff] at h
    obtain ⟨x, hx, y, hy, h⟩ := h
    have hi := (List.getElem?_eq_some_iff.1 hx).1
    split at h
    · next hsame =>
      split at h
      · next hk =>
        cases h
        refine ⟨by simp, ?_, ?_, fun _ _ _ => rfl⟩
        · intro k z hz
          by_cases hik : i = k
          · subst hik
            simp only [List.getElem?_set_self hi, Option.some.injEq] at hz
            subst hz
            exact .inr (.inr ⟨j, by simp [Stmt.names], y, hy, hsame.1 ▸ hk, rfl, fun h => h⟩)
          · simp only [List.getElem?_set_ne hik] at hz
            exact .inl hz
        · intro k z hz hkeep
          have hik : i ≠ k := by
            rcases hkeep with hkeep | hkeep
            · exact hkeep
            · rintro rfl; rw [hx] at hz; cases hz; exact hkeep hk
          simpa [List.getElem?_set_ne hik] using hz
      · next hk =>
        simp only [Option.bind_eq_some_iff] at h
        obtain ⟨r, _, h⟩ := h
        obtain ⟨h1, h2, h3⟩ := put_effect h
        refine ⟨by simp [h1, h2], ?_, ?_, ?_⟩
        · intro j z hz; rw [h1] at hz; exact .inl hz
        · intro j y hy _; rw [h1]; exact hy
        · intro a ha hf
          exact h3 a (hf i (by simp [Stmt.names]) x hx (mutable i x hx hk))
    · cases h
  | set i op =>
    simp only [St.step, Option.bind_eq_bind, Option.bind_eq_some_iff] at h
    obtain ⟨x, hx, h⟩ := h
    exact set_effect h (by simp [Stmt.names]) hx
  | index i n v =>
    simp only [St.step, Option.bind_eq_bind, Option.bind_eq_some_iff] at h
    obtain ⟨x, hx, h⟩ := h
    exact set_effect h (by simp [Stmt.names]) hx

theorem run_append {s s' : St} {p q : List Stmt} (h : s.run (p ++ q) = some s') :
    ∃ s1, s.run p = some s1 ∧ s1.run q = some s' := by
  simp only [St.run, List.foldlM_append, Option.bind_eq_bind, Option.bind_eq_some_iff] at h
  exact h

theorem run_cons {s s' : St} {t : Stmt} {q : List Stmt} (h : s.run (t :: q) = some s') :
    ∃ s1, s.step t = some s1 ∧ s1.run q = some s' := by
  simp only [St.run, List.foldlM_cons, Option.bind_eq_bind, Option.bind_eq_some_iff] at h
  exact h

/-- A storage stays as it is, when the variables a program names that stand for it are constant. -/
theorem run_frame {a : Nat} : ∀ {q : List Stmt} {s s' : St} {w : World}, Good s w → (∀ t ∈ q, t.Good) →
    s.run q = some s' → a < s.mem.length → (∃ m,
      (∀ t ∈ q, ∀ i ∈ t.names, i < m → ∀ x, s.objs[i]? = some x → x.const = false → x.store ≠ a) ∧
      (∀ k x, m ≤ k → s.objs[k]? = some x → x.const = false → x.store ≠ a)) →
    s'.mem[a]? = s.mem[a]? := by
  intro q
  induction q with
  | nil => intro s s' w _ _ h _ _; cases h; rfl
  | cons t q ih =>
    intro s s' w hg hp h ha ⟨m, hm1, hm2⟩
    obtain ⟨s1, h1, h2⟩ := run_cons h
    have he := step_effect hg.wf h1
    have hnamed : ∀ i ∈ t.names, ∀ x, s.objs[i]? = some x → x.const = false → x.store ≠ a := by
      intro i hi x hx hc
      by_cases him : i < m
      · exact hm1 t (by simp) i hi him x hx hc
      · exact hm2 i x (by omega) hx hc
    have key : ∀ (k : Nat) (z : Obj), s1.objs[k]? = some z → z.const = false →
        s.objs[k]? = some z ∨ z.store ≠ a := by
      intro k z hz hc
      rcases he.origin k z hz with h | ⟨_, h⟩ | ⟨i, hi, x, hx, _, e1, e2⟩
      · exact .inl h
      · exact .inr (by omega)
      · right
        rw [e1]
        apply hnamed i hi x hx
        cases hxc : x.const
        · rfl
        · rw [e2 hxc] at hc; cases hc
    rw [ih (step_good hg (hp t (by simp)) h1) (fun t ht => hp t (by simp [ht])) h2
      (Nat.lt_of_lt_of_le ha he.grows.1) ⟨m, ?_, ?_⟩, he.frame a ha hnamed]
    · intro t' ht' i hi him x hx hc
      rcases key i x hx hc with h | h
      · exact hm1 t' (by simp [ht']) i hi him x h hc
      · exact h
    · intro k x hk hx hc
      rcases key k x hx hc with h | h
      · exact hm2 k x hk h hc
      · exact h

/-- A variable stays as it is. -/
theorem run_stays {k : Nat} {x : Obj} : ∀ {q : List Stmt} {s s' : St} {w : World}, Good s w → (∀ t ∈ q, t.Good) →
    s.run q = some s' → s.objs[k]? = some x → (∀ t ∈ q, t.keeps k) ∨ x.kind ≠ .view →
    s'.objs[k]? = some x := by
  intro q
  induction q with
  | nil => intro s s' w _ _ h hx _; cases h; exact hx
  | cons t q ih =>
    intro s s' w hg hp h hx hk
    obtain ⟨s1, h1, h2⟩ := run_cons h
    refine ih (step_good hg (hp t (by simp)) h1) (fun t ht => hp t (by simp [ht])) h2
      ((step_effect hg.wf h1).stays k x hx ?_) ?_
    · rcases hk with hk | hk
      · exact .inl (hk t (by simp))
      · exact .inr hk
    · rcases hk with hk | hk
      · exact .inl fun t ht => hk t (by simp [ht])
      · exact .inr hk

end Verif.Object
