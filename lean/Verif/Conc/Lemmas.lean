import Mathlib.Tactic.ByContra
import Verif.Conc.Spec
/-!
# Lemmas about concurrent calls
-/
namespace Verif.Conc
open Verif.Interrupt
variable {ι σ L : Type} {P : Lang ι σ L}

theorem upd_same {α : Type} (f : Nat → α) (k : Nat) (v : α) : upd f k v k = v := by simp [upd]

theorem upd_ne {α : Type} (f : Nat → α) {k x : Nat} (v : α) (h : x ≠ k) : upd f k v x = f x := by
  simp [upd, h]

/-- The three things that a turn can do. -/
inductive Did (P : Lang ι σ L) (s : St ι σ L) (t : Nat) : St ι σ L → List (Nat × ι) → Prop where
  | wait : s.step P t = none → Did P s t s []
  | begin (c : ι) (cs : List ι) : (s.thr t).cur = none → (s.thr t).todo = c :: cs →
      (P.locked c = true → s.lock (P.mutex (P.part c)) = none) →
      Did P s t { s with
        lock := if P.locked c then upd s.lock (P.mutex (P.part c)) (some t) else s.lock
        thr := upd s.thr t ⟨some ⟨c, P.start c, P.body c⟩, cs⟩ } [(t, c)]
  | micro (c : ι) (l : L) (f : Micro σ L) (fs : List (Micro σ L)) :
      (s.thr t).cur = some ⟨c, l, f :: fs⟩ →
      Did P s t { s with
        mem := upd s.mem (P.part c) (f (l, s.mem (P.part c))).2
        thr := upd s.thr t ⟨some ⟨c, (f (l, s.mem (P.part c))).1, fs⟩, (s.thr t).todo⟩ } []
  | finish (c : ι) (l : L) : (s.thr t).cur = some ⟨c, l, []⟩ →
      Did P s t { s with
        lock := if P.locked c then upd s.lock (P.mutex (P.part c)) none else s.lock
        thr := upd s.thr t ⟨none, (s.thr t).todo⟩ } []

theorem did (P : Lang ι σ L) (s : St ι σ L) (t : Nat) :
    Did P s t (s.turn P t) (s.begins P t) := by
  rcases hc : (s.thr t).cur with _ | ⟨c, l, left⟩
  · rcases htd : (s.thr t).todo with _ | ⟨c, cs⟩
    · have hs : s.step P t = none := by simp [St.step, hc, htd]
      have := Did.wait (P := P) hs
      simpa [St.turn, St.begins, hs, hc, htd] using this
    · by_cases hl : P.locked c = true
      · by_cases hk : (s.lock (P.mutex (P.part c))).isSome = true
        · have hs : s.step P t = none := by simp [St.step, hc, htd, hl, hk]
          have := Did.wait (P := P) hs
          simpa [St.turn, St.begins, hs, hc, htd] using this
        · have hk' : s.lock (P.mutex (P.part c)) = none := by simpa using hk
          have := Did.begin (P := P) (s := s) c cs hc htd (fun _ => hk')
          have hs : s.step P t = some { s with
              lock := upd s.lock (P.mutex (P.part c)) (some t)
              thr := upd s.thr t ⟨some ⟨c, P.start c, P.body c⟩, cs⟩ } := by
            simp [St.step, hc, htd, hl, hk']
          simpa [St.turn, St.begins, hs, hc, htd, hl] using this
      · have := Did.begin (P := P) (s := s) c cs hc htd (fun h => absurd h hl)
        have hs : s.step P t = some { s with
            thr := upd s.thr t ⟨some ⟨c, P.start c, P.body c⟩, cs⟩ } := by
          simp [St.step, hc, htd, hl]
        simpa [St.turn, St.begins, hs, hc, htd, hl] using this
  · cases left with
    | nil =>
      have := Did.finish (P := P) (s := s) c l hc
      have hs : s.step P t = some { s with
          lock := if P.locked c then upd s.lock (P.mutex (P.part c)) none else s.lock
          thr := upd s.thr t ⟨none, (s.thr t).todo⟩ } := by simp [St.step, hc]
      simpa only [St.turn, St.begins, hs, hc, Option.getD_some] using this
    | cons f fs =>
      have := Did.micro (P := P) (s := s) c l f fs hc
      have hs : s.step P t = some { s with
          mem := upd s.mem (P.part c) (f (l, s.mem (P.part c))).2
          thr := upd s.thr t ⟨some ⟨c, (f (l, s.mem (P.part c))).1, fs⟩, (s.thr t).todo⟩ } := by
        simp [St.step, hc]
      simpa only [St.turn, St.begins, hs, hc, Option.getD_some] using this

theorem run_append (s : St ι σ L) (a b : List Nat) : s.run P (a ++ b) = (s.run P a).run P b := by
  simp [St.run]

theorem order_append (s : St ι σ L) (a b : List Nat) :
    s.order P (a ++ b) = s.order P a ++ (s.run P a).order P b := by
  induction a generalizing s with
  | nil => rfl
  | cons t a ih =>
    show s.begins P t ++ (s.turn P t).order P (a ++ b) = _
    rw [ih]
    show _ = (s.begins P t ++ (s.turn P t).order P a) ++ _
    rw [List.append_assoc]
    rfl

theorem run_snoc (s : St ι σ L) (a : List Nat) (t : Nat) :
    s.run P (a ++ [t]) = (s.run P a).turn P t := by rw [run_append]; rfl

theorem order_snoc (s : St ι σ L) (a : List Nat) (t : Nat) :
    s.order P (a ++ [t]) = s.order P a ++ (s.run P a).begins P t := by
  rw [order_append]; simp [St.order]

theorem callsOf_append (t : Nat) (a b : List (Nat × ι)) :
    callsOf t (a ++ b) = callsOf t a ++ callsOf t b := by simp [callsOf]

/-- Calls begin in the order of the programs. -/
theorem program_order (s : St ι σ L) (sched : List Nat) (t : Nat) :
    callsOf t (s.order P sched) ++ ((s.run P sched).thr t).todo = (s.thr t).todo := by
  induction sched generalizing s with
  | nil => rfl
  | cons u us ih =>
    show callsOf t (s.begins P u ++ (s.turn P u).order P us) ++
      (((s.turn P u).run P us).thr t).todo = _
    rw [callsOf_append, List.append_assoc, ih]
    have D := did P s u
    revert D
    generalize s.begins P u = o
    generalize s.turn P u = s'
    intro D
    cases D with
    | wait h => rfl
    | begin c cs hc htd hk =>
      by_cases h : t = u
      · subst h; simp [callsOf, upd, htd]
      · simp [callsOf, upd, h, Ne.symm h]
    | micro c l f fs hc =>
      by_cases h : t = u
      · subst h; simp [callsOf, upd]
      · simp [callsOf, upd, h]
    | finish c l hc =>
      by_cases h : t = u
      · subst h; simp [callsOf, upd]
      · simp [callsOf, upd, h]

/-! ### Mutual exclusion -/

/-- A mutex is held exactly by the thread that is inside its critical section. -/
def LockInv (P : Lang ι σ L) (s : St ι σ L) : Prop :=
  ∀ m t, s.lock m = some t ↔
    ∃ r, (s.thr t).cur = some r ∧ P.locked r.call = true ∧ P.mutex (P.part r.call) = m

theorem lockInv_turn {s : St ι σ L} (h : LockInv P s) (u : Nat) : LockInv P (s.turn P u) := by
  have D := did P s u
  revert D
  generalize s.begins P u = o
  generalize s.turn P u = s'
  intro D
  cases D with
  | wait => exact h
  | begin c cs hc htd hk =>
    intro m t
    have hu : ∀ m, s.lock m ≠ some u := fun m hm => by
      obtain ⟨r, hr, _⟩ := (h m u).1 hm
      rw [hc] at hr; cases hr
    by_cases hl : P.locked c = true
    · have hk := hk hl
      by_cases htu : t = u
      · subst htu
        by_cases hm : m = P.mutex (P.part c)
        · subst hm
          simp [hl, upd]
        · simp only [hl, if_true, upd, hm, if_false]
          constructor
          · intro e; exact absurd e (hu m)
          · rintro ⟨r, hr, _, e⟩
            cases hr
            exact absurd e.symm hm
      · by_cases hm : m = P.mutex (P.part c)
        · subst hm
          simp only [hl, if_true, upd, htu, if_false]
          constructor
          · intro e; cases e; exact absurd rfl htu
          · intro e
            have := (h _ t).2 e
            rw [hk] at this; cases this
        · simp only [hl, if_true, upd, hm, htu, if_false]
          exact h m t
    · by_cases htu : t = u
      · subst htu
        simp only [hl, upd]
        constructor
        · intro e; exact absurd e (hu m)
        · rintro ⟨r, hr, e, _⟩
          cases hr
          exact absurd e hl
      · simp only [hl, upd, htu, if_false]
        exact h m t
  | micro c l f fs hc =>
    intro m t
    by_cases htu : t = u
    · subst htu
      rw [h m t, hc]
      simp [upd]
    · simp only [upd, htu, if_false]
      exact h m t
  | finish c l hc =>
    intro m t
    by_cases htu : t = u
    · subst htu
      simp only [upd, if_true]
      constructor
      · intro e
        exfalso
        by_cases hl : P.locked c = true
        · simp only [hl, if_true, upd] at e
          split at e
          · cases e
          · rename_i hne
            obtain ⟨r, hr, _, e2⟩ := (h m t).1 e
            rw [hc] at hr
            cases hr
            exact hne e2.symm
        · simp only [hl] at e
          obtain ⟨r, hr, e1, _⟩ := (h m t).1 e
          rw [hc] at hr
          cases hr
          exact hl e1
      · rintro ⟨r, hr, _⟩
        cases hr
    · simp only [upd, htu, if_false]
      by_cases hl : P.locked c = true
      · simp only [hl, if_true]
        have hu := (h (P.mutex (P.part c)) u).2 ⟨_, hc, hl, rfl⟩
        by_cases hm : m = P.mutex (P.part c)
        · subst hm
          rw [upd_same]
          constructor
          · intro e; cases e
          · intro e
            have := (h _ t).2 e
            rw [hu] at this
            cases this
            exact absurd rfl htu
        · rw [upd_ne _ _ hm]; exact h m t
      · simp only [hl]; exact h m t

theorem lockInv_run {s : St ι σ L} (h : LockInv P s) (sched : List Nat) :
    LockInv P (s.run P sched) := by
  induction sched generalizing s with
  | nil => exact h
  | cons u us ih => exact ih (lockInv_turn h u)

theorem lockInv_initial (mem : Nat → σ) (prog : Nat → List ι) :
    LockInv P (St.initial mem prog : St ι σ L) := by
  intro m t
  simp [St.initial]

/-- Calls that do not take the mutex overlap with no other call on the same part. -/
def St.Careful (P : Lang ι σ L) (s : St ι σ L) (k : Nat) : Prop :=
  ∀ t r, (s.thr t).cur = some r → P.part r.call = k → P.locked r.call = false →
    ∀ u, s.Inside P k u → u = t

theorem exclusive_of {s : St ι σ L} (h : LockInv P s) {k : Nat} (hc : s.Careful P k) :
    s.Exclusive P k := by
  rintro t u ⟨r, hr, rk⟩ ⟨q, hq, qk⟩
  by_cases hl : P.locked r.call = true
  · by_cases hm : P.locked q.call = true
    · have h1 := (h (P.mutex k) t).2 ⟨r, hr, hl, by rw [rk]⟩
      have h2 := (h (P.mutex k) u).2 ⟨q, hq, hm, by rw [qk]⟩
      rw [h1] at h2
      exact Option.some.inj h2
    · exact hc u q hq qk (by simpa using hm) t ⟨r, hr, rk⟩
  · exact (hc t r hr rk (by simpa using hl) u ⟨q, hq, qk⟩).symm

/-! ### Memory -/

/-- The memory and what the call in progress has done so far. -/
structure MemInv (P : Lang ι σ L) (m0 : σ) (k : Nat) (o : List (Nat × ι)) (s : St ι σ L) : Prop where
  idle : s.Idle P k → s.mem k = P.serial k (o.map Prod.snd) m0
  busy : ∀ t r, (s.thr t).cur = some r → P.part r.call = k → ∃ o1 o2 done,
    o = o1 ++ (t, r.call) :: o2 ∧ (∀ p ∈ o2, P.part p.2 ≠ k) ∧ P.body r.call = done ++ r.left ∧
    done.foldl (fun p f => f p) (P.start r.call, P.serial k (o1.map Prod.snd) m0) = (r.loc, s.mem k)

theorem serial_append (k : Nat) (a b : List ι) (x : σ) :
    P.serial k (a ++ b) x = P.serial k b (P.serial k a x) := by simp [Lang.serial]

theorem serial_other {k : Nat} {b : List (Nat × ι)} (h : ∀ p ∈ b, P.part p.2 ≠ k) (x : σ) :
    P.serial k (b.map Prod.snd) x = x := by
  have : (b.map Prod.snd).filter (fun c => P.part c == k) = [] := by
    rw [List.filter_eq_nil_iff]
    intro c hc
    obtain ⟨p, hp, rfl⟩ := List.mem_map.1 hc
    simpa using h p hp
  simp [Lang.serial, this]

theorem serial_one {k : Nat} {c : ι} (h : P.part c = k) (x : σ) :
    P.serial k [c] x = P.effect c x := by simp [Lang.serial, h]

theorem memInv_turn {m0 : σ} {k : Nat} {o : List (Nat × ι)} {s : St ι σ L}
    (h : MemInv P m0 k o s) (u : Nat) (hx : s.Exclusive P k) (hx' : (s.turn P u).Exclusive P k) :
    MemInv P m0 k (o ++ s.begins P u) (s.turn P u) := by
  have D := did P s u
  revert D hx'
  generalize s.begins P u = b
  generalize s.turn P u = s'
  intro hx' D
  cases D with
  | wait => rw [List.append_nil]; exact h
  | begin c cs hc htd hk =>
    by_cases hkc : P.part c = k
    · have hidle : s.Idle P k := by
        rintro t ⟨r, hr, rk⟩
        have htu : t ≠ u := by rintro rfl; rw [hc] at hr; cases hr
        have h1 : St.Inside P ({ s with
            lock := if P.locked c then upd s.lock (P.mutex (P.part c)) (some u) else s.lock
            thr := upd s.thr u ⟨some ⟨c, P.start c, P.body c⟩, cs⟩ } : St ι σ L) k t :=
          ⟨r, by simpa [upd, htu] using hr, rk⟩
        exact htu (hx' t u h1 ⟨_, by simp [upd]; rfl, hkc⟩)
      constructor
      · intro hi
        exact absurd ⟨_, by simp [upd]; rfl, hkc⟩ (hi u)
      · intro t r hr rk
        by_cases htu : t = u
        · subst htu
          simp only [upd, if_true, Option.some.injEq] at hr
          subst hr
          refine ⟨o, [], [], by simp, by simp, by simp, ?_⟩
          simp [h.idle hidle]
        · simp only [upd, htu, if_false] at hr
          exact absurd ⟨r, hr, rk⟩ (hidle t)
    · constructor
      · intro hi
        have : s.Idle P k := by
          rintro t ⟨r, hr, rk⟩
          have htu : t ≠ u := by rintro rfl; rw [hc] at hr; cases hr
          exact hi t ⟨r, by simpa [upd, htu] using hr, rk⟩
        rw [List.map_append, serial_append, serial_other (b := [(u, c)]) (by simpa using hkc)]
        exact h.idle this
      · intro t r hr rk
        by_cases htu : t = u
        · subst htu
          simp only [upd, if_true, Option.some.injEq] at hr
          subst hr
          exact absurd rk hkc
        · simp only [upd, htu, if_false] at hr
          obtain ⟨o1, o2, done, e1, e2, e3, e4⟩ := h.busy t r hr rk
          refine ⟨o1, o2 ++ [(u, c)], done, by simp [e1], ?_, e3, e4⟩
          intro p hp
          rcases List.mem_append.1 hp with hp | hp
          · exact e2 p hp
          · rw [List.mem_singleton.1 hp]; exact hkc
  | micro c l f fs hc =>
    rw [List.append_nil]
    by_cases hkc : P.part c = k
    · constructor
      · intro hi
        exact absurd ⟨_, by simp [upd]; rfl, hkc⟩ (hi u)
      · intro t r hr rk
        by_cases htu : t = u
        · subst htu
          simp only [upd, if_true, Option.some.injEq] at hr
          subst hr
          obtain ⟨o1, o2, done, e1, e2, e3, e4⟩ := h.busy t _ hc hkc
          refine ⟨o1, o2, done ++ [f], e1, e2, by simpa using e3, ?_⟩
          rw [List.foldl_append, e4]
          subst hkc
          simp [upd]
        · simp only [upd, htu, if_false] at hr
          exact absurd (hx t u ⟨r, hr, rk⟩ ⟨_, hc, hkc⟩) htu
    · have hm : (upd s.mem (P.part c) (f (l, s.mem (P.part c))).2) k = s.mem k :=
        upd_ne _ _ (Ne.symm hkc)
      constructor
      · intro hi
        have : s.Idle P k := by
          rintro t ⟨r, hr, rk⟩
          by_cases htu : t = u
          · subst htu
            rw [hc] at hr
            cases hr
            exact hkc rk
          · exact hi t ⟨r, by simpa [upd, htu] using hr, rk⟩
        show (upd s.mem (P.part c) (f (l, s.mem (P.part c))).2) k = _
        rw [hm]; exact h.idle this
      · intro t r hr rk
        by_cases htu : t = u
        · subst htu
          simp only [upd, if_true, Option.some.injEq] at hr
          subst hr
          exact absurd rk hkc
        · simp only [upd, htu, if_false] at hr
          obtain ⟨o1, o2, done, e1, e2, e3, e4⟩ := h.busy t r hr rk
          refine ⟨o1, o2, done, e1, e2, e3, ?_⟩
          show _ = (r.loc, (upd s.mem (P.part c) (f (l, s.mem (P.part c))).2) k)
          rw [hm]; exact e4
  | finish c l hc =>
    rw [List.append_nil]
    by_cases hkc : P.part c = k
    · constructor
      · intro _
        obtain ⟨o1, o2, done, e1, e2, e3, e4⟩ := h.busy u _ hc hkc
        show s.mem k = _
        rw [e1, List.map_append, serial_append, List.map_cons,
          show ((u, (⟨c, l, []⟩ : Running ι σ L).call).2 :: o2.map Prod.snd) =
            [c] ++ o2.map Prod.snd from rfl, serial_append, serial_other e2, serial_one hkc,
          Lang.effect]
        rw [List.append_nil] at e3
        rw [show P.body c = done from e3]
        exact (congrArg Prod.snd e4).symm
      · intro t r hr rk
        by_cases htu : t = u
        · subst htu
          simp [upd] at hr
        · simp only [upd, htu, if_false] at hr
          exact absurd (hx t u ⟨r, hr, rk⟩ ⟨_, hc, hkc⟩) htu
    · constructor
      · intro hi
        have : s.Idle P k := by
          rintro t ⟨r, hr, rk⟩
          by_cases htu : t = u
          · subst htu
            rw [hc] at hr
            cases hr
            exact hkc rk
          · exact hi t ⟨r, by simpa [upd, htu] using hr, rk⟩
        exact h.idle this
      · intro t r hr rk
        by_cases htu : t = u
        · subst htu
          simp [upd] at hr
        · simp only [upd, htu, if_false] at hr
          exact h.busy t r hr rk

theorem memInv_run {s : St ι σ L} (k : Nat) (hs : ∀ t, (s.thr t).cur = none) (sched : List Nat)
    (hx : ∀ n, (s.run P (sched.take n)).Exclusive P k) :
    MemInv P (s.mem k) k (s.order P sched) (s.run P sched) := by
  have key : ∀ n, n ≤ sched.length →
      MemInv P (s.mem k) k (s.order P (sched.take n)) (s.run P (sched.take n)) := by
    intro n
    induction n with
    | zero =>
      intro _
      constructor
      · intro _
        simp [St.run, St.order, Lang.serial]
      · intro t r hr
        simp only [List.take_zero, St.run, List.foldl_nil] at hr
        rw [hs t] at hr; cases hr
    | succ n ih =>
      intro hn
      have hlt : n < sched.length := by omega
      have e : sched.take (n + 1) = sched.take n ++ [sched[n]] := (List.take_append_getElem hlt).symm
      have h0 := hx n
      have h1 := hx (n + 1)
      rw [e, run_snoc] at h1
      rw [e, run_snoc, order_snoc]
      exact memInv_turn (ih (by omega)) _ h0 h1
  have := key sched.length (Nat.le_refl _)
  rwa [List.take_length] at this

/-! ### Progress -/

theorem step_some_of_cur {s : St ι σ L} {t : Nat} (h : (s.thr t).cur ≠ none) :
    (s.step P t).isSome := by
  rcases hc : (s.thr t).cur with _ | ⟨c, l, left⟩
  · exact absurd hc h
  · cases left <;> simp [St.step, hc]

theorem progress {s : St ι σ L} (h : LockInv P s) (hd : ¬ s.Done) :
    ∃ t, ((s.thr t).cur ≠ none ∨ (s.thr t).todo ≠ []) ∧ (s.step P t).isSome := by
  by_cases hall : ∀ t, (s.thr t).cur = none
  · have : ∃ t, (s.thr t).todo ≠ [] := by
      by_contra hno
      exact hd fun t => ⟨hall t, by_contra fun hne => hno ⟨t, hne⟩⟩
    obtain ⟨t, ht⟩ := this
    refine ⟨t, .inr ht, ?_⟩
    cases htd : (s.thr t).todo with
    | nil => exact absurd htd ht
    | cons c cs =>
      have hk : ∀ m, s.lock m = none := by
        intro m
        cases hm : s.lock m with
        | none => rfl
        | some u =>
          obtain ⟨r, hr, _⟩ := (h m u).1 hm
          rw [hall u] at hr; cases hr
      by_cases hl : P.locked c = true <;> simp [St.step, hall t, htd, hl, hk]
  · obtain ⟨t, ht⟩ := not_forall.1 hall
    exact ⟨t, .inl ht, step_some_of_cur ht⟩

/-- The work of the first `n` threads. -/
def St.total (P : Lang ι σ L) (n : Nat) (s : St ι σ L) : Nat :=
  ((List.range n).map (fun t => (s.thr t).work P)).sum

theorem sum_map_le {f g : Nat → Nat} (l : List Nat) (h : ∀ x ∈ l, f x ≤ g x) :
    (l.map f).sum ≤ (l.map g).sum := by
  induction l with
  | nil => simp
  | cons a l ih =>
    simp only [List.map_cons, List.sum_cons]
    have := h a (by simp)
    have := ih (fun x hx => h x (by simp [hx]))
    omega

theorem sum_map_lt {f g : Nat → Nat} (l : List Nat) (h : ∀ x ∈ l, f x ≤ g x) {a : Nat} (ha : a ∈ l)
    (hlt : f a < g a) : (l.map f).sum < (l.map g).sum := by
  induction l with
  | nil => simp at ha
  | cons b l ih =>
    simp only [List.map_cons, List.sum_cons]
    have h1 := h b (by simp)
    have h2 := sum_map_le l (fun x hx => h x (by simp [hx]))
    rcases List.mem_cons.1 ha with rfl | ha
    · omega
    · have := ih (fun x hx => h x (by simp [hx])) ha
      omega

theorem turn_work (s : St ι σ L) (u : Nat) :
    (∀ t, t ≠ u → (s.turn P u).thr t = s.thr t) ∧
    ((s.step P u = none ∧ s.turn P u = s) ∨
      ((s.step P u).isSome ∧ ((s.turn P u).thr u).work P < (s.thr u).work P)) := by
  have D := did P s u
  have hw : (s.turn P u = s ∧ s.step P u = none) ∨ (s.step P u).isSome := by
    cases hs : s.step P u with
    | none => exact .inl ⟨by simp [St.turn, hs], rfl⟩
    | some x => exact .inr rfl
  rcases hw with ⟨h1, h2⟩ | hw
  · exact ⟨fun t _ => by rw [h1], .inl ⟨h2, h1⟩⟩
  · revert D
    generalize s.begins P u = o
    generalize s.turn P u = s'
    intro D
    cases D with
    | wait h => rw [h] at hw; cases hw
    | begin c cs hc htd hk =>
      refine ⟨fun t ht => by simp [upd, ht], .inr ⟨hw, ?_⟩⟩
      simp only [upd, Thread.work, hc, htd, if_true, List.map_cons, List.sum_cons]
      omega
    | micro c l f fs hc =>
      refine ⟨fun t ht => by simp [upd, ht], .inr ⟨hw, ?_⟩⟩
      simp [upd, Thread.work, hc]
    | finish c l hc =>
      refine ⟨fun t ht => by simp [upd, ht], .inr ⟨hw, ?_⟩⟩
      simp [upd, Thread.work, hc]

/-- Threads from `n` on have nothing to do. -/
def St.Few (n : Nat) (s : St ι σ L) : Prop :=
  ∀ t, n ≤ t → (s.thr t).cur = none ∧ (s.thr t).todo = []

theorem few_step {n : Nat} {s : St ι σ L} (h : s.Few n) {u : Nat} (hu : (s.step P u).isSome) :
    u < n := by
  by_contra hno
  obtain ⟨h1, h2⟩ := h u (by omega)
  simp [St.step, h1, h2] at hu

theorem few_turn {n : Nat} {s : St ι σ L} (h : s.Few n) (u : Nat) : (s.turn P u).Few n := by
  intro t ht
  obtain ⟨h1, h2⟩ := turn_work (P := P) s u
  rcases h2 with ⟨_, e⟩ | ⟨h2, _⟩
  · rw [e]; exact h t ht
  · have := few_step h h2
    rw [h1 t (by omega)]
    exact h t ht

theorem total_turn {n : Nat} {s : St ι σ L} (h : s.Few n) (u : Nat) :
    (s.step P u = none ∧ s.turn P u = s) ∨ (s.turn P u).total P n < s.total P n := by
  obtain ⟨h1, h2⟩ := turn_work (P := P) s u
  rcases h2 with h2 | ⟨h2, h3⟩
  · exact .inl h2
  · refine .inr (sum_map_lt _ (fun x _ => ?_) (List.mem_range.2 (few_step h h2)) h3)
    by_cases hx : x = u
    · subst hx; omega
    · rw [h1 x hx]; exact Nat.le_refl _

theorem total_run {n : Nat} {s : St ι σ L} (h : s.Few n) (sched : List Nat) :
    (s.run P sched).Few n ∧ (((∀ u ∈ sched, s.step P u = none) ∧ s.run P sched = s) ∨
      (s.run P sched).total P n < s.total P n) := by
  induction sched generalizing s with
  | nil => exact ⟨h, .inl ⟨by simp, rfl⟩⟩
  | cons u us ih =>
    obtain ⟨i1, i2⟩ := ih (few_turn (P := P) h u)
    refine ⟨i1, ?_⟩
    have e : s.run P (u :: us) = (s.turn P u).run P us := rfl
    rw [e]
    rcases total_turn (P := P) h u with ⟨h1, h2⟩ | h1
    · rw [h2] at i2 ⊢
      rcases i2 with ⟨j1, j2⟩ | j
      · refine .inl ⟨fun v hv => ?_, j2⟩
        rcases List.mem_cons.1 hv with rfl | hv
        · exact h1
        · exact j1 v hv
      · exact .inr j
    · rcases i2 with ⟨_, j2⟩ | j
      · rw [j2]; exact .inr h1
      · exact .inr (by omega)

theorem rounds_done {n : Nat} {s : St ι σ L} (hl : LockInv P s) (h : s.Few n)
    (rounds : List (List Nat)) (hr : ∀ r ∈ rounds, ∀ t, t < n → t ∈ r)
    (hlen : s.total P n ≤ rounds.length) : (s.run P rounds.flatten).Done := by
  induction rounds generalizing s with
  | nil =>
    by_contra hd
    obtain ⟨t, _, ht⟩ := progress hl hd
    have hz : s.total P n = 0 := by simpa using hlen
    rcases total_turn (P := P) h t with ⟨h1, _⟩ | h1
    · have ht' : (s.step P t).isSome := ht
      rw [h1] at ht'; cases ht'
    · omega
  | cons r rs ih =>
    rw [List.flatten_cons, run_append]
    obtain ⟨f1, f2⟩ := total_run (P := P) h r
    rcases f2 with ⟨j1, j2⟩ | j
    · rw [j2]
      by_cases hd : s.Done
      · -- nothing changes any more
        have hstep : ∀ t, s.turn P t = s := by
          intro t
          obtain ⟨h1, h2⟩ := hd t
          have : s.step P t = none := by simp [St.step, h1, h2]
          simp [St.turn, this]
        have : ∀ l : List Nat, s.run P l = s := by
          intro l
          induction l with
          | nil => rfl
          | cons a l ih2 =>
            show (s.turn P a).run P l = s
            rw [hstep a]; exact ih2
        rw [this]; exact hd
      · obtain ⟨t, _, ht⟩ := progress hl hd
        have := j1 t (hr r (by simp) t (few_step h ht))
        rw [this] at ht; cases ht
    · exact ih (lockInv_run hl r) f1 (fun q hq => hr q (by simp [hq]))
        (by simp only [List.length_cons] at hlen; omega)

/-! ### The controller -/

section
variable {w : Nat} (H : Hal w) (root : List Irq)

/-- Steps one after the other. -/
def steps {σ L : Type} (fs : List (Micro σ L)) (p : L × σ) : L × σ := fs.foldl (fun p f => f p) p

theorem steps_append {σ L : Type} (a b : List (Micro σ L)) (p : L × σ) :
    steps (a ++ b) p = steps b (steps a p) := by simp [steps]

/-- A list of step lists, each with a known effect on the memory. -/
theorem steps_flatten {α σ L : Type} (f : α → List (Micro σ L)) (g : σ → α → σ)
    (h : ∀ a p, (steps (f a) p).2 = g p.2 a) (l : List α) (p : L × σ) :
    (steps (l.map f).flatten p).2 = l.foldl g p.2 := by
  induction l generalizing p with
  | nil => rfl
  | cons a l ih =>
    rw [List.map_cons, List.flatten_cons, steps_append, ih, List.foldl_cons, h]

theorem putSteps_effect (b : Bool) (t : Nat) (p : Loc w × Sys w) :
    (steps (putSteps root b t) p).2 =
      { p.2 with ctl := { p.2.ctl with en := p.2.ctl.en.put root b t } } := by
  unfold putSteps Enables.put
  split
  · rfl
  · split
    · rfl
    · split <;> rfl

theorem computeSteps_effect (irqs : List Irq) (p : Loc w × Sys w) :
    steps (irqs.map (computeStep H)) p = ({ p.1 with
      value := irqs.foldl (fun v x => if isOn p.2.ctl.en x then v ||| maskFor H x else v) p.1.value },
      p.2) := by
  induction irqs generalizing p with
  | nil => rfl
  | cons x xs ih =>
    show steps (xs.map (computeStep H)) (computeStep H x p) = _
    rw [ih]
    rfl

theorem regSteps_effect (force : Bool) (irqs : List Irq) (r : Nat) (p : Loc w × Sys w) :
    (steps (regSteps H force irqs r) p).2 =
      { p.2 with ctl := updateReg H force irqs p.2.ctl r } := by
  rw [regSteps, steps_append, steps_append, steps_append, computeSteps_effect]
  simp only [steps, writeSteps, List.foldl_cons, List.foldl_nil, updateReg, writeReg, valueOf,
    if_true]
  congr 2

theorem updateSteps_effect (force : Bool) (irqs : List Irq) (p : Loc w × Sys w) :
    (steps (updateSteps H force irqs) p).2 =
      { p.2 with ctl := Interrupt.update H force irqs p.2.ctl } := by
  rw [updateSteps, steps_flatten (g := fun s r => { s with ctl := updateReg H force irqs s.ctl r })
    (h := fun r p => regSteps_effect H force irqs r p), Interrupt.update]
  generalize regsOf H irqs = rs
  generalize p.2 = s
  induction rs generalizing s with
  | nil => rfl
  | cons r rs ih => rw [List.foldl_cons, List.foldl_cons, ih]

theorem putsSteps_effect (b : Bool) (ts : List Nat) (p : Loc w × Sys w) :
    (steps (ts.map (putSteps root b)).flatten p).2 =
      { p.2 with ctl := { p.2.ctl with en := ts.foldl (Enables.put root b) p.2.ctl.en } } := by
  rw [steps_flatten (g := fun s t => { s with ctl := { s.ctl with en := s.ctl.en.put root b t } })
    (h := fun t p => putSteps_effect root b t p)]
  generalize p.2 = s
  induction ts generalizing s with
  | nil => rfl
  | cons t ts ih => rw [List.foldl_cons, List.foldl_cons, ih]

/-- Changes of shadow values only. -/
theorem shadowSteps_effect (l : List (Nat × (BitVec w → BitVec w))) (p : Loc w × Sys w) :
    (steps (l.map (fun q => setShadow q.1 q.2)) p).2 = { p.2 with ctl := { p.2.ctl with
      shadow := fun x => (l.filter (fun q => q.1 == x)).foldl (fun v q => q.2 v)
        (p.2.ctl.shadow x) } } := by
  induction l generalizing p with
  | nil => rfl
  | cons q l ih =>
    rw [List.map_cons, show setShadow q.1 q.2 :: l.map (fun q => setShadow q.1 q.2) =
      [setShadow q.1 q.2] ++ l.map (fun q => setShadow q.1 q.2) from rfl, steps_append, ih]
    simp only [steps, List.foldl_cons, List.foldl_nil, setShadow]
    congr 2
    funext x
    by_cases hx : x = q.1
    · subst hx; simp
    · have hx' : (q.1 == x) = false := by simpa using Ne.symm hx
      simp [hx, hx']

theorem uniq_nodup (l : List Nat) : (uniq l).Nodup := by
  induction l with
  | nil => exact List.nodup_nil
  | cons x xs ih =>
    rw [uniq, List.nodup_cons]
    exact ⟨by simp, ih.filter _⟩

theorem nodup_filter_eq {l : List Nat} (h : l.Nodup) (x : Nat) :
    l.filter (fun r => r == x) = if x ∈ l then [x] else [] := by
  induction l with
  | nil => rfl
  | cons a l ih =>
    rw [List.nodup_cons] at h
    rw [List.filter_cons, ih h.2]
    by_cases hx : a = x
    · subst hx; simp [h.1]
    · have : x ≠ a := Ne.symm hx
      simp [hx, this]

theorem zeros_effect (l : List Nat) (h : l.Nodup) (p : Loc w × Sys w) :
    (steps (l.map (fun r => setShadow r (fun _ => 0))) p).2 = { p.2 with ctl := { p.2.ctl with
      shadow := fun x => if x ∈ l then 0 else p.2.ctl.shadow x } } := by
  have := shadowSteps_effect (l.map (fun r => (r, fun _ => (0 : BitVec w)))) p
  rw [List.map_map] at this
  rw [show (fun r => setShadow r (fun _ => (0 : BitVec w))) =
    ((fun q : Nat × (BitVec w → BitVec w) => setShadow q.1 q.2) ∘
      fun r => (r, fun _ => (0 : BitVec w))) from rfl, this]
  simp only
  congr 2
  funext x
  rw [List.filter_map, List.foldl_map,
    show ((fun q : Nat × (BitVec w → BitVec w) => q.1 == x) ∘ fun r => (r, fun _ => (0 : BitVec w)))
      = fun r => r == x from rfl, nodup_filter_eq h]
  split <;> rfl

theorem or_fold (irqs : List Irq) (v : BitVec w) :
    irqs.foldl (fun m x => m ||| maskFor H x) v = v ||| maskOf H irqs := by
  have key : ∀ (a : BitVec w), irqs.foldl (fun m x => m ||| maskFor H x) (v ||| a) =
      v ||| irqs.foldl (fun m x => m ||| maskFor H x) a := by
    intro a
    induction irqs generalizing a with
    | nil => rfl
    | cons x xs ih => rw [List.foldl_cons, List.foldl_cons, BitVec.or_assoc, ih]
  have := key 0
  rwa [show v ||| (0 : BitVec w) = v from BitVec.or_zero] at this

theorem ors_effect (already : List Irq) (l : List Nat) (h : l.Nodup) (p : Loc w × Sys w) :
    (steps (l.map (fun r => (inReg H already r).map (fun x =>
      setShadow r (fun v => v ||| maskFor H x)))).flatten p).2 = { p.2 with ctl := { p.2.ctl with
      shadow := fun x => if x ∈ l then p.2.ctl.shadow x ||| maskOf H (inReg H already x)
        else p.2.ctl.shadow x } } := by
  have one : ∀ (r : Nat) (p : Loc w × Sys w), (steps ((inReg H already r).map (fun x =>
      setShadow r (fun v => v ||| maskFor H x))) p).2 = { p.2 with ctl := { p.2.ctl with
      shadow := fun x => if x = r then p.2.ctl.shadow x ||| maskOf H (inReg H already r)
        else p.2.ctl.shadow x } } := by
    intro r p
    have := shadowSteps_effect ((inReg H already r).map (fun x =>
      (r, fun v : BitVec w => v ||| maskFor H x))) p
    rw [List.map_map] at this
    rw [show (fun x => setShadow r (fun v => v ||| maskFor H x)) =
      ((fun q : Nat × (BitVec w → BitVec w) => setShadow q.1 q.2) ∘
        fun x => (r, fun v : BitVec w => v ||| maskFor H x)) from rfl, this]
    simp only
    congr 2
    funext x
    by_cases hx : x = r
    · subst hx
      rw [if_pos rfl, List.filter_eq_self.2 (by simp), List.foldl_map]
      exact or_fold H _ _
    · rw [if_neg hx, List.filter_eq_nil_iff.2 (by simpa using fun _ _ => Ne.symm hx)]
      rfl
  rw [steps_flatten (g := fun s r => { s with ctl := { s.ctl with
      shadow := fun x => if x = r then s.ctl.shadow x ||| maskOf H (inReg H already r)
        else s.ctl.shadow x } }) (h := one)]
  generalize p.2 = s
  induction l generalizing s with
  | nil => rfl
  | cons r l ih =>
    rw [List.nodup_cons] at h
    rw [List.foldl_cons, ih h.2]
    simp only
    congr 2
    funext x
    by_cases hx : x = r
    · subst hx; simp [h.1]
    · simp [hx]

/-- A call of the controller, undisturbed, does what the operation does as one step. -/
theorem controller_effect (c : Api) (s : Sys w) :
    (controller H root).effect c s = c.run H root s := by
  show (steps (Api.body H root c) (Loc.zero, s)).2 = _
  cases c with
  | op o =>
    cases o with
    | items b p ts =>
      rw [Api.body, steps_append, updateSteps_effect, putsSteps_effect]; rfl
    | names b ns =>
      rw [Api.body, steps_append, updateSteps_effect, putsSteps_effect]; rfl
    | refreshTop => rw [Api.body, updateSteps_effect]; rfl
    | refreshAll => rw [Api.body, updateSteps_effect]; rfl
    | reset => rw [Api.body, steps_append, updateSteps_effect]; rfl
  | init already res flows =>
    rw [Api.body, steps_append, updateSteps_effect, steps_append,
      ors_effect H already (regsOf H already) (uniq_nodup _), steps_append,
      zeros_effect (regsOf H (rootDescendants root)) (uniq_nodup _)]
    rfl
  | read who f => rfl

theorem controller_serial (cs : List Api) (s : Sys w) :
    (controller H root).serial 0 cs s = cs.foldl (Api.run H root) s := by
  rw [Lang.serial, List.filter_eq_self.2 (by simp [controller])]
  congr 1
  funext s c
  exact controller_effect H root c s
end
end Verif.Conc
