import Verif.Dump.Lemmas
/-!
# C164: the texts that describe interrupts
-/
namespace Verif.Dump

/-- **C164**: `config()` gives the declaration: the kind of each interrupt with its arguments in the
order of the parameters, numbers in decimal, types by their names. -/
theorem C164_text (xs : List (Irq Ty)) :
    managerConfig xs = template "interrupt::root".toList (declaredAll (mapAll shown xs)) ∧
    ∀ x ∈ xs, x.config = (x.map shown).declared := by
  rw [← text_eq]
  exact ⟨manager_declared xs, fun x _ => config_declared x⟩

/-- **C164**: when each type is written as one argument and no name has a quote, then two managers
have the same text exactly when they have the same interrupts with the same arguments. Missing for the
whole claim: types that are written otherwise, and different types that are written in the same way. -/
theorem C164_exact_partial (xs ys : List (Irq Ty)) (hx : Clear xs) (hy : Clear ys) :
    managerConfig xs = managerConfig ys ↔ mapAll shown xs = mapAll shown ys := by
  rw [← text_eq]
  exact manager_iff xs ys hx hy

mutual
theorem map_plain (x y : Irq Ty) (hx : ∀ t ∈ x.types, ∃ s, t = .plain s) (hy : ∀ t ∈ y.types, ∃ s, t = .plain s)
    (e : x.map shown = y.map shown) : x = y := by
  have one : ∀ t u : Ty, (∃ s, t = .plain s) → (∃ s, u = .plain s) → shown t = shown u → t = u := by
    rintro _ _ ⟨s, rfl⟩ ⟨s', rfl⟩ h
    exact congrArg Ty.plain h
  have all : ∀ ts us : List Ty, (∀ t ∈ ts, ∃ s, t = .plain s) → (∀ t ∈ us, ∃ s, t = .plain s) →
      ts.map shown = us.map shown → ts = us := by
    intro ts
    induction ts with
    | nil => intro us _ _ h; cases us with
      | nil => rfl
      | cons u us => simp at h
    | cons t ts ih => intro us h1 h2 h; cases us with
      | nil => simp at h
      | cons u us =>
        simp only [List.map_cons, List.cons.injEq] at h
        rw [one t u (h1 t (by simp)) (h2 u (by simp)) h.1,
          ih us (fun t ht => h1 t (by simp [ht])) (fun t ht => h2 t (by simp [ht])) h.2]
  cases x <;> cases y <;> simp only [Irq.map, Irq.irq.injEq, Irq.subIrq.injEq, Irq.sharedIrq.injEq,
    Irq.sharedSubIrq.injEq, reduceCtorEq] at e <;>
    simp only [Irq.types, List.mem_cons, forall_eq_or_imp] at hx hy
  · obtain ⟨h1, h2, h3, h4, h5, h6⟩ := e
    rw [h1, h2, h3, one _ _ hx.1 hy.1 h4, one _ _ hx.2.1 hy.2.1 h5, all _ _ hx.2.2 hy.2.2 h6]
  · obtain ⟨h1, h2, h3, h4, h5⟩ := e
    rw [h1, one _ _ hx.1 hy.1 h2, one _ _ hx.2.1 hy.2.1 h3, one _ _ hx.2.2.1 hy.2.2.1 h4,
      all _ _ hx.2.2.2 hy.2.2.2 h5]
  · obtain ⟨h1, h2, h3, h4, h5, h6⟩ := e
    rw [h1, h2, h3, one _ _ hx.1 hy.1 h4, one _ _ hx.2.1 hy.2.1 h5, maps_plain _ _ hx.2.2 hy.2.2 h6]
  · obtain ⟨h1, h2, h3, h4, h5⟩ := e
    rw [h1, one _ _ hx.1 hy.1 h2, one _ _ hx.2.1 hy.2.1 h3, one _ _ hx.2.2.1 hy.2.2.1 h4,
      maps_plain _ _ hx.2.2.2 hy.2.2.2 h5]
theorem maps_plain (xs ys : List (Irq Ty)) (hx : ∀ t ∈ typesOf xs, ∃ s, t = .plain s)
    (hy : ∀ t ∈ typesOf ys, ∃ s, t = .plain s) (e : mapAll shown xs = mapAll shown ys) : xs = ys := by
  cases xs with
  | nil =>
    cases ys with
    | nil => rfl
    | cons y ys => simp [mapAll] at e
  | cons x xs =>
    cases ys with
    | nil => simp [mapAll] at e
    | cons y ys =>
      simp only [mapAll, List.cons.injEq] at e
      simp only [typesOf, List.mem_append] at hx hy
      rw [map_plain x y (fun t h => hx t (.inl h)) (fun t h => hy t (.inl h)) e.1,
        maps_plain xs ys (fun t h => hx t (.inr h)) (fun t h => hy t (.inr h)) e.2]
end

/-- **C164**: when moreover the types have no `name`, the text determines the declaration. -/
theorem C164_types_partial (xs ys : List (Irq Ty)) (hx : Clear xs) (hy : Clear ys)
    (px : ∀ t ∈ typesOf xs, ∃ s, t = .plain s) (py : ∀ t ∈ typesOf ys, ∃ s, t = .plain s) :
    managerConfig xs = managerConfig ys ↔ xs = ys :=
  (C164_exact_partial xs ys hx hy).trans
    ⟨maps_plain xs ys px py, fun h => by rw [h]⟩

/-- An interrupt with flows. -/
def withFlows (fs : List Ty) : List (Irq Ty) :=
  [.irq "a".toList 17 42 (.plain "interrupt::no_field_t".toList) (.plain "interrupt::policies<>".toList) fs]

/-- **C164 fails**: a flow whose name has a comma looks like two flows. -/
theorem C164_violated_comma :
    managerConfig (withFlows [.named "a, b".toList]) =
      managerConfig (withFlows [.named "a".toList, .named "b".toList]) ∧
    withFlows [.named "a, b".toList] ≠ withFlows [.named "a".toList, .named "b".toList] := by
  refine ⟨?_, fun h => by simp [withFlows] at h⟩
  rw [manager_declared, manager_declared]
  decide +kernel

/-- **C164 fails**: names of flows are written without quotes, so a flow with the name of a type looks
like that type. -/
theorem C164_violated_name (t : Text) :
    managerConfig (withFlows [.named t]) = managerConfig (withFlows [.plain t]) ∧
    withFlows [.named t] ≠ withFlows [.plain t] := by
  refine ⟨rfl, fun h => ?_⟩
  simp [withFlows] at h

/-- The texts of the tests: `test/interrupt/manager.cpp` 53-64. -/
example : managerConfig (withFlows [.plain "flow_1".toList]) =
    "interrupt::root<interrupt::irq<\"a\", 17_irq, 42, interrupt::no_field_t, interrupt::policies<>, flow_1>>".toList := by
  rw [manager_declared]
  decide +kernel

/-- Shared interrupts. -/
def nested : List (Irq Ty) :=
  [.sharedIrq "s".toList 33 7 (.named "33_0".toList) (.plain "interrupt::policies<p<a, b>>".toList)
    [.subIrq "x".toList (.named "33_1".toList) (.named "33_1".toList) (.plain "interrupt::policies<>".toList)
      [.named "f".toList],
     .sharedSubIrq "y, \\".toList (.named "33_2".toList) (.named "33_2".toList) (.plain "interrupt::policies<>".toList) []]]

example : managerConfig nested =
    ("interrupt::root<interrupt::shared_irq<\"s\", 33_irq, 7, 33_0, interrupt::policies<p<a, b>>, " ++
     "interrupt::sub_irq<\"x\", 33_1, 33_1, interrupt::policies<>, f>, " ++
     "interrupt::shared_sub_irq<\"y, \\\", 33_2, 33_2, interrupt::policies<>>>>").toList := by
  rw [manager_declared]
  decide +kernel

example : Clear nested := by
  unfold Clear nested
  decide +kernel

example : Clear (withFlows [.plain "flow_1".toList]) ∧
    ∀ t ∈ typesOf (withFlows [.plain "flow_1".toList]), ∃ s, t = .plain s := by
  constructor
  · unfold Clear withFlows
    decide +kernel
  · simp [withFlows, typesOf, Irq.types]

example : ¬ Clear (withFlows [.named "a, b".toList]) := by
  unfold Clear withFlows
  decide +kernel

end Verif.Dump
