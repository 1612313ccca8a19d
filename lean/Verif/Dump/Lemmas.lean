import Verif.Dump.Spec
import Verif.Bench.Lemmas
/-!
# Lemmas on the texts that describe interrupts
-/
namespace Verif.Dump

/-! ## Texts of arguments -/

/-- The text of an argument ends at the first comma or closing bracket outside of brackets. -/
theorem one_unique {x x' : Char} {r r' : Text} (hx : x = ',' ∨ x = '>') (hx' : x' = ',' ∨ x' = '>')
    (a a' : Text) (d : Nat) (q : Bool) (h : oneArgument d q a = true) (h' : oneArgument d q a' = true)
    (e : a ++ x :: r = a' ++ x' :: r') : a = a' ∧ x = x' ∧ r = r' := by
  have hend : ∀ (y : Char) (t : Text), (y = ',' ∨ y = '>') → oneArgument 0 false (y :: t) = false := by
    rintro y t (rfl | rfl) <;> simp [oneArgument, isOpen, isClose]
  induction a generalizing a' d q with
  | nil =>
    simp only [oneArgument, Bool.and_eq_true, beq_iff_eq, Bool.not_eq_true'] at h
    obtain ⟨rfl, rfl⟩ := h
    cases a' with
    | nil =>
      obtain ⟨h1, h2⟩ := List.cons.inj e
      exact ⟨rfl, h1, h2⟩
    | cons c a' =>
      obtain ⟨h1, -⟩ := List.cons.inj e
      rw [hend c a' (h1 ▸ hx)] at h'
      cases h'
  | cons c a ih =>
    cases a' with
    | nil =>
      simp only [oneArgument, Bool.and_eq_true, beq_iff_eq, Bool.not_eq_true'] at h'
      obtain ⟨rfl, rfl⟩ := h'
      obtain ⟨h1, -⟩ := List.cons.inj e
      rw [hend c a (h1 ▸ hx')] at h
      cases h
    | cons c' a' =>
      obtain ⟨h1, h2⟩ := List.cons.inj e
      subst h1
      have key : ∃ d q, oneArgument d q a = true ∧ oneArgument d q a' = true := by
        simp only [oneArgument] at h h'
        split at h
        · rename_i hq
          rw [if_pos hq] at h'
          exact ⟨_, _, h, h'⟩
        · rename_i hq
          rw [if_neg hq] at h'
          split at h
          · rename_i hc
            rw [if_pos hc] at h'
            exact ⟨_, _, h, h'⟩
          · rename_i hc
            rw [if_neg hc] at h'
            split at h
            · rename_i ho
              rw [if_pos ho] at h'
              exact ⟨_, _, h, h'⟩
            · rename_i ho
              rw [if_neg ho] at h'
              split at h
              · rename_i hcl
                rw [if_pos hcl] at h'
                exact ⟨_, _, (Bool.and_eq_true_iff.1 h).2, (Bool.and_eq_true_iff.1 h').2⟩
              · rename_i hcl
                rw [if_neg hcl] at h'
                exact ⟨_, _, (Bool.and_eq_true_iff.1 h).2, (Bool.and_eq_true_iff.1 h').2⟩
      obtain ⟨d', q', k1, k2⟩ := key
      obtain ⟨h3, h4⟩ := ih a' d' q' k1 k2 h2
      exact ⟨by rw [h3], h4⟩

/-- The parts, each but the first after a comma. -/
def tailText (ts : List Text) : Text := ts.flatMap fun t => ',' :: ' ' :: t

theorem join_cons (t : Text) (ts : List Text) : join (t :: ts) = t ++ tailText ts := by
  rw [join]
  induction ts generalizing t with
  | nil => simp [tailText]
  | cons u us ih =>
    rw [List.foldl_cons, ih]
    simp [tailText]

theorem tail_unique (ts ts' : List Text) (h : ∀ t ∈ ts, oneArgument 0 false t = true)
    (h' : ∀ t ∈ ts', oneArgument 0 false t = true) (r r' : Text)
    (e : tailText ts ++ '>' :: r = tailText ts' ++ '>' :: r') : ts = ts' ∧ r = r' := by
  induction ts generalizing ts' with
  | nil =>
    cases ts' with
    | nil => exact ⟨rfl, by simpa [tailText] using e⟩
    | cons u us => simp [tailText] at e
  | cons t ts ih =>
    cases ts' with
    | nil => simp [tailText] at e
    | cons u us =>
      have e1 : t ++ (tailText ts ++ '>' :: r) = u ++ (tailText us ++ '>' :: r') := by
        simpa [tailText] using e
      have hshape : ∀ (l : List Text) (r : Text), ∃ x y, tailText l ++ '>' :: r = x :: y ∧
          (x = ',' ∨ x = '>') := by
        intro l r
        cases l with
        | nil => exact ⟨_, _, rfl, .inr rfl⟩
        | cons a l => exact ⟨_, _, rfl, .inl rfl⟩
      obtain ⟨x, y, e2, hx⟩ := hshape ts r
      obtain ⟨x', y', e2', hx'⟩ := hshape us r'
      rw [e2, e2'] at e1
      obtain ⟨h1, h2, h3⟩ := one_unique hx hx' t u 0 false (h t (by simp)) (h' u (by simp)) e1
      subst h1
      obtain ⟨h4, h5⟩ := ih us (fun t ht => h t (by simp [ht])) (fun t ht => h' t (by simp [ht]))
        (by rw [e2, e2', h2, h3])
      exact ⟨by rw [h4], h5⟩

theorem join_unique (ts ts' : List Text) (h : ∀ t ∈ ts, oneArgument 0 false t = true ∧ t ≠ [])
    (h' : ∀ t ∈ ts', oneArgument 0 false t = true ∧ t ≠ [])
    (e : join ts ++ ['>'] = join ts' ++ ['>']) : ts = ts' := by
  cases ts with
  | nil =>
    cases ts' with
    | nil => rfl
    | cons u us =>
      rw [join_cons] at e
      cases hu : u with
      | nil => exact absurd hu (h' u (by simp)).2
      | cons c u' => rw [hu] at e; simp [join] at e
  | cons t ts =>
    cases ts' with
    | nil =>
      rw [join_cons] at e
      cases hu : t with
      | nil => exact absurd hu (h t (by simp)).2
      | cons c u' => rw [hu] at e; simp [join] at e
    | cons u us =>
      have e' : tailText (t :: ts) ++ '>' :: [] = tailText (u :: us) ++ '>' :: [] := by
        rw [join_cons, join_cons] at e
        simp only [tailText, List.flatMap_cons, List.cons_append] at e ⊢
        rw [e]
      exact (tail_unique _ _ (fun t ht => (h t ht).1) (fun t ht => (h' t ht).1) [] [] e').1

/-- A text without brackets, quotes and commas. -/
theorem one_plain (t : Text) (h : ∀ c ∈ t, isOpen c = false ∧ isClose c = false ∧ c ≠ '"' ∧ c ≠ ',') :
    oneArgument 0 false t = true := by
  induction t with
  | nil => rfl
  | cons c t ih =>
    obtain ⟨h1, h2, h3, h4⟩ := h c (by simp)
    rw [oneArgument, if_neg (by simp), if_neg (by simpa using h3), if_neg (by simp [h1]),
      if_neg (by simp [h2]), ih fun c hc => h c (by simp [hc])]
    simp [h4]

/-- A quoted name. -/
theorem one_quoted (n : Text) (h : '"' ∉ n) : oneArgument 0 false ('"' :: n ++ ['"']) = true := by
  have : ∀ n : Text, '"' ∉ n → oneArgument 0 true (n ++ ['"']) = true := by
    intro n
    induction n with
    | nil => intro _; rfl
    | cons c n ih =>
      intro h
      have hc : (c != '"') = true := by simpa using fun e => h (by simp [e])
      rw [List.cons_append, oneArgument, if_pos rfl, hc]
      exact ih fun h' => h (by simp [h'])
  rw [List.cons_append, oneArgument, if_neg (by simp), if_pos (by simp)]
  exact this n h

/-- Texts of arguments within a bracket. -/
theorem one_within (a b : Text) (d : Nat) (q : Bool) (h : oneArgument d q a = true) :
    oneArgument (d + 1) q (a ++ b) = oneArgument 1 false b := by
  induction a generalizing d q with
  | nil =>
    simp only [oneArgument, Bool.and_eq_true, beq_iff_eq, Bool.not_eq_true'] at h
    obtain ⟨rfl, rfl⟩ := h
    rfl
  | cons c a ih =>
    rw [List.cons_append]
    simp only [oneArgument] at h ⊢
    split
    · rename_i hq
      rw [if_pos hq] at h
      exact ih _ _ h
    · rename_i hq
      rw [if_neg hq] at h
      split
      · rename_i hc
        rw [if_pos hc] at h
        exact ih _ _ h
      · rename_i hc
        rw [if_neg hc] at h
        split
        · rename_i ho
          rw [if_pos ho] at h
          exact ih _ _ h
        · rename_i ho
          rw [if_neg ho] at h
          split
          · rename_i hcl
            rw [if_pos hcl, Bool.and_eq_true, decide_eq_true_eq] at h
            rw [← ih _ _ h.2]
            obtain ⟨n, rfl⟩ : ∃ n, d = n + 1 := ⟨d - 1, by omega⟩
            simp
          · rename_i hcl
            rw [if_neg hcl, Bool.and_eq_true] at h
            rw [ih _ _ h.2]
            simp

theorem one_tail (ts : List Text) (h : ∀ t ∈ ts, oneArgument 0 false t = true) :
    oneArgument 1 false (tailText ts ++ ['>']) = true := by
  induction ts with
  | nil => rfl
  | cons t ts ih =>
    have e : tailText (t :: ts) ++ ['>'] = ',' :: ' ' :: (t ++ (tailText ts ++ ['>'])) := by
      simp [tailText]
    have h1 : ∀ u, oneArgument 1 false (',' :: ' ' :: u) = oneArgument 1 false u := by
      intro u; simp [oneArgument, isOpen, isClose]
    rw [e, h1, one_within _ _ 0 false (h t (by simp))]
    exact ih fun t ht => h t (by simp [ht])

/-- A name with arguments in brackets is one argument. -/
theorem one_template (k : Text) (hk : ∀ c ∈ k, isOpen c = false ∧ isClose c = false ∧ c ≠ '"' ∧ c ≠ ',')
    (t : Text) (ts : List Text) (h : ∀ u ∈ t :: ts, oneArgument 0 false u = true) :
    oneArgument 0 false (k ++ '<' :: (join (t :: ts) ++ ['>'])) = true := by
  induction k with
  | nil =>
    rw [join_cons, List.nil_append, oneArgument, if_neg (by simp), if_neg (by simp),
      if_pos (by decide), List.append_assoc, one_within _ _ 0 false (h t (by simp))]
    exact one_tail ts fun u hu => h u (by simp [hu])
  | cons c k ih =>
    obtain ⟨h1, h2, h3, h4⟩ := hk c (by simp)
    rw [List.cons_append, oneArgument, if_neg (by simp), if_neg (by simpa using h3),
      if_neg (by simp [h1]), if_neg (by simp [h2]), ih fun c hc => hk c (by simp [hc])]
    simp [h4]

/-! ## Configurations -/

/-- The kind of an interrupt. -/
def Irq.kind {T : Type} : Irq T → Text
  | .irq .. => "irq".toList
  | .subIrq .. => "sub_irq".toList
  | .sharedIrq .. => "shared_irq".toList
  | .sharedSubIrq .. => "shared_sub_irq".toList

/-- A name in quotes. -/
def quoted (n : Text) : Text := '"' :: n ++ ['"']

/-- The arguments after the name. -/
def Irq.rest : Irq Ty → List Text
  | .irq _ num pr e p fs => (Bench.digits 10 num ++ ['_', 'i', 'r', 'q']) :: Bench.digits 10 pr ::
      e.text :: p.text :: fs.map Ty.text
  | .subIrq _ e s p fs => e.text :: s.text :: p.text :: fs.map Ty.text
  | .sharedIrq _ num pr e p subs => (Bench.digits 10 num ++ ['_', 'i', 'r', 'q']) :: Bench.digits 10 pr ::
      e.text :: p.text :: configs subs
  | .sharedSubIrq _ e s p subs => e.text :: s.text :: p.text :: configs subs

def Irq.name {T : Type} : Irq T → Text
  | .irq n .. => n
  | .subIrq n .. => n
  | .sharedIrq n .. => n
  | .sharedSubIrq n .. => n

theorem mcuConfig_list (i k n a b t : Text) (ts : List Text) :
    i ++ k ++ ['<', '"'] ++ n ++ ['"', ',', ' '] ++ a ++ ['_', 'i', 'r', 'q', ',', ' '] ++ b ++
      [',', ' '] ++ (t ++ tailText ts) ++ ['>'] =
    (i ++ k) ++ '<' :: (('"' :: n ++ ['"'] ++ tailText ((a ++ ['_', 'i', 'r', 'q']) :: b :: t :: ts)) ++
      ['>']) := by
  simp [tailText]

theorem mcuConfig_eq (k n : Text) (num pr : Nat) (t : Text) (ts : List Text) :
    mcuConfig k n num pr (t :: ts) = ("interrupt::".toList ++ k) ++ '<' :: (join (quoted n ::
      (Bench.digits 10 num ++ ['_', 'i', 'r', 'q']) :: Bench.digits 10 pr :: t :: ts) ++ ['>']) := by
  unfold mcuConfig quoted
  rw [join_cons, join_cons]
  exact mcuConfig_list _ k n _ _ t ts

theorem fieldConfig_list (i k n t : Text) (ts : List Text) :
    i ++ k ++ ['<', '"'] ++ n ++ ['"', ',', ' '] ++ (t ++ tailText ts) ++ ['>'] =
    (i ++ k) ++ '<' :: (('"' :: n ++ ['"'] ++ tailText (t :: ts)) ++ ['>']) := by
  simp [tailText]

theorem fieldConfig_eq (k n : Text) (t : Text) (ts : List Text) :
    fieldConfig k n (t :: ts) = ("interrupt::".toList ++ k) ++ '<' :: (join (quoted n :: t :: ts) ++ ['>']) := by
  unfold fieldConfig quoted
  rw [join_cons, join_cons]
  exact fieldConfig_list _ k n t ts

theorem config_eq (x : Irq Ty) : x.config =
    ("interrupt::".toList ++ x.kind) ++ '<' :: (join (quoted x.name :: x.rest) ++ ['>']) := by
  cases x with
  | irq n num pr e p fs => rw [Irq.config]; exact mcuConfig_eq ..
  | subIrq n e s p fs => rw [Irq.config]; exact fieldConfig_eq ..
  | sharedIrq n num pr e p subs => rw [Irq.config]; exact mcuConfig_eq ..
  | sharedSubIrq n e s p subs => rw [Irq.config]; exact fieldConfig_eq ..

theorem digits_plain (n : Nat) : ∀ c ∈ Bench.digits 10 n,
    isOpen c = false ∧ isClose c = false ∧ c ≠ '"' ∧ c ≠ ',' := by
  have hd : ∀ d : Fin 10, isOpen (Bench.digit d.1) = false ∧ isClose (Bench.digit d.1) = false ∧
      Bench.digit d.1 ≠ '"' ∧ Bench.digit d.1 ≠ ',' := by decide +kernel
  induction n using Nat.strongRecOn with
  | ind n ih =>
    intro c hc
    rcases Nat.lt_or_ge n 10 with h | h
    · rw [Bench.digits_small h, List.mem_singleton] at hc
      exact hc ▸ hd ⟨n, h⟩
    · rw [Bench.digits_big (by decide) h, List.mem_append, List.mem_singleton] at hc
      rcases hc with hc | hc
      · exact ih (n / 10) (by omega) c hc
      · exact hc ▸ hd ⟨n % 10, by omega⟩

/-- A text without brackets, quotes and commas. -/
def Plain (t : Text) : Prop := ∀ c ∈ t, isOpen c = false ∧ isClose c = false ∧ c ≠ '"' ∧ c ≠ ','

theorem kind_plain {T : Type} (x : Irq T) : Plain ("interrupt::".toList ++ x.kind) := by
  have h1 : Plain ("interrupt::".toList ++ "irq".toList) := by unfold Plain; decide +kernel
  have h2 : Plain ("interrupt::".toList ++ "sub_irq".toList) := by unfold Plain; decide +kernel
  have h3 : Plain ("interrupt::".toList ++ "shared_irq".toList) := by unfold Plain; decide +kernel
  have h4 : Plain ("interrupt::".toList ++ "shared_sub_irq".toList) := by unfold Plain; decide +kernel
  cases x with
  | irq => exact h1
  | subIrq => exact h2
  | sharedIrq => exact h3
  | sharedSubIrq => exact h4

/-- What is asked of one interrupt. -/
def Ok (x : Irq Ty) : Prop :=
  (∀ t ∈ x.types, oneArgument 0 false t.text = true) ∧ ∀ n ∈ x.names, '"' ∉ n

theorem text_eq : Ty.text = shown := by
  funext t
  cases t <;> rfl

theorem clear_cons {x : Irq Ty} {xs : List (Irq Ty)} : Clear (x :: xs) ↔ Ok x ∧ Clear xs := by
  simp only [Clear, Ok, typesOf, namesOf, List.mem_append, text_eq]
  constructor
  · rintro ⟨h1, h2⟩
    exact ⟨⟨fun t h => h1 t (.inl h), fun n h => h2 n (.inl h)⟩, fun t h => h1 t (.inr h), fun n h => h2 n (.inr h)⟩
  · rintro ⟨⟨h1, h2⟩, h3, h4⟩
    exact ⟨fun t h => h.elim (h1 t) (h3 t), fun n h => h.elim (h2 n) (h4 n)⟩

theorem Ok.name {x : Irq Ty} (h : Ok x) : '"' ∉ x.name := by
  cases x <;> exact h.2 _ (by simp [Irq.names, Irq.name])

theorem Ok.shared {n : Text} {num pr : Nat} {e p : Ty} {subs : List (Irq Ty)}
    (h : Ok (.sharedIrq n num pr e p subs)) : Clear subs :=
  ⟨fun t ht => text_eq ▸ h.1 t (by simp [Irq.types, ht]), fun m hm => h.2 m (by simp [Irq.names, hm])⟩

theorem Ok.sharedSub {n : Text} {e s p : Ty} {subs : List (Irq Ty)}
    (h : Ok (.sharedSubIrq n e s p subs)) : Clear subs :=
  ⟨fun t ht => text_eq ▸ h.1 t (by simp [Irq.types, ht]), fun m hm => h.2 m (by simp [Irq.names, hm])⟩

theorem one_number (num : Nat) : oneArgument 0 false (Bench.digits 10 num ++ ['_', 'i', 'r', 'q']) = true ∧
    oneArgument 0 false (Bench.digits 10 num) = true := by
  refine ⟨one_plain _ fun c hc => ?_, one_plain _ (digits_plain num)⟩
  rcases List.mem_append.1 hc with hc | hc
  · exact digits_plain num c hc
  · have : ∀ c ∈ ['_', 'i', 'r', 'q'], isOpen c = false ∧ isClose c = false ∧ c ≠ '"' ∧ c ≠ ',' := by
      decide +kernel
    exact this c hc

mutual
theorem config_one (x : Irq Ty) (h : Ok x) : oneArgument 0 false x.config = true := by
  rw [config_eq]
  refine one_template _ (kind_plain x) _ _ fun u hu => ?_
  rcases List.mem_cons.1 hu with rfl | hu
  · exact one_quoted _ h.name
  · exact rest_one x h u hu
theorem rest_one (x : Irq Ty) (h : Ok x) : ∀ u ∈ x.rest, oneArgument 0 false u = true := by
  intro u hu
  cases x with
  | irq n num pr e p fs =>
    simp only [Irq.rest, List.mem_cons, List.mem_map] at hu
    rcases hu with rfl | rfl | rfl | rfl | ⟨f, hf, rfl⟩
    · exact (one_number num).1
    · exact (one_number pr).2
    · exact h.1 _ (by simp [Irq.types])
    · exact h.1 _ (by simp [Irq.types])
    · exact h.1 _ (by simp [Irq.types, hf])
  | subIrq n e s p fs =>
    simp only [Irq.rest, List.mem_cons, List.mem_map] at hu
    rcases hu with rfl | rfl | rfl | ⟨f, hf, rfl⟩
    · exact h.1 _ (by simp [Irq.types])
    · exact h.1 _ (by simp [Irq.types])
    · exact h.1 _ (by simp [Irq.types])
    · exact h.1 _ (by simp [Irq.types, hf])
  | sharedIrq n num pr e p subs =>
    simp only [Irq.rest, List.mem_cons] at hu
    rcases hu with rfl | rfl | rfl | rfl | hu
    · exact (one_number num).1
    · exact (one_number pr).2
    · exact h.1 _ (by simp [Irq.types])
    · exact h.1 _ (by simp [Irq.types])
    · exact configs_one subs h.shared u hu
  | sharedSubIrq n e s p subs =>
    simp only [Irq.rest, List.mem_cons] at hu
    rcases hu with rfl | rfl | rfl | hu
    · exact h.1 _ (by simp [Irq.types])
    · exact h.1 _ (by simp [Irq.types])
    · exact h.1 _ (by simp [Irq.types])
    · exact configs_one subs h.sharedSub u hu
theorem configs_one (xs : List (Irq Ty)) (h : Clear xs) :
    ∀ u ∈ configs xs, oneArgument 0 false u = true := by
  intro u hu
  cases xs with
  | nil => simp [configs] at hu
  | cons x xs =>
    rw [clear_cons] at h
    rw [configs, List.mem_cons] at hu
    rcases hu with rfl | hu
    · exact config_one x h.1
    · exact configs_one xs h.2 u hu
end

/-! ## Reading the texts back -/

theorem split_at {a b : Text} (ha : Plain a) (hb : Plain b) {r r' : Text}
    (e : a ++ '<' :: r = b ++ '<' :: r') : a = b ∧ r = r' := by
  induction a generalizing b with
  | nil =>
    cases b with
    | nil => simpa using e
    | cons c b =>
      simp only [List.nil_append, List.cons_append, List.cons.injEq] at e
      have := (hb c (by simp)).1
      rw [← e.1] at this
      exact absurd this (by decide)
  | cons c a ih =>
    cases b with
    | nil =>
      simp only [List.nil_append, List.cons_append, List.cons.injEq] at e
      have := (ha c (by simp)).1
      rw [e.1] at this
      exact absurd this (by decide)
    | cons c' b =>
      simp only [List.cons_append, List.cons.injEq] at e
      obtain ⟨h1, h2⟩ := ih (fun x hx => ha x (by simp [hx])) (fun x hx => hb x (by simp [hx])) e.2
      exact ⟨by rw [e.1, h1], h2⟩

theorem quoted_inj {m n : Text} (h : quoted m = quoted n) : m = n := by
  simpa [quoted] using h

theorem digits_inj {m n : Nat} (h : Bench.digits 10 m = Bench.digits 10 n) : m = n := by
  rw [← Bench.decimal_digits m, h, Bench.decimal_digits]

theorem config_parts {x y : Irq Ty} (hx : Ok x) (hy : Ok y) (e : x.config = y.config) :
    x.kind = y.kind ∧ x.name = y.name ∧ x.rest = y.rest := by
  rw [config_eq, config_eq] at e
  obtain ⟨h1, h2⟩ := split_at (kind_plain x) (kind_plain y) e
  have h2 := List.append_cancel_right h2
  rw [join_cons, join_cons] at h2
  have h3 : tailText (quoted x.name :: x.rest) ++ '>' :: [] = tailText (quoted y.name :: y.rest) ++ '>' :: [] := by
    simp only [tailText, List.flatMap_cons, List.cons_append] at h2 ⊢
    rw [h2]
  have ho : ∀ z : Irq Ty, Ok z → ∀ t ∈ quoted z.name :: z.rest, oneArgument 0 false t = true := by
    intro z hz t ht
    rcases List.mem_cons.1 ht with rfl | ht
    · exact one_quoted _ hz.name
    · exact rest_one z hz t ht
  obtain ⟨h4, -⟩ := tail_unique _ _ (ho x hx) (ho y hy) [] [] h3
  simp only [List.cons.injEq] at h4
  exact ⟨List.append_cancel_left h1, quoted_inj h4.1, h4.2⟩

theorem kinds_ne : "irq".toList ≠ "sub_irq".toList ∧ "irq".toList ≠ "shared_irq".toList ∧
    "irq".toList ≠ "shared_sub_irq".toList ∧ "sub_irq".toList ≠ "shared_irq".toList ∧
    "sub_irq".toList ≠ "shared_sub_irq".toList ∧ "shared_irq".toList ≠ "shared_sub_irq".toList := by
  decide +kernel

theorem config_ne_nil (x : Irq Ty) : x.config ≠ [] := by
  rw [config_eq]
  simp

mutual
theorem config_unique (x y : Irq Ty) (hx : Ok x) (hy : Ok y) (e : x.config = y.config) :
    x.map Ty.text = y.map Ty.text := by
  obtain ⟨k, n, r⟩ := config_parts hx hy e
  obtain ⟨k1, k2, k3, k4, k5, k6⟩ := kinds_ne
  cases x with
  | irq xn xnum xpr xe xp xfs =>
    cases y with
    | irq yn ynum ypr ye yp yfs =>
      simp only [Irq.rest, Irq.name, List.cons.injEq, List.append_cancel_right_eq] at n r
      obtain ⟨r1, r2, r3, r4, r5⟩ := r
      rw [Irq.map, Irq.map, n, digits_inj r1, digits_inj r2, r3, r4, r5]
    | subIrq => exact absurd k k1
    | sharedIrq => exact absurd k k2
    | sharedSubIrq => exact absurd k k3
  | subIrq xn xe xs xp xfs =>
    cases y with
    | irq => exact absurd k.symm k1
    | subIrq yn ye ys yp yfs =>
      simp only [Irq.rest, Irq.name, List.cons.injEq] at n r
      obtain ⟨r1, r2, r3, r4⟩ := r
      rw [Irq.map, Irq.map, n, r1, r2, r3, r4]
    | sharedIrq => exact absurd k k4
    | sharedSubIrq => exact absurd k k5
  | sharedIrq xn xnum xpr xe xp xsubs =>
    cases y with
    | irq => exact absurd k.symm k2
    | subIrq => exact absurd k.symm k4
    | sharedIrq yn ynum ypr ye yp ysubs =>
      simp only [Irq.rest, Irq.name, List.cons.injEq, List.append_cancel_right_eq] at n r
      obtain ⟨r1, r2, r3, r4, r5⟩ := r
      rw [Irq.map, Irq.map, n, digits_inj r1, digits_inj r2, r3, r4,
        configs_unique xsubs ysubs hx.shared hy.shared r5]
    | sharedSubIrq => exact absurd k k6
  | sharedSubIrq xn xe xs xp xsubs =>
    cases y with
    | irq => exact absurd k.symm k3
    | subIrq => exact absurd k.symm k5
    | sharedIrq => exact absurd k.symm k6
    | sharedSubIrq yn ye ys yp ysubs =>
      simp only [Irq.rest, Irq.name, List.cons.injEq] at n r
      obtain ⟨r1, r2, r3, r4⟩ := r
      rw [Irq.map, Irq.map, n, r1, r2, r3, configs_unique xsubs ysubs hx.sharedSub hy.sharedSub r4]
theorem configs_unique (xs ys : List (Irq Ty)) (hx : Clear xs) (hy : Clear ys) (e : configs xs = configs ys) :
    mapAll Ty.text xs = mapAll Ty.text ys := by
  cases xs with
  | nil =>
    cases ys with
    | nil => rfl
    | cons y ys => simp [configs] at e
  | cons x xs =>
    cases ys with
    | nil => simp [configs] at e
    | cons y ys =>
      rw [clear_cons] at hx hy
      simp only [configs, List.cons.injEq] at e
      rw [mapAll, mapAll, config_unique x y hx.1 hy.1 e.1, configs_unique xs ys hx.2 hy.2 e.2]
end

mutual
theorem config_same (x y : Irq Ty) (e : x.map Ty.text = y.map Ty.text) : x.config = y.config := by
  cases x <;> cases y <;> simp only [Irq.map, Irq.irq.injEq, Irq.subIrq.injEq, Irq.sharedIrq.injEq,
    Irq.sharedSubIrq.injEq, reduceCtorEq] at e
  · obtain ⟨h1, h2, h3, h4, h5, h6⟩ := e
    rw [Irq.config, Irq.config, h1, h2, h3, h4, h5, h6]
  · obtain ⟨h1, h2, h3, h4, h5⟩ := e
    rw [Irq.config, Irq.config, h1, h2, h3, h4, h5]
  · obtain ⟨h1, h2, h3, h4, h5, h6⟩ := e
    rw [Irq.config, Irq.config, h1, h2, h3, h4, h5, configs_same _ _ h6]
  · obtain ⟨h1, h2, h3, h4, h5⟩ := e
    rw [Irq.config, Irq.config, h1, h2, h3, h4, configs_same _ _ h5]
theorem configs_same (xs ys : List (Irq Ty)) (e : mapAll Ty.text xs = mapAll Ty.text ys) :
    configs xs = configs ys := by
  cases xs with
  | nil =>
    cases ys with
    | nil => rfl
    | cons y ys => simp [mapAll] at e
  | cons x xs =>
    cases ys with
    | nil => simp [mapAll] at e
    | cons y ys =>
      simp only [mapAll, List.cons.injEq] at e
      rw [configs, configs, config_same x y e.1, configs_same xs ys e.2]
end

theorem wrap_inj {i a b c : Text} (e : i ++ a ++ c = i ++ b ++ c) : a = b :=
  List.append_cancel_left (List.append_cancel_right e)

theorem manager_iff (xs ys : List (Irq Ty)) (hx : Clear xs) (hy : Clear ys) :
    managerConfig xs = managerConfig ys ↔ mapAll Ty.text xs = mapAll Ty.text ys := by
  have hn : ∀ zs : List (Irq Ty), ∀ t ∈ configs zs, t ≠ [] := by
    intro zs
    induction zs with
    | nil => intro t ht; simp [configs] at ht
    | cons z zs ih =>
      intro t ht
      rw [configs, List.mem_cons] at ht
      rcases ht with rfl | ht
      · exact config_ne_nil z
      · exact ih t ht
  constructor
  · intro e
    unfold managerConfig at e
    have e := wrap_inj e
    exact configs_unique xs ys hx hy (join_unique _ _ (fun t ht => ⟨configs_one xs hx t ht, hn xs t ht⟩)
      (fun t ht => ⟨configs_one ys hy t ht, hn ys t ht⟩) (by rw [e]))
  · intro e
    unfold managerConfig
    exact congrArg (fun t => "interrupt::root<".toList ++ join t ++ ['>']) (configs_same xs ys e)

/-! ## The declaration -/

theorem intercalate_eq (ts : List Text) : List.intercalate [',', ' '] ts = join ts := by
  cases ts with
  | nil => rfl
  | cons t ts =>
    rw [join_cons]
    induction ts generalizing t with
    | nil => simp [tailText]
    | cons u us ih =>
      rw [List.intercalate_cons_cons, ih]
      simp [tailText]

theorem toDigits_eq (n : Nat) : Nat.toDigits 10 n = Bench.digits 10 n := by
  have hd : ∀ d : Fin 10, Nat.digitChar d.1 = Bench.digit d.1 := by decide +kernel
  induction n using Nat.strongRecOn with
  | ind n ih =>
    rcases Nat.lt_or_ge n 10 with h | h
    · rw [Nat.toDigits_of_lt_base h, Bench.digits_small h, hd ⟨n, h⟩]
    · rw [Nat.toDigits_of_base_le (by decide) h, Bench.digits_big (by decide) h, ih _ (by omega),
        hd ⟨n % 10, by omega⟩]

theorem template_eq (i k : Text) (ts : List Text) :
    template (i ++ k) ts = (i ++ k) ++ '<' :: (join ts ++ ['>']) := by
  rw [template, intercalate_eq]
  simp

theorem kind_texts : "interrupt::irq".toList = "interrupt::".toList ++ "irq".toList ∧
    "interrupt::sub_irq".toList = "interrupt::".toList ++ "sub_irq".toList ∧
    "interrupt::shared_irq".toList = "interrupt::".toList ++ "shared_irq".toList ∧
    "interrupt::shared_sub_irq".toList = "interrupt::".toList ++ "shared_sub_irq".toList ∧
    "_irq".toList = ['_', 'i', 'r', 'q'] ∧
    "interrupt::root<".toList = "interrupt::root".toList ++ ['<'] := by
  decide +kernel

mutual
theorem config_declared (x : Irq Ty) : x.config = (x.map Ty.text).declared := by
  rw [config_eq]
  obtain ⟨k1, k2, k3, k4, k5, -⟩ := kind_texts
  cases x with
  | irq n num pr e p fs =>
    rw [Irq.map, Irq.declared, k1, template_eq, toDigits_eq, toDigits_eq, k5]
    rfl
  | subIrq n e s p fs =>
    rw [Irq.map, Irq.declared, k2, template_eq]
    rfl
  | sharedIrq n num pr e p subs =>
    rw [Irq.map, Irq.declared, k3, template_eq, toDigits_eq, toDigits_eq, k5, ← configs_declared subs]
    rfl
  | sharedSubIrq n e s p subs =>
    rw [Irq.map, Irq.declared, k4, template_eq, ← configs_declared subs]
    rfl
theorem configs_declared (xs : List (Irq Ty)) : configs xs = declaredAll (mapAll Ty.text xs) := by
  cases xs with
  | nil => rfl
  | cons x xs => rw [configs, mapAll, declaredAll, config_declared x, configs_declared xs]
end

theorem root_eq (r r' : Text) (h : r = r' ++ ['<']) (ts : List Text) :
    r ++ join ts ++ ['>'] = template r' ts := by
  rw [template, intercalate_eq, h]

theorem manager_declared (xs : List (Irq Ty)) :
    managerConfig xs = template "interrupt::root".toList (declaredAll (mapAll Ty.text xs)) := by
  unfold managerConfig
  rw [configs_declared]
  exact root_eq _ _ kind_texts.2.2.2.2.2 _

end Verif.Dump
