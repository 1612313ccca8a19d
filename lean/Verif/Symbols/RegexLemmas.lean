import Verif.Symbols.Spec
/-! # Lemmas about regular expressions and about texts with markers -/
namespace Verif.Symbols

theorem dropPrefix_append (s t : Text) : dropPrefix? s (s ++ t) = some t := by
  induction s with
  | nil => rfl
  | cons a s ih => simp [dropPrefix?, ih]

theorem dropPrefix_some {s t r : Text} (h : dropPrefix? s t = some r) : t = s ++ r := by
  induction s generalizing t with
  | nil => cases h; rfl
  | cons a s ih =>
    cases t with
    | nil => cases h
    | cons b t =>
      rw [dropPrefix?] at h
      split at h
      · next e => rw [ih h, e]; rfl
      · cases h

/-! ## What a match looks like -/

theorem partsWays_lit (s : Text) (ps : List Part) (t : Text) :
    partsWays (lit s :: ps) (s ++ t) = partsWays ps t := by
  simp [partsWays, atomsWays, Atom.ways, dropPrefix_append]

theorem partsWays_lit_some {s : Text} {ps : List Part} {t : Text} (h : partsWays (lit s :: ps) t ≠ []) :
    ∃ r, t = s ++ r ∧ partsWays ps r ≠ [] := by
  cases hd : dropPrefix? s t with
  | none => simp [partsWays, atomsWays, Atom.ways, hd] at h
  | some r =>
    refine ⟨r, dropPrefix_some hd, ?_⟩
    simpa [partsWays, atomsWays, Atom.ways, hd] using h

theorem mem_takeWhile_imp' {p : Char → Bool} {t : Text} {c : Char} (h : c ∈ t.takeWhile p) : p c = true := by
  induction t with
  | nil => cases h
  | cons a t ih =>
    rw [List.takeWhile_cons] at h
    split at h
    · rcases List.mem_cons.1 h with rfl | h
      · assumption
      · exact ih h
    · cases h

theorem takeWhile_any (t : Text) : t.takeWhile any = t := by
  induction t with
  | nil => rfl
  | cons a t ih => rw [List.takeWhile_cons, ih]; rfl

/-- The ways of a group of characters. -/
theorem partsWays_rep (cap : Bool) (p : Char → Bool) (n : Nat) (lazy : Bool) (ps : List Part) (t : Text) :
    partsWays (⟨cap, [.rep p n lazy]⟩ :: ps) t =
      (let ls := (List.range ((t.takeWhile p).length + 1)).filter (n ≤ ·)
       if lazy then ls else ls.reverse).flatMap fun k =>
        (partsWays ps (t.drop k)).map fun y => (if cap then t.take k :: y.1 else y.1, y.2) := by
  have hs : ∀ l : List (Text × Text), (l.flatMap fun x => [(x.1 ++ [], x.2)]) = l := by
    intro l
    induction l with
    | nil => rfl
    | cons a l ih => rw [List.flatMap_cons, ih]; simp
  have hs' : ∀ l : List (Text × Text),
      (l.flatMap fun x => (atomsWays [] x.2).map fun y => (x.1 ++ y.1, y.2)) = l := hs
  rw [partsWays, atomsWays, hs', Atom.ways, List.flatMap_map]

theorem take_append_length (u v : Text) : (u ++ v).take u.length = u := by simp

/-- A repetition: what it takes is of the class. -/
theorem partsWays_rep_some {cap : Bool} {p : Char → Bool} {n : Nat} {lazy : Bool} {ps : List Part} {t : Text}
    (h : partsWays (⟨cap, [.rep p n lazy]⟩ :: ps) t ≠ []) :
    ∃ u r, t = u ++ r ∧ (∀ c ∈ u, p c = true) ∧ n ≤ u.length ∧ partsWays ps r ≠ [] := by
  rw [partsWays_rep] at h
  rw [Ne, List.flatMap_eq_nil_iff] at h
  simp only [Classical.not_forall] at h
  obtain ⟨k, hk, h⟩ := h
  have hk' : k ∈ (List.range ((t.takeWhile p).length + 1)).filter (n ≤ ·) := by
    cases lazy
    · exact List.mem_reverse.1 hk
    · exact hk
  rw [List.mem_filter, List.mem_range] at hk'
  have hle : k ≤ (t.takeWhile p).length := by omega
  have hlen : (t.takeWhile p).length ≤ t.length := (List.takeWhile_prefix p).length_le
  refine ⟨t.take k, t.drop k, (List.take_append_drop k t).symm, ?_, ?_, ?_⟩
  · intro c hc
    have h1 : t.take k = (t.takeWhile p).take k := by
      obtain ⟨r, hr⟩ := List.takeWhile_prefix (p := p) (l := t)
      conv => lhs; rw [← hr]
      rw [List.take_append_of_le_length hle]
    rw [h1] at hc
    exact mem_takeWhile_imp' (List.mem_of_mem_take hc)
  · rw [List.length_take]
    have := of_decide_eq_true hk'.2
    omega
  · intro e
    rw [e] at h
    exact h rfl

/-- Only one element of a list leads on. -/
theorem flatMap_one {α β : Type} [DecidableEq α] {l : List α} {f : α → List β} {x : α} (hx : x ∈ l)
    (hnd : l.Nodup) (h : ∀ y ∈ l, f y ≠ [] → y = x) : l.flatMap f = f x := by
  induction l with
  | nil => cases hx
  | cons a l ih =>
    rw [List.nodup_cons] at hnd
    rw [List.flatMap_cons]
    by_cases e : a = x
    · subst e
      have : l.flatMap f = [] := by
        rw [List.flatMap_eq_nil_iff]
        intro y hy
        apply Classical.byContradiction
        intro hne
        have := h y (List.mem_cons_of_mem _ hy) hne
        subst this
        exact hnd.1 hy
      rw [this, List.append_nil]
    · have : f a = [] := Classical.byContradiction fun hne => e (h a (List.mem_cons_self ..) hne)
      rw [this, List.nil_append]
      refine ih ?_ hnd.2 fun y hy => h y (List.mem_cons_of_mem _ hy)
      rcases List.mem_cons.1 hx with rfl | hx
      · exact absurd rfl e
      · exact hx

theorem head_flatMap {α β : Type} {l r : List α} {f : α → List β} {x : α} (hx : f x ≠ [])
    (h : ∀ y ∈ l, f y = []) : ((l ++ x :: r).flatMap f).head? = (f x).head? := by
  rw [List.flatMap_append, List.flatMap_eq_nil_iff.2 h, List.nil_append, List.flatMap_cons]
  cases hfx : f x with
  | nil => exact absurd hfx hx
  | cons a b => rfl

theorem nodup_lens (n m : Nat) (lazy : Bool) :
    (let ls := (List.range m).filter (n ≤ ·); if lazy then ls else ls.reverse).Nodup := by
  have : ((List.range m).filter (n ≤ ·)).Nodup := List.nodup_range.filter _
  cases lazy
  · exact (List.pairwise_reverse.2 (this.imp Ne.symm))
  · exact this

/-- A repetition that can stop in one place only. -/
theorem partsWays_rep_one {cap : Bool} {p : Char → Bool} {n : Nat} {lazy : Bool} {ps : List Part}
    {u v : Text} (hu : ∀ c ∈ u, p c = true) (hn : n ≤ u.length)
    (h : ∀ u' v', u' ++ v' = u ++ v → (∀ c ∈ u', p c = true) → n ≤ u'.length → partsWays ps v' ≠ [] → u' = u) :
    partsWays (⟨cap, [.rep p n lazy]⟩ :: ps) (u ++ v) =
      (partsWays ps v).map fun y => (if cap then u :: y.1 else y.1, y.2) := by
  rw [partsWays_rep]
  have hlen : u.length ≤ ((u ++ v).takeWhile p).length := by
    rw [List.takeWhile_append_of_pos (by simpa using hu)]
    simp
  rw [flatMap_one (x := u.length) ?_ (nodup_lens ..)]
  · simp
  · intro k hk hne
    have hk' : k ∈ (List.range (((u ++ v).takeWhile p).length + 1)).filter (n ≤ ·) := by
      cases lazy
      · exact List.mem_reverse.1 hk
      · exact hk
    rw [List.mem_filter, List.mem_range] at hk'
    have hle : k ≤ ((u ++ v).takeWhile p).length := by omega
    have hle' : k ≤ (u ++ v).length := Nat.le_trans hle (List.takeWhile_prefix p).length_le
    have hge := of_decide_eq_true hk'.2
    have := h ((u ++ v).take k) ((u ++ v).drop k) (List.take_append_drop ..) ?_ ?_ ?_
    · have h2 := congrArg List.length this
      rw [List.length_take] at h2
      omega
    · intro c hc
      have h1 : (u ++ v).take k = ((u ++ v).takeWhile p).take k := by
        obtain ⟨r, hr⟩ := List.takeWhile_prefix (p := p) (l := u ++ v)
        conv => lhs; rw [← hr]
        rw [List.take_append_of_le_length hle]
      rw [h1] at hc
      exact mem_takeWhile_imp' (List.mem_of_mem_take hc)
    · rw [List.length_take]; omega
    · intro e
      rw [e] at hne
      exact hne rfl
  · have : u.length ∈ (List.range (((u ++ v).takeWhile p).length + 1)).filter (n ≤ ·) := by
      rw [List.mem_filter, List.mem_range]
      exact ⟨by omega, by simpa using hn⟩
    cases lazy
    · exact List.mem_reverse.2 this
    · exact this

/-- A greedy group that cannot go on beyond a place. -/
theorem head_all {ps : List Part} {u v : Text} (hv : partsWays ps v ≠ [])
    (h : ∀ x y, v = x ++ y → x ≠ [] → partsWays ps y = []) :
    (partsWays (all :: ps) (u ++ v)).head? =
      ((partsWays ps v).map fun y => (u :: y.1, y.2)).head? := by
  rw [partsWays_rep, takeWhile_any]
  simp only [Nat.zero_le, decide_true, Bool.false_eq_true, if_false, if_true]
  have hsplit : (List.range ((u ++ v).length + 1)).reverse =
      ((List.range' (u.length + 1) v.length).reverse) ++ u.length :: (List.range u.length).reverse := by
    have : List.range ((u ++ v).length + 1) =
        List.range u.length ++ u.length :: List.range' (u.length + 1) v.length := by
      rw [List.range_eq_range', List.range_eq_range', List.length_append,
        show u.length + v.length + 1 = u.length + (v.length + 1) from by omega,
        ← List.range'_append_1, List.range'_succ]
      simp
    rw [this]
    simp
  rw [show List.filter (fun _ => true) (List.range ((u ++ v).length + 1)) = _ from List.filter_eq_self.2 (by simp), hsplit]
  refine (head_flatMap (x := u.length) ?_ ?_).trans ?_
  · simpa using hv
  · intro k hk
    rw [List.mem_reverse, List.mem_range'_1] at hk
    have : (u ++ v).drop k = v.drop (k - u.length) := by
      rw [List.drop_append]
      simp [List.drop_eq_nil_of_le (show u.length ≤ k by omega)]
    rw [this, h (v.take (k - u.length)) (v.drop (k - u.length)) (List.take_append_drop ..).symm]
    · rfl
    · intro e
      have := congrArg List.length e
      rw [List.length_take, List.length_nil] at this
      omega
  · simp

/-! ## Markers -/

/-- The text has no `m<`. -/
def Free (m t : Text) : Prop := ∀ u v, t ≠ u ++ m ++ '<' :: v

theorem free_of_infix {m t : Text} (h : ¬ (m ++ ['<']) <:+: t) : Free m t := by
  intro u v e
  exact h ⟨u, v, by rw [e]; simp⟩

theorem free_plain {m t : Text} (h : '<' ∉ t) : Free m t := by
  intro u v e
  exact h (by rw [e]; simp)

/-- Also with other text before it, which has no angle brackets. -/
def Clean (m t : Text) : Prop := ∀ q, '<' ∉ q → Free m (q ++ t)

theorem Clean.free {m t : Text} (h : Clean m t) : Free m t := h [] (by simp)

/-- A suffix without angle brackets of a text with one. -/
theorem suffix_after {m u x y : Text} (hm : '<' ∉ m) (h : u ++ m = x ++ '<' :: y) :
    ∃ w, y = w ++ m ∧ u = x ++ '<' :: w := by
  rcases List.append_eq_append_iff.1 h with ⟨a, h1, h2⟩ | ⟨a, h1, h2⟩
  · exact absurd (by rw [h2]; simp) hm
  · cases a with
    | nil =>
      simp only [List.nil_append] at h2
      exact absurd (by rw [← h2]; simp) hm
    | cons b a =>
      simp only [List.cons_append, List.cons.injEq] at h2
      obtain ⟨rfl, h2⟩ := h2
      exact ⟨a, h2, h1⟩

theorem free_lt {m x y : Text} (hm : '<' ∉ m) (hx : Free m x) (hs : ¬ m <:+ x) (hy : Free m y) :
    Free m (x ++ '<' :: y) := by
  intro u v e
  rcases List.append_eq_append_iff.1 e with ⟨a, h1, h2⟩ | ⟨a, h1, h2⟩
  · cases a with
    | nil =>
      simp only [List.append_nil] at h1
      exact hs ⟨u, h1⟩
    | cons b a =>
      simp only [List.cons_append, List.cons.injEq] at h2
      obtain ⟨rfl, h2⟩ := h2
      obtain ⟨w, h3, _⟩ := suffix_after hm h1
      exact hy w v (by rw [h2, h3])
  · cases a with
    | nil =>
      simp only [List.append_nil] at h1
      exact hs ⟨u, h1.symm⟩
    | cons b a =>
      simp only [List.cons_append, List.cons.injEq] at h2
      obtain ⟨rfl, h2⟩ := h2
      exact hx u a h1

/-- The texts end differently. -/
theorem not_suffix {m s : Text} (k : Nat) (hk : k ≤ m.length) (hk' : k ≤ s.length)
    (h : m.reverse.take k ≠ s.reverse.take k) (q : Text) : ¬ m <:+ q ++ s := by
  rintro ⟨w, hw⟩
  apply h
  have := congrArg (fun t => t.reverse.take k) hw
  simp only [List.reverse_append] at this
  rwa [List.take_append_of_le_length (by simpa using hk),
    List.take_append_of_le_length (by simpa using hk')] at this

theorem Clean.nil {m : Text} : Clean m [] := fun q hq => free_plain (by simpa using hq)

theorem Clean.plain {m s t : Text} (hs : '<' ∉ s) (h : Clean m t) : Clean m (s ++ t) := by
  intro q hq
  rw [← List.append_assoc]
  exact h (q ++ s) (by simp [hq, hs])

theorem Clean.lt {m s t : Text} (hm : '<' ∉ m) (hs : '<' ∉ s) (hne : ∀ q, ¬ m <:+ q ++ s) (h : Free m t) :
    Clean m (s ++ '<' :: t) := by
  intro q hq
  rw [← List.append_assoc]
  exact free_lt hm (free_plain (by simp [hq, hs])) (hne q) h

/-- The last angle bracket. -/
theorem last_lt (a : Text) : '<' ∉ a ∨ ∃ x y, a = x ++ '<' :: y ∧ '<' ∉ y := by
  induction a with
  | nil => exact .inl (by simp)
  | cons b a ih =>
    rcases ih with h | ⟨x, y, rfl, h⟩
    · by_cases e : b = '<'
      · exact .inr ⟨[], a, by simp [e], h⟩
      · exact .inl (by simp [h, Ne.symm e])
    · exact .inr ⟨b :: x, y, rfl, h⟩

theorem free_append {m a t : Text} (hm : '<' ∉ m) (ha : Free m a) (ht : Clean m t) : Free m (a ++ t) := by
  rcases last_lt a with h | ⟨x, y, rfl, h⟩
  · exact ht a h
  · rw [List.append_assoc, List.cons_append]
    refine free_lt hm (fun u v e => ha u (v ++ '<' :: y) (by rw [e]; simp)) ?_ (ht y h)
    rintro ⟨w, hw⟩
    exact ha w y (by rw [hw])

/-- A marker that occurs once tells where it is. -/
theorem once {m a b u v : Text} (hm : '<' ∉ m) (ha : Free m (a ++ m)) (hb : Free m b)
    (h : u ++ m ++ '<' :: v = a ++ m ++ '<' :: b) : u = a ∧ v = b := by
  rcases List.append_eq_append_iff.1 h with ⟨x, h1, h2⟩ | ⟨x, h1, h2⟩
  · cases x with
    | nil =>
      simp only [List.append_nil] at h1
      simp only [List.nil_append, List.cons.injEq, true_and] at h2
      exact ⟨(List.append_cancel_right h1).symm, h2⟩
    | cons c x =>
      simp only [List.cons_append, List.cons.injEq] at h2
      obtain ⟨rfl, h2⟩ := h2
      exact absurd h1 (ha u x)
  · cases x with
    | nil =>
      simp only [List.append_nil] at h1
      simp only [List.nil_append, List.cons.injEq, true_and] at h2
      exact ⟨List.append_cancel_right h1, h2.symm⟩
    | cons c x =>
      simp only [List.cons_append, List.cons.injEq] at h2
      obtain ⟨rfl, h2⟩ := h2
      obtain ⟨w, h3, _⟩ := suffix_after hm h1
      exact absurd (by rw [h2, h3]) (hb w v)

/-- A character that occurs once, before texts without it. -/
theorem last_char {c : Char} {a b u v : Text} (hb : c ∉ b) (hv : c ∉ v)
    (h : u ++ c :: v = a ++ c :: b) : u = a ∧ v = b := by
  rcases List.append_eq_append_iff.1 h with ⟨x, h1, h2⟩ | ⟨x, h1, h2⟩
  · cases x with
    | nil => simp only [List.append_nil] at h1; simp at h2; exact ⟨h1.symm, h2⟩
    | cons d x =>
      simp only [List.cons_append, List.cons.injEq] at h2
      obtain ⟨rfl, h2⟩ := h2
      exact absurd (by rw [h2]; simp) hv
  · cases x with
    | nil => simp only [List.append_nil] at h1; simp at h2; exact ⟨h1, h2.symm⟩
    | cons d x =>
      simp only [List.cons_append, List.cons.injEq] at h2
      obtain ⟨rfl, h2⟩ := h2
      exact absurd (by rw [h2]; simp) hb

/-- The first occurrence of a character. -/
theorem first_char {c : Char} {a b u v : Text} (ha : c ∉ a) (hu : c ∉ u)
    (h : u ++ c :: v = a ++ c :: b) : u = a ∧ v = b := by
  rcases List.append_eq_append_iff.1 h with ⟨x, h1, h2⟩ | ⟨x, h1, h2⟩
  · cases x with
    | nil => simp only [List.append_nil] at h1; simp at h2; exact ⟨h1.symm, h2⟩
    | cons d x =>
      simp only [List.cons_append, List.cons.injEq] at h2
      obtain ⟨rfl, h2⟩ := h2
      exact absurd (by rw [h1]; simp) ha
  · cases x with
    | nil => simp only [List.append_nil] at h1; simp at h2; exact ⟨h1, h2.symm⟩
    | cons d x =>
      simp only [List.cons_append, List.cons.injEq] at h2
      obtain ⟨rfl, h2⟩ := h2
      exact absurd (by rw [h1]; simp) hu

end Verif.Symbols
