import Verif.Symbols.ReadLemmas
/-! # Messages and modules are read from their symbols -/
namespace Verif.Symbols

/-- What is between the angle brackets of a message, and is free of a marker. -/
theorem free_before {m A D X : Text} (hm : Marker m) (hA : Free m A) (hD : '<' ∉ D) (hX : '<' ∉ X) (s : Text)
    (hs : '<' ∉ s) : Free m (A ++ (t!">, " ++ (D ++ (X ++ (t!", " ++ s))))) :=
  free_sep hm.gt (by decide) hA (free_plain (by simp [hD, hX, hs]))

theorem message_match {A D X T G N p q r : Text} {id : Int} (hD : D = dec id)
    (hX : ∀ c ∈ X, c.isAlpha = true)
    (hA : ∀ m ∈ markers, Free m A) (hT : '<' ∉ T) (hT' : '>' ∉ T)
    (hG : ∀ m ∈ [t!"sc::tags", t!"sc::named_args"], Free m G) (hN : Free t!"sc::named_args" N)
    (hp : p = [] ∨ p = [' ']) (hq : q = [] ∨ q = [' ']) (hr : r = [] ∨ r = [' ']) :
    reMatch messageRe (t!"sc::message<sc::undefined<sc::args<" ++ (A ++ (t!">, " ++ (D ++ (X ++ (t!", sc::string<" ++
      (T ++ (t!">, sc::tags<" ++ (G ++ (t!">, sc::named_args<" ++
        (N ++ (t!">" ++ p ++ t!">" ++ q ++ t!">" ++ r)))))))))))) = some [A, D, X, T, G, N] := by
  have mS : Marker t!"sc::string" := marker_of (by simp [markers])
  have mT : Marker t!"sc::tags" := marker_of (by simp [markers])
  have mN : Marker t!"sc::named_args" := marker_of (by simp [markers])
  have hX' : '<' ∉ X := fun h => absurd (hX _ h) (by decide)
  have hXg : '>' ∉ X := fun h => absurd (hX _ h) (by decide)
  have hDl : '<' ∉ D := hD ▸ dec_not (by decide) (by decide)
  have hDg : '>' ∉ D := hD ▸ dec_not (by decide) (by decide)
  have hGN := hG _ (List.mem_cons_of_mem _ (List.mem_cons_self ..))
  have hGT := hG _ (List.mem_cons_self ..)
  obtain ⟨hE1, hE2⟩ := end_three hp hq hr
  generalize hE : t!">" ++ p ++ t!">" ++ q ++ t!">" ++ r = E at *
  have hEl : '<' ∉ E := by
    rw [← hE]
    rcases hp with rfl | rfl <;> rcases hq with rfl | rfl <;> rcases hr with rfl | rfl <;> decide
  -- the part after the last marker
  have hNE : Free t!"sc::named_args" (N ++ E) := by
    have : ∃ e, E = '>' :: e := ⟨_, by rw [← hE]; rfl⟩
    obtain ⟨e, rfl⟩ := this
    exact free_sep mN.gt (by decide) hN (free_plain (by simp at hEl; simp [hEl]))
  -- the part before the last marker, behind the text
  have hTail : ∀ {m x : Text}, Marker m → Free m (x ++ (t!", sc::string<" ++ T)) → Free m G → ¬ m <:+ t!" sc::tags" →
      Free m (x ++ (t!", sc::string<" ++ (T ++ (t!">, sc::tags<" ++ (G ++ (t!">, " ++ t!"sc::named_args")))))) := by
    intro m x hm h1 h2 h3
    have h4 : Free m (G ++ '>' :: t!", sc::named_args") := free_sep hm.gt (by decide) h2 (free_plain (by decide))
    have h5 : Free m (t!" sc::tags" ++ '<' :: (G ++ '>' :: t!", sc::named_args")) :=
      free_lt hm.lt (free_plain (by decide)) h3 h4
    have h6 : Free m (([] : Text) ++ ',' :: (t!" sc::tags" ++ '<' :: (G ++ '>' :: t!", sc::named_args"))) :=
      free_sep hm.comma (by decide) free_nil h5
    have h7 := free_sep (x := x ++ (t!", sc::string<" ++ T)) hm.gt (by decide) h1 h6
    simpa using h7
  have hText : ∀ {m x : Text}, Marker m → Free m (x ++ t!", sc::string") → ¬ m <:+ x ++ t!", sc::string" →
      Free m (x ++ (t!", sc::string<" ++ T)) := by
    intro m x hm h1 h2
    have := free_lt (y := T) hm.lt h1 h2 (free_plain hT)
    simpa using this
  have hText' : ∀ {m x : Text}, Marker m → Free m (x ++ t!", sc::string") → ¬ m <:+ x ++ t!", sc::string" →
      Free m (x ++ (t!", sc::string<" ++ (T ++ t!">, sc::tags"))) := by
    intro m x hm h1 h2
    have := free_sep (y := t!", sc::tags") hm.gt (by decide) (hText hm h1 h2) (free_plain (by decide))
    simpa using this
  have hHead : ∀ {m : Text}, Marker m → m ∈ markers →
      Free m (A ++ (t!">, " ++ (D ++ (X ++ t!", sc::string")))) := fun hm h =>
    free_before hm (hA _ h) hDl hX' t!"sc::string" (by decide)
  have nsuf : ∀ (x : Text), ¬ t!"sc::named_args" <:+ x ++ t!", sc::string" := fun x =>
    not_suffix 1 (by decide) (by decide) (by decide) x
  have tsuf : ∀ (x : Text), ¬ t!"sc::tags" <:+ x ++ t!", sc::string" := fun x =>
    not_suffix 1 (by decide) (by decide) (by decide) x
  have hxa : ∀ x y z w : Text, x ++ (y ++ (z ++ (w ++ t!", sc::string"))) = (x ++ (y ++ (z ++ w))) ++ t!", sc::string" := by
    intros; simp
  -- where the parts from the text on are
  have key : ∀ {x x' t g w : Text}, Free t!"sc::tags" (x ++ t!", sc::string") →
      Free t!"sc::named_args" (x ++ t!", sc::string") → Free t!"sc::string" (x ++ t!", sc::string") →
      x' ++ (t!", sc::string<" ++ (t ++ (t!">, sc::tags<" ++ (g ++ (t!">, sc::named_args<" ++ w))))) =
        x ++ (t!", sc::string<" ++ (T ++ (t!">, sc::tags<" ++ (G ++ (t!">, sc::named_args<" ++ (N ++ E)))))) →
      x' = x ∧ t = T ∧ g = G ∧ w = N ++ E := by
    intro x x' t g w ht hn hs e
    have e1 := once (m := t!"sc::named_args") (a := x ++ (t!", sc::string<" ++ (T ++ (t!">, sc::tags<" ++ (G ++ t!">, ")))))
      (b := N ++ E) (u := x' ++ (t!", sc::string<" ++ (t ++ (t!">, sc::tags<" ++ (g ++ t!">, "))))) (v := w) mN.lt
      (by
        have := hTail mN (hText mN hn (nsuf x)) hGN (by decide)
        simpa using this) hNE (by simpa using e)
    have e2 := once (m := t!"sc::tags") (a := x ++ (t!", sc::string<" ++ (T ++ t!">, ")))
      (b := G ++ t!">, ") (u := x' ++ (t!", sc::string<" ++ (t ++ t!">, "))) (v := g ++ t!">, ") mT.lt
      (by
        have := hText' mT ht (tsuf x)
        simpa using this)
      (free_sep mT.gt (by decide) hGT (free_plain (by decide))) (by simpa using e1.1)
    have e3 := once (m := t!"sc::string") (a := x ++ t!", ") (b := T ++ t!">, ") (u := x' ++ t!", ")
      (v := t ++ t!">, ") mS.lt (by simpa using hs) (free_plain (by simp [hT])) (by simpa using e2.1)
    exact ⟨List.append_cancel_right e3.1, List.append_cancel_right e3.2, List.append_cancel_right e2.2, e1.2⟩
  rw [reMatch, messageRe, partsWays_lit, partsWays_rep_one (p := any) (fun _ _ => rfl) (Nat.zero_le _), partsWays_lit]
  · rw [hD, number_one, ← hD, ← List.append_assoc X, letters_one hX,
      partsWays_rep_one (p := any) (fun _ _ => rfl) (Nat.zero_le _), partsWays_lit,
      partsWays_rep_one (p := any) (fun _ _ => rfl) (Nat.zero_le _), partsWays_lit]
    · simp only [List.head?_map]
      rw [head_all, hE1]
      · rfl
      · rw [hE1]; simp
      · exact hE2
    · intro u w e _ _ hw
      obtain ⟨w, rfl, _⟩ := partsWays_lit_some hw
      have := once (m := t!"sc::named_args") (a := G ++ t!">, ") (b := N ++ E) (u := u ++ t!">, ") (v := w) mN.lt
        (by
          have := free_sep (y := t!", sc::named_args") mN.gt (by decide) hGN (free_plain (by decide))
          simpa using this) hNE (by simpa using e)
      exact List.append_cancel_right this.1
    · intro u w e _ _ hw
      obtain ⟨w, rfl, hw1⟩ := partsWays_lit_some hw
      obtain ⟨g, w, rfl, _, _, hw2⟩ := partsWays_rep_some hw1
      obtain ⟨w, rfl, _⟩ := partsWays_lit_some hw2
      exact (key (x := []) (x' := []) (free_plain (by decide)) (free_plain (by decide)) (free_plain (by decide))
        (by simpa using e)).2.1
    · intro c s e
      cases hx : X with
      | nil => rw [hx] at e; cases e; rfl
      | cons b X' =>
        rw [hx] at e
        have : b = c := (List.cons.inj e).1
        subst this
        have := hX b (by rw [hx]; simp)
        cases hd : isDigit b with
        | false => rfl
        | true =>
          exfalso
          simp only [isDigit, Char.isAlpha, Char.isUpper, Char.isLower, Char.isDigit, Bool.or_eq_true,
            Bool.and_eq_true, decide_eq_true_eq] at this hd
          have h1 : b.val.toNat ≤ 57 := UInt32.le_iff_toNat_le.1 hd.2
          rcases this with this | this
          · have : 65 ≤ b.val.toNat := UInt32.le_iff_toNat_le.1 this.1
            omega
          · have : 97 ≤ b.val.toNat := UInt32.le_iff_toNat_le.1 this.1
            omega
    · intro c s h
      exact letters_no h
  · intro u w e _ _ hw
    obtain ⟨w, rfl, hw1⟩ := partsWays_lit_some hw
    obtain ⟨d, w, rfl, hd, hw2⟩ := partsWays_number_some hw1
    obtain ⟨x, w, rfl, hx, _, hw3⟩ := partsWays_rep_some hw2
    obtain ⟨w, rfl, hw4⟩ := partsWays_lit_some hw3
    obtain ⟨t, w, rfl, _, _, hw5⟩ := partsWays_rep_some hw4
    obtain ⟨w, rfl, hw6⟩ := partsWays_lit_some hw5
    obtain ⟨g, w, rfl, _, _, hw7⟩ := partsWays_rep_some hw6
    obtain ⟨w, rfl, hw8⟩ := partsWays_lit_some hw7
    have := key (x := A ++ (t!">, " ++ (D ++ X))) (x' := u ++ (t!">, " ++ (d ++ x)))
      (by have := hHead mT (by simp [markers]); simpa using this)
      (by have := hHead mN (by simp [markers]); simpa using this)
      (by have := hHead mS (by simp [markers]); simpa using this) (by simpa using e)
    refine (last_char (c := '>') (b := t!", " ++ (D ++ X)) (v := t!", " ++ (d ++ x)) ?_ ?_ (by simpa using this.1)).1
    · simp [hDg, hXg]
    · have h1 : '>' ∉ d := by
        intro h
        rcases hd _ h with h | h <;> revert h <;> decide
      have h2 : '>' ∉ x := by
        intro h
        have := hx _ h
        revert this
        decide
      simp [h1, h2]

theorem alpha_digit {b : Char} (h : b.isAlpha = true) : isDigit b = false := by
  cases hd : isDigit b with
  | false => rfl
  | true =>
    exfalso
    simp only [isDigit, Char.isAlpha, Char.isUpper, Char.isLower, Char.isDigit, Bool.or_eq_true,
      Bool.and_eq_true, decide_eq_true_eq] at h hd
    have h1 : b.val.toNat ≤ 57 := UInt32.le_iff_toNat_le.1 hd.2
    rcases h with h | h
    · have : 65 ≤ b.val.toNat := UInt32.le_iff_toNat_le.1 h.1
      omega
    · have : 97 ≤ b.val.toNat := UInt32.le_iff_toNat_le.1 h.1
      omega

theorem module_match {D X T p q r : Text} {id : Int} (hD : D = dec id) (hX : ∀ c ∈ X, c.isAlpha = true)
    (hT : '<' ∉ T) (hp : p = [] ∨ p = [' ']) (hq : q = [] ∨ q = [' ']) (hr : r = [] ∨ r = [' ']) :
    reMatch moduleRe (t!"sc::module_string<sc::undefined<" ++ (t!"void" ++ (t!", " ++ (D ++ (X ++ (t!", sc::string<" ++
      (T ++ (t!">" ++ p ++ t!">" ++ q ++ t!">" ++ r)))))))) = some [t!"void", D, X, T] := by
  have hX' : '<' ∉ X := fun h => absurd (hX _ h) (by decide)
  have hXc : ',' ∉ X := fun h => absurd (hX _ h) (by decide)
  have hDl : '<' ∉ D := hD ▸ dec_not (by decide) (by decide)
  have hDc : ',' ∉ D := hD ▸ dec_not (by decide) (by decide)
  obtain ⟨hE1, hE2⟩ := end_three hp hq hr
  generalize hE : t!">" ++ p ++ t!">" ++ q ++ t!">" ++ r = E at *
  have hEl : '<' ∉ E := by
    rw [← hE]
    rcases hp with rfl | rfl <;> rcases hq with rfl | rfl <;> rcases hr with rfl | rfl <;> decide
  rw [reMatch, moduleRe, partsWays_lit, partsWays_rep_one (p := any) (fun _ _ => rfl) (Nat.zero_le _), partsWays_lit]
  · rw [hD, number_one, ← hD, ← List.append_assoc X, letters_one hX]
    · simp only [List.head?_map]
      rw [head_all, hE1]
      · rfl
      · rw [hE1]; simp
      · exact hE2
    · intro c s e
      cases hx : X with
      | nil => rw [hx] at e; cases e; rfl
      | cons b X' =>
        rw [hx] at e
        have : b = c := (List.cons.inj e).1
        subst this
        exact alpha_digit (hX b (by rw [hx]; simp))
    · intro c s h
      exact letters_no h
  · intro u w e _ _ hw
    obtain ⟨w, rfl, hw1⟩ := partsWays_lit_some hw
    obtain ⟨d, w, rfl, hd, hw2⟩ := partsWays_number_some hw1
    obtain ⟨x, w, rfl, hx, _, hw3⟩ := partsWays_rep_some hw2
    obtain ⟨w, rfl, hw4⟩ := partsWays_lit_some hw3
    have := once (m := t!"sc::string") (a := t!"void, " ++ (D ++ (X ++ t!", "))) (b := T ++ E)
      (u := u ++ (t!", " ++ (d ++ (x ++ t!", ")))) (v := w) (by decide)
      (free_plain (by simp [hDl, hX'])) (free_plain (by simp [hT, hEl])) (by simpa using e)
    have h2 : u ++ ',' :: ' ' :: (d ++ x) = t!"void" ++ ',' :: ' ' :: (D ++ X) := by
      have h3 : (u ++ ',' :: ' ' :: (d ++ x)) ++ t!", " = (t!"void" ++ ',' :: ' ' :: (D ++ X)) ++ t!", " := by
        simpa using this.1
      exact List.append_cancel_right h3
    refine (last_char (c := ',') ?_ ?_ h2).1
    · simp [hDc, hXc]
    · have h1 : ',' ∉ d := by
        intro h
        rcases hd _ h with h | h <;> revert h <;> decide
      have h2 : ',' ∉ x := by
        intro h
        have := hx _ h
        revert this
        decide
      simp [h1, h2]

theorem Marker.pad {m x p : Text} (hm : Marker m) (hp : p = [] ∨ p = [' ']) (h : Free m x) : Free m (x ++ p) := by
  rcases hp with rfl | rfl
  · rwa [List.append_nil]
  · exact free_append hm.lt h fun q hq => free_plain (by simp [hq])

theorem free_str {m : Text} {gap : Bool} (hm : Marker m) (h : ¬ m <:+ t!"sc::string") (s : List Int) :
    Free m (strType gap nmChar s) := by
  refine hm.tmpl (by decide) (by decide) h ?_
  intro a ha
  obtain ⟨n, _, rfl⟩ := List.mem_map.1 ha
  exact free_plain (nmChar_not (.inl rfl))

theorem free_tag {m : Text} {gap : Bool} (hm : Marker m) (h : ¬ m <:+ t!"sc::string") (h' : ¬ m <:+ t!"sc::tag")
    (t : List Int × List Int) : Free m (tagType gap nmChar t) := by
  refine hm.tmpl (by decide) (by decide) h' ?_
  intro a ha
  simp only [List.mem_cons, List.not_mem_nil, or_false] at ha
  rcases ha with rfl | rfl <;> exact free_str hm h _

theorem free_dec {m : Text} (n : Int) : Free m (dec n) := free_plain (dec_not (by decide) (by decide))

theorem free_named {m : Text} {gap : Bool} (hm : Marker m) (h : ¬ m <:+ t!"sc::string")
    (h' : ¬ m <:+ t!"sc::named_arg") (a : List Int × Int × Int) : Free m (namedType gap nmChar a) := by
  refine hm.tmpl (by decide) (by decide) h' ?_
  intro b hb
  simp only [List.mem_cons, List.not_mem_nil, or_false] at hb
  rcases hb with rfl | rfl | rfl
  · exact free_str hm h _
  · exact free_dec _
  · exact free_dec _

theorem mapM_map {α β γ : Type} {f : α → β} {g : β → Option γ} {h : α → γ} {l : List α}
    (hl : ∀ x ∈ l, g (f x) = some (h x)) : (l.map f).mapM g = some (l.map h) := by
  induction l with
  | nil => rfl
  | cons a l ih =>
    rw [List.map_cons, List.mapM_cons, hl a (by simp), ih fun x hx => hl x (List.mem_cons_of_mem _ hx)]
    rfl

theorem balanced_dec (n : Int) : balanced 0 (dec n) = true :=
  balanced_plain fun c hc => by
    rcases dec_mem hc with rfl | h
    · decide
    · exact ⟨digit_ne h (by decide), digit_ne h (by decide), digit_ne h (by decide)⟩

theorem balanced_nmChar (n : Int) : balanced 0 (nmChar n) = true := by
  rw [nmChar]
  exact (balanced_append (k := 0) (show balanced 0 t!"(char)" = true from by decide)).trans (balanced_dec n)

theorem balanced_str (gap : Bool) (s : List Int) : balanced 0 (strType gap nmChar s) = true := by
  refine balanced_tmpl (by decide) ?_
  intro a ha
  obtain ⟨n, _, rfl⟩ := List.mem_map.1 ha
  exact balanced_nmChar n

theorem balanced_tag (gap : Bool) (t : List Int × List Int) : balanced 0 (tagType gap nmChar t) = true := by
  refine balanced_tmpl (by decide) ?_
  intro a ha
  simp only [List.mem_cons, List.not_mem_nil, or_false] at ha
  rcases ha with rfl | rfl <;> exact balanced_str ..

theorem balanced_named (gap : Bool) (a : List Int × Int × Int) : balanced 0 (namedType gap nmChar a) = true := by
  refine balanced_tmpl (by decide) ?_
  intro b hb
  simp only [List.mem_cons, List.not_mem_nil, or_false] at hb
  rcases hb with rfl | rfl | rfl
  · exact balanced_str ..
  · exact balanced_dec _
  · exact balanced_dec _

/-- What is read of a message. -/
def Sym.read (m : Sym) : Message :=
  ⟨codes m.text, m.args, m.id, m.suffix, m.named.map fun a => ⟨codes a.1, a.2.1, a.2.2⟩,
    m.tags.map fun t => ⟨codes t.1, codes t.2⟩⟩

/-- The parts of a message are found, whatever its texts are. -/
theorem Message.ofCpp_eq {gap : Bool} {m : Sym} (hargs : ∀ a ∈ m.args, ArgType a)
    (hsuffix : ∀ c ∈ m.suffix, c.isAlpha = true) {r : Text} (hr : r = [] ∨ r = [' ']) :
    Message.ofCpp (m.type gap nmChar ++ r) = (charsOf (commas (m.text.map nmChar))).bind fun text =>
      ((m.named.map (namedType gap nmChar)).mapM NamedArg.ofCpp).bind fun named =>
      ((m.tags.map (tagType gap nmChar)).mapM Tag.ofCpp).map fun tags => ⟨text, m.args, m.id, m.suffix, named, tags⟩ := by
  have mm : ∀ {x}, x ∈ markers → Marker x := marker_of
  obtain ⟨pa, ha, _, ha0, _, ea⟩ := tmpl_shape gap t!"sc::args" m.args (by decide)
  obtain ⟨pt, ht, _, ht0, _, et⟩ := tmpl_shape gap t!"sc::tags" (m.tags.map (tagType gap nmChar)) (by decide)
  obtain ⟨pn, hn, _, hn0, _, en⟩ := tmpl_shape gap t!"sc::named_args" (m.named.map (namedType gap nmChar)) (by decide)
  obtain ⟨pu, hu, _, _, _, eu⟩ := tmpl_shape gap t!"sc::undefined" [tmpl gap t!"sc::args" m.args, dec m.id ++ m.suffix,
    strType gap nmChar m.text, tmpl gap t!"sc::tags" (m.tags.map (tagType gap nmChar)),
    tmpl gap t!"sc::named_args" (m.named.map (namedType gap nmChar))] (by decide)
  obtain ⟨pm, hm, _, _, _, em⟩ := tmpl_shape gap t!"sc::message" [tmpl gap t!"sc::undefined"
    [tmpl gap t!"sc::args" m.args, dec m.id ++ m.suffix, strType gap nmChar m.text,
      tmpl gap t!"sc::tags" (m.tags.map (tagType gap nmChar)),
      tmpl gap t!"sc::named_args" (m.named.map (namedType gap nmChar))]] (by decide)
  have hmatch := message_match (A := commas m.args ++ pa) (D := dec m.id) (X := m.suffix)
    (T := commas (m.text.map nmChar)) (G := commas (m.tags.map (tagType gap nmChar)) ++ pt)
    (N := commas (m.named.map (namedType gap nmChar)) ++ pn) (p := pu) (q := pm) (r := r) rfl hsuffix
    (fun x hx => (mm hx).pad ha ((mm hx).commas fun a haa => free_of_infix ((hargs a haa).free x hx)))
    (chars_not _ (.inl rfl)) (chars_not _ (.inr rfl))
    (by
      intro x hx
      have hx' : x ∈ markers := by revert x; decide
      refine (mm hx').pad ht ((mm hx').commas ?_)
      intro a haa
      obtain ⟨t, _, rfl⟩ := List.mem_map.1 haa
      refine free_tag (mm hx') ?_ ?_ _
      · revert x; decide
      · revert x; decide)
    (by
      have hx' : t!"sc::named_args" ∈ markers := by decide
      refine (mm hx').pad hn ((mm hx').commas ?_)
      intro a haa
      obtain ⟨t, _, rfl⟩ := List.mem_map.1 haa
      exact free_named (mm hx') (by decide) (by decide) _)
    hu hm hr
  have e : m.type gap nmChar ++ r = t!"sc::message<sc::undefined<sc::args<" ++ ((commas m.args ++ pa) ++ (t!">, " ++
      (dec m.id ++ (m.suffix ++ (t!", sc::string<" ++
      (commas (m.text.map nmChar) ++ (t!">, sc::tags<" ++ ((commas (m.tags.map (tagType gap nmChar)) ++ pt) ++
        (t!">, sc::named_args<" ++ ((commas (m.named.map (namedType gap nmChar)) ++ pn) ++
          (t!">" ++ pu ++ t!">" ++ pm ++ t!">" ++ r))))))))))) := by
    rw [Sym.type, em, commas_one, eu, commas_cons, commas_cons, commas_cons, commas_cons, commas_one, ea, et, en,
      strType_eq]
    simp
  rw [Message.ofCpp, e, hmatch]
  have s1 : splitArgs (commas m.args ++ pa).length (commas m.args ++ pa) = m.args :=
    splitArgs_commas ha ha0 fun a haa => ⟨(hargs a haa).balanced, (hargs a haa).trimmed⟩
  have s2 : splitArgs (commas (m.tags.map (tagType gap nmChar)) ++ pt).length
      (commas (m.tags.map (tagType gap nmChar)) ++ pt) = m.tags.map (tagType gap nmChar) :=
    splitArgs_commas ht ht0 fun a haa => by
      obtain ⟨t, _, rfl⟩ := List.mem_map.1 haa
      exact ⟨balanced_tag .., trimmed_tmpl ⟨_, _, rfl, by decide⟩⟩
  have s3 : splitArgs (commas (m.named.map (namedType gap nmChar)) ++ pn).length
      (commas (m.named.map (namedType gap nmChar)) ++ pn) = m.named.map (namedType gap nmChar) :=
    splitArgs_commas hn hn0 fun a haa => by
      obtain ⟨t, _, rfl⟩ := List.mem_map.1 haa
      exact ⟨balanced_named .., trimmed_tmpl ⟨_, _, rfl, by decide⟩⟩
  simp only [intOf_dec, s1, s2, s3]
  rfl

theorem Message.ofCpp_type {gap : Bool} {m : Sym} (h : m.Readable) {r : Text} (hr : r = [] ∨ r = [' ']) :
    Message.ofCpp (m.type gap nmChar ++ r) = some m.read := by
  rw [Message.ofCpp_eq h.args h.suffix hr, charsOf_nm h.text, mapM_map (g := NamedArg.ofCpp) (h := fun a => ⟨codes a.1, a.2.1, a.2.2⟩)
      fun a haa => NamedArg.ofCpp_type (h.named a haa),
    mapM_map (g := Tag.ofCpp) (h := fun t => ⟨codes t.1, codes t.2⟩)
      fun t htt => Tag.ofCpp_type (h.tags t htt).1 (h.tags t htt).2]
  rfl

theorem Module.ofCpp_eq {gap : Bool} {m : ModSym} (hs : ∀ c ∈ m.suffix, c.isAlpha = true)
    {r : Text} (hr : r = [] ∨ r = [' ']) :
    Module.ofCpp (m.type gap nmChar ++ r) =
      (charsOf (commas (m.text.map nmChar))).map fun text => ⟨text, m.id, m.suffix⟩ := by
  obtain ⟨pu, hu, _, _, _, eu⟩ := tmpl_shape gap t!"sc::undefined" [t!"void", dec m.id ++ m.suffix,
    strType gap nmChar m.text] (by decide)
  obtain ⟨pm, hm, _, _, _, em⟩ := tmpl_shape gap t!"sc::module_string" [tmpl gap t!"sc::undefined"
    [t!"void", dec m.id ++ m.suffix, strType gap nmChar m.text]] (by decide)
  have hmatch := module_match (D := dec m.id) (X := m.suffix) (T := commas (m.text.map nmChar)) (p := pu) (q := pm)
    (r := r) rfl hs (chars_not _ (.inl rfl)) hu hm hr
  have e : m.type gap nmChar ++ r = t!"sc::module_string<sc::undefined<" ++ (t!"void" ++ (t!", " ++ (dec m.id ++
      (m.suffix ++ (t!", sc::string<" ++ (commas (m.text.map nmChar) ++
        (t!">" ++ pu ++ t!">" ++ pm ++ t!">" ++ r))))))) := by
    rw [ModSym.type, em, commas_one, eu, commas_cons, commas_cons, commas_one, strType_eq]
    simp
  rw [Module.ofCpp, e, hmatch]
  simp only [intOf_dec]
  cases charsOf (commas (m.text.map nmChar)) <;> rfl

theorem Module.ofCpp_type {gap : Bool} {m : ModSym} (hs : ∀ c ∈ m.suffix, c.isAlpha = true) (ht : Plain m.text)
    {r : Text} (hr : r = [] ∨ r = [' ']) :
    Module.ofCpp (m.type gap nmChar ++ r) = some ⟨codes m.text, m.id, m.suffix⟩ := by
  rw [Module.ofCpp_eq hs hr, charsOf_nm ht]
  rfl

/-! ## Lines -/

/-- What tells a line of a message or a module. -/
def lineMarkers : List Text := [t!"int catalog", t!"int module", t!"long catalog", t!"long module"]

theorem line_end {S : Text} (hS : S ≠ []) :
    partsWays [⟨true, [.rep any 1 true]⟩, lit t!">()", ⟨false, [.eos]⟩] (S ++ t!">()") = [([S], [])] := by
  rw [partsWays_rep_one (p := any) (fun _ _ => rfl) (by
    have := List.length_pos_iff.2 hS
    omega)]
  · rfl
  · intro u w e _ _ hw
    obtain ⟨w, rfl, hw1⟩ := partsWays_lit_some hw
    have : w = [] := by
      cases w with
      | nil => rfl
      | cons c w => exact absurd rfl hw1
    subst this
    rw [List.append_nil] at e
    exact List.append_cancel_right e

theorem partsWays_lit1 (c : Char) (ps : List Part) (t : Text) :
    partsWays (lit [c] :: ps) (c :: t) = partsWays ps t := partsWays_lit [c] ps t

theorem line_match {S : Text} (long : Bool) {k : Text} (hk : k = t!"catalog" ∨ k = t!"module") (hS : S ≠ [])
    (hf : ∀ m ∈ lineMarkers, Free m S) :
    reMatch lineRe (t!"U " ++ (t!"unsigned " ++ ((if long then t!"long" else t!"int") ++ (t!" " ++ (k ++ (t!"<" ++
      (S ++ t!">()"))))))) = some [k, S] := by
  have hS' : ∀ m ∈ lineMarkers, Free m (S ++ t!">()") := fun m hm =>
    free_sep (by revert m; decide) (by decide) (hf m hm) (free_plain (by decide))
  rw [reMatch, lineRe, partsWays_rep_one (p := any) (fun _ _ => rfl) (Nat.zero_le _), partsWays_lit]
  · cases long <;> rcases hk with rfl | rfl <;>
      simp [partsWays_alt, dropPrefix?, partsWays_lit1, line_end hS]
  · intro u w e _ _ hw
    obtain ⟨w, rfl, hw1⟩ := partsWays_lit_some hw
    obtain ⟨i, hi, w, rfl, hw2⟩ := partsWays_alt_some hw1
    obtain ⟨w, rfl, hw3⟩ := partsWays_lit_some hw2
    obtain ⟨k', hk', w, rfl, hw4⟩ := partsWays_alt_some hw3
    obtain ⟨w, rfl, hw5⟩ := partsWays_lit_some hw4
    have e' : (u ++ t!"unsigned ") ++ (i ++ ' ' :: k') ++ '<' :: w =
        t!"U unsigned " ++ ((if long then t!"long" else t!"int") ++ ' ' :: k) ++ '<' :: (S ++ t!">()") := by
      simpa using e
    have hm : i ++ ' ' :: k' ∈ lineMarkers := by
      simp only [List.mem_cons, List.not_mem_nil, or_false] at hi hk'
      rcases hi with rfl | rfl <;> rcases hk' with rfl | rfl <;> decide
    by_cases he : i ++ ' ' :: k' = (if long then t!"long" else t!"int") ++ ' ' :: k
    · rw [← he] at e'
      have := (once (a := t!"U unsigned ") (by revert hm; generalize i ++ ' ' :: k' = m; revert m; decide)
        (free_plain (by revert hm; generalize i ++ ' ' :: k' = m; revert m; decide)) (hS' _ hm) e').1
      exact List.append_cancel_right (this.trans rfl : u ++ t!"unsigned " = t!"U " ++ t!"unsigned ")
    · exfalso
      have hfree := free_lt (m := i ++ ' ' :: k')
        (x := t!"U unsigned " ++ ((if long then t!"long" else t!"int") ++ ' ' :: k)) (y := S ++ t!">()")
        (by revert hm; generalize i ++ ' ' :: k' = m; revert m; decide)
        (free_plain (by cases long <;> rcases hk with rfl | rfl <;> decide)) (by
          revert he hm
          generalize i ++ ' ' :: k' = m
          revert m
          cases long <;> rcases hk with rfl | rfl <;> decide) (hS' _ hm)
      exact hfree _ _ e'.symm

theorem Sym.type_free {m : Sym} (hargs : ∀ a ∈ m.args, ArgType a)
    (hsuffix : ∀ c ∈ m.suffix, c.isAlpha = true) {gap : Bool} {x : Text} (hx : x ∈ lineMarkers) :
    Free x (m.type gap nmChar) := by
  have hx' : x ∈ markers := by revert x; decide
  have mk := marker_of hx'
  have hstr : ¬ x <:+ t!"sc::string" := by clear mk hx'; revert x; decide
  refine mk.tmpl (by decide) (by decide) (by clear mk hx'; revert x; decide) ?_
  intro a ha
  rw [List.mem_singleton.1 ha]
  refine mk.tmpl (by decide) (by decide) (by clear mk hx'; revert x; decide) ?_
  intro a ha
  simp only [List.mem_cons, List.not_mem_nil, or_false] at ha
  rcases ha with rfl | rfl | rfl | rfl | rfl
  · refine mk.tmpl (by decide) (by decide) (by clear mk hx'; revert x; decide) ?_
    exact fun a ha => free_of_infix ((hargs a ha).free x hx')
  · refine free_plain ?_
    rw [List.mem_append, not_or]
    exact ⟨dec_not (by decide) (by decide), fun h' => absurd (hsuffix _ h') (by decide)⟩
  · exact free_str mk hstr _
  · refine mk.tmpl (by decide) (by decide) (by clear mk hx'; revert x; decide) ?_
    intro a ha
    obtain ⟨t, _, rfl⟩ := List.mem_map.1 ha
    exact free_tag mk hstr (by clear mk hx'; revert x; decide) _
  · refine mk.tmpl (by decide) (by decide) (by clear mk hx'; revert x; decide) ?_
    intro a ha
    obtain ⟨t, _, rfl⟩ := List.mem_map.1 ha
    exact free_named mk hstr (by clear mk hx'; revert x; decide) _

theorem ModSym.type_free {m : ModSym} (hs : ∀ c ∈ m.suffix, c.isAlpha = true) {gap : Bool} {x : Text}
    (hx : x ∈ lineMarkers) : Free x (m.type gap nmChar) := by
  have hx' : x ∈ markers := by revert x; decide
  have mk := marker_of hx'
  refine mk.tmpl (by decide) (by decide) (by clear mk hx'; revert x; decide) ?_
  intro a ha
  rw [List.mem_singleton.1 ha]
  refine mk.tmpl (by decide) (by decide) (by clear mk hx'; revert x; decide) ?_
  intro a ha
  simp only [List.mem_cons, List.not_mem_nil, or_false] at ha
  rcases ha with rfl | rfl | rfl
  · exact free_plain (by decide)
  · refine free_plain ?_
    rw [List.mem_append, not_or]
    exact ⟨dec_not (by decide) (by decide), fun h' => absurd (hs _ h') (by decide)⟩
  · exact free_str mk (by clear mk hx'; revert x; decide) _

/-- The line is taken apart. -/
theorem readLine_nm (n : Nat) (long gap : Bool) {k S : Text} (hk : k = t!"catalog" ∨ k = t!"module")
    (hf : ∀ m ∈ lineMarkers, Free m S) (hS : S ≠ []) :
    ∃ r, (r = [] ∨ r = [' ']) ∧ reMatch lineRe (strip (nmLine n long gap k S)) = some [k, S ++ r] := by
  obtain ⟨r, hr, _, _, _, e⟩ := tmpl_shape gap k [S] (by rcases hk with rfl | rfl <;> decide)
  refine ⟨r, hr, ?_⟩
  have e1 : nmLine n long gap k S = List.replicate n ' ' ++ (t!"U " ++ (t!"unsigned " ++
      ((if long then t!"long" else t!"int") ++ (t!" " ++ (k ++ (t!"<" ++ ((S ++ r) ++ t!">()"))))))) := by
    rw [nmLine, e, commas_one]
    simp
  rw [e1, strip_left, strip_eq]
  · refine line_match long hk (by simp [hS]) fun m hm => ?_
    exact (marker_of (by revert m; decide)).pad hr (hf m hm)
  · refine ⟨⟨_, _, rfl, by decide⟩, ')', t!"U " ++ (t!"unsigned " ++
      ((if long then t!"long" else t!"int") ++ (t!" " ++ (k ++ (t!"<" ++ ((S ++ r) ++ t!">(")))))), ?_, by decide⟩
    simp

end Verif.Symbols
