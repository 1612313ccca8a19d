import Verif.Receive.DefProps
/-!
# C93: matchers written with field names
-/
namespace Verif.Receive
open Verif.Match Verif.Message Verif.Bits

variable {N : Numbering} {env : Env} {W : Nat}

/-! ### Lemmas -/

/-- The constants of names as constants of field types. -/
def byName (N : Numbering) (K : Nat → Option Int) (g : Field) : Option Int :=
  (N.fieldOf g.name).bind fun f => K f.name

theorem byName_toField (K : Nat → Option Int) (f : MField) :
    byName N K (toField N f) = K f.name := by simp [byName, toField, N.field_ok]

/-- The values of the fields with names in `S` as read from the data. -/
def Reads (N : Numbering) (W : Nat) (fs : List MField) (S : List Nat) (d : Data W) (x : Nat → Int) :
    Prop :=
  ∀ f ∈ fs, f.name ∈ S → extractField N W d f = some (x f.name) ∧ (ty N f).InRange (x f.name)

theorem rel_sem (x : Nat → Int) (n : Nat) (op : RelOp) (v : Int) :
    (Maker.rel n op v).sem x = op.app (x n) v := by
  cases op <;> simp [Maker.sem, RelOp.app]

/-- `in` as `make` builds it, with the invariant `P` of trees. -/
theorem in_fold {d : Data W} {x : Nat → Int} {f : MField}
    (hx : extractField N W d f = some (x f.name) ∧ (ty N f).InRange (x f.name)) (P : M RLeaf → Prop)
    (hor : ∀ l r, P l → P r → P (opOr relOps l r) ∧
      eval revalLeaf (opOr relOps l r) (seen N env W d) =
        (eval revalLeaf l (seen N env W d) || eval revalLeaf r (seen N env W d)))
    (vs : List Int) (hP : ∀ v ∈ vs, P (.leaf (.rel .eq (toField N f) v))) (a : M RLeaf) (ha : P a)
    (hr : LS (Readable N W d) a) :
    P (vs.foldl (fun m w => opOr relOps m (.leaf (.rel .eq (toField N f) w))) a) ∧
    LS (Readable N W d) (vs.foldl (fun m w => opOr relOps m (.leaf (.rel .eq (toField N f) w))) a) ∧
    eval revalLeaf (vs.foldl (fun m w => opOr relOps m (.leaf (.rel .eq (toField N f) w))) a)
      (seen N env W d) = (eval revalLeaf a (seen N env W d) || decide (x f.name ∈ vs)) := by
  induction vs generalizing a with
  | nil => simpa using ⟨ha, hr⟩
  | cons v vs ih =>
    have hv : LS (Readable N W d) (.leaf (.rel .eq (toField N f) v)) :=
      (LS_leaf ..).2 ⟨f, x f.name, rfl, hx.1, hx.2⟩
    have h1 := hor a _ ha (hP v (by simp))
    have h2 := ih (fun w hw => hP w (by simp [hw])) _ h1.1 (LS_opOr (readable_neg d) hr hv)
    simp only [List.foldl_cons]
    refine ⟨h2.1, h2.2.1, ?_⟩
    rw [h2.2.2, h1.2]
    simp only [eval, revalLeaf, seen_val hx.1 hx.2, RelOp.app, List.mem_cons,
      Bool.decide_or, Bool.or_assoc]

theorem or_any {K : Field → Option Int} {d : Data W} (l r : M RLeaf) (hl : LS (MixAny K) l)
    (hr : LS (MixAny K) r) : LS (MixAny K) (opOr relOps l r) ∧
      eval revalLeaf (opOr relOps l r) (seen N env W d) =
        (eval revalLeaf l (seen N env W d) || eval revalLeaf r (seen N env W d)) := by
  have := simplify_ok (mixAny_truthful K) (.or l r) ((LS_or ..).2 ⟨hl, hr⟩)
  refine ⟨this.1, ?_⟩
  have h2 := this.2 ⟨seen N env W d, seen_wt d⟩
  rw [Handler.eval_rev, Handler.eval_rev] at h2
  exact h2

theorem and_any {K : Field → Option Int} {d : Data W} (l r : M RLeaf) (hl : LS (MixAny K) l)
    (hr : LS (MixAny K) r) : LS (MixAny K) (opAnd relOps l r) ∧
      eval revalLeaf (opAnd relOps l r) (seen N env W d) =
        (eval revalLeaf l (seen N env W d) && eval revalLeaf r (seen N env W d)) := by
  have := simplify_ok (mixAny_truthful K) (.and l r) ((LS_and ..).2 ⟨hl, hr⟩)
  refine ⟨this.1, ?_⟩
  have h2 := this.2 ⟨seen N env W d, seen_wt d⟩
  rw [Handler.eval_rev, Handler.eval_rev] at h2
  exact h2

theorem or_mix {K : Field → Option Int} {d : Data W} (l r : M RLeaf) (hl : MixTree K l)
    (hr : MixTree K r) : MixTree K (opOr relOps l r) ∧
      eval revalLeaf (opOr relOps l r) (seen N env W d) =
        (eval revalLeaf l (seen N env W d) || eval revalLeaf r (seen N env W d)) := by
  have := simplify_mix (K := K) (.or l r) ⟨hl, hr⟩
  refine ⟨this.1, ?_⟩
  have h2 := this.2 ⟨seen N env W d, seen_wt d⟩
  rw [Handler.eval_rev, Handler.eval_rev] at h2
  exact h2

theorem and_mix {K : Field → Option Int} {d : Data W} (l r : M RLeaf) (hl : MixTree K l)
    (hr : MixTree K r) : MixTree K (opAnd relOps l r) ∧
      eval revalLeaf (opAnd relOps l r) (seen N env W d) =
        (eval revalLeaf l (seen N env W d) && eval revalLeaf r (seen N env W d)) := by
  have := simplify_mix (K := K) (.and l r) ⟨hl, hr⟩
  refine ⟨this.1, ?_⟩
  have h2 := this.2 ⟨seen N env W d, seen_wt d⟩
  rw [Handler.eval_rev, Handler.eval_rev] at h2
  exact h2

theorem not_any {K : Field → Option Int} {d : Data W} (m : M RLeaf) (hm : LS (MixAny K) m) :
    LS (MixAny K) (opNot relOps m) ∧ eval revalLeaf (opNot relOps m) (seen N env W d) =
        !(eval revalLeaf m (seen N env W d)) := by
  have h1 := LS_negate (mixAny_truthful K).toNegTruthful hm
  have := simplify_ok (mixAny_truthful K) _ h1
  refine ⟨this.1, ?_⟩
  have h2 := this.2 ⟨seen N env W d, seen_wt d⟩
  rw [reval_negate, Handler.eval_rev, Handler.eval_rev] at h2
  exact h2

/-- Below a `not`. -/
theorem make_any {fs : List MField} (hn : (fs.map (·.name)).Nodup) {d : Data W} {x : Nat → Int}
    {S : List Nat} (hx : Reads N W fs S d x)
    (K : Nat → Option Int) (u : Maker) (hS : ∀ n ∈ u.names, n ∈ S) (hu : u.Ok N fs K true) :
    ∃ t, make N fs u = some t ∧ LS (MixAny (byName N K)) t ∧ LS (Readable N W d) t ∧
      eval revalLeaf t (seen N env W d) = u.sem x := by
  induction u with
  | rel n op v =>
    obtain ⟨f, hf, rfl, h1, h2, h3⟩ := hu
    have hx := hx f hf (hS _ (by simp [Maker.names]))
    refine ⟨.leaf (.rel op (toField N f) v), by simp [make, find_eq hn hf], ?_, ?_, ?_⟩
    · simp only [LS_leaf]
      cases op <;> simp_all [MixAny, byName_toField] <;> exact h1
    · exact (LS_leaf ..).2 ⟨f, _, rfl, hx.1, hx.2⟩
    · rw [rel_sem]; simp [eval, revalLeaf, seen_val hx.1 hx.2]
  | «in» n vs =>
    obtain ⟨h0, f, hf, rfl, h1⟩ := hu
    have hx := hx f hf (hS _ (by simp [Maker.names]))
    cases vs with
    | nil => exact absurd rfl h0
    | cons v vs =>
      have hl : ∀ w ∈ v :: vs, LS (MixAny (byName N K)) (.leaf (.rel .eq (toField N f) w)) := by
        intro w hw
        have := h1 w hw
        simp only [LS_leaf, MixAny, byName_toField]
        exact ⟨this.1, by simpa using this.2⟩
      have := in_fold (env := env) hx (LS (MixAny (byName N K))) (fun l r => or_any l r) vs
        (fun w hw => hl w (by simp [hw])) _ (hl v (by simp))
        ((LS_leaf ..).2 ⟨f, x f.name, rfl, hx.1, hx.2⟩)
      refine ⟨_, by simp only [make, find_eq hn hf, Option.bind_some], this.1, this.2.1, ?_⟩
      rw [this.2.2]
      simp [eval, revalLeaf, seen_val hx.1 hx.2, RelOp.app, Maker.sem]
  | not m ih =>
    obtain ⟨t, h1, h2, h3, h4⟩ := ih hS hu
    have := not_any (N := N) (env := env) (d := d) t h2
    exact ⟨_, by simp [make, h1], this.1, LS_opNot (readable_neg d) h3, by
      rw [this.2, h4, Maker.sem]⟩
  | and l r ihl ihr =>
    obtain ⟨t, h1, h2, h3, h4⟩ := ihl (fun n hn => hS n (by simp [Maker.names, hn])) hu.1
    obtain ⟨t', h1', h2', h3', h4'⟩ := ihr (fun n hn => hS n (by simp [Maker.names, hn])) hu.2
    have := and_any (N := N) (env := env) (d := d) t t' h2 h2'
    exact ⟨_, by simp [make, h1, h1'], this.1, LS_opAnd (readable_neg d) h3 h3', by
      rw [this.2, h4, h4', Maker.sem]⟩
  | or l r ihl ihr =>
    obtain ⟨t, h1, h2, h3, h4⟩ := ihl (fun n hn => hS n (by simp [Maker.names, hn])) hu.1
    obtain ⟨t', h1', h2', h3', h4'⟩ := ihr (fun n hn => hS n (by simp [Maker.names, hn])) hu.2
    have := or_any (N := N) (env := env) (d := d) t t' h2 h2'
    exact ⟨_, by simp [make, h1, h1'], this.1, LS_opOr (readable_neg d) h3 h3', by
      rw [this.2, h4, h4', Maker.sem]⟩
  | wrap m => exact hu.elim

theorem make_mix {fs : List MField} (hn : (fs.map (·.name)).Nodup) {d : Data W} {x : Nat → Int}
    {S : List Nat} (hx : Reads N W fs S d x)
    (K : Nat → Option Int) (u : Maker) (hS : ∀ n ∈ u.names, n ∈ S) (hu : u.Ok N fs K false) :
    ∃ t, make N fs u = some t ∧ MixTree (byName N K) t ∧ LS (Readable N W d) t ∧
      eval revalLeaf t (seen N env W d) = u.sem x := by
  induction u with
  | rel n op v =>
    obtain ⟨f, hf, rfl, h1, h2, h3⟩ := hu
    have hx := hx f hf (hS _ (by simp [Maker.names]))
    refine ⟨.leaf (.rel op (toField N f) v), by simp [make, find_eq hn hf], ?_, ?_, ?_⟩
    · simp only [MixTree]
      cases op <;> simp_all [MixLeaf, byName_toField] <;> first | exact h1 | exact ⟨h1, h2.symm⟩
    · exact (LS_leaf ..).2 ⟨f, _, rfl, hx.1, hx.2⟩
    · rw [rel_sem]; simp [eval, revalLeaf, seen_val hx.1 hx.2]
  | «in» n vs =>
    obtain ⟨h0, f, hf, rfl, h1⟩ := hu
    have hx := hx f hf (hS _ (by simp [Maker.names]))
    cases vs with
    | nil => exact absurd rfl h0
    | cons v vs =>
      have hl : ∀ w ∈ v :: vs, MixTree (byName N K) (.leaf (.rel .eq (toField N f) w)) := by
        intro w hw
        have := h1 w hw
        simp only [MixTree, MixLeaf, byName_toField]
        exact ⟨this.1, by simpa [or_comm] using this.2⟩
      have := in_fold (env := env) hx (MixTree (byName N K)) (fun l r => or_mix l r) vs
        (fun w hw => hl w (by simp [hw])) _ (hl v (by simp))
        ((LS_leaf ..).2 ⟨f, x f.name, rfl, hx.1, hx.2⟩)
      refine ⟨_, by simp only [make, find_eq hn hf, Option.bind_some], this.1, this.2.1, ?_⟩
      rw [this.2.2]
      simp [eval, revalLeaf, seen_val hx.1 hx.2, RelOp.app, Maker.sem]
  | not m ih =>
    obtain ⟨t, h1, h2, h3, h4⟩ := make_any (env := env) hn hx K m hS hu
    have := not_any (N := N) (env := env) (d := d) t h2
    exact ⟨_, by simp [make, h1], .of_any this.1, LS_opNot (readable_neg d) h3, by
      rw [this.2, h4, Maker.sem]⟩
  | and l r ihl ihr =>
    obtain ⟨t, h1, h2, h3, h4⟩ := ihl (fun n hn => hS n (by simp [Maker.names, hn])) hu.1
    obtain ⟨t', h1', h2', h3', h4'⟩ := ihr (fun n hn => hS n (by simp [Maker.names, hn])) hu.2
    have := and_mix (N := N) (env := env) (d := d) t t' h2 h2'
    exact ⟨_, by simp [make, h1, h1'], this.1, LS_opAnd (readable_neg d) h3 h3', by
      rw [this.2, h4, h4', Maker.sem]⟩
  | or l r ihl ihr =>
    obtain ⟨t, h1, h2, h3, h4⟩ := ihl (fun n hn => hS n (by simp [Maker.names, hn])) hu.1
    obtain ⟨t', h1', h2', h3', h4'⟩ := ihr (fun n hn => hS n (by simp [Maker.names, hn])) hu.2
    have := or_mix (N := N) (env := env) (d := d) t t' h2 h2'
    exact ⟨_, by simp [make, h1, h1'], this.1, LS_opOr (readable_neg d) h3 h3', by
      rw [this.2, h4, h4', Maker.sem]⟩
  | wrap m => exact hu.elim

theorem cond_mix {K : Nat → Option Int} (f : MField) (c : Cond) (hc : c.Typed (ty N f))
    (ha : c.Agrees (K f.name)) : MixTree (byName N K) (condMatcher N f c) := by
  cases c with
  | any => trivial
  | oneOf vs =>
    simp only [condMatcher]
    simp only [Cond.Typed] at hc
    simp only [Cond.Agrees] at ha
    induction vs with
    | nil => trivial
    | cons v vs ih =>
      refine (simplify_mix (K := byName N K) (.or _ _) ⟨?_, ?_⟩).1
      · simp only [MixTree, MixLeaf, byName_toField]
        exact ⟨hc v (by simp), ha.imp id fun h => h v (by simp)⟩
      · exact ih (fun w hw => hc w (by simp [hw])) (ha.imp id fun h w hw => h w (by simp [hw]))
  | eq v =>
    simp only [condMatcher, MixTree, MixLeaf, byName_toField]; exact ⟨hc, ha⟩
  | sat p => trivial
  | _ => exact hc

theorem all_ok {K : Field → Option Int} {d : Data W} (fs : List MField) (b : MField → Bool)
    (h : ∀ f ∈ fs, LS (Readable N W d) (matcher N f) ∧ MixTree K (matcher N f) ∧
      eval revalLeaf (matcher N f) (seen N env W d) = b f) :
    LS (Readable N W d) (plainMatcher N fs) ∧ MixTree K (plainMatcher N fs) ∧
      eval revalLeaf (plainMatcher N fs) (seen N env W d) = fs.all b := by
  have hs := simplify_mix (K := K) _ (mix_foldl_and (fs.map (matcher N)) .always trivial (by
    intro m hm
    obtain ⟨f, hf, rfl⟩ := List.mem_map.1 hm
    exact (h f hf).2.1))
  refine ⟨LS_all (readable_neg d) _ ?_, hs.1, ?_⟩
  · intro m hm
    obtain ⟨f, hf, rfl⟩ := List.mem_map.1 hm
    exact (h f hf).1
  have := hs.2 ⟨seen N env W d, seen_wt d⟩
  rw [eval_foldl_and, Handler.eval_rev] at this
  simp only [plainMatcher, Handler.constructPlain, Match.all, this, eval, Bool.true_and, List.all_map]
  rw [Bool.eq_iff_iff, List.all_eq_true, List.all_eq_true]
  refine forall_congr' fun f => ⟨fun hh hf => ?_, fun hh hf => ?_⟩
  · have := hh hf
    simp only [Function.comp, Handler.eval_rev] at this
    rw [(h f hf).2.2] at this; exact this
  · simp only [Function.comp, Handler.eval_rev]
    rw [(h f hf).2.2]; exact hh hf

/-- A callback with a matcher `t` of its own. -/
theorem callback_ok {K : Field → Option Int} {d : Data W} (fs : List MField) (t : M RLeaf)
    (ht : MixTree K t) (htr : LS (Readable N W d) t) (b : MField → Bool)
    (h : ∀ f ∈ fs, LS (Readable N W d) (matcher N f) ∧ MixTree K (matcher N f) ∧
      eval revalLeaf (matcher N f) (seen N env W d) = b f) :
    LS (Readable N W d) (callbackMatcher N fs t) ∧ MixTree K (callbackMatcher N fs t) ∧
      eval revalLeaf (callbackMatcher N fs t) (seen N env W d) =
        (eval revalLeaf t (seen N env W d) && fs.all b) := by
  have ha := all_ok (env := env) fs b h
  have hand := and_mix (N := N) (env := env) (d := d) t (plainMatcher N fs) ht ha.2.1
  refine ⟨LS_sop (readable_neg d) _ (LS_opAnd (readable_neg d) htr ha.1),
    (Handler.sound_mix K).sop _ hand.1, ?_⟩
  simp only [callbackMatcher, Handler.construct, C03_sum_of_products_relational]
  exact hand.2.trans (by rw [ha.2.2])

theorem callback_accepts {K : Field → Option Int} {d : Data W} (fs : List MField) (t : M RLeaf)
    (ht : MixTree K t) (htr : LS (Readable N W d) t) (b : MField → Bool)
    (h : ∀ f ∈ fs, LS (Readable N W d) (matcher N f) ∧ MixTree K (matcher N f) ∧
      eval revalLeaf (matcher N f) (seen N env W d) = b f) :
    accepts N env W d (callbackMatcher N fs t) =
      some (eval revalLeaf t (seen N env W d) && fs.all b) := by
  have := callback_ok (env := env) fs t ht htr b h
  rw [accepts_seen _ this.1, this.2.2]

theorem asks_mono {later later' : Opt → Bool} {f : MField} {c : Cond} (h : Asks N later f c)
    (hl : ∀ o, later o = true → later' o = true) : Asks N later' f c := by
  rcases h with h | ⟨name, t, pre, o, post, h1, h2, h3, h4⟩
  · exact .inl h
  · exact .inr ⟨name, t, pre, o, post, h1, h2, h3, fun p hp => hl p (h4 p hp)⟩

theorem asks_mix {K : Nat → Option Int} {f : MField} {c : Cond} (h : Asks N keepsName f c)
    (ha : c.Agrees (K f.name)) : MixTree (byName N K) (matcher N f) := by
  rcases asks_origin h (fun _ => .inr) with ⟨h1, rfl⟩ | ⟨f0, h1, h2, _, _, _, h6⟩
  · rw [h1]; trivial
  · rw [h1]
    exact cond_mix f0 c h2 (h6 (fun _ => id) ▸ ha)

/-! ### Theorems -/

/-- C93 (partial): a callback with a condition written with field names accepts a message object exactly
when the condition is true of the numbers the fields of these names hold, and all conditions of the
declarations hold. Missing: names with several `==`/`!=` constants of which one is negated
(`C93_violated`). -/
theorem C93_object_partial (hW : Narrow W) (fs : List MField) (hn : (fs.map (·.name)).Nodup)
    (cond : MField → Cond) (h : ∀ f ∈ fs, Asks N keepsName f (cond f) ∧ (cond f).NotLt)
    (r : List (BitVec W)) (hl : ∀ f ∈ fs, f.fld.Legal ∧ f.fld.Within (r.length * W))
    (K : Nat → Option Int) (u : Maker) (hu : u.Ok N fs K false)
    (hK : ∀ f ∈ fs, (cond f).Agrees (K f.name))
    (x : Nat → Int) (hx : ∀ f ∈ fs, x f.name = held (signed N f) f.fld r) :
    ∃ t, make N fs u = some t ∧ accepts N env W (.msg fs r) (callbackMatcher N fs t) =
      some (u.sem x && fs.all fun f => (cond f).holds env (x f.name)) := by
  have hr : Reads N W fs u.names (.msg fs r) x := fun f hf _ => by
    have := value_held (N := N) hW f (hl f hf).1 r (hl f hf).2
    rw [hx f hf]
    exact ⟨by rw [extractField, find_eq hn hf, Option.bind_some, this.1], this.2⟩
  obtain ⟨t, h1, h2, h3, h4⟩ := make_mix (env := env) hn hr K u (fun _ => id) hu
  refine ⟨t, h1, ?_⟩
  rw [callback_accepts fs t h2 h3 (fun f => (cond f).holds env (x f.name)), h4]
  intro f hf
  have := view_cond (env := env) hW hn hf (h f hf).1 (hl f hf).1 (hl f hf).2
  exact ⟨this.1, asks_mix (h f hf).1 (hK f hf), by rw [this.2.2 (h f hf).2, hx f hf]⟩

/-- C93 (partial): the same for raw storage, if no option after a declaration's condition moves or
renames the field. Missing: also moved and renamed fields (C88). -/
theorem C93_raw_partial (hW : Narrow W) (fs : List MField) (hn : (fs.map (·.name)).Nodup)
    (cond : MField → Cond) (h : ∀ f ∈ fs, Asks N Opt.isDefault f (cond f) ∧ (cond f).NotLt)
    (r : List (BitVec W)) (hl : ∀ f ∈ fs, f.fld.Legal ∧ f.fld.Within (r.length * W))
    (K : Nat → Option Int) (u : Maker) (hu : u.Ok N fs K false)
    (hK : ∀ f ∈ fs, (cond f).Agrees (K f.name))
    (x : Nat → Int) (hx : ∀ f ∈ fs, x f.name = held (signed N f) f.fld r) :
    ∃ t, make N fs u = some t ∧ accepts N env W (.raw r) (callbackMatcher N fs t) =
      some (u.sem x && fs.all fun f => (cond f).holds env (x f.name)) := by
  have hr : Reads N W fs u.names (.raw r) x := fun f hf _ => by
    have := value_held (N := N) hW f (hl f hf).1 r (hl f hf).2
    rw [hx f hf]
    exact ⟨by rw [extractField, this.1], this.2⟩
  obtain ⟨t, h1, h2, h3, h4⟩ := make_mix (env := env) hn hr K u (fun _ => id) hu
  refine ⟨t, h1, ?_⟩
  rw [callback_accepts fs t h2 h3 (fun f => (cond f).holds env (x f.name)), h4]
  intro f hf
  have ha := h f hf
  have := raw_cond (env := env) hW (asks_mono ha.1 (later' := staysPut)
    (fun o ho => by simp [staysPut, ho])) (hl f hf).1 (hl f hf).2
  exact ⟨this.1, asks_mix (asks_mono ha.1 (fun o ho => by simp [keepsName, ho])) (hK f hf), by
    rw [this.2.2 ha.2, hx f hf]⟩

/-- C93: the condition compiles exactly when the definition has all its names (and no `in` is empty);
then it only reads fields of the definition. -/
theorem C93_compiles (fs : List MField) (u : Maker) :
    (make N fs u).isSome ↔ (∀ n ∈ u.names, ∃ f ∈ fs, f.name = n) ∧ u.NoEmptyIn := by
  have hfind : ∀ n, (find fs n).isSome ↔ ∃ f ∈ fs, f.name = n := by
    intro n; simp [find]
  induction u with
  | rel n op v => simp [make, Maker.names, Maker.NoEmptyIn, hfind]
  | «in» n vs =>
    simp only [make, Maker.names, Maker.NoEmptyIn, List.mem_singleton, forall_eq]
    rw [← hfind]
    cases find fs n <;> cases vs <;> simp
  | not m ih => simpa [make, Maker.names, Maker.NoEmptyIn] using ih
  | and l r ihl ihr =>
    simp only [Maker.names, Maker.NoEmptyIn, List.mem_append, or_imp, forall_and]
    rw [and_and_and_comm]
    refine Iff.trans ?_ (and_congr ihl ihr)
    simp only [make]
    cases make N fs l <;> cases make N fs r <;> simp
  | or l r ihl ihr =>
    simp only [Maker.names, Maker.NoEmptyIn, List.mem_append, or_imp, forall_and]
    rw [and_and_and_comm]
    refine Iff.trans ?_ (and_congr ihl ihr)
    simp only [make]
    cases make N fs l <;> cases make N fs r <;> simp
  | wrap m => simp [make, Maker.names, Maker.NoEmptyIn]

/-- `field<"1", u8>::located<15..8>::with_required<5>`. -/
def exReq1 (N : Numbering) : MField := field N 1 u8 ([.located [⟨15, 8⟩]] ++ .required 5 :: [])

/-- `not ("0"_field == 9) and ("0"_field < 20 or "1"_field.in<5, 6>)`. -/
def exMaker : Maker := .and (.not (.rel 0 .eq 9)) (.or (.rel 0 .lt 20) (.in 1 [5, 6]))

example : exMaker.Ok N [exByte N, exReq1 N] (fun n => if n = 0 then some 9 else none) false ∧
    (∀ f ∈ [exByte N, exReq1 N], ∃ c : Cond, Asks N Opt.isDefault f c ∧ c.NotLt ∧
      c.Agrees (if f.name = 0 then some 9 else none)) ∧
    exMaker.sem (fun n => if n = 0 then 7 else 5) = true ∧
    exMaker.sem (fun n => if n = 0 then 9 else 5) = false := by
  have h0 := (exByte_ok N).2.2.1
  have h1 : ty N (exReq1 N) = u8 := by
    refine typed_u8 ?_ rfl
    simp [exReq1, field, declare, newField, setMatcher, signed, N.rest_ok, u8]
  have h2 : ty N (field N 1 u8 [.located [⟨15, 8⟩]]) = u8 :=
    typed_u8 (by simp [field, declare, newField, u8]) rfl
  refine ⟨⟨⟨exByte N, by simp, rfl, by rw [h0]; decide, fun _ => .inl rfl, by simp⟩,
    ⟨exByte N, by simp, rfl, by rw [h0]; decide, by simp, by simp⟩, by simp,
    exReq1 N, by simp, rfl, ?_⟩, ?_, rfl, rfl⟩
  · intro v hv
    rw [h1]
    simp only [List.mem_cons, List.not_mem_nil, or_false] at hv
    rcases hv with rfl | rfl <;> exact ⟨by decide, .inr ⟨rfl, rfl⟩⟩
  · intro f hf
    simp only [List.mem_cons, List.not_mem_nil, or_false] at hf
    rcases hf with rfl | rfl
    · exact ⟨.any, .inl ⟨0, u8, [.located [⟨7, 0⟩]], rfl, by simp [Opt.asks], rfl⟩, trivial, trivial⟩
    · refine ⟨.eq 5, .inr ⟨1, u8, [.located [⟨15, 8⟩]], .required 5, [], rfl, rfl, ?_, by simp⟩, trivial,
        .inl rfl⟩
      rw [h2]; show IntTy.InRange _ _; decide

/-- C93 violated: `"0"_field != 5 and "0"_field != 6` accepts a message whose field holds 6. -/
theorem C93_violated (N : Numbering) (env : Env) :
    ∃ t, make N [exByte N] (.and (.rel 0 .ne 5) (.rel 0 .ne 6)) = some t ∧
      held false (exByte N).fld [6#8] = 6 ∧
      (Maker.and (.rel 0 .ne 5) (.rel 0 .ne 6)).sem (fun _ => 6) = false ∧
      accepts N env 8 (.raw [6#8]) (callbackMatcher N [exByte N] t) = some true ∧
      accepts N env 8 (.msg [exByte N] [6#8]) (callbackMatcher N [exByte N] t) = some true := by
  have h0 := exByte_ok N
  have hm : matcher N (exByte N) = .always := by simp [exByte, field, declare, newField, matcher, N.rest_ok]
  have hv : value N 8 (exByte N) [6#8] = some 6 := by
    rw [value, h0.2.2.2]
    show (Fld.extract 8 ⟨[⟨7, 0⟩], 8⟩ [6#8]).map (toInt false) = some 6
    decide
  have hx : ∀ d : Data 8, extractField N 8 d (exByte N) = some 6 →
      accepts N env 8 d (callbackMatcher N [exByte N] (.leaf (.rel .ne (toField N (exByte N)) 5))) =
        some true := by
    intro d hd
    rw [callback_accepts (K := fun _ => some 5) [exByte N] _ ?_ ?_ (fun _ => true)]
    · rw [eval, revalLeaf, seen_val hd (by rw [h0.2.2.1]; decide)]; rfl
    · intro f hf
      rw [List.mem_singleton] at hf
      subst hf
      rw [hm]; exact ⟨by simp, trivial, rfl⟩
    · refine ⟨?_, rfl⟩
      show (ty N (exByte N)).InRange 5
      rw [h0.2.2.1]; decide
    · exact (LS_leaf ..).2 ⟨exByte N, 6, rfl, hd, by rw [h0.2.2.1]; decide⟩
  have hf : find [exByte N] 0 = some (exByte N) := rfl
  refine ⟨.leaf (.rel .ne (toField N (exByte N)) 5), ?_, ?_, rfl, hx _ hv, hx _ ?_⟩
  · simp [make, hf, opAnd, simplify, simplifyAnd, implies, impliesL, relOps, relImplies, RelOp.app]
  · show held false ⟨[⟨7, 0⟩], 8⟩ _ = _; decide
  · have : find [exByte N] (exByte N).name = some (exByte N) := rfl
    rw [extractField, this]; exact hv

end Verif.Receive
