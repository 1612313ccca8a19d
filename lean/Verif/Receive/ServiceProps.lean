import Verif.Receive.NameProps
/-!
# C94: services on raw storage and on message objects
-/
namespace Verif.Receive
open Verif.Match Verif.Message Verif.Bits

variable {N : Numbering} {env : Env} {W : Nat}

/-! ### Lemmas -/

theorem foldlM_seen {d : Data W} (cbs : List Handler.Callback)
    (h : ∀ c ∈ cbs, LS (Readable N W d) c.matcher) (o : List Nat × Bool) :
    cbs.foldlM (stepData N env W d) o = some (cbs.foldl (Handler.step (seen N env W d)) o) := by
  induction cbs generalizing o with
  | nil => rfl
  | cons c cs ih =>
    have h1 : stepData N env W d o c = some (Handler.step (seen N env W d) o c) := by
      simp only [stepData, evalM_seen _ (h c (by simp)), Option.map_some, Handler.step,
        Handler.Callback.isMatch]
      by_cases hb : eval revalLeaf c.matcher (seen N env W d) = true <;> simp [hb]
    rw [List.foldlM_cons, h1]
    exact ih (fun c hc => h c (by simp [hc])) _

theorem runAll_seen {d : Data W} (cbs : List Handler.Callback)
    (h : ∀ c ∈ cbs, LS (Readable N W d) c.matcher) :
    runAll N env W d cbs = some (Handler.handle cbs (seen N env W d)) := by
  rw [runAll, if_pos, foldlM_seen cbs h]
  · rfl
  · rw [List.all_eq_true]
    exact fun c hc => compiles_readable _ (h c hc)

theorem LS_splitOr {S : RLeaf → Prop} (m : M RLeaf) (h : LS S m) : ∀ t ∈ Handler.splitOr m, LS S t := by
  induction m with
  | or l r ihl ihr =>
    simp only [LS_or] at h
    intro t ht
    simp only [Handler.splitOr, List.mem_append] at ht
    exact ht.elim (ihl h.1 t) (ihr h.2 t)
  | _ =>
    intro t ht
    simp only [Handler.splitOr, List.mem_singleton] at ht
    rw [ht]; exact h

theorem LS_build {S : RLeaf → Prop} (hS : ∀ a b, S a → relOps.neg a = some b → S b)
    (cbs : List Handler.Callback) (h : ∀ c ∈ cbs, LS S c.matcher) :
    ∀ t ∈ Handler.build cbs, LS S t.matcher := by
  intro t ht
  simp only [Handler.build, List.mem_flatMap, Handler.separate, List.mem_map] at ht
  obtain ⟨c, hc, m, hm, rfl⟩ := ht
  exact LS_splitOr _ (LS_sop hS _ (LS_all hS _ (by simpa using h c hc))) m hm

theorem LS_removeTerms {S : RLeaf → Prop} (hS : ∀ a b, S a → relOps.neg a = some b → S b)
    (fields : List Field) (m : M RLeaf) (h : LS S m) : LS S (Handler.removeTerms fields m) := by
  induction m with
  | or l r ihl ihr =>
    simp only [LS_or] at h
    exact LS_opOr hS (ihl h.1) (ihr h.2)
  | and l r ihl ihr =>
    simp only [LS_and] at h
    exact LS_opAnd hS (ihl h.1) (ihr h.2)
  | not m ih => exact ih (by simpa using h)
  | leaf a =>
    cases a with
    | pred => exact h
    | rel op f v =>
      cases op <;> simp only [Handler.removeTerms] <;> first | exact h | (split <;> simp_all)
  | _ => simp [Handler.removeTerms]

theorem mapM_index {d : Data W} (idx : List MField)
    (h : ∀ f ∈ idx, ∃ x, value N W f d.storage = some x ∧ extractField N W d f = some x ∧
      (ty N f).InRange x) :
    (idx.mapM fun f => (value N W f d.storage).map fun x => (toField N f, x)) =
      some (idx.map fun f => (toField N f, (seen N env W d).val (toField N f))) := by
  induction idx with
  | nil => rfl
  | cons f fs ih =>
    obtain ⟨x, h1, h2, h3⟩ := h f (by simp)
    rw [List.mapM_cons, h1, ih (fun g hg => h g (by simp [hg]))]
    simp [seen_val h2 h3]

/-- If the index fields read from the storage what the matchers read from the data, the service
behaves as `Verif.Handler` says. -/
theorem serveIndexed_seen {d : Data W} (idx : List MField) (cbs : List Handler.Callback)
    (h : ∀ c ∈ cbs, LS (Readable N W d) c.matcher)
    (hi : ∀ f ∈ idx, ∃ x, value N W f d.storage = some x ∧ extractField N W d f = some x ∧
      (ty N f).InRange x) :
    serveIndexed N env W idx d cbs =
      some (Handler.handleIndexed (idx.map (toField N)) cbs (seen N env W d)) := by
  have hb := LS_build (readable_neg d) cbs h
  have hleft : ∀ c ∈ (Handler.build cbs).map fun t =>
      (⟨t.id, Handler.removeTerms (idx.map (toField N)) t.matcher⟩ : Handler.Callback),
      LS (Readable N W d) c.matcher := by
    intro c hc
    obtain ⟨t, ht, rfl⟩ := List.mem_map.1 hc
    exact LS_removeTerms (readable_neg d) _ _ (hb t ht)
  simp only [serveIndexed]
  rw [if_pos (by rw [List.all_eq_true]; exact fun c hc => compiles_readable _ (hleft c hc)),
    mapM_index (env := env) idx hi, Option.bind_some]
  have hcand : candidatesOf (idx.map fun f => (toField N f, (seen N env W d).val (toField N f)))
      (Handler.build cbs) = Handler.candidates (idx.map (toField N)) (Handler.build cbs)
        (seen N env W d) := by
    cases idx with
    | nil => rfl
    | cons f fs =>
      funext i
      simp [candidatesOf, Handler.candidates, List.all_map, Function.comp_def]
  rw [hcand, runAll_seen _ (fun c hc => by
    obtain ⟨⟨c', i⟩, hp, rfl⟩ := List.mem_map.1 hc
    have hp := (List.mem_filter.1 hp).1
    exact hleft c' (List.mem_of_getElem? (List.mem_zipIdx_iff_getElem?.1 hp)))]
  simp only [Handler.handle, Handler.handleIn, Handler.handleIndexed, Handler.candidateList]
  have : ∀ (ts : List Handler.Callback) (k : Nat) (p : Nat → Bool),
      (((ts.map fun t => (⟨t.id, Handler.removeTerms (idx.map (toField N)) t.matcher⟩ :
        Handler.Callback)).zipIdx k).filter fun q => p q.2).map (·.1) =
      (((ts.zipIdx k).filter fun q => p q.2).map (·.1)).map fun t =>
        (⟨t.id, Handler.removeTerms (idx.map (toField N)) t.matcher⟩ : Handler.Callback) := by
    intro ts
    induction ts with
    | nil => intro k p; rfl
    | cons t ts ih =>
      intro k p
      simp only [List.map_cons, List.zipIdx_cons, List.filter_cons]
      split <;> simp [ih (k + 1) p]
  rw [this, List.foldl_map]
  rfl

theorem heldBy_mem {fs : List MField} (hn : (fs.map (·.name)).Nodup) {f : MField} (hf : f ∈ fs)
    (r : List (BitVec W)) : heldBy N fs r f.name = held (signed N f) f.fld r := by
  have := find_eq hn hf
  simp only [find, beq_eq_decide] at this
  simp only [heldBy, this]

theorem asks_any_always {later : Opt → Bool} {f : MField} (h : Asks N later f .any) :
    matcher N f = .always := by
  rcases h with ⟨name, t, opts, rfl, ho, _⟩ | ⟨name, t, pre, o, post, rfl, ho, _⟩
  · exact fold_free opts _ (by simp [newField]) ho
  · cases o <;> simp [Opt.asks] at ho

/-- What a registered callback says about the data. -/
theorem entry_ok {later : Opt → Bool} {cond : MField → Cond} {K : Nat → Option Int} {n : Nat}
    {e : Entry} (he : e.Ok N later cond K n) {d : Data W} {r : List (BitVec W)}
    (hr : ∀ f ∈ e.fs, f.name ∈ e.names → extractField N W d f = some (held (signed N f) f.fld r) ∧
      (ty N f).InRange (held (signed N f) f.fld r))
    (hm : ∀ f ∈ e.fs, LS (Readable N W d) (matcher N f) ∧ MixTree (byName N K) (matcher N f) ∧
      eval revalLeaf (matcher N f) (seen N env W d) =
        (cond f).holds env (held (signed N f) f.fld r)) :
    ∃ c, e.callback N = some c ∧ c.id = e.id ∧ LS (Readable N W d) c.matcher ∧
      MixTree (byName N K) c.matcher ∧
      eval revalLeaf c.matcher (seen N env W d) = e.wants N env cond r := by
  cases hc : e.cond with
  | none =>
    have := all_ok (env := env) e.fs _ hm
    exact ⟨⟨e.id, plainMatcher N e.fs⟩, by simp only [Entry.callback, hc], rfl, this.1, this.2.1, by
      simp only [this.2.2, Entry.wants, hc, Bool.true_and]⟩
  | some u =>
    have hx : Reads N W e.fs u.names d (heldBy N e.fs r) := by
      intro f hf hnm
      rw [heldBy_mem he.names hf]
      exact hr f hf (by simpa [Entry.names, hc] using hnm)
    obtain ⟨t, h1, h2, h3, h4⟩ := make_mix (env := env) he.names hx K u (fun _ => id) (he.named u hc)
    have := callback_ok (env := env) e.fs t h2 h3 _ hm
    refine ⟨⟨e.id, callbackMatcher N e.fs t⟩, by simp [Entry.callback, hc, h1], rfl, this.1, this.2.1, ?_⟩
    rw [this.2.2, h4]
    simp [Entry.wants, hc]

/-- All of them together. -/
theorem entries_ok {K : Nat → Option Int} {cond : MField → Cond} {d : Data W} {r : List (BitVec W)}
    (es : List Entry)
    (h : ∀ e ∈ es, ∃ c, e.callback N = some c ∧ c.id = e.id ∧ LS (Readable N W d) c.matcher ∧
      MixTree (byName N K) c.matcher ∧
      eval revalLeaf c.matcher (seen N env W d) = e.wants N env cond r) :
    ∃ cbs, es.mapM (Entry.callback N) = some cbs ∧ (∀ c ∈ cbs, LS (Readable N W d) c.matcher) ∧
      (∀ c ∈ cbs, MixTree (byName N K) c.matcher) ∧
      Handler.expected cbs (seen N env W d) = (es.filter (·.wants N env cond r)).map (·.id) ∧
      ∀ n, (∃ c ∈ cbs, c.id = n ∧ eval revalLeaf c.matcher (seen N env W d) = true) ↔
        ∃ e ∈ es, e.id = n ∧ e.wants N env cond r = true := by
  induction es with
  | nil => exact ⟨[], rfl, by simp, by simp, rfl, by simp⟩
  | cons e es ih =>
    obtain ⟨c, h1, h2, h3, h4, h5⟩ := h e (by simp)
    obtain ⟨cbs, i1, i2, i3, i4, i5⟩ := ih (fun e he => h e (by simp [he]))
    refine ⟨c :: cbs, by simp [List.mapM_cons, h1, i1], ?_, ?_, ?_, ?_⟩
    · simpa using ⟨h3, i2⟩
    · simpa using ⟨h4, i3⟩
    · simp only [Handler.expected, List.filter_cons, h5] at i4 ⊢
      split <;> simp [i4, h2]
    · intro n
      simp only [List.mem_cons, exists_eq_or_imp, h5, h2, i5 n]

theorem raw_entry (hW : Narrow W) {cond : MField → Cond} {K : Nat → Option Int}
    {r : List (BitVec W)} {e : Entry} (he : e.Ok N Opt.isDefault cond K (r.length * W)) :
    ∃ c, e.callback N = some c ∧ c.id = e.id ∧ LS (Readable N W (.raw r)) c.matcher ∧
      MixTree (byName N K) c.matcher ∧
      eval revalLeaf c.matcher (seen N env W (.raw r)) = e.wants N env cond r := by
  refine entry_ok he (fun f hf _ => ?_) (fun f hf => ?_)
  · have := value_held (N := N) hW f (he.legal f hf).1 r (he.legal f hf).2
    exact ⟨by rw [extractField, this.1], this.2⟩
  · have := raw_cond (env := env) hW (asks_mono (he.asks f hf) (later' := staysPut)
      (fun o ho => by simp [staysPut, ho])) (he.legal f hf).1 (he.legal f hf).2
    exact ⟨this.1, asks_mix (asks_mono (he.asks f hf) (fun o ho => by simp [keepsName, ho]))
      (he.agrees f hf), this.2.2 (he.notLt f hf)⟩

theorem has_value (hW : Narrow W) {gs : List MField} (hg : (gs.map (·.name)).Nodup) {f : MField}
    (h : Has N gs f) (hl : f.fld.Legal) {r : List (BitVec W)} (hin : f.fld.Within (r.length * W))
    {f0 : MField} (h0 : f0.name = f.name) :
    extractField N W (.msg gs r) f0 = some (held (signed N f) f.fld r) := by
  obtain ⟨g, hgm, h1, h2, h3⟩ := h
  have := value_held (N := N) hW f hl r hin
  rw [extractField, h0, ← h1, find_eq hg hgm, Option.bind_some, value_congr h2 h3, this.1]

theorem object_entry (hW : Narrow W) {gs : List MField} (hg : (gs.map (·.name)).Nodup)
    {cond : MField → Cond} {K : Nat → Option Int}
    {r : List (BitVec W)} {e : Entry} (he : e.Ok N keepsName cond K (r.length * W))
    (hh : ∀ f ∈ e.fs, cond f ≠ .any ∨ f.name ∈ e.names → Has N gs f) :
    ∃ c, e.callback N = some c ∧ c.id = e.id ∧ LS (Readable N W (.msg gs r)) c.matcher ∧
      MixTree (byName N K) c.matcher ∧
      eval revalLeaf c.matcher (seen N env W (.msg gs r)) = e.wants N env cond r := by
  refine entry_ok he (fun f hf hnm => ?_) (fun f hf => ?_)
  · have := value_held (N := N) hW f (he.legal f hf).1 r (he.legal f hf).2
    exact ⟨has_value hW hg (hh f hf (.inr hnm)) (he.legal f hf).1 (he.legal f hf).2 rfl, this.2⟩
  · by_cases hc : cond f = .any
    · have ha := he.asks f hf
      rw [hc] at ha
      rw [asks_any_always ha, hc]
      exact ⟨by simp, trivial, rfl⟩
    · have hhas := hh f hf (.inl hc)
      have hv := value_held (N := N) hW f (he.legal f hf).1 r (he.legal f hf).2
      have := field_cond (env := env) (he.asks f hf) (fun _ => .inr) hv.2 (fun f0 _ h6 _ =>
        has_value hW hg hhas (he.legal f hf).1 (he.legal f hf).2 (h6 fun _ => id).symm)
      exact ⟨this.1, asks_mix (he.asks f hf) (he.agrees f hf), this.2.2 (he.notLt f hf)⟩

theorem handle_eq (cbs : List Handler.Callback) (e : Msg) : Handler.handle cbs e =
    ⟨Handler.expected cbs e, !(Handler.expected cbs e).isEmpty, (Handler.expected cbs e).isEmpty⟩ := by
  have : cbs.any (fun c => c.isMatch e) = !(Handler.expected cbs e).isEmpty := by
    rw [Bool.eq_iff_iff]
    simp [Handler.expected, Handler.Callback.isMatch, List.any_eq_true]
  simp only [Handler.handle, Handler.handleIn, Handler.foldl_step, List.nil_append, Bool.false_or, this,
    Bool.not_not]
  rfl

theorem any_wants (es : List Entry) (p : Entry → Bool) :
    es.any p = !((es.filter p).map (·.id)).isEmpty := by
  rw [Bool.eq_iff_iff]; simp

/-! ### Theorems -/

/-- C94 (partial): a plain service given raw storage calls, in order of registration, exactly the
callbacks for which all conditions hold at the declared places.
Missing: moved and renamed fields, strict upper bounds, several `!=` constants (C88, C89, C93). -/
theorem C94_plain_raw_partial (hW : Narrow W) (cond : MField → Cond) (K : Nat → Option Int)
    (r : List (BitVec W)) (es : List Entry)
    (h : ∀ e ∈ es, e.Ok N Opt.isDefault cond K (r.length * W)) :
    ∃ cbs, es.mapM (Entry.callback N) = some cbs ∧ serve N env W (.raw r) cbs =
      some ⟨(es.filter (·.wants N env cond r)).map (·.id), es.any (·.wants N env cond r),
        !es.any (·.wants N env cond r)⟩ := by
  obtain ⟨cbs, h1, h2, h3, h4, h5⟩ := entries_ok (env := env) es (fun e he => raw_entry hW (h e he))
  refine ⟨cbs, h1, ?_⟩
  rw [serve, runAll_seen cbs h2, handle_eq, h4, any_wants, Bool.not_not]

/-- C94 (partial): the same for a message object whose fields include, at the same places, those that the
conditions mention. Missing: renamed fields, strict upper bounds, several `!=` constants. -/
theorem C94_plain_object_partial (hW : Narrow W) (cond : MField → Cond) (K : Nat → Option Int)
    (gs : List MField) (hg : (gs.map (·.name)).Nodup) (r : List (BitVec W)) (es : List Entry)
    (h : ∀ e ∈ es, e.Ok N keepsName cond K (r.length * W))
    (hh : ∀ e ∈ es, ∀ f ∈ e.fs, cond f ≠ .any ∨ f.name ∈ e.names → Has N gs f) :
    ∃ cbs, es.mapM (Entry.callback N) = some cbs ∧ serve N env W (.msg gs r) cbs =
      some ⟨(es.filter (·.wants N env cond r)).map (·.id), es.any (·.wants N env cond r),
        !es.any (·.wants N env cond r)⟩ := by
  obtain ⟨cbs, h1, h2, h3, h4, h5⟩ := entries_ok (env := env) es
    (fun e he => object_entry hW hg (h e he) (hh e he))
  refine ⟨cbs, h1, ?_⟩
  rw [serve, runAll_seen cbs h2, handle_eq, h4, any_wants, Bool.not_not]

theorem indexed_outcome {d : Data W} {K : Nat → Option Int} {cond : MField → Cond}
    {r : List (BitVec W)} (es : List Entry) (cbs : List Handler.Callback) (idx : List MField)
    (hne : idx ≠ []) (hx : ∀ c ∈ cbs, MixTree (byName N K) c.matcher)
    (hI : Handler.Indexable (idx.map (toField N)) ((Handler.build cbs).map (·.matcher)))
    (h5 : ∀ n, (∃ c ∈ cbs, c.id = n ∧ eval revalLeaf c.matcher (seen N env W d) = true) ↔
        ∃ e ∈ es, e.id = n ∧ e.wants N env cond r = true) :
    let o := Handler.handleIndexed (idx.map (toField N)) cbs (seen N env W d)
    (∀ n, n ∈ o.called ↔ ∃ e ∈ es, e.id = n ∧ e.wants N env cond r = true) ∧
      o.handled = es.any (·.wants N env cond r) ∧ o.error = !es.any (·.wants N env cond r) := by
  intro o
  have hcalled : ∀ n, n ∈ o.called ↔ ∃ e ∈ es, e.id = n ∧ e.wants N env cond r = true := by
    intro n
    rw [← h5 n]
    exact Handler.C25_exact_mixed_partial (byName N K) (idx.map (toField N)) (by simpa using hne) cbs
      hx hI ⟨seen N env W d, seen_wt d⟩ n
  have hret := Handler.C25_returns_called (idx.map (toField N)) cbs (seen N env W d)
  have hhan : o.handled = es.any (·.wants N env cond r) := by
    rw [Bool.eq_iff_iff, hret.1, List.any_eq_true]
    constructor
    · intro hn
      obtain ⟨n, hn⟩ := List.exists_mem_of_ne_nil _ hn
      obtain ⟨e, he, _, hw⟩ := (hcalled n).1 hn
      exact ⟨e, he, hw⟩
    · rintro ⟨e, he, hw⟩
      exact List.ne_nil_of_mem ((hcalled e.id).2 ⟨e, he, rfl, hw⟩)
  exact ⟨hcalled, hhan, by rw [hret.2]; exact congrArg _ hhan⟩

/-- C94 (partial): an indexed service given raw storage calls exactly the callbacks for which all
conditions hold at the declared places, for conditions that the index handles (`Indexable`, C25).
Missing: as for the plain service, and the violations of C25. -/
theorem C94_indexed_raw_partial (hW : Narrow W) (cond : MField → Cond) (K : Nat → Option Int)
    (r : List (BitVec W)) (es : List Entry)
    (h : ∀ e ∈ es, e.Ok N Opt.isDefault cond K (r.length * W)) (idx : List MField) (hne : idx ≠ [])
    (hi : ∀ f ∈ idx, f.fld.Legal ∧ f.fld.Within (r.length * W)) :
    ∃ cbs, es.mapM (Entry.callback N) = some cbs ∧
      (Handler.Indexable (idx.map (toField N)) ((Handler.build cbs).map (·.matcher)) →
      ∃ o, serveIndexed N env W idx (.raw r) cbs = some o ∧
        (∀ n, n ∈ o.called ↔ ∃ e ∈ es, e.id = n ∧ e.wants N env cond r = true) ∧
        o.handled = es.any (·.wants N env cond r) ∧ o.error = !es.any (·.wants N env cond r)) := by
  obtain ⟨cbs, h1, h2, h3, h4, h5⟩ := entries_ok (env := env) es (fun e he => raw_entry hW (h e he))
  refine ⟨cbs, h1, fun hI => ⟨_, serveIndexed_seen idx cbs h2 (fun f hf => ?_),
    indexed_outcome es cbs idx hne h3 hI h5⟩⟩
  have := value_held (N := N) hW f (hi f hf).1 r (hi f hf).2
  exact ⟨_, this.1, this.1, this.2⟩

/-- C94 (partial): the same for a message object that has the index fields at the places where the index
reads them. Missing: as above, and moved index fields (`C94_violated_moved_index`). -/
theorem C94_indexed_object_partial (hW : Narrow W) (cond : MField → Cond) (K : Nat → Option Int)
    (gs : List MField) (hg : (gs.map (·.name)).Nodup) (r : List (BitVec W)) (es : List Entry)
    (h : ∀ e ∈ es, e.Ok N keepsName cond K (r.length * W))
    (hh : ∀ e ∈ es, ∀ f ∈ e.fs, cond f ≠ .any ∨ f.name ∈ e.names → Has N gs f)
    (idx : List MField) (hne : idx ≠ [])
    (hi : ∀ f ∈ idx, f.fld.Legal ∧ f.fld.Within (r.length * W) ∧ Has N gs f) :
    ∃ cbs, es.mapM (Entry.callback N) = some cbs ∧
      (Handler.Indexable (idx.map (toField N)) ((Handler.build cbs).map (·.matcher)) →
      ∃ o, serveIndexed N env W idx (.msg gs r) cbs = some o ∧
        (∀ n, n ∈ o.called ↔ ∃ e ∈ es, e.id = n ∧ e.wants N env cond r = true) ∧
        o.handled = es.any (·.wants N env cond r) ∧ o.error = !es.any (·.wants N env cond r)) := by
  obtain ⟨cbs, h1, h2, h3, h4, h5⟩ := entries_ok (env := env) es
    (fun e he => object_entry hW hg (h e he) (hh e he))
  refine ⟨cbs, h1, fun hI => ⟨_, serveIndexed_seen idx cbs h2 (fun f hf => ?_),
    indexed_outcome es cbs idx hne h3 hI h5⟩⟩
  have := value_held (N := N) hW f (hi f hf).1 r (hi f hf).2.1
  exact ⟨_, this.1, has_value hW hg (hi f hf).2.2 (hi f hf).1 (hi f hf).2.1 rfl, this.2⟩

/-- Two callbacks: one for a definition with a required value in byte 1, one with the condition
`"0"_field < 20`. -/
def exEntries (N : Numbering) : List Entry :=
  [⟨7, [exByte N, exReq1 N], none⟩, ⟨8, [exByte N], some (.rel 0 .lt 20)⟩]

/-- The hypotheses of the four theorems, indexed by byte 1. -/
example : (∀ e ∈ exEntries N, e.Ok N Opt.isDefault exPackCond (fun _ => none) ([9#8, 5#8].length * 8)) ∧
    (∀ e ∈ exEntries N, e.Ok N keepsName exPackCond (fun _ => none) ([9#8, 5#8].length * 8)) ∧
    (∀ e ∈ exEntries N, ∀ f ∈ e.fs, Has N [exByte N, exReq1 N] f) ∧
    (∃ cbs, (exEntries N).mapM (Entry.callback N) = some cbs ∧
      Handler.Indexable [toField N (field N 1 u8 [.located [⟨15, 8⟩]])]
        ((Handler.build cbs).map (·.matcher))) := by
  have h0 := exByte_ok N
  have h2 : ty N (field N 1 u8 [.located [⟨15, 8⟩]]) = u8 :=
    typed_u8 (by simp [field, declare, newField, u8]) rfl
  have ha : ∀ later, Asks N later (exReq1 N) (.eq 5) := by
    intro later
    refine .inr ⟨1, u8, [.located [⟨15, 8⟩]], .required 5, [], rfl, rfl, ?_, by simp⟩
    rw [h2]; show IntTy.InRange _ _; decide
  have hl0 : (exByte N).fld.Legal ∧ (exByte N).fld.Within 16 := by
    show Fld.Legal ⟨[⟨7, 0⟩], 8⟩ ∧ Fld.Within ⟨[⟨7, 0⟩], 8⟩ 16
    exact ⟨by simp [Fld.Legal, At.valid, At.size], by unfold Fld.Within; decide⟩
  have hl1 : (exReq1 N).fld.Legal ∧ (exReq1 N).fld.Within 16 := by
    show Fld.Legal ⟨[⟨15, 8⟩], 8⟩ ∧ Fld.Within ⟨[⟨15, 8⟩], 8⟩ 16
    exact ⟨by simp [Fld.Legal, At.valid, At.size], by unfold Fld.Within; decide⟩
  have hok : ∀ later, ∀ e ∈ exEntries N,
      e.Ok N later exPackCond (fun _ => none) ([9#8, 5#8].length * 8) := by
    intro later e he
    simp only [exEntries, List.mem_cons, List.not_mem_nil, or_false] at he
    rcases he with rfl | rfl
    · refine ⟨?_, ?_, ?_, ?_, ?_, by simp⟩
      · show [0, 1].Nodup; decide
      all_goals
        intro f hf
        simp only [List.mem_cons, List.not_mem_nil, or_false] at hf
        rcases hf with rfl | rfl
      · exact exByte_asks N later
      · exact ha later
      · trivial
      · trivial
      · trivial
      · exact .inl rfl
      · exact hl0
      · exact hl1
    · refine ⟨by simp, ?_, ?_, ?_, ?_, ?_⟩
      · intro f hf; rw [List.mem_singleton] at hf; subst hf; exact exByte_asks N later
      · intro f hf; rw [List.mem_singleton] at hf; subst hf; trivial
      · intro f hf; rw [List.mem_singleton] at hf; subst hf; trivial
      · intro f hf; rw [List.mem_singleton] at hf; subst hf; exact hl0
      · intro u hu
        cases hu
        exact ⟨exByte N, by simp, rfl, by rw [h0.2.2.1]; decide, by simp, by simp⟩
  refine ⟨hok _, hok _, ?_, ?_⟩
  · intro e he f hf
    simp only [exEntries, List.mem_cons, List.not_mem_nil, or_false] at he
    refine ⟨f, ?_, rfl, rfl, rfl⟩
    rcases he with rfl | rfl
    · exact hf
    · rw [List.mem_singleton] at hf; simp [hf]
  · have h1 : matcher N (exByte N) = .always := asks_any_always (exByte_asks N keepsName)
    have h3 : matcher N (exReq1 N) =
        .leaf (.rel .eq (toField N (field N 1 u8 [.located [⟨15, 8⟩]])) 5) := by
      simp [exReq1, field, declare, setMatcher, matcher, N.rest_ok]
    have hsop : ∀ a : RLeaf, sop relOps (.leaf a) = .leaf a := fun _ => rfl
    have hf : find [exByte N] 0 = some (exByte N) := rfl
    refine ⟨[⟨7, .leaf (.rel .eq (toField N (field N 1 u8 [.located [⟨15, 8⟩]])) 5)⟩,
      ⟨8, .leaf (.rel .lt (toField N (exByte N)) 20)⟩], ?_, ?_⟩
    · simp [exEntries, Entry.callback, plainMatcher, callbackMatcher, Handler.constructPlain,
        Handler.construct, h1, h3, make, hf, Match.all, opAnd, simplify, simplifyAnd, implies, impliesL,
        hsop]
    · have hb : (Handler.build [⟨7, .leaf (.rel .eq (toField N (field N 1 u8 [.located [⟨15, 8⟩]])) 5)⟩,
          ⟨8, .leaf (.rel .lt (toField N (exByte N)) 20)⟩]).map (·.matcher) =
          [.leaf (.rel .eq (toField N (field N 1 u8 [.located [⟨15, 8⟩]])) 5),
            .leaf (.rel .lt (toField N (exByte N)) 20)] := by
        simp [Handler.build, Handler.separate, Match.all, simplify, simplifyAnd, implies, impliesL,
          hsop, Handler.splitOr]
      rw [hb]
      refine ⟨by simp [Handler.NoNot], by simp [leaves, Handler.Selects], ?_⟩
      intro i j s t hi hj f _ v hs ht
      rcases i with _ | _ | i
      · simp at hi; subst hi; simp [leaves] at hs
      · simp at hi; subst hi; simp [leaves] at hs
      · simp at hi

/-- The field type that the index and the matcher of `exReq` name: byte 0. -/
def exIdx (N : Numbering) : MField := field N 1 u8 [.located [⟨7, 0⟩]]

/-- C94 violated: a callback for a packed definition, registered with a service indexed by the field
type that has the required value, and a message object of the definition. The plain service tests the
field where the pack has it, the indexed service where it was before packing: it ignores the message
with the required value, and calls the callback for one that does not have it. -/
theorem C94_violated_moved_index (N : Numbering) (env : Env) :
    pack 8 [[exByte N], [exReq N]] = some [exByte N, (exReq N).shiftedBy 8] ∧
    ∃ cb, (Entry.mk 7 [exByte N, (exReq N).shiftedBy 8] none).callback N = some cb ∧
      serve N env 8 (.msg [exByte N, (exReq N).shiftedBy 8] [0#8, 5#8]) [cb] =
        some ⟨[7], true, false⟩ ∧
      serveIndexed N env 8 [exIdx N] (.msg [exByte N, (exReq N).shiftedBy 8] [0#8, 5#8]) [cb] =
        some ⟨[], false, true⟩ ∧
      serve N env 8 (.msg [exByte N, (exReq N).shiftedBy 8] [5#8, 0#8]) [cb] =
        some ⟨[], false, true⟩ ∧
      serveIndexed N env 8 [exIdx N] (.msg [exByte N, (exReq N).shiftedBy 8] [5#8, 0#8]) [cb] =
        some ⟨[7], true, false⟩ := by
  have hp : plainMatcher N [exByte N, (exReq N).shiftedBy 8] =
      .leaf (.rel .eq (toField N (exIdx N)) 5) := by
    have h1 : matcher N (exByte N) = .always := asks_any_always (exByte_asks N keepsName)
    have h2 : matcher N ((exReq N).shiftedBy 8) = .leaf (.rel .eq (toField N (exIdx N)) 5) := by
      simp [exReq, exIdx, field, declare, setMatcher, MField.shiftedBy, matcher, N.rest_ok]
    simp [plainMatcher, Handler.constructPlain, h1, h2, Match.all, simplify, simplifyAnd, implies,
      impliesL]
  have hb : Handler.build [⟨7, .leaf (.rel .eq (toField N (exIdx N)) 5)⟩] =
      [⟨7, .leaf (.rel .eq (toField N (exIdx N)) 5)⟩] := by
    have : ∀ a : RLeaf, sop relOps (.leaf a) = .leaf a := fun _ => rfl
    simp [Handler.build, Handler.separate, Match.all, simplify, simplifyAnd, implies, impliesL, this,
      Handler.splitOr]
  have hs : signed N (exIdx N) = false := by simp [exIdx, field, declare, newField, u8]
  have hs' : signed N ((exReq N).shiftedBy 8) = false := by
    simp [exReq, field, declare, newField, setMatcher, MField.shiftedBy, signed, N.rest_ok, u8]
  have hf : find [exByte N, (exReq N).shiftedBy 8] (exIdx N).name = some ((exReq N).shiftedBy 8) := rfl
  have v1 : value N 8 (exIdx N) [0#8, 5#8] = some 0 ∧ value N 8 (exIdx N) [5#8, 0#8] = some 5 := by
    simp only [value, hs]
    show (Fld.extract 8 ⟨[⟨7, 0⟩], 8⟩ [0#8, 5#8]).map (toInt false) = some 0 ∧
      (Fld.extract 8 ⟨[⟨7, 0⟩], 8⟩ [5#8, 0#8]).map (toInt false) = some 5
    decide
  have v2 : value N 8 ((exReq N).shiftedBy 8) [0#8, 5#8] = some 5 ∧
      value N 8 ((exReq N).shiftedBy 8) [5#8, 0#8] = some 0 := by
    simp only [value, hs']
    show (Fld.extract 8 ⟨[⟨15, 8⟩], 8⟩ [0#8, 5#8]).map (toInt false) = some 5 ∧
      (Fld.extract 8 ⟨[⟨15, 8⟩], 8⟩ [5#8, 0#8]).map (toInt false) = some 0
    decide
  have hr : Handler.removeTerms [toField N (exIdx N)] (.leaf (.rel .eq (toField N (exIdx N)) 5)) =
      .always := by simp [Handler.removeTerms]
  have hn : (toField N (exIdx N)).name = N.field (exIdx N) := rfl
  have hc : ∀ x, candidatesOf [(toField N (exIdx N), x)]
      [⟨7, .leaf (.rel .eq (toField N (exIdx N)) 5)⟩] 0 = decide (x = 5) := by
    intro x
    by_cases hx : x = 5
    · simp [candidatesOf, Handler.createIndex, Handler.walk, Handler.indexTerms, Handler.indexNotTerms,
        Handler.addPositive, Handler.TempIndex.ensure, Handler.TempIndex.contains,
        Handler.TempIndex.mapEntries, Handler.collectDefaults, Handler.propagate,
        Handler.TempIndex.lookup, Handler.Bits.set, Handler.Bits.or, hx]
    · have hx' : ¬ (5 = x) := fun h => hx h.symm
      simp [candidatesOf, Handler.createIndex, Handler.walk, Handler.indexTerms, Handler.indexNotTerms,
        Handler.addPositive, Handler.TempIndex.ensure, Handler.TempIndex.contains,
        Handler.TempIndex.mapEntries, Handler.collectDefaults, Handler.propagate,
        Handler.TempIndex.lookup, Handler.Bits.set, Handler.Bits.empty, hx, hx']
  refine ⟨exPack N, ⟨7, .leaf (.rel .eq (toField N (exIdx N)) 5)⟩, by simp [Entry.callback, hp], ?_, ?_,
    ?_, ?_⟩
  · simp [serve, runAll, compiles, fieldsOf, hn, N.field_ok, hf, stepData, evalM, evalLeaf,
      extractField, v2.1, RelOp.app]
  · simp [serveIndexed, hb, hr, compiles, fieldsOf, Data.storage, v1.1, hc, runAll]
  · simp [serve, runAll, compiles, fieldsOf, hn, N.field_ok, hf, stepData, evalM, evalLeaf,
      extractField, v2.2, RelOp.app]
  · simp [serveIndexed, hb, hr, compiles, fieldsOf, Data.storage, v1.2, hc, runAll, stepData, evalM]

end Verif.Receive
