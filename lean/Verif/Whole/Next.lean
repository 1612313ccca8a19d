import Mathlib.Data.List.Nodup
import Verif.Whole.Props
/-! # C167: builds one after the other -/
namespace Verif.Whole
open Verif.Symbols (Text codes)
open Verif.Json (J PyKey Str code dget dupdate)
open Verif.Catalog (Item same)
open Verif.Render (fmtText)

/-! ## The ids of one build -/

/-- The entries of the JSON file of a build. -/
def entries (key : Catalog.Key) (f : List Item) (res : List (Nat × Nat)) (forget : Bool) (items : List Item) : List Item :=
  (Catalog.run key [f] res forget items).1 ++ remembered key f forget items

section
variable {key : Catalog.Key} {f items : List Item} {res : List (Nat × Nat)} {forget : Bool}

theorem same_refl (a : Item) : same a a := ⟨rfl, rfl⟩

/-- No message has two ids there. -/
theorem entries_one_id : Catalog.OneIdPerMessage (entries key f res forget items) := by
  have hwf := Catalog.wf_withExplicit (key := key) (Catalog.wf_readStable key [f]) (Catalog.unique key items)
  have rem : ∀ {v : Item}, v ∈ remembered key f forget items →
      (Catalog.withExplicit key (Catalog.unique key items) (Catalog.readStable key [f])).get? (key.of v) = some v := by
    intro v hv
    rw [remembered] at hv
    split at hv
    · cases hv
    · exact Catalog.get?_value hwf hv
  have outRem : ∀ {o v : Item}, o ∈ (Catalog.run key [f] res forget items).1 → v ∈ remembered key f forget items →
      same o v → o.id = v.id := by
    intro o v ho hv hs
    rw [Catalog.run_fst] at ho
    obtain ⟨i, _, he, hr⟩ := Catalog.loop_mem ho
    have hk : key.of i = key.of v :=
      Catalog.of_eq_of_same (Catalog.same_trans (Catalog.same_symm (Catalog.same_of_eq_id he)) hs)
    rw [hk, rem hv] at hr
    rcases hr with ⟨t, ht, e⟩ | ⟨hn, -⟩
    · cases ht; exact e
    · cases hn
  intro a ha b hb hs
  rcases List.mem_append.1 ha with ha | ha <;> rcases List.mem_append.1 hb with hb | hb
  · rw [Catalog.run_fst] at ha hb
    have hn := Catalog.unique_sorted_nodup key items
    have hm : (Catalog.assignLoop key (Catalog.withExplicit key (Catalog.unique key items) (Catalog.readStable key [f])) res 0
        (Catalog.sort (Catalog.unique key items))).map key.of = (Catalog.sort (Catalog.unique key items)).map key.of := by
      have := congrArg (List.map fun p : Catalog.Text × List Catalog.Text × Int × Nat => key p.1 p.2.1)
        (Catalog.loop_map_key key (Catalog.withExplicit key (Catalog.unique key items) (Catalog.readStable key [f])) res 0
          (Catalog.sort (Catalog.unique key items)))
      rw [List.map_map, List.map_map] at this
      exact this
    rw [← hm] at hn
    rw [List.inj_on_of_nodup_map hn ha hb (Catalog.of_eq_of_same hs)]
  · exact outRem ha hb hs
  · exact (outRem hb ha (Catalog.same_symm hs)).symm
  · have h1 := rem ha
    rw [Catalog.of_eq_of_same hs, rem hb] at h1
    rw [Option.some.inj h1]

/-- No id is there for two messages. -/
theorem entries_one_message (hc : Catalog.NoCollision key (f ++ items))
    (h1 : Catalog.OneMessagePerId (f ++ Catalog.explicit items)) :
    Catalog.OneMessagePerId (entries key f res forget items) := by
  have rem : ∀ {v : Item}, v ∈ remembered key f forget items → v ∈ f ++ Catalog.explicit items := by
    intro v hv
    rw [remembered] at hv
    split at hv
    · cases hv
    · exact Catalog.stable_values hv
  intro a ha b hb hid
  rcases List.mem_append.1 hb with hb | hb
  · exact entry_same hc h1 hb (List.mem_append.1 ha) hid
  · rcases List.mem_append.1 ha with ha | ha
    · exact Catalog.same_symm (entry_same hc h1 ha (.inr hb) hid.symm)
    · exact h1 a (rem ha) b (rem hb) hid

/-- What is in the stable file is in the JSON file. -/
theorem entries_keep (hc : Catalog.NoCollision key (f ++ items)) (hone : Catalog.OneIdPerMessage f)
    (hexp : ∀ i ∈ Catalog.explicit items, ∀ y ∈ f, same i y → i.id = y.id) {x : Item} (hx : x ∈ f) :
    ∃ v ∈ entries key f res false items, same v x ∧ v.id = x.id := by
  have hwf := Catalog.wf_withExplicit (key := key) (Catalog.wf_readStable key [f]) (Catalog.unique key items)
  have key' : ∃ v, (Catalog.withExplicit key (Catalog.unique key items) (Catalog.readStable key [f])).get? (key.of x) = some v ∧
      same v x ∧ v.id = x.id := by
    by_cases h : ∃ m ∈ (Catalog.unique key items).filter fun m => m.id ≠ -1, key.of m = key.of x
    · obtain ⟨m, hm, hk⟩ := h
      obtain ⟨v, hv, hg, hk'⟩ := Catalog.addAll_has key (Catalog.readStable key [f]) _ hm
      rw [List.mem_filter] at hv
      have hvi := Catalog.mem_unique hv.1
      have hs : same v x := hc v (List.mem_append_right _ hvi) x (List.mem_append_left _ hx) (hk'.trans hk)
      refine ⟨v, by rw [← hk]; exact hg, hs, hexp v (Catalog.mem_explicit.2 ⟨hvi, by simpa using hv.2⟩) x hx hs⟩
    · rw [Catalog.withExplicit, Catalog.addAll_old _ _ _ fun m hm hk => h ⟨m, hm, hk⟩]
      obtain ⟨s, hs, hg, hk⟩ := Catalog.addAll_has key [] f hx
      have hsame := hc s (List.mem_append_left _ hs) x (List.mem_append_left _ hx) hk
      exact ⟨s, hg, hsame, hone s hs x hx hsame⟩
  obtain ⟨v, hg, hs, hid⟩ := key'
  refine ⟨v, List.mem_append_right _ ?_, hs, hid⟩
  rw [remembered, if_neg (by simp)]
  exact (Catalog.value_of_get? hwf hg).1

/-- Modules have no arguments. -/
theorem entries_args (h : ∀ i ∈ f ++ items, i.args = []) {v : Item} (hv : v ∈ entries key f res forget items) : v.args = [] := by
  rcases List.mem_append.1 hv with hv | hv
  · rw [Catalog.run_fst] at hv
    obtain ⟨i, hi, he, -⟩ := Catalog.loop_mem hv
    rw [he]
    exact h i (List.mem_append_right _ (Catalog.mem_unique ((Catalog.sort_perm _).mem_iff.1 hi)))
  · rw [remembered] at hv
    split at hv
    · cases hv
    · rcases List.mem_append.1 (Catalog.stable_values hv) with h' | h'
      · exact h v (List.mem_append_left _ h')
      · exact h v (List.mem_append_right _ (Catalog.mem_explicit.1 h').1)

end

theorem no_args (C : Coding) (ds : List Json.Module) (ms : List Symbols.Module) :
    ∀ i ∈ ds.map (ofJsonMod C) ++ ms.map (ofSymbolMod C), i.args = [] := by
  intro i hi
  rcases List.mem_append.1 hi with hi | hi <;> obtain ⟨_, -, rfl⟩ := List.mem_map.1 hi <;> rfl

/-! ## The JSON file read by the next build -/

theorem ofJson_toJson {m m' : Json.Message} (h : Json.Message.ofJson m.toJson = some m') :
    m'.text = m.text ∧ m'.args = m.args ∧ m'.id = m.id := by
  have h1 : (m.args.map J.str).mapM J.str? = some m.args := Json.mapM_id fun _ _ => rfl
  have g1 : m.toJson.get t!"msg" = some (.str m.text) := rfl
  have g2 : m.toJson.get t!"arg_types" = some (.arr (m.args.map J.str)) := rfl
  have g3 : m.toJson.get t!"id" = some (.int m.id) := rfl
  rw [Json.Message.ofJson] at h
  simp only [g1, g2, g3, Option.bind_some, J.str?, J.arr?, J.int?, h1] at h
  rw [Option.bind_eq_some_iff] at h
  obtain ⟨named, -, h⟩ := h
  rw [Option.map_eq_some_iff] at h
  obtain ⟨tags, -, rfl⟩ := h
  exact ⟨rfl, rfl, rfl⟩

theorem readStable_one {file : List (PyKey × J)} (hnd : (file.map Prod.fst).Nodup) {l l' : List J}
    (g1 : (J.obj file).get t!"messages" = some (.arr l)) (g2 : (J.obj file).get t!"modules" = some (.arr l'))
    {r : List Json.Message × List Json.Module} (h : Json.readStable [file] = some r) :
    l.mapM Json.Message.ofJson = some r.1 ∧ l'.mapM Json.Module.ofJson = some r.2 := by
  rw [J.get] at g1 g2
  have up : ∀ {k : Text} {v : J}, dget file (.str k) = some v →
      dget (dupdate [(.str t!"messages", .arr []), (.str t!"modules", .arr [])] file) (.str k) = some v := by
    intro k v hv
    obtain ⟨w, hw, hg⟩ := Json.dget_dupdate_some [(PyKey.str t!"messages", J.arr []), (.str t!"modules", .arr [])]
      (es := file) (k := .str k) ⟨_, Json.mem_of_dget hv, rfl⟩
    rw [hg, Json.nodup_mem hnd hw (Json.mem_of_dget hv)]
  rw [Json.readStable] at h
  dsimp only [List.foldl_cons, List.foldl_nil] at h
  rw [up g1, up g2] at h
  simp only [Option.bind_some, J.arr?] at h
  rw [Option.bind_eq_some_iff] at h
  obtain ⟨ms, hms, h⟩ := h
  rw [Option.map_eq_some_iff] at h
  obtain ⟨ds, hds, rfl⟩ := h
  exact ⟨hms, hds⟩

/-- The same message or module with the same id. -/
def SameEntry (a b : Item) : Prop := same a b ∧ a.id = b.id

/-- The entries of messages in the JSON file of a build, and what the next build reads. -/
theorem next_reads {C : Coding} {b : Build} (hb : b.Done C) {file : List (PyKey × J)}
    (hfile : (J.obj b.out.json).file = .obj file) {r : List Json.Message × List Json.Module}
    (hr : Json.readStable [file] = some r) :
    ∃ s es, Json.readStable b.x.stable = some s ∧ b.x.symbols.mapM Symbols.readLine = some es ∧
      (∀ y, (∃ v ∈ r.1.map (ofJson C), SameEntry v y) ↔
        ∃ v ∈ entries (Catalog.msgKey b.hash) (s.1.map (ofJson C)) b.x.reserved b.x.forget
          ((es.filterMap messageOf?).map (ofSymbol C)), SameEntry v y) ∧
      ∀ y : Item, y.args = [] → ((∃ v ∈ r.2.map (ofJsonMod C), SameEntry v y) ↔
        ∃ v ∈ entries (Catalog.modKey b.hash) (s.2.map (ofJsonMod C)) [] b.x.forget
          ((es.filterMap moduleOf?).map (ofSymbolMod C)), SameEntry v y) := by
  obtain ⟨hs, hx⟩ := hb
  obtain ⟨s, es, h1, h2, h3, h4, h5, h6⟩ := script_some hs
  have hex : ∀ y ∈ b.x.extras, Json.Extra y := fun y hy => (hx.extras y hy).1
  obtain ⟨l, hl, hlm⟩ := file_messages h6 hex fun y hy => (hx.extras y hy).2.1
  obtain ⟨l', hl', hlm'⟩ := file_modules h6 hex fun y hy => (hx.extras y hy).2.2
  have hnd : (file.map Prod.fst).Nodup := by
    rw [J.file] at hfile
    cases hfile
    exact Json.nodup_dupdate (by simp) _
  rw [hfile] at hl hl'
  obtain ⟨q1, q2⟩ := readStable_one hnd hl hl' hr
  obtain ⟨m1, m2⟩ := mapM_mem q1
  obtain ⟨n1, n2⟩ := mapM_mem q2
  refine ⟨s, es, h1, h2, fun y => ?_, fun y hy => ?_⟩
  · have hin : ∀ v, v ∈ entries (Catalog.msgKey b.hash) (s.1.map (ofJson C)) b.x.reserved b.x.forget
        ((es.filterMap messageOf?).map (ofSymbol C)) → (toJson C v).toJson ∈ l := by
      intro v hv
      refine (hlm _).2 ⟨_, ?_, rfl⟩
      rw [← List.map_append, h3]
      exact List.mem_map_of_mem hv
    constructor
    · rintro ⟨v, hv, hvy⟩
      obtain ⟨m', hm', rfl⟩ := List.mem_map.1 hv
      obtain ⟨j, hj, hjm⟩ := m2 m' hm'
      obtain ⟨m, hm, rfl⟩ := (hlm j).1 hj
      rw [← List.map_append, h3] at hm
      obtain ⟨w, hw, rfl⟩ := List.mem_map.1 hm
      obtain ⟨e1, e2, e3⟩ := ofJson_toJson hjm
      exact ⟨w, hw, ⟨e1.symm.trans hvy.1.1, e2.symm.trans hvy.1.2⟩, e3.symm.trans hvy.2⟩
    · rintro ⟨v, hv, hvy⟩
      obtain ⟨m', hm', hj⟩ := m1 _ (hin v hv)
      obtain ⟨e1, e2, e3⟩ := ofJson_toJson hj
      exact ⟨_, List.mem_map_of_mem hm', ⟨e1.trans hvy.1.1, e2.trans hvy.1.2⟩, e3.trans hvy.2⟩
  · have hin : ∀ v, v ∈ entries (Catalog.modKey b.hash) (s.2.map (ofJsonMod C)) [] b.x.forget
        ((es.filterMap moduleOf?).map (ofSymbolMod C)) → (toJsonMod v).toJson ∈ l' := by
      intro v hv
      refine (hlm' _).2 ⟨_, ?_, rfl⟩
      rw [← List.map_append, h4]
      exact List.mem_map_of_mem hv
    constructor
    · rintro ⟨v, hv, hvy⟩
      obtain ⟨m', hm', rfl⟩ := List.mem_map.1 hv
      obtain ⟨j, hj, hjm⟩ := n2 m' hm'
      obtain ⟨m, hm, rfl⟩ := (hlm' j).1 hj
      rw [← List.map_append, h4] at hm
      obtain ⟨w, hw, rfl⟩ := List.mem_map.1 hm
      rw [Json.Module.round] at hjm
      cases hjm
      refine ⟨w, hw, ⟨hvy.1.1, ?_⟩, hvy.2⟩
      rw [hy]
      exact entries_args (no_args C _ _) hw
    · rintro ⟨v, hv, hvy⟩
      obtain ⟨m', hm', hj⟩ := n1 _ (hin v hv)
      rw [Json.Module.round] at hj
      cases hj
      exact ⟨_, List.mem_map_of_mem hm', ⟨hvy.1.1, hy.symm⟩, hvy.2⟩

/-! ## What the file of a build knows -/

/-- The file of a build has an entry with the text, the arguments and the id of this message. -/
def KnowsMsg (C : Coding) (b : Build) (y : Item) : Prop :=
  ∃ s es, Json.readStable b.x.stable = some s ∧ b.x.symbols.mapM Symbols.readLine = some es ∧
    ∃ v ∈ entries (Catalog.msgKey b.hash) (s.1.map (ofJson C)) b.x.reserved b.x.forget
      ((es.filterMap messageOf?).map (ofSymbol C)), SameEntry v y

@[inherit_doc KnowsMsg]
def KnowsMod (C : Coding) (b : Build) (y : Item) : Prop :=
  ∃ s es, Json.readStable b.x.stable = some s ∧ b.x.symbols.mapM Symbols.readLine = some es ∧
    ∃ v ∈ entries (Catalog.modKey b.hash) (s.2.map (ofJsonMod C)) [] b.x.forget
      ((es.filterMap moduleOf?).map (ofSymbolMod C)), SameEntry v y

section
variable {C : Coding} {a b c : Build}

theorem knows_out (hb : b.Done C) :
    (∀ o ∈ b.out.messages, KnowsMsg C b o) ∧ ∀ o ∈ b.out.modules, KnowsMod C b o ∧ o.args = [] := by
  obtain ⟨s, es, h1, h2, h3, h4, -, -⟩ := script_some hb.1
  refine ⟨fun o ho => ⟨s, es, h1, h2, o, List.mem_append_left _ (h3 ▸ ho), ⟨rfl, rfl⟩, rfl⟩, fun o ho => ?_⟩
  rw [h4] at ho
  exact ⟨⟨s, es, h1, h2, o, List.mem_append_left _ ho, ⟨rfl, rfl⟩, rfl⟩,
    entries_args (no_args C _ _) (List.mem_append_left (bs := remembered _ _ b.x.forget _) ho)⟩

theorem knows_next (hb : b.Done C) (hn : b.Next C c) (hc : c.Done C) :
    (∀ y, KnowsMsg C b y → KnowsMsg C c y) ∧ ∀ y : Item, y.args = [] → KnowsMod C b y → KnowsMod C c y := by
  obtain ⟨file, hfile, hst⟩ := hn.stable
  obtain ⟨r, es', hr, he', -⟩ := script_some hc.1
  obtain ⟨k1, k2, -⟩ := hc.2.stable r hr es' he'
  obtain ⟨x1, x2⟩ := hn.explicit r hr es' he'
  have hr' := hr
  rw [hst] at hr'
  obtain ⟨s, es, h1, h2, i1, i2⟩ := next_reads hb hfile hr'
  constructor
  · rintro y ⟨s', es0, q1, q2, hy⟩
    rw [h1] at q1
    rw [h2] at q2
    cases q1
    cases q2
    obtain ⟨v, hv, hvy⟩ := (i1 y).2 hy
    have hone : Catalog.OneIdPerMessage (r.1.map (ofJson C)) := by
      intro p hp q hq hpq
      obtain ⟨p', hp', e1⟩ := (i1 p).1 ⟨p, hp, ⟨rfl, rfl⟩, rfl⟩
      obtain ⟨q', hq', e2⟩ := (i1 q).1 ⟨q, hq, ⟨rfl, rfl⟩, rfl⟩
      rw [← e1.2, ← e2.2]
      exact entries_one_id p' hp' q' hq'
        (Catalog.same_trans e1.1 (Catalog.same_trans hpq (Catalog.same_symm e2.1)))
    obtain ⟨w, hw, e1, e2⟩ := entries_keep (res := c.x.reserved) k1 hone x1 hv
    rw [← hn.remembers] at hw
    exact ⟨r, es', hr, he', w, hw, Catalog.same_trans e1 hvy.1, e2.trans hvy.2⟩
  · rintro y hya ⟨s', es0, q1, q2, hy⟩
    rw [h1] at q1
    rw [h2] at q2
    cases q1
    cases q2
    obtain ⟨v, hv, hvy⟩ := (i2 y hya).2 hy
    have ha : ∀ p ∈ r.2.map (ofJsonMod C), p.args = [] := fun p hp => by
      obtain ⟨_, -, rfl⟩ := List.mem_map.1 hp
      rfl
    have hone : Catalog.OneIdPerMessage (r.2.map (ofJsonMod C)) := by
      intro p hp q hq hpq
      obtain ⟨p', hp', e1⟩ := (i2 p (ha p hp)).1 ⟨p, hp, ⟨rfl, rfl⟩, rfl⟩
      obtain ⟨q', hq', e2⟩ := (i2 q (ha q hq)).1 ⟨q, hq, ⟨rfl, rfl⟩, rfl⟩
      rw [← e1.2, ← e2.2]
      exact entries_one_id p' hp' q' hq'
        (Catalog.same_trans e1.1 (Catalog.same_trans hpq (Catalog.same_symm e2.1)))
    obtain ⟨w, hw, e1, e2⟩ := entries_keep (res := []) k2 hone x2 hv
    rw [← hn.remembers] at hw
    exact ⟨r, es', hr, he', w, hw, Catalog.same_trans e1 hvy.1, e2.trans hvy.2⟩

theorem history_done (h : a.History C b) : a.Done C ∧ b.Done C := by
  induction h with
  | here h => exact ⟨h, h⟩
  | next _ _ hc ih => exact ⟨ih.1, hc⟩

theorem knows_history (h : a.History C b) :
    (∀ y, KnowsMsg C a y → KnowsMsg C b y) ∧ ∀ y : Item, y.args = [] → KnowsMod C a y → KnowsMod C b y := by
  induction h with
  | here h => exact ⟨fun _ h => h, fun _ _ h => h⟩
  | next hab hn hc ih =>
    obtain ⟨h1, h2⟩ := knows_next (history_done hab).2 hn hc
    exact ⟨fun y hy => h1 y (ih.1 y hy), fun y ha hy => h2 y ha (ih.2 y ha hy)⟩

/-- An id and a message belong together. -/
theorem knows_iff (hb : b.Done C) {y z : Item} (hy : KnowsMsg C b y) (hz : KnowsMsg C b z) : y.id = z.id ↔ same y z := by
  obtain ⟨s, es, q1, q2, v, hv, e1⟩ := hy
  obtain ⟨s', es', q3, q4, w, hw, e2⟩ := hz
  rw [q1] at q3
  rw [q2] at q4
  cases q3
  cases q4
  obtain ⟨k1, -, k3, -, -⟩ := hb.2.stable s q1 es q2
  constructor
  · intro h
    have := entries_one_message (res := b.x.reserved) (forget := b.x.forget) k1 k3 v hv w hw (e1.2.trans (h.trans e2.2.symm))
    exact Catalog.same_trans (Catalog.same_symm e1.1) (Catalog.same_trans this e2.1)
  · intro h
    have := entries_one_id v hv w hw (Catalog.same_trans e1.1 (Catalog.same_trans h (Catalog.same_symm e2.1)))
    exact e1.2.symm.trans (this.trans e2.2)

@[inherit_doc knows_iff]
theorem knows_mod_iff (hb : b.Done C) {y z : Item} (hy : KnowsMod C b y) (hz : KnowsMod C b z) : y.id = z.id ↔ same y z := by
  obtain ⟨s, es, q1, q2, v, hv, e1⟩ := hy
  obtain ⟨s', es', q3, q4, w, hw, e2⟩ := hz
  rw [q1] at q3
  rw [q2] at q4
  cases q3
  cases q4
  obtain ⟨-, k1, -, k3, -⟩ := hb.2.stable s q1 es q2
  constructor
  · intro h
    have := entries_one_message (res := []) (forget := b.x.forget) k1 k3 v hv w hw (e1.2.trans (h.trans e2.2.symm))
    exact Catalog.same_trans (Catalog.same_symm e1.1) (Catalog.same_trans this e2.1)
  · intro h
    have := entries_one_id v hv w hw (Catalog.same_trans e1.1 (Catalog.same_trans h (Catalog.same_symm e2.1)))
    exact e1.2.symm.trans (this.trans e2.2)

/-- The decoder finds what the file knows. -/
theorem knows_db (hb : b.Done C) : ∃ db, loadDb (J.obj b.out.json).file = some db ∧ db.file = (J.obj b.out.json).file ∧
    (∀ y, KnowsMsg C b y → ∃ m : Json.Message, dget db.messages y.id = some m.toJson ∧ m.text = y.text ∧ m.args = y.args) ∧
    ∀ y, KnowsMod C b y → ∃ d : Json.Module, dget db.modules y.id = some d.toJson ∧ d.text = y.text := by
  have hx := hb.2
  obtain ⟨s, es, h1, h2, h3, h4, h5, h6⟩ := script_some hb.1
  have hex : ∀ y ∈ b.x.extras, Json.Extra y := fun y hy => (hx.extras y hy).1
  obtain ⟨l, hl, hlm⟩ := file_messages h6 hex fun y hy => (hx.extras y hy).2.1
  obtain ⟨l', hl', hlm'⟩ := file_modules h6 hex fun y hy => (hx.extras y hy).2.2
  rw [← List.map_append, h3] at hlm
  rw [← List.map_append, h4] at hlm'
  obtain ⟨ms, hms, hget⟩ := byId_get (f := Json.Message.toJson) (g := fun m => m.id) (fun a => rfl) hlm
  obtain ⟨ds, hds, hget'⟩ := byId_get (f := Json.Module.toJson) (g := fun m => m.id) (fun a => rfl) hlm'
  refine ⟨⟨ms, ds, (J.obj b.out.json).file⟩, ?_, rfl, ?_, ?_⟩
  · rw [loadDb, hl, hl']
    simp only [Option.bind_some, J.arr?, hms, hds, Option.map_some]
  · rintro y ⟨s', es', q1, q2, v, hv, e⟩
    rw [h1] at q1
    rw [h2] at q2
    cases q1
    cases q2
    obtain ⟨m, hm, hid, hd⟩ := hget (toJson C v) (List.mem_map_of_mem hv)
    obtain ⟨w, hw, rfl⟩ := List.mem_map.1 hm
    have := (knows_iff hb (y := w) (z := v) ⟨s, es, h1, h2, w, hw, ⟨rfl, rfl⟩, rfl⟩
      ⟨s, es, h1, h2, v, hv, ⟨rfl, rfl⟩, rfl⟩).1 hid
    refine ⟨toJson C w, ?_, this.1.trans e.1.1, this.2.trans e.1.2⟩
    rw [← e.2]
    exact hd
  · rintro y ⟨s', es', q1, q2, v, hv, e⟩
    rw [h1] at q1
    rw [h2] at q2
    cases q1
    cases q2
    obtain ⟨m, hm, hid, hd⟩ := hget' (toJsonMod v) (List.mem_map_of_mem hv)
    obtain ⟨w, hw, rfl⟩ := List.mem_map.1 hm
    have := (knows_mod_iff hb (y := w) (z := v) ⟨s, es, h1, h2, w, hw, ⟨rfl, rfl⟩, rfl⟩
      ⟨s, es, h1, h2, v, hv, ⟨rfl, rfl⟩, rfl⟩).1 hid
    refine ⟨toJsonMod w, ?_, this.1.trans e.1.1⟩
    rw [← e.2]
    exact hd

theorem has_ids (hb : b.Done C) {names : Nat → Text} {s : Statement} (h : b.Has names s) :
    (∃ i, idOf b.out.messages (ofSymbol C (s.msg names)) = some i) ∧
      ∃ j, idOf b.out.modules (ofSymbolMod C s.modMsg) = some j := by
  obtain ⟨ss, hs, hl, ht, hr⟩ := h
  exact ids_of_lists hb.1 hb.2 hl hr ht s hs

end

/-! ## C167 -/

/-- **C167**: in a history of builds, a statement of an older and one of a newer build have the same message id exactly
when text and argument types are the same, and the same module id exactly when the modules are. -/
theorem C167_ids (C : Coding) (a b : Build) (h : a.History C b) (names : Nat → Text) (s t : Statement)
    (hs : a.Has names s) (ht : b.Has names t) :
    ∃ i i' j j', idOf a.out.messages (ofSymbol C (s.msg names)) = some i ∧
      idOf b.out.messages (ofSymbol C (t.msg names)) = some i' ∧
      idOf a.out.modules (ofSymbolMod C s.modMsg) = some j ∧ idOf b.out.modules (ofSymbolMod C t.modMsg) = some j' ∧
      (i = i' ↔ chars (fmtText s.fmt) = chars (fmtText t.fmt) ∧ (s.sym names).args = (t.sym names).args) ∧
      (j = j' ↔ chars s.module = chars t.module) := by
  obtain ⟨ha, hb⟩ := history_done h
  obtain ⟨⟨i, hi⟩, j, hj⟩ := has_ids ha hs
  obtain ⟨⟨i', hi'⟩, j', hj'⟩ := has_ids hb ht
  obtain ⟨ss, hss, -, -, hr⟩ := hs
  obtain ⟨tt, htt, -, -, hr'⟩ := ht
  have hr := hr s hss
  have hr' := hr' t htt
  refine ⟨i, i', j, j', hi, hi', hj, hj', ?_, ?_⟩
  · obtain ⟨o, ho, e1, e2, rfl⟩ := idOf_some hi
    obtain ⟨o', ho', e1', e2', rfl⟩ := idOf_some hi'
    rw [knows_iff hb ((knows_history h).1 o ((knows_out ha).1 o ho)) ((knows_out hb).1 o' ho')]
    simp only [same, e1, e2, e1', e2']
    constructor
    · rintro ⟨q1, q2⟩
      exact ⟨codes_inj hr.message.text hr'.message.text q1, map_code_inj q2⟩
    · rintro ⟨q1, q2⟩
      exact ⟨congrArg codes q1, congrArg (List.map code) q2⟩
  · obtain ⟨o, ho, e1, e2, rfl⟩ := idOf_some hj
    obtain ⟨o', ho', e1', e2', rfl⟩ := idOf_some hj'
    obtain ⟨k1, k2⟩ := (knows_out ha).2 o ho
    rw [knows_mod_iff hb ((knows_history h).2 o k2 k1) ((knows_out hb).2 o' ho').1]
    simp only [same, e1, e2, e1', e2']
    constructor
    · rintro ⟨q1, -⟩
      exact codes_inj hr.module hr'.module q1
    · intro q1
      exact ⟨congrArg codes q1, rfl⟩

/-- **C167**: a log to which programs of several builds have written, one after the other or in any order, is shown
with the JSON file of the newest build: each line says what the statement said that wrote it. Part of the claim:
`Statement.Fine` as in `C153_program_partial`. -/
theorem C167_logs_partial (C : Coding) (b : Build) (names : Nat → Text) (log : List (Build × Statement))
    (h : ∀ p ∈ log, p.1.History C b ∧ IdsFit p.1.out ∧ p.1.Has names p.2 ∧ p.2.Fine b.x.enums names) (hb : b.Done C) :
    ∃ bss lines, (log.mapM fun p => p.2.record C p.1.out names) = some bss ∧
      (log.mapM fun p => p.2.line b.x.enums names) = some lines ∧
      decode (J.obj b.out.json).file bss.flatten = (lines, true) := by
  obtain ⟨db, h1, h2, h3, h4⟩ := knows_db hb
  have key : ∃ bss lines, (log.mapM fun p => p.2.record C p.1.out names) = some bss ∧
      (log.mapM fun p => p.2.line b.x.enums names) = some lines ∧ List.Forall₂ (Reads db) bss lines := by
    clear h1
    induction log with
    | nil => exact ⟨[], [], rfl, rfl, .nil⟩
    | cons p log ih =>
      obtain ⟨bss, lines, q0, q1, q2⟩ := ih fun t ht => h t (List.mem_cons_of_mem _ ht)
      obtain ⟨hh, hid, hhas, hf⟩ := h p List.mem_cons_self
      have hp := (history_done hh).1
      obtain ⟨⟨i, hi⟩, j, hj⟩ := has_ids hp hhas
      obtain ⟨-, -, -, -, -, h5⟩ := db_of_script hp.1 hp.2
      obtain ⟨bs, line, q3, q4, q5⟩ := record_line hid (names_of_script hb.1 hb.2 h2)
        (fun o ho => h3 o ((knows_history hh).1 o ((knows_out hp).1 o ho)))
        (fun o ho => h4 o ((knows_history hh).2 o ((knows_out hp).2 o ho).2 ((knows_out hp).2 o ho).1)) h5 hf hi hj
      exact ⟨bs :: bss, line :: lines, by rw [List.mapM_cons, q3, q0]; rfl, by rw [List.mapM_cons, q4, q1]; rfl,
        .cons q5 q2⟩
  obtain ⟨bss, lines, q0, q1, q2⟩ := key
  refine ⟨bss, lines, q0, q1, ?_⟩
  rw [decode, h1]
  exact readLogs_all q2 _ (Nat.le_refl _)

end Verif.Whole
