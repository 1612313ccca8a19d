import Verif.Whole.Spec
import Verif.Catalog.Props
import Verif.Json.Props
import Verif.Render.Props
import Verif.Log.Props
import Verif.Symbols.Props
/-! # Lemmas about the way of a log statement -/
namespace Verif.Whole
open Verif.Symbols (Text dec codes)
open Verif.Json (J PyKey Str code dget dupdate)
open Verif.Catalog (Item same)

/-! ## Texts -/

theorem chars_ascii {t : Text} (h : ∀ c ∈ t, c.toNat < 128) : chars t = t.map fun c => (c.toNat : Int) := by
  induction t with
  | nil => rfl
  | cons c t ih =>
    have hc : c.toNat < 128 := h c List.mem_cons_self
    have hc' : c.val.toNat ≤ 0x7f := by have : c.val.toNat < 128 := hc; omega
    rw [chars, List.flatMap_cons, ← chars, ih fun d hd => h d (List.mem_cons_of_mem _ hd)]
    simp only [String.utf8EncodeChar, if_pos hc', List.map_cons, List.map_nil, List.singleton_append, List.cons.injEq,
      and_true]
    have : (UInt8.ofNat c.val.toNat).toNat = c.toNat := by
      rw [UInt8.toNat_ofNat']
      exact Nat.mod_eq_of_lt (by omega)
    rw [this, if_pos hc]

theorem codes_chars {t : Text} (h : ∀ c ∈ t, c.toNat < 128) : codes (chars t) = code t := by
  rw [chars_ascii h, codes, code, List.map_map]
  rfl

theorem map_ofNat_code (t : Text) : (code t).map Char.ofNat = t := by
  rw [code, List.map_map]
  conv => rhs; rw [← List.map_id t]
  apply List.map_congr_left
  intro c _
  exact Char.ofNat_toNat c

/-! ## Ids -/

/-- All entries of the JSON file with the id of a message are this message. -/
theorem entry_same {key : Catalog.Key} {f items : List Item} {res : List (Nat × Nat)} {forget : Bool}
    (hc : Catalog.NoCollision key (f ++ items)) (h1 : Catalog.OneMessagePerId (f ++ Catalog.explicit items))
    {o v : Item} (ho : o ∈ (Catalog.run key [f] res forget items).1)
    (hv : v ∈ (Catalog.run key [f] res forget items).1 ∨ v ∈ remembered key f forget items) (hid : v.id = o.id) :
    same v o := by
  rcases hv with hv | hv
  · rw [Catalog.pairwise_eq (Catalog.C48_unique_partial key f items res forget h1) hv ho hid]
    exact ⟨rfl, rfl⟩
  · rw [remembered] at hv
    split at hv
    · cases hv
    rw [Catalog.run_fst] at ho
    obtain ⟨i, hi, he, hr⟩ := Catalog.loop_mem ho
    have hi' : i ∈ items := Catalog.mem_unique ((Catalog.sort_perm _).mem_iff.1 hi)
    have hwf := Catalog.wf_withExplicit (key := key) (Catalog.wf_readStable key [f]) (Catalog.unique key items)
    rcases hr with ⟨s, hs, e⟩ | ⟨_, k, _, e, ht⟩
    · obtain ⟨hsv, hsk⟩ := Catalog.value_of_get? hwf hs
      have hsm := Catalog.stable_values hsv
      have hvs : same v s := h1 v (Catalog.stable_values hv) s hsm (by rw [hid, e])
      have hsi : same s i := by
        refine hc s ?_ i (List.mem_append_right _ hi') hsk
        rcases List.mem_append.1 hsm with h | h
        · exact List.mem_append_left _ h
        · exact List.mem_append_right _ (Catalog.mem_explicit.1 h).1
      exact Catalog.same_trans (Catalog.same_trans hvs hsi) (Catalog.same_symm (Catalog.same_of_eq_id he))
    · rw [Catalog.taken, Bool.or_eq_false_iff, List.any_eq_false] at ht
      exact absurd (by rw [hid, e]; simp) (ht.1 v hv)

theorem idOf_some {out : List Item} {i : Item} {n : Int} (h : idOf out i = some n) :
    ∃ o ∈ out, o.text = i.text ∧ o.args = i.args ∧ o.id = n := by
  rw [idOf, Option.map_eq_some_iff] at h
  obtain ⟨o, ho, hn⟩ := h
  have h1 := List.find?_some ho
  simp only [decide_eq_true_eq, Item.cppType, Prod.mk.injEq] at h1
  exact ⟨o, List.mem_of_find?_eq_some ho, h1.1, h1.2.1, hn⟩

/-! ## The JSON file -/

theorem byId_get {α : Type} {l : List J} {f : α → J} {g : α → Int} (hg : ∀ a, ((f a).get t!"id").bind J.int? = some (g a))
    {as : List α} (hl : ∀ j, j ∈ l ↔ ∃ a ∈ as, j = f a) :
    ∃ d, byId l = some d ∧ ∀ a ∈ as, ∃ b ∈ as, g b = g a ∧ dget d (g a) = some (f b) := by
  have key : ∀ l : List J, (∀ j ∈ l, ∃ a ∈ as, j = f a) →
      ∃ r : List (Int × J), (l.mapM fun (m : J) => (m.get t!"id").bind J.int? |>.map fun i => (i, m)) = some r ∧
        (∀ e ∈ r, ∃ a ∈ as, e = (g a, f a)) ∧ ∀ a, f a ∈ l → (g a, f a) ∈ r := by
    intro l
    induction l with
    | nil =>
      intro _
      refine ⟨[], rfl, ?_, ?_⟩
      · intro e he
        cases he
      · intro a ha
        cases ha
    | cons j l ih =>
      intro h
      obtain ⟨r, h1, h2, h3⟩ := ih fun x hx => h x (List.mem_cons_of_mem _ hx)
      obtain ⟨a, ha, rfl⟩ := h j List.mem_cons_self
      refine ⟨(g a, f a) :: r, by rw [List.mapM_cons, h1, hg]; rfl, ?_, ?_⟩
      · intro e he
        rcases List.mem_cons.1 he with rfl | he
        · exact ⟨a, ha, rfl⟩
        · exact h2 e he
      · intro b hb
        rcases List.mem_cons.1 hb with hb | hb
        · have : g b = g a := by
            have h1 := hg b
            rw [hb, hg a] at h1
            exact (Option.some.inj h1).symm
          rw [hb, this]
          exact List.mem_cons_self
        · exact List.mem_cons_of_mem _ (h3 b hb)
  obtain ⟨r, h1, h2, h3⟩ := key l fun j hj => (hl j).1 hj
  refine ⟨dupdate [] r, by rw [byId, h1]; rfl, fun a ha => ?_⟩
  have hm := h3 a ((hl _).2 ⟨a, ha, rfl⟩)
  obtain ⟨v, hv, hd⟩ := Json.dget_dupdate_some [] (es := r) (k := g a) ⟨_, hm, rfl⟩
  obtain ⟨b, hb, e⟩ := h2 _ hv
  obtain ⟨e1, e2⟩ := Prod.mk.inj e
  exact ⟨b, hb, e1.symm, by rw [hd, e2]⟩

theorem file_messages {ms : List Json.Message} {ds : List Json.Module} {enums : List (Text × List (Text × Int))}
    {xs : List (List (PyKey × J))} {om : List Json.Message} {od : List Json.Module} {out : List (PyKey × J)}
    (h : Json.writeJson ms ds enums xs om od = some out) (hx : ∀ y ∈ xs, Json.Extra y)
    (h1 : ∀ y ∈ xs, Json.Without t!"messages" y) :
    ∃ l, (J.obj out).file.get t!"messages" = some (.arr l) ∧ ∀ j, j ∈ l ↔ ∃ m ∈ ms ++ om, j = m.toJson := by
  have hl : ∀ j, j ∈ Json.addNew (ms.map Json.Message.toJson) (om.map Json.Message.toJson) ↔
      ∃ m ∈ ms ++ om, j = m.toJson := by
    intro j
    rw [Json.mem_addNew, List.mem_map, List.mem_map]
    constructor
    · rintro (⟨m, hm, rfl⟩ | ⟨m, hm, rfl⟩)
      · exact ⟨m, List.mem_append_left _ hm, rfl⟩
      · exact ⟨m, List.mem_append_right _ hm, rfl⟩
    · rintro ⟨m, hm, rfl⟩
      exact (List.mem_append.1 hm).imp (fun h => ⟨m, h, rfl⟩) fun h => ⟨m, h, rfl⟩
  refine ⟨_, ?_, hl⟩
  rw [Json.out_get h hx (by decide), Json.fold_without h1, Json.base_messages, Option.map_some, Json.file_arr]
  intro j hj
  obtain ⟨m, _, rfl⟩ := (hl j).1 hj
  exact m.loaded

theorem file_modules {ms : List Json.Message} {ds : List Json.Module} {enums : List (Text × List (Text × Int))}
    {xs : List (List (PyKey × J))} {om : List Json.Message} {od : List Json.Module} {out : List (PyKey × J)}
    (h : Json.writeJson ms ds enums xs om od = some out) (hx : ∀ y ∈ xs, Json.Extra y)
    (h1 : ∀ y ∈ xs, Json.Without t!"modules" y) :
    ∃ l, (J.obj out).file.get t!"modules" = some (.arr l) ∧ ∀ j, j ∈ l ↔ ∃ m ∈ ds ++ od, j = m.toJson := by
  have hl : ∀ j, j ∈ Json.addNew (ds.map Json.Module.toJson) (od.map Json.Module.toJson) ↔
      ∃ m ∈ ds ++ od, j = m.toJson := by
    intro j
    rw [Json.mem_addNew, List.mem_map, List.mem_map]
    constructor
    · rintro (⟨m, hm, rfl⟩ | ⟨m, hm, rfl⟩)
      · exact ⟨m, List.mem_append_left _ hm, rfl⟩
      · exact ⟨m, List.mem_append_right _ hm, rfl⟩
    · rintro ⟨m, hm, rfl⟩
      exact (List.mem_append.1 hm).imp (fun h => ⟨m, h, rfl⟩) fun h => ⟨m, h, rfl⟩
  refine ⟨_, ?_, hl⟩
  rw [Json.out_get h hx (by decide), Json.fold_without h1, Json.base_modules, Option.map_some, Json.file_arr]
  intro j hj
  obtain ⟨m, _, rfl⟩ := (hl j).1 hj
  exact m.loaded

/-! ## Arguments -/

theorem primOf_text (p : Log.Prim) : ∃ q, primOf (Render.primText p) = some q ∧
    ∀ bs, Log.convert q bs = Log.convert p bs := by
  cases p with
  | char s => exact ⟨.char true, by rfl, fun bs => rfl⟩
  | long s => exact ⟨.long 4, by rfl, fun bs => rfl⟩
  | ulong s => exact ⟨.ulong 4, by rfl, fun bs => rfl⟩
  | schar => exact ⟨_, by decide, fun bs => rfl⟩
  | uchar => exact ⟨_, by decide, fun bs => rfl⟩
  | bool => exact ⟨_, by decide, fun bs => rfl⟩
  | short => exact ⟨_, by decide, fun bs => rfl⟩
  | ushort => exact ⟨_, by decide, fun bs => rfl⟩
  | int => exact ⟨_, by decide, fun bs => rfl⟩
  | uint => exact ⟨_, by decide, fun bs => rfl⟩
  | llong => exact ⟨_, by decide, fun bs => rfl⟩
  | ullong => exact ⟨_, by decide, fun bs => rfl⟩
  | float => exact ⟨_, by decide, fun bs => rfl⟩
  | double => exact ⟨_, by decide, fun bs => rfl⟩

theorem primOf_none {t : Text} (h : t ∉ typeNames) : primOf t = none := by
  simp only [typeNames, List.mem_cons, List.not_mem_nil, or_false, not_or] at h
  obtain ⟨h1, h2, h3, h4, h5, h6, h7, h8, h9, h10, h11, h12, h13, h14⟩ := h
  rw [primOf]
  simp only [h1, h2, h3, h4, h5, h6, h7, h8, h9, h10, h11, h12, h13, h14, if_false]

/-- The names of enumerations in a type. -/
def TagOk (names : Nat → Text) (t : Log.Tag) : Prop :=
  ∀ e, Render.tagEnum t = some e → '<' ∉ names e ∧ ',' ∉ names e ∧ names e ∉ typeNames

theorem objOf_val (db : Render.Enums) (names : Nat → Text) (v : Log.PyVal) :
    Render.toPy db names (.val v) = objOf v := by
  cases v <;> rfl

theorem plain_prim (db : J) (names : Nat → Text) (p : Log.Prim) {n : Nat} {u : Log.Prim} (bs : List Nat) :
    extractPlain db n u (Render.primText p) bs = ((Log.convert p (bs.take n)).map fun v => (Log.Decoded.val v, bs.drop n)).map
      fun r => (Render.toPy (Json.enumName db) names r.1, r.2) := by
  obtain ⟨q, h1, h2⟩ := primOf_text p
  simp only [extractPlain, h1, h2, Option.map_map]
  congr 1
  funext v
  simp only [Function.comp, objOf_val]

theorem plain_user (db : J) (names : Nat → Text) (n : Nat) (u : Log.Prim) {e : Nat} (h : names e ∉ typeNames) (bs : List Nat) :
    extractPlain db n u (names e) bs = ((Log.convert u (bs.take n)).map fun v => (Log.Decoded.enum e v, bs.drop n)).map
      fun r => (Render.toPy (Json.enumName db) names r.1, r.2) := by
  simp only [extractPlain, primOf_none h, Option.map_map]
  congr 1

theorem extractArg_text (db : J) (names : Nat → Text) {t : Log.Tag} (h : TagOk names t) (bs : List Nat) :
    extractArg db (Render.tagText names t) bs =
      (Log.extractArg t bs).map fun r => (Render.toPy (Json.enumName db) names r.1, r.2) := by
  have hr := Render.C142_types_partial names t fun e he => ⟨(h e he).1, (h e he).2.1⟩
  rw [extractArg, hr]
  cases t with
  | enum e p n =>
    obtain ⟨q, h1, h2⟩ := primOf_text p
    simp only [Render.wantedArg, Option.bind_some, h1, h2, Log.extractArg, Option.map_map]
    rw [if_neg (by omega)]
    congr 1
  | e32 s =>
    cases s with
    | prim p => exact plain_prim db names p bs
    | user e => exact plain_user db names 4 .uint (h e rfl).2.2 bs
  | u32 s =>
    cases s with
    | prim p => exact plain_prim db names p bs
    | user e => exact plain_user db names 4 .uint (h e rfl).2.2 bs
  | e64 s =>
    cases s with
    | prim p => exact plain_prim db names p bs
    | user e => exact plain_user db names 8 .ullong (h e rfl).2.2 bs
  | u64 s =>
    cases s with
    | prim p => exact plain_prim db names p bs
    | user e => exact plain_user db names 8 .ullong (h e rfl).2.2 bs

theorem extractArgs_text (db : J) (names : Nat → Text) {ts : List Log.Tag} (h : ∀ t ∈ ts, TagOk names t) (bs : List Nat) :
    extractArgs db (ts.map (Render.tagText names)) bs =
      (Log.extractArgs ts bs).map fun r => (r.1.map (Render.toPy (Json.enumName db) names), r.2) := by
  induction ts generalizing bs with
  | nil => rfl
  | cons t ts ih =>
    have ih := fun bs => ih (fun t ht => h t (List.mem_cons_of_mem _ ht)) bs
    rw [List.map_cons, extractArgs, extractArg_text db names (h t List.mem_cons_self)]
    simp only [Log.extractArgs, Option.bind_eq_bind]
    cases Log.extractArg t bs with
    | none => rfl
    | some r =>
      simp only [Option.map_some, Option.bind_some, ih]
      cases Log.extractArgs ts r.2 with
      | none => rfl
      | some rs => rfl

end Verif.Whole
