import Verif.Log.StreamProps

/-! # Joining log files -/
namespace Verif.Log

theorem Stream.append {db : Db} {p q : List Nat} {xs ys : List Rec} (hp : Stream db p xs) (hq : Stream db q ys) :
    Stream db (p ++ q) (xs ++ ys) := by
  induction hp with
  | nil => exact hq
  | cons h _ ih => rw [List.append_assoc]; exact .cons h ih

theorem Stream.accepted {db : Db} {p q : List Nat} {xs ys : List Rec} (hp : Stream db p xs) (hq : Accepted db q ys) :
    Accepted db (p ++ q) (xs ++ ys) := by
  induction hp with
  | nil => exact hq
  | cons h _ ih => rw [List.append_assoc]; exact .cons h ih

theorem bytes_append {p q : List Nat} (hp : Bytes p) (hq : Bytes q) : Bytes (p ++ q) := by
  intro b hb
  rcases List.mem_append.1 hb with h | h
  · exact hp b h
  · exact hq b h

theorem Stream.join {db : Db} {p : List Nat} {xs : List Rec} (hp : Stream db p xs) (h : Bytes p) (q : List Nat)
    (hq : Bytes q) : decode db (p ++ q) = (xs ++ (decode db q).1, (decode db q).2) := by
  rcases accepted_or db q hq with ⟨ys, ha⟩ | ⟨r, s, ys, rfl, hs, hu⟩
  · rw [(C171_exact db q hq ys).2 ha]
    exact (C171_exact db _ (bytes_append h hq) _).2 (hp.accepted ha)
  · rw [(C171_stops db _ hq ys).2 ⟨r, s, rfl, hs, hu⟩]
    exact (C171_stops db _ (bytes_append h hq) _).2 ⟨p ++ r, s, (List.append_assoc ..).symm, hp.append hs, hu⟩

theorem width_grow {p : Prim} {n m : Nat} (h : width p n ≤ n) (hm : n < m) : width p m ≤ m := by
  cases p <;> simp only [width] at h ⊢ <;> (try split at h) <;> (try split) <;> omega

theorem ArgsCut.complete {ts : List Tag} {p : List Nat} {ds : List Decoded} (h : ArgsCut ts p ds) :
    ∃ k ds', ArgsAre ts (p ++ List.replicate (k + 1) 0) ds' := by
  induction h with
  | @last t p d h1 h2 =>
    have hl : (p ++ List.replicate (t.size - p.length - 1 + 1) 0).length = t.size := by
      rw [List.length_append, List.length_replicate]
      omega
    have := ArgsAre.cons (q := []) hl ⟨by rw [hl]; exact width_grow h2.1 h1, rfl⟩ .nil
    rw [List.append_nil] at this
    exact ⟨t.size - p.length - 1, _, this⟩
  | @cons t ts p q d ds h1 h2 h3 ih =>
    obtain ⟨k, ds', h⟩ := ih
    exact ⟨k, d :: ds', by rw [List.append_assoc]; exact .cons h1 h2 h⟩

theorem CutRec.complete {db : Db} {p : List Nat} {x : Rec} (h : CutRec db p x) :
    ∃ k y, IsRec db (p ++ List.replicate (k + 1) 0) y := by
  obtain ⟨h, i, q, sv, mo, un, a, b, c, tags, ds, rfl, hh, hi, hv, h1, h2, h3, h4, h5, h6, hm, ht, hA, rfl⟩ := h
  obtain ⟨k, ds', hA'⟩ := hA.complete
  exact ⟨k, _, .catalog ⟨h, i, q ++ List.replicate (k + 1) 0, sv, mo, un, a, b, c, tags, ds',
    by rw [List.append_assoc, List.append_assoc], hh, hi, hv, h1, h2, h3, h4, h5, h6, hm, ht, hA', rfl⟩⟩

theorem Accepted.stream {db : Db} {p : List Nat} {xs : List Rec} (h : Accepted db p xs) :
    Stream db p xs ∨ ∃ k ys, Stream db (p ++ List.replicate (k + 1) 0) ys := by
  induction h with
  | nil => exact .inl .nil
  | cut hc =>
    obtain ⟨k, y, h⟩ := hc.complete
    refine .inr ⟨k, [y], ?_⟩
    have := Stream.cons h .nil
    rwa [List.append_nil] at this
  | cons h1 _ ih =>
    rcases ih with ih | ⟨k, ys, ih⟩
    · exact .inl (.cons h1 ih)
    · exact .inr ⟨k, _, by rw [List.append_assoc]; exact .cons h1 ih⟩

theorem decode_zeros (db : Db) (k : Nat) : decode db (List.replicate (k + 1) 0) = ([], false) := rfl

/-- **C173** Let the decoder go through a file without an error. Exactly if the file consists of complete records,
every other file can be appended: the decoder prints its lines after those of the first one, and stops where it would
stop in the second one. -/
theorem C173_exact (db : Db) (a : List Nat) (h : Bytes a) (xs : List Rec) (hd : decode db a = (xs, true)) :
    (∀ b, Bytes b → decode db (a ++ b) = (xs ++ (decode db b).1, (decode db b).2)) ↔ Stream db a xs := by
  refine ⟨fun hj => ?_, fun hs b hb => hs.join h b hb⟩
  rcases ((C171_exact db a h xs).1 hd).stream with hs | ⟨k, ys, hs⟩
  · exact hs
  · have hz : Bytes (List.replicate (k + 1) 0) := fun b hb => by rw [List.eq_of_mem_replicate hb]; decide
    have h1 := hj _ hz
    have h2 := hs.join (bytes_append h hz) [] (by intro b hb; cases hb)
    rw [decode_zeros] at h1
    rw [List.append_nil, h1] at h2
    cases congrArg Prod.snd h2

/-- **C173** Log files can be joined when the last argument of every message fills its place. -/
theorem C173_joined_partial (db : Db) (a b : List Nat) (ha : Bytes a) (hb : Bytes b) (xs ys : List Rec) (ok : Bool)
    (hf : ∀ id tags t, db.messages id = some tags → tags.getLast? = some t → Fills t)
    (h1 : decode db a = (xs, true)) (h2 : decode db b = (ys, ok)) : decode db (a ++ b) = (xs ++ ys, ok) := by
  have := (C173_exact db a ha xs h1).2 ((C171_complete_partial db a ha hf xs).1 h1) b hb
  rw [h2] at this
  exact this

/-- **C173 violated** Two files that are each decoded without an error, joined are not. -/
theorem C173_violated_cut : ∃ a b xs ys, decode cutDb a = (xs, true) ∧ decode cutDb b = (ys, true) ∧
    decode cutDb (a ++ b) ≠ (xs ++ ys, true) ∧ (decode cutDb (a ++ b)).2 = false :=
  ⟨[3, 0, 0, 1, 1, 0, 0, 0, 5, 0, 0, 0, 1], [17, 0, 0, 0], _, _, rfl, rfl, by decide +kernel, by decide +kernel⟩

/-- Two files that can be joined; the second one ends with an error. -/
example : decode cutDb [17, 0, 0, 0] = ([.short 1], true) ∧ decode cutDb [23, 0, 0, 0, 0, 0, 0, 0, 9] = ([.short 1], false) ∧
    decode cutDb [17, 0, 0, 0, 23, 0, 0, 0, 0, 0, 0, 0, 9] = ([.short 1, .short 1], false) := by decide +kernel
example : Stream cutDb ([17, 0, 0, 0] ++ []) [.short 1] := .cons (.short rfl rfl (by decide)) .nil

end Verif.Log
