import Verif.Bench.Lemmas
import Verif.Lookup.Props
/-!
# C158: the data of the lookup benchmarks is one cycle
-/
namespace Verif.Bench

/-- How Python lists the elements of a set: each once, in some order. -/
def IsOrder (order : List Nat → List Nat) : Prop := ∀ l, (order l).Perm l

/-- C158: when the script ends, the numbers in the file are the pairs of a map with the given number
of distinct keys, all values of the type, and repeated lookup visits every key before it comes back.
The draws are below 2^30, as `expovariate(10)` is never above 3.7. -/
theorem C158_file (order : List Nat → List Nat) (ho : IsOrder order) (t : Ty) (size : Nat)
    (draws : List Nat) (hd : t = .uint32 → ∀ d ∈ draws, d < 2 ^ 30) (text : Text)
    (h : file order t size draws = some text) :
    ∃ es : List (Nat × Nat), numbers .outside text = flat es ∧ es.length = size ∧
      (es.map (·.1)).Nodup ∧ (∀ e ∈ es, e.1 < 2 ^ t.bits ∧ e.2 < 2 ^ t.bits) ∧ OneCycle es := by
  simp only [file, genTable, Option.map_eq_some_iff, Option.bind_eq_bind, Option.bind_eq_some_iff,
    Option.some.injEq] at h
  obtain ⟨body, ⟨keys, hc, rfl⟩, rfl⟩ := h
  have hs := collect_spec size t draws [] keys (by simp) (by simp) hc
  have hp := ho keys
  have hn : (order keys).Nodup := hp.nodup_iff.2 hs.1
  have hb : ∀ k ∈ order keys, k < 2 ^ t.bits := fun k hk => 
    collect_lt size t draws keys hd hc k (hp.mem_iff.1 hk)
  refine ⟨(order keys).zip (valuesOf (order keys)), ?_, ?_, ?_, ?_, oneCycle_zip hn⟩
  · have hpre : numbers .outside (preamble ++ (header t size ++
        joinEntries (((order keys).zip (valuesOf (order keys))).map entryText) ++
          txt "\n}};\n")) = _ := read_without_zero _ _ (by simp [preamble, txt])
    rw [hpre, List.append_assoc, read_header, read_entries]
    have : numbers .outside (txt "\n}};\n") = [] := by simp [txt, numbers]
    rw [this, List.append_nil]
  · rw [List.length_zip, length_valuesOf, Nat.min_self, hp.length_eq, hs.2]
  · rw [keys_zip]; exact hn
  · intro e he
    have h1 := (List.of_mem_zip he).1
    have h2 := (List.of_mem_zip he).2
    refine ⟨hb _ h1, hb _ ?_⟩
    simp only [valuesOf, List.mem_append] at h2
    exact h2.elim List.mem_of_mem_drop List.mem_of_mem_take

/-- C158: the file declares the array of that type and size. -/
theorem C158_declares (order : List Nat → List Nat) (t : Ty) (size : Nat) (draws : List Nat)
    (text : Text) (h : file order t size draws = some text) : Declares t size text := by
  simp only [file, genTable, Option.map_eq_some_iff, Option.bind_eq_bind, Option.bind_eq_some_iff,
    Option.some.injEq] at h
  obtain ⟨body, ⟨keys, _, rfl⟩, rfl⟩ := h
  rw [List.append_assoc]
  exact declares_header t size _

/-- C158: the script ends once enough different numbers have been drawn, cut to the type. -/
theorem C158_ends (order : List Nat → List Nat) (t : Ty) (size : Nat) (draws ks : List Nat)
    (hd : t = .uint32 → ∀ d ∈ draws, d < 2 ^ 30) (hk : ks.Nodup) (hl : size ≤ ks.length)
    (hs : ∀ k ∈ ks, k ∈ draws.map (· % 2 ^ t.bits)) :
    (file order t size draws).isSome = true := by
  cases hc : collect size t draws [] with
  | some keys => simp [file, genTable, hc]
  | none =>
    exfalso
    obtain ⟨all, hn, hlt, _, hall⟩ := collect_none size t draws [] (by simp) hc
    have hsub : ks.Subperm all := List.subperm_of_subset hk (by
      intro k h
      obtain ⟨d, hdm, rfl⟩ := List.mem_map.1 (hs k h)
      have hg : d % 2 ^ t.bits = t.gen d := by
        cases t with
        | uint16 => exact (Nat.and_two_pow_sub_one_eq_mod d 16).symm
        | uint32 => exact Nat.mod_eq_of_lt (Nat.lt_trans (hd rfl d hdm) (by decide))
      rw [hg]
      exact hall d hdm)
    have := hsub.length_le
    omega

/-- C158: in the benchmark, `k = map[k]` goes through all keys, whichever table is made of the
data. -/
theorem C158_chained (W : Nat) (es : List (Nat × Nat)) (hcyc : OneCycle es) (indirect : Bool)
    (maxLen : Nat)
    (srt : (BitVec W → Nat) → List (Lookup.Entry W (BitVec W)) →
      List (Lookup.Entry W (BitVec W)))
    (hsrt : Lookup.IsSort srt) (h64 : es.length < 2 ^ 64) (table : Lookup.Table W (BitVec W))
    (hm : Lookup.makePext indirect maxLen srt 0 (entries W es) = .ok table) (k : Nat)
    (hk : k ∈ es.map (·.1)) :
    ((List.range es.length).map (chained table · (BitVec.ofNat W k))).Perm
        (es.map fun e => some (BitVec.ofNat W e.1)) ∧
      chained table es.length (BitVec.ofNat W k) = some (BitVec.ofNat W k) := by
  have hstep : ∀ k v, follow es k = some v → table.lookup (BitVec.ofNat W k) =
      some (BitVec.ofNat W v) := by
    intro k v hf
    simp only [follow, Option.map_eq_some_iff] at hf
    obtain ⟨e, he, rfl⟩ := hf
    have hek : e.1 = k := by simpa using List.find?_some he
    have hmem := List.mem_of_find?_eq_some he
    obtain ⟨r, hr, ha⟩ := Lookup.C27_pext indirect maxLen srt hsrt 0 (entries W es)
      (by simpa [entries] using h64) table hm (BitVec.ofNat W k)
    rw [hr]
    congr 1
    exact ha.present ⟨BitVec.ofNat W e.1, BitVec.ofNat W e.2⟩
      (List.mem_map.2 ⟨e, hmem, rfl⟩) (by rw [hek])
  have hall : ∀ n k v, steps es n k = some v →
      chained table n (BitVec.ofNat W k) = some (BitVec.ofNat W v) := by
    intro n
    induction n with
    | zero => intro k v h; cases h; rfl
    | succ n ih =>
      intro k v h
      rw [steps, Option.bind_eq_some_iff] at h
      obtain ⟨w, hw, h⟩ := h
      rw [chained, hstep k w hw, Option.bind_some]
      exact ih w v h
  obtain ⟨hperm, hback⟩ := hcyc k hk
  refine ⟨?_, hall _ _ _ hback⟩
  have h2 := hperm.map (Option.map (BitVec.ofNat W))
  rw [List.map_map, List.map_map] at h2
  have e2 : (es.map fun e => some (BitVec.ofNat W e.1)) =
      es.map (Option.map (BitVec.ofNat W) ∘ fun e => some e.1) := rfl
  rw [e2]
  refine List.Perm.trans (List.Perm.of_eq ?_) h2
  apply List.map_congr_left
  intro n hn
  simp only [Function.comp_apply]
  have hmem : steps es n k ∈ es.map fun e => some e.1 :=
    hperm.mem_iff.1 (List.mem_map.2 ⟨n, hn, rfl⟩)
  obtain ⟨e, _, he⟩ := List.mem_map.1 hmem
  rw [← he]
  exact hall n k e.1 he.symm

/-- Never more numbers than the type has: with `--type uint16 --size 70000` the script goes on for
ever. -/
theorem C158_endless (order : List Nat → List Nat) (size : Nat) (h : 2 ^ 16 < size)
    (draws : List Nat) : file order .uint16 size draws = none := by
  cases hc : collect size .uint16 draws [] with
  | none => simp [file, genTable, hc]
  | some ks =>
    exfalso
    have hs := collect_spec size .uint16 draws [] ks (by simp) (by simp) hc
    have hb := collect_lt size .uint16 draws ks (by simp) hc
    have hsub : ks.Subperm (List.range (2 ^ 16)) := List.subperm_of_subset hs.1 (by
      intro k hk
      exact List.mem_range.2 (hb k hk))
    have := hsub.length_le
    rw [List.length_range] at this
    omega

/-- Keys 5, 700000 (which is 0xae60 in 16 bits), 9. -/
example : collect 3 .uint16 [5, 700000, 5, 44640, 9] [] = some [5, 44640, 9] := by
  decide +kernel

example : joinEntries (([5, 44640, 9].zip (valuesOf [5, 44640, 9])).map entryText) =
    txt ("{0x00000005u, 0x0000ae60u},\n    {0x0000ae60u, 0x00000009u},\n" ++
     "    {0x00000009u, 0x00000005u}") := by
  simp [valuesOf, joinEntries, entryText, hex8, digits, digit, txt]

end Verif.Bench
