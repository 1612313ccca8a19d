import Verif.Receive.SelfProps
/-!
# Exactly which messages built by the library satisfy their own required fields
-/
namespace Verif.Receive
open Verif.Match Verif.Message Verif.Bits

variable {N : Numbering} {env : Env} {W n : Nat}

/-- A number of fewer bits than its type has is not negative. -/
theorem toInt_small (s : Bool) {w b : Nat} (x : BitVec w) (hb : b < w) (hx : x.toNat < 2 ^ b) :
    toInt s x = (x.toNat : Int) := by
  cases s with
  | false => rfl
  | true =>
    rw [toInt, if_pos rfl, BitVec.toInt_eq_toNat_of_lt]
    have : 2 ^ (b + 1) ≤ 2 ^ w := Nat.pow_le_pow_right (by omega) hb
    rw [Nat.pow_succ] at this
    omega

/-- A field that reads as its required value modulo its width holds the required value exactly if that fits. -/
theorem held_exact (hW : Narrow W) (fs : List MField) (hn : (fs.map (·.name)).Nodup) (f : MField)
    (hf : f ∈ fs) (hl : f.fld.Legal) (r : List (BitVec W)) (hin : f.fld.Within (r.length * W))
    (v : Int) (hv : (ty N f).InRange v)
    (hg : Message.get W fs r f.name = some (raw f.fld.EW v % 2 ^ f.bits)) :
    held (signed N f) f.fld r = v ↔ Fits f v := by
  refine ⟨fun h => ?_, fun h => held_required hW fs hn f hf hl r hin v hv h hg⟩
  obtain ⟨x, hx, _⟩ := C11_reads_declared_bits hW f.fld hl r hin
  have h1 := (value_held (N := N) hW f hl r hin).1
  simp only [value, hx, Option.map_some, Option.some.injEq] at h1
  rw [← h1] at h
  simp only [Message.get, find_eq hn hf, Option.bind_eq_bind, Option.bind_some, Message.read, hx, Option.map_some,
    Option.some.injEq] at hg
  by_cases hb : f.bits = f.fld.EW
  · exact .inr hb
  · have hlt : x.toNat < 2 ^ f.bits := by rw [hg]; exact Nat.mod_lt _ (by positivity)
    rw [toInt_small (b := f.bits) _ _ (lt_of_le_of_ne (bits_le hl) hb) hlt] at h
    exact .inl ⟨by omega, by rw [← h]; exact_mod_cast hlt⟩

/-- **C92**, exactly: a message built by the library is accepted by a callback for its own definition if the required
values fit in their fields, and refused otherwise, whatever values were given and set. -/
theorem C92_object_exact (L : Layout W n fs) (req : MField → Option Int)
    (hr : ∀ f ∈ fs, (∃ v, req f = some v ∧ Required N Opt.moves f v) ∨
      (req f = none ∧ Asks N keepsName f .any))
    (vs : List (Nat × Nat)) (ops : List SetOp) (hc : constructOk fs vs = true)
    (hops : ∀ op ∈ ops, op.ok fs = true) :
    ∃ r r', construct W n fs vs = some r ∧ runOps W fs r ops = some r' ∧
      ((∀ f ∈ fs, ∀ v, req f = some v → Fits f v) →
        accepts N env W (.msg fs r') (plainMatcher N fs) = some true) ∧
      ((¬ ∀ f ∈ fs, ∀ v, req f = some v → Fits f v) →
        accepts N env W (.msg fs r') (plainMatcher N fs) = some false) := by
  obtain ⟨r, r', h1, h2, h3⟩ := C62_required_value_persists L vs ops hc hops
  refine ⟨r, r', h1, h2, ?_⟩
  have hs : setOk fs vs = true := by
    simp only [constructOk, Bool.and_eq_true] at hc; exact hc.2
  have hlen : r'.length = n := by
    obtain ⟨r2, k1, k2, _⟩ := C17_construction L vs (setOk_names hs)
    rw [h1] at k1; cases k1
    obtain ⟨r3, k3, k4, _⟩ := runOps_immutable L ops hops r k2
    rw [h2] at k3; cases k3; exact k4
  have hin : ∀ f ∈ fs, f.fld.Within (r'.length * W) := fun f hf => by
    rw [hlen]; exact L.inside f hf
  rw [C88_object_partial L.narrow fs L.names (fun f => match req f with
      | some v => .eq v
      | none => .any) (by
    intro f hf
    rcases hr f hf with ⟨v, hv, hq⟩ | ⟨hv, ha⟩
    · rw [hv]; exact ⟨hq.asks (fun o ho => by simp [keepsName, ho]), trivial⟩
    · rw [hv]; exact ⟨ha, trivial⟩) L.legal r' hin]
  have key : (fs.all fun f => (match req f with
      | some v => Cond.eq v
      | none => .any).holds env (held (signed N f) f.fld r')) = true ↔ ∀ f ∈ fs, ∀ v, req f = some v → Fits f v := by
    rw [List.all_eq_true]
    refine forall₂_congr fun f hf => ?_
    rcases hr f hf with ⟨v, hv, hq⟩ | ⟨hv, ha⟩
    · have hd := hq.dflt (fun o ho => by simp [movesOrRenames, ho])
      rw [hv]
      simp only [Cond.holds, decide_eq_true_eq, Option.some.injEq, forall_eq']
      exact held_exact L.narrow fs L.names f hf (L.legal f hf) r' (hin f hf) v hd.2 (h3 f hf _ hd.1)
    · rw [hv]
      simp [Cond.holds]
  exact ⟨fun h => congrArg some (key.2 h), fun h => congrArg some (Bool.eq_false_iff.2 fun h' => h (key.1 h'))⟩

/-- The same for the raw storage of the message, if no option moves a required field after `with_required`. -/
theorem C92_raw_exact (L : Layout W n fs) (req : MField → Option Int)
    (hr : ∀ f ∈ fs, (∃ v, req f = some v ∧ Required N Opt.renames f v) ∨
      (req f = none ∧ Asks N staysPut f .any))
    (vs : List (Nat × Nat)) (ops : List SetOp) (hc : constructOk fs vs = true)
    (hops : ∀ op ∈ ops, op.ok fs = true) :
    ∃ r r', construct W n fs vs = some r ∧ runOps W fs r ops = some r' ∧
      ((∀ f ∈ fs, ∀ v, req f = some v → Fits f v) →
        accepts N env W (.raw r') (plainMatcher N fs) = some true) ∧
      ((¬ ∀ f ∈ fs, ∀ v, req f = some v → Fits f v) →
        accepts N env W (.raw r') (plainMatcher N fs) = some false) := by
  obtain ⟨r, r', h1, h2, h3⟩ := C62_required_value_persists L vs ops hc hops
  refine ⟨r, r', h1, h2, ?_⟩
  have hs : setOk fs vs = true := by
    simp only [constructOk, Bool.and_eq_true] at hc; exact hc.2
  have hlen : r'.length = n := by
    obtain ⟨r2, k1, k2, _⟩ := C17_construction L vs (setOk_names hs)
    rw [h1] at k1; cases k1
    obtain ⟨r3, k3, k4, _⟩ := runOps_immutable L ops hops r k2
    rw [h2] at k3; cases k3; exact k4
  have hin : ∀ f ∈ fs, f.fld.Within (r'.length * W) := fun f hf => by
    rw [hlen]; exact L.inside f hf
  rw [C88_raw_partial L.narrow fs (fun f => match req f with
      | some v => .eq v
      | none => .any) (by
    intro f hf
    rcases hr f hf with ⟨v, hv, hq⟩ | ⟨hv, ha⟩
    · rw [hv]; exact ⟨hq.asks (fun o ho => by simp [staysPut, ho]), trivial⟩
    · rw [hv]; exact ⟨ha, trivial⟩) L.legal r' hin]
  have key : (fs.all fun f => (match req f with
      | some v => Cond.eq v
      | none => .any).holds env (held (signed N f) f.fld r')) = true ↔ ∀ f ∈ fs, ∀ v, req f = some v → Fits f v := by
    rw [List.all_eq_true]
    refine forall₂_congr fun f hf => ?_
    rcases hr f hf with ⟨v, hv, hq⟩ | ⟨hv, ha⟩
    · have hd := hq.dflt (fun o ho => by simp [movesOrRenames, ho])
      rw [hv]
      simp only [Cond.holds, decide_eq_true_eq, Option.some.injEq, forall_eq']
      exact held_exact L.narrow fs L.names f hf (L.legal f hf) r' (hin f hf) v hd.2 (h3 f hf _ hd.1)
    · rw [hv]
      simp [Cond.holds]
  exact ⟨fun h => congrArg some (key.2 h), fun h => congrArg some (Bool.eq_false_iff.2 fun h' => h (key.1 h'))⟩

/-- Five in a field of four bits fits, and 31 and -1 do not. -/
example : Fits (field N 0 u8 [.located [⟨3, 0⟩]]) 5 ∧ ¬ Fits (field N 0 u8 [.located [⟨3, 0⟩]]) 31 ∧
    ¬ Fits (field N 0 ⟨8, true⟩ [.located [⟨3, 0⟩]]) (-1) := by
  refine ⟨.inl ⟨by decide, ?_⟩, ?_, ?_⟩
  · show (5 : Int) < 2 ^ 4
    decide
  · rintro (⟨_, h⟩ | h)
    · exact absurd (show (31 : Int) < 2 ^ 4 from h) (by decide)
    · exact absurd (show 4 = 8 from h) (by decide)
  · rintro (⟨h, _⟩ | h)
    · exact absurd h (by decide)
    · exact absurd (show 4 = 8 from h) (by decide)

end Verif.Receive
