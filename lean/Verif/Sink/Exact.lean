import Verif.Sink.Props
import Mathlib.Data.List.Induction
/-! # Which destinations get what they should -/
namespace Verif.Sink

variable {δ β ν : Type}

theorem keepLogs_one (D : Dest δ β ν) (ms : List (List ν)) : ∀ (s : δ) (b : β),
    keepLogs [(D, s)] b ms = (ms.foldl (fun p m => D.write m p) (s, b)).2 := by
  induction ms with
  | nil => intro s b; rfl
  | cons m ms ih =>
    intro s b
    rw [keepLogs, List.foldl_cons]
    exact ih _ _

/-- **C129** (part) The destinations that get what they should from the binary logger, for all sequences of messages,
are exactly those for which the next message does the same whether the messages before changed the state or not. -/
theorem C129_binary_exact (D : Dest δ β ν) (s : δ) :
    (∀ (b : β) (ms : List (List ν)), ms.foldl (binaryLog [(D, s)]) b = keepLogs [(D, s)] b ms) ↔
      ∀ (b : β) (ms : List (List ν)) (m : List ν), (D.write m (ms.foldl (fun p m => D.write m p) (s, b))).2 =
        (D.write m (s, (ms.foldl (fun p m => D.write m p) (s, b)).2)).2 := by
  constructor
  · intro h b ms m
    have h1 := h b (ms ++ [m])
    rw [List.foldl_append, h b ms, keepLogs_one, keepLogs_one, List.foldl_append] at h1
    exact h1.symm
  · intro h b ms
    induction ms using List.reverseRecOn with
    | nil => rfl
    | append_singleton ms m ih =>
      rw [List.foldl_append, ih, keepLogs_one, keepLogs_one, List.foldl_append]
      exact (h b ms m).symm

/-- The counting destination is not one of them, a forwarding one is. -/
example : ¬ ∀ (b : Nat → Nat) (ms : List (List Nat)) (m : List Nat), (indexed.write m (ms.foldl (fun p m => indexed.write m p) (0, b))).2 =
    (indexed.write m (0, (ms.foldl (fun p m => indexed.write m p) (0, b)).2)).2 := by
  intro h
  have := congrFun (h (fun _ => 0) [[7]] [8]) 1
  revert this
  decide
example : ∀ (b : List Nat) (ms : List (List Nat)) (m : List Nat), ((⟨fun m p => (p.1 + 1, p.2 ++ m)⟩ : Dest Nat (List Nat) Nat).write m
      (ms.foldl (fun p m => (⟨fun m p => (p.1 + 1, p.2 ++ m)⟩ : Dest Nat (List Nat) Nat).write m p) (0, b))).2 =
    ((⟨fun m p => (p.1 + 1, p.2 ++ m)⟩ : Dest Nat (List Nat) Nat).write m
      (0, (ms.foldl (fun p m => (⟨fun m p => (p.1 + 1, p.2 ++ m)⟩ : Dest Nat (List Nat) Nat).write m p) (0, b)).2)).2 :=
  fun _ _ _ => rfl

end Verif.Sink
