import Verif.Sink.Props
/-! # What two destinations have in common -/
namespace Verif.Sink
open Verif.Conc

variable {ν : Type}

theorem count_ofThread [DecidableEq ν] (t : Nat) (m : List ν) (o : List (Nat × List ν)) :
    o.count (t, m) = (ofThread t o).count m := by
  induction o with
  | nil => rfl
  | cons p o ih =>
    obtain ⟨u, k⟩ := p
    rw [List.count_cons, ih, ofThread, ofThread, List.filter_cons]
    by_cases hu : u = t
    · subst hu
      simp [List.count_cons]
    · simp [hu]

/-- Messages of threads in any two orders, with those of each thread in the same order, are the same messages. -/
theorem perm_of_threads {o o' : List (Nat × List ν)} (h : ∀ t, ofThread t o = ofThread t o') : o.Perm o' := by
  classical
  rw [List.perm_iff_count]
  rintro ⟨t, m⟩
  rw [count_ofThread, count_ofThread, h]

/-- C127, what holds: when all log statements are over, two destinations have received the same messages, each as often
as it was logged, and those of each thread in the same order. -/
theorem C127_same_partial (type : Nat → Nat) (n : Nat) (out : Nat → List ν) (msgs : Nat → List (List ν))
    (sched : List Nat) (hdone : ((St.initial out (fun t => logs n (msgs t)) :
      St (Write ν) (List ν) Unit).run (binary ν type) sched).Done) (d e : Nat) (hd : d < n) (he : e < n) :
    ∃ o o' : List (Nat × List ν), o.Perm o' ∧ (∀ t, ofThread t o = ofThread t o') ∧
      ((St.initial out (fun t => logs n (msgs t)) : St (Write ν) (List ν) Unit).run
        (binary ν type) sched).mem d = out d ++ (o.map Prod.snd).flatten ∧
      ((St.initial out (fun t => logs n (msgs t)) : St (Write ν) (List ν) Unit).run
        (binary ν type) sched).mem e = out e ++ (o'.map Prod.snd).flatten := by
  obtain ⟨o, h1, h2⟩ := C126_all type n out msgs sched hdone d hd
  obtain ⟨o', h1', h2'⟩ := C126_all type n out msgs sched hdone e he
  have h : ∀ t, ofThread t o = ofThread t o' := fun t => (h2 t).trans (h2' t).symm
  exact ⟨o, o', perm_of_threads h, h, h1, h1'⟩

/-- The two orders of `C127_violated_orders` (its schedule meets the hypothesis of `C127_same_partial` for both threads)
have the same messages. -/
example : ([(0, [1, 1]), (1, [2, 2])] : List (Nat × List Nat)).Perm [(1, [2, 2]), (0, [1, 1])] :=
  perm_of_threads fun t => by
    by_cases h0 : (0 == t) = true <;> by_cases h1 : (1 == t) = true
    · simp only [beq_iff_eq] at h0 h1; omega
    all_goals simp [ofThread, List.filter_cons, h0, h1]

end Verif.Sink
