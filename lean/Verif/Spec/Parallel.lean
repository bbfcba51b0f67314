import Verif.Model.Parallel

/-
What it means for a parallel loop to be correct.
-/

namespace Verif.Parallel

/-- Whatever the schedule: no two threads can get to conflicting accesses at the same time, all accesses
are to locations of `In`, the number of accesses is bounded, and when all threads have ended `Post`
holds.  (An execution that has not ended can always go on, see `progress`.) -/
structure Correct {L : Type} [DecidableEq L] {V : L → Type} {A : Type} (c : Config V A) (In : L → Prop)
    (Post : Config V A → Prop) : Prop where
  race_free : ∀ n d, Steps n c d → ¬ Race d
  in_range : ∀ n d, Steps n c d → ∀ p ∈ d.1, ∀ l w, p.next = some (l, w) → In l
  terminates : ∃ b, ∀ n d, Steps n c d → n ≤ b
  result : ∀ n d, Steps n c d → Finished d → Post d

end Verif.Parallel
