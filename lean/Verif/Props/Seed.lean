import Verif.Model.Seed

/-
C96: a seed determines the random numbers.
-/

namespace Verif.Seed

variable {G V δ : Type}

/-- Specification: the values that distributions draw one after the other from an engine. -/
def stream (dist : δ → G → V × G) : List δ → G → List V
  | [], _ => []
  | d :: ds, g => (dist d g).1 :: stream dist ds (dist d g).2

/-- A call with a seed in the thread `t`. -/
def seededIn (t : Nat) (c : Call δ) : Bool := c.seed.isSome && c.thread == t

theorem draws_existing (L : Lib G V δ) (t : Nat) (cs : List (Call δ)) (e : Engines G) (g : G)
    (hg : e.seeded t = some g) :
    ((draws L cs e).filter fun r => seededIn t r.1).map (fun r => r.2) =
      stream L.dist ((cs.filter (seededIn t)).map fun c => c.d) g := by
  induction cs generalizing e g with
  | nil => rfl
  | cons c cs ih =>
    obtain ⟨ct, cs', cd⟩ := c
    cases cs' with
    | none =>
      have : (draw L ⟨ct, none, cd⟩ e).2.seeded t = some g := hg
      simpa [draws, seededIn] using ih _ g this
    | some s =>
      by_cases ht : ct = t
      · subst ht
        have h1 : seededEngine L ct s e = g := by simp [seededEngine, hg]
        have h2 : (draw L ⟨ct, some s, cd⟩ e).2.seeded ct = some (L.dist cd g).2 := by
          simp [draw, h1]
        have h3 := ih _ _ h2
        simp only [draws, seededIn, Option.isSome_some, beq_self_eq_true, Bool.and_self, List.filter_cons_of_pos,
          List.map_cons, stream]
        rw [← h3]
        simp [draw, h1, seededIn]
      · have h2 : (draw L ⟨ct, some s, cd⟩ e).2.seeded t = some g := by
          simp [draw, Function.update_of_ne (Ne.symm ht), hg]
        simpa [draws, seededIn, ht] using ih _ g h2

/-- C96: for every program, the numbers that the calls with a seed give in a thread are the stream of the
engine made from the first seed of that thread, whatever the other threads and the calls without a seed
do.  Missing from the full property: the seeds of the later calls have no effect. -/
theorem C96_first_seed_partial (L : Lib G V δ) (t : Nat) (cs : List (Call δ)) :
    ((draws L cs (Engines.fresh G)).filter fun r => seededIn t r.1).map (fun r => r.2) =
      match (cs.filter (seededIn t)).head? with
      | none => []
      | some c => stream L.dist ((cs.filter (seededIn t)).map fun c => c.d)
          (L.init ((c.seed.getD 0 + L.offset t) % 2 ^ 64)) := by
  suffices h : ∀ e : Engines G, e.seeded t = none →
      ((draws L cs e).filter fun r => seededIn t r.1).map (fun r => r.2) =
      match (cs.filter (seededIn t)).head? with
      | none => []
      | some c => stream L.dist ((cs.filter (seededIn t)).map fun c => c.d)
          (L.init ((c.seed.getD 0 + L.offset t) % 2 ^ 64)) from h _ rfl
  intro e he
  induction cs generalizing e with
  | nil => rfl
  | cons c cs ih =>
    obtain ⟨ct, cs', cd⟩ := c
    cases cs' with
    | none =>
      have : (draw L ⟨ct, none, cd⟩ e).2.seeded t = none := he
      simpa [draws, seededIn] using ih _ this
    | some s =>
      by_cases ht : ct = t
      · subst ht
        have h1 : seededEngine L ct s e = L.init ((s + L.offset ct) % 2 ^ 64) := by simp [seededEngine, he]
        have h2 : (draw L ⟨ct, some s, cd⟩ e).2.seeded ct =
            some (L.dist cd (L.init ((s + L.offset ct) % 2 ^ 64))).2 := by
          simp [draw, h1]
        have h3 := draws_existing L ct cs _ _ h2
        simp only [draws, seededIn, Option.isSome_some, beq_self_eq_true, Bool.and_self, List.filter_cons_of_pos,
          List.map_cons, stream, List.head?_cons, Option.getD_some]
        rw [← h3]
        simp [draw, h1, seededIn]
      · have h2 : (draw L ⟨ct, some s, cd⟩ e).2.seeded t = none := by
          simp [draw, Function.update_of_ne (Ne.symm ht), he]
        simpa [draws, seededIn, ht] using ih _ h2

/-- C96 is false of every engine: once a thread has drawn a number with a seed, the seed of any later call
in the thread has no effect, on the number or on the engine. -/
theorem C96_later_seed_counterexample (L : Lib G V δ) (e : Engines G) (c : Call δ) (s : Nat)
    (hc : c.seed = some s) (d' : δ) (s1 s2 : Nat) :
    draw L ⟨c.thread, some s1, d'⟩ (draw L c e).2 = draw L ⟨c.thread, some s2, d'⟩ (draw L c e).2 := by
  obtain ⟨t, cs, cd⟩ := c
  cases hc
  simp [draw, seededEngine]

/-! An engine that counts up from the seed and returns its state, with the thread number as offset.  Two
calls with the seed 5 give 5 and 6 in thread 0, and the call with seed 40 gives 7; thread 1 starts from
its own first seed and its own offset.  The calls without a seed draw from the other engine. -/

def exLib : Lib Nat Nat Unit := ⟨id, fun _ g => (g, g + 1), id, fun _ => 99⟩

/-- C96, the same seed gives different numbers and different seeds continue one stream. -/
theorem C96_same_seed_counterexample :
    (draws exLib [⟨0, some 5, ()⟩, ⟨0, none, ()⟩, ⟨0, some 5, ()⟩, ⟨1, some 5, ()⟩, ⟨0, some 40, ()⟩]
      (Engines.fresh Nat)).map (fun r => r.2) = [5, 99, 6, 6, 7] := by decide +kernel

end Verif.Seed
