import Mathlib.Logic.Function.Basic

/-
Model of the seeds of the random numbers (common/math/random/Distributions.hpp:16-34, 47-53, 81-87).

Both engines are function-local `static thread_local` objects: one of each per thread, made by the first
call in the thread.  The engine and the distributions are abstract: `G` is the state of an engine, `init`
makes one from a seed, a distribution `d` draws a value with `dist d`.  Simplification: a distribution keeps
no state of its own between calls (`std::normal_distribution` keeps the second value of a pair).
-/

namespace Verif.Seed

/-- The engine, the distributions, the offset that is added to a seed in a thread (`omp_get_thread_num()`,
Distributions.hpp:26, or the hash of the thread id, 29, or nothing) and the value of
`std::random_device` in a thread. -/
structure Lib (G V δ : Type) where
  init : Nat → G
  dist : δ → G → V × G
  offset : Nat → Nat
  device : Nat → Nat

/-- A call of a distribution, `d()` or `d(seed)`, in a thread. -/
structure Call (δ : Type) where
  thread : Nat
  seed : Option Nat
  d : δ

/-- The engines that exist, by thread. -/
structure Engines (G : Type) where
  free : Nat → Option G
  seeded : Nat → Option G

/-- No engine was used yet. -/
def Engines.fresh (G : Type) : Engines G := ⟨fun _ => none, fun _ => none⟩

variable {G V δ : Type}

/-- `thread_local_mersenne_engine(seed)` (Distributions.hpp:24-34): the seed is a `std::size_t`; the
initialiser only runs when the engine does not exist. -/
def seededEngine (L : Lib G V δ) (t seed : Nat) (e : Engines G) : G :=
  (e.seeded t).getD (L.init ((seed + L.offset t) % 2 ^ 64))

/-- `thread_local_mersenne_engine()` (Distributions.hpp:16-22). -/
def freeEngine (L : Lib G V δ) (t : Nat) (e : Engines G) : G :=
  (e.free t).getD (L.init (L.device t))

/-- `operator()` and `operator()(seed)` (Distributions.hpp:47-53, 81-87). -/
def draw (L : Lib G V δ) (c : Call δ) (e : Engines G) : V × Engines G :=
  match c.seed with
  | none =>
    let r := L.dist c.d (freeEngine L c.thread e)
    (r.1, { e with free := Function.update e.free c.thread (some r.2) })
  | some s =>
    let r := L.dist c.d (seededEngine L c.thread s e)
    (r.1, { e with seeded := Function.update e.seeded c.thread (some r.2) })

/-- The calls of a program in the order in which they happen, with the values. -/
def draws (L : Lib G V δ) : List (Call δ) → Engines G → List (Call δ × V)
  | [], _ => []
  | c :: cs, e => (c, (draw L c e).1) :: draws L cs (draw L c e).2

end Verif.Seed
