import Verif.Model.MachineInt
import Verif.Props.Search

/-
Property C87: searches on integral data in machine arithmetic.
-/

namespace Verif.MachineInt

open Verif.KDTree Verif.Buffer Verif.Sorting Verif.Distances Verif.Search

theorem result_of_le {t : IntType} {z : ℤ} (h0 : t.min ≤ z) (h : z ≤ t.max) :
    t.result z = some z := by
  unfold IntType.result
  split
  · simp [h0, h]
  · rename_i hs
    simp only [IntType.min, IntType.max, hs] at h0 h
    have h0 : 0 ≤ z := by simpa using h0
    have h : z ≤ 2 ^ t.bits - 1 := by simpa using h
    rw [Int.emod_eq_of_lt h0 (by omega)]

theorem max_nonneg (t : IntType) : 0 ≤ t.max := by
  unfold IntType.max
  split <;> exact sub_nonneg.2 (one_le_pow₀ (by norm_num))

theorem min_nonpos (t : IntType) : t.min ≤ 0 := by
  unfold IntType.min
  split
  · have : (0 : ℤ) ≤ 2 ^ (t.bits - 1) := by positivity
    omega
  · rfl

/-- For signed types the range is symmetric up to one value. -/
theorem min_signed {t : IntType} (h : t.signed = true) : t.min = -t.max - 1 := by
  simp [IntType.min, IntType.max, h]

theorem max_le_promoted (t : IntType) : t.max ≤ t.promoted.max := by
  unfold IntType.promoted
  split
  · rename_i hb
    unfold IntType.max
    have h1 : (2 : ℤ) ^ (t.bits - 1) ≤ 2 ^ 31 := pow_le_pow_right₀ (by norm_num) (by omega)
    have h2 : (2 : ℤ) ^ t.bits ≤ 2 ^ 31 := pow_le_pow_right₀ (by norm_num) (by omega)
    split <;> simp only [if_true] <;> omega
  · rfl

theorem promoted_signed {t : IntType} (h : t.signed = true) : t.promoted.signed = true := by
  unfold IntType.promoted
  split
  · rfl
  · exact h

theorem convert_of_le {t : IntType} {z : ℤ} (hb : 1 ≤ t.bits) (h0 : 0 ≤ z) (h : z ≤ t.max) :
    t.convert z = z := by
  unfold IntType.convert
  unfold IntType.max at h
  have hp : (2 : ℤ) ^ t.bits = 2 * 2 ^ (t.bits - 1) := by
    rw [← pow_succ']
    congr 1
    omega
  split
  · rename_i hs
    simp only [hs, if_true] at h
    have hc : ((2 ^ t.bits : ℕ) : ℤ) = 2 * 2 ^ (t.bits - 1) := by push_cast; exact hp
    apply Int.bmod_eq_of_le <;> rw [hc] <;> omega
  · rename_i hs
    simp only [hs] at h
    have h : z ≤ 2 ^ t.bits - 1 := by simpa using h
    exact Int.emod_eq_of_lt h0 (by omega)

/-- The summand of the distance is the absolute difference when that is within the promoted type. -/
theorem summand_eq {t : IntType} {a b : ℤ} (h : |a - b| ≤ t.promoted.max) :
    summand t a b = some |a - b| := by
  have hm := min_nonpos t.promoted
  unfold summand
  split
  · rename_i hs
    have hmin := min_signed (promoted_signed hs)
    have h1 := abs_le.1 h
    rw [result_of_le (by omega) (by omega)]
    simp only [Option.bind_eq_bind, Option.bind_some]
    exact result_of_le (by have := abs_nonneg (a - b); omega) h
  · split
    · rename_i hab
      rw [abs_of_pos (by omega)] at h ⊢
      exact result_of_le (by omega) h
    · rename_i hab
      rw [abs_of_nonpos (by omega)] at h ⊢
      rw [show b - a = -(a - b) by omega]
      exact result_of_le (by omega) h

theorem sum_nonneg (l r : List ℤ) : 0 ≤ (List.zipWith (fun a b : ℤ => |a - b|) l r).sum := by
  apply List.sum_nonneg
  intro z hz
  obtain ⟨j, hj, rfl⟩ := List.getElem_of_mem hz
  rw [List.getElem_zipWith]
  exact abs_nonneg _

theorem sum_eq {t : IntType} : ∀ (l r : List ℤ) (acc : ℤ), l.length ≤ r.length → 0 ≤ acc →
    acc + (List.zipWith (fun a b => |a - b|) l r).sum ≤ t.promoted.max →
    sum t l r acc = some (acc + (List.zipWith (fun a b => |a - b|) l r).sum) := by
  intro l
  induction l with
  | nil => intro r acc _ _ _; simp [sum]
  | cons a l ih =>
    intro r acc hl h0 h
    cases r with
    | nil => simp at hl
    | cons b r =>
      simp only [List.zipWith_cons_cons, List.sum_cons] at h ⊢
      have h1 := sum_nonneg l r
      have h2 := abs_nonneg (a - b)
      have hm := min_nonpos t.promoted
      simp only [sum]
      rw [summand_eq (by omega)]
      simp only [Option.bind_eq_bind, Option.bind_some]
      rw [result_of_le (by omega) (by omega)]
      simp only [Option.bind_some]
      rw [ih r _ (by simpa using hl) (by omega) (by omega)]
      congr 1
      omega

theorem distance_eq {t : IntType} {l r : List ℤ} {d : ℤ} (hd : manhattan l r = some d)
    (hl : l.length ≤ r.length) (h : d ≤ t.promoted.max) : distance t l r = some d ∧ 0 ≤ d := by
  rw [manhattan_eq hl] at hd
  have hd := Option.some.inj hd
  subst hd
  refine ⟨?_, sum_nonneg l r⟩
  unfold distance
  rw [sum_eq l r 0 hl (le_refl 0) (by simpa using h), zero_add]

/-- The difference to a splitting plane is computed without overflow when it is within the range. -/
theorem gap_eq {t : IntType} {v w : ℤ} (hs : t.promoted.signed = true)
    (h : |v - w| ≤ t.promoted.max) : gap t v w = some |v - w| := by
  have hm := min_nonpos t.promoted
  have hmin := min_signed hs
  have h1 := abs_le.1 h
  unfold gap
  rw [result_of_le (by omega) (by omega)]
  simp only [Option.bind_eq_bind, Option.bind_some, hs, if_true]
  have h2 : (if v - w < 0 then -(v - w) else v - w) = |v - w| := by
    split
    · rw [abs_of_neg (by assumption)]
    · rw [abs_of_nonneg (by omega)]
  rw [h2]
  exact result_of_le (by have := abs_nonneg (v - w); omega) h

theorem gapSound {t : IntType} {ub : ℤ → ℤ → ℤ} (hs : t.promoted.signed = true) {nf : Nat}
    {x : Nat → Nat → ℤ} {q : Nat → ℤ} {dist : Nat → ℤ}
    (hd : ∀ i, manhattan (row nf (x i)) (row nf q) = some (dist i))
    (hfit : ∀ i, dist i ≤ t.promoted.max) :
    GapSound nf x q (fun v w => (gap t v w).getD (ub v w)) dist := by
  intro a ha i v hv
  have h := gapSound_manhattan hd a ha i v hv
  dsimp only at h ⊢
  rw [gap_eq hs (h.trans (hfit i))]
  exact h

theorem features_eq (nf : Nat) (x : Nat → ℤ) : features nf x = row nf x := rfl

/-- **C87**, nearest neighbours.  On integral data of any signed type, and of any unsigned type
narrower than `int`, a search with capacity `k >= 1` is exact in machine arithmetic as long as the
distances of the samples to the query are representable in the data type: no operation overflows and
the result is `k` nearest samples. -/
theorem C87_knn (t : IntType) (hb : 1 ≤ t.bits) (ht : t.signed = true ∨ t.bits < 32)
    (ub : ℤ → ℤ → ℤ) (nf : Nat) (x : Nat → Nat → ℤ) (q : Nat → ℤ) (dist : Nat → ℤ)
    (hd : ∀ i, manhattan (row nf (x i)) (row nf q) = some (dist i))
    (hfit : ∀ i, dist i ≤ t.max)
    (policy : List Nat → Nat → Box ℤ → Nat) (bucketSize maxDepth : Nat)
    (hpol : ∀ idx d box, policy idx d box < nf) (vmax vlowest inf : ℤ) (idx : List Nat)
    (k : Nat) (hk : 1 ≤ k) (hk2 : k < 2 ^ 64) :
    (∀ i, ∀ a < nf, gap t (x i a) (q a) = some |x i a - q a|) ∧
    ∃ idx' tree b, make eqExact x policy bucketSize maxDepth nf vmax vlowest idx = some (idx', tree) ∧
      search x q (ops t ub nf x q) tree (Buffer.mk inf k) = some b ∧
      b.indices.length = b.distances.length ∧
      IsKNearest k (b.indices.zip b.distances) (idx.map (fun i => (i, dist i))) := by
  have hs : t.promoted.signed = true := by
    rcases ht with h | h
    · exact promoted_signed h
    · simp [IntType.promoted, h]
  have hfit' : ∀ i, dist i ≤ t.promoted.max := fun i => (hfit i).trans (max_le_promoted t)
  refine ⟨fun i a ha => gap_eq hs ?_, ?_⟩
  · have h1 := hd i
    rw [manhattan_eq (by simp [row])] at h1
    have h2 := coord_le_sum (fun a b : ℤ => |a - b|) (fun _ _ => abs_nonneg _) _ _ a _ _
      (row_get (v := x i) ha) (row_get (v := q) ha)
    rw [Option.some.inj h1] at h2
    exact h2.trans (hfit' i)
  · have hops : ops t ub nf x q =
        staticOps x q (fun v w => (gap t v w).getD (ub v w)) (candAll dist) := by
      unfold ops staticOps
      congr 1
      funext b i
      obtain ⟨h1, h2⟩ := distance_eq (t := t) (hd i) (by simp [row]) (hfit' i)
      simp only [offer, features_eq, h1, Option.bind_eq_bind, Option.bind_some, Buf.offer, candAll,
        convert_of_le hb h2 (hfit i)]
    have := search_exact (gapSound (ub := ub) hs hd hfit') (candAll dist)
      (fun i d h => by simp [candAll] at h; exact h.symm) policy bucketSize maxDepth hpol vmax vlowest
      idx inf k hk2 (Or.inl (by omega))
    rw [cands_all, capEff_of_pos hk] at this
    rw [hops]
    exact this

/-- **C87**, the hypothesis in terms of the data: it holds when the coordinates of the samples and of
the query are in an interval of length `len` and `nf * len` is representable. -/
theorem C87_fits_of_interval (t : IntType) (nf : Nat) (x : Nat → Nat → ℤ) (q : Nat → ℤ) (lo len : ℤ)
    (hx : ∀ i, ∀ a < nf, lo ≤ x i a ∧ x i a ≤ lo + len)
    (hq : ∀ a < nf, lo ≤ q a ∧ q a ≤ lo + len) (hfit : nf * len ≤ t.max) :
    ∀ i, ∃ d, manhattan (row nf (x i)) (row nf q) = some d ∧ d ≤ t.max := by
  intro i
  rw [manhattan_eq (by simp [row])]
  refine ⟨_, rfl, le_trans ?_ hfit⟩
  have := List.sum_le_card_nsmul (List.zipWith (fun a b : ℤ => |a - b|) (row nf (x i)) (row nf q)) len
    (by
      intro z hz
      obtain ⟨j, hj, rfl⟩ := List.getElem_of_mem hz
      simp only [List.length_zipWith, row, List.length_map, List.length_range, min_self] at hj
      simp only [List.getElem_zipWith, row, List.getElem_map, List.getElem_range]
      have h1 := hx i j hj
      have h2 := hq j hj
      rw [abs_le]
      omega)
  simpa [row] using this

/-- **C87**, radius search with a capacity: membership is decided before the distance is converted to
the data type, so it is enough that the distances are representable in the promoted type (`int` for
narrower types). -/
theorem C87_ball (t : IntType) (hb : 1 ≤ t.bits) (ht : t.signed = true ∨ t.bits < 32)
    (ub : ℤ → ℤ → ℤ) (nf : Nat) (x : Nat → Nat → ℤ) (q : Nat → ℤ) (dist : Nat → ℤ)
    (hd : ∀ i, manhattan (row nf (x i)) (row nf q) = some (dist i))
    (hfit : ∀ i, dist i ≤ t.promoted.max) (radius : ℤ) (hr : radius ≤ t.max)
    (policy : List Nat → Nat → Box ℤ → Nat) (bucketSize maxDepth : Nat)
    (hpol : ∀ idx d box, policy idx d box < nf) (vmax vlowest inf : ℤ) (idx : List Nat)
    (k : Nat) (hk : 1 ≤ k) (hk2 : k < 2 ^ 64) :
    ∃ idx' tree b, make eqExact x policy bucketSize maxDepth nf vmax vlowest idx = some (idx', tree) ∧
      search x q (ballOps t ub nf x q radius) tree (Buffer.mk inf k) = some b ∧
      b.indices.length = b.distances.length ∧
      IsKNearest k (b.indices.zip b.distances)
        ((idx.filter (fun i => dist i < radius)).map (fun i => (i, dist i))) := by
  have hs : t.promoted.signed = true := by
    rcases ht with h | h
    · exact promoted_signed h
    · simp [IntType.promoted, h]
  have hops : ballOps t ub nf x q radius =
      staticOps x q (fun v w => (gap t v w).getD (ub v w)) (candBall dist radius) := by
    unfold ballOps staticOps
    congr 1
    funext b i
    obtain ⟨h1, h2⟩ := distance_eq (t := t) (hd i) (by simp [row]) (hfit i)
    simp only [offerBall, features_eq, h1, Option.bind_eq_bind, Option.bind_some, Buf.offer, candBall]
    by_cases hlt : dist i < radius
    · simp only [hlt, if_true, convert_of_le hb h2 (by omega)]
    · simp only [hlt, if_false]
  have := search_exact (gapSound (ub := ub) hs hd hfit) (candBall dist radius)
    (fun i d h => by
      unfold candBall at h
      split at h
      · exact (Option.some.inj h).symm
      · simp at h) policy bucketSize maxDepth hpol vmax vlowest idx inf k hk2 (Or.inl (by omega))
  rw [cands_ball, capEff_of_pos hk] at this
  rw [hops]
  exact this

/-! ### what happens outside of the range -/

theorem result_signed {t : IntType} (hs : t.signed = true) (z : ℤ) :
    t.result z = if t.min ≤ z ∧ z ≤ t.max then some z else none := by
  simp [IntType.result, hs]

theorem summand_signed {t : IntType} (hs : t.promoted.signed = true) (a b : ℤ) :
    summand t a b = if |a - b| ≤ t.promoted.max then some |a - b| else none := by
  split
  · rename_i h
    exact summand_eq h
  · rename_i h
    have h := not_le.1 h
    unfold summand
    split
    · rw [result_signed hs]
      split
      · simp only [Option.bind_eq_bind, Option.bind_some]
        rw [result_signed hs, if_neg (by omega)]
      · rfl
    · split
      · rw [abs_of_pos (by omega)] at h
        rw [result_signed hs, if_neg (by omega)]
      · rw [abs_of_nonpos (by omega)] at h
        rw [result_signed hs, if_neg (by omega)]

theorem sum_signed {t : IntType} (hs : t.promoted.signed = true) : ∀ (l r : List ℤ) (acc : ℤ),
    l.length ≤ r.length → 0 ≤ acc → acc ≤ t.promoted.max →
    sum t l r acc = if acc + (List.zipWith (fun a b : ℤ => |a - b|) l r).sum ≤ t.promoted.max then
      some (acc + (List.zipWith (fun a b : ℤ => |a - b|) l r).sum) else none := by
  intro l
  induction l with
  | nil => intro r acc _ _ h; simp [sum, h]
  | cons a l ih =>
    intro r acc hl h0 h
    cases r with
    | nil => simp at hl
    | cons b r =>
      simp only [List.zipWith_cons_cons, List.sum_cons]
      have h1 := sum_nonneg l r
      have h2 := abs_nonneg (a - b)
      have hm := min_nonpos t.promoted
      simp only [sum]
      rw [summand_signed hs]
      by_cases hab : |a - b| ≤ t.promoted.max
      · rw [if_pos hab]
        simp only [Option.bind_eq_bind, Option.bind_some]
        rw [result_signed hs]
        by_cases hacc : acc + |a - b| ≤ t.promoted.max
        · rw [if_pos (by omega)]
          simp only [Option.bind_some]
          rw [ih r _ (by simpa using hl) (by omega) hacc, add_assoc]
          rfl
        · rw [if_neg (by omega)]
          exact (if_neg (by omega)).symm
      · rw [if_neg hab]
        exact (if_neg (by omega)).symm

/-- **C87**, exactly when the distance is defined: for every type whose arithmetic is done in a signed
type, `auto_distance` returns the sum of the absolute differences when that sum is at most the greatest
value of the promoted type, and the behaviour is undefined (overflow) in every other case. -/
theorem C87_defined (t : IntType) (hs : t.promoted.signed = true) (l r : List ℤ)
    (hl : l.length ≤ r.length) :
    distance t l r = if (List.zipWith (fun a b : ℤ => |a - b|) l r).sum ≤ t.promoted.max then
      some (List.zipWith (fun a b : ℤ => |a - b|) l r).sum else none := by
  unfold distance
  rw [sum_signed hs l r 0 hl (le_refl 0) (max_nonneg _)]
  simp only [zero_add]

/-- **C87**, the same for the distance to a splitting plane. -/
theorem C87_gap_defined (t : IntType) (hs : t.promoted.signed = true) (v w : ℤ) :
    gap t v w = if |v - w| ≤ t.promoted.max then some |v - w| else none := by
  split
  · rename_i h
    exact gap_eq hs h
  · rename_i h
    have h := not_le.1 h
    unfold gap
    rw [result_signed hs]
    split
    · simp only [Option.bind_eq_bind, Option.bind_some, hs, if_true]
      rw [result_signed hs]
      split
      · rw [abs_of_neg (by omega)] at h
        rw [if_neg (by omega)]
      · rw [abs_of_nonneg (by omega)] at h
        omega
    · rfl

/-- **C87**, unsigned types of 32 or more bits: the distance is the sum of the absolute differences
modulo `2 ^ bits`, never undefined. -/
theorem C87_wraps (t : IntType) (hs : t.signed = false) (hb : 32 ≤ t.bits) (l r : List ℤ)
    (hl : l.length ≤ r.length) :
    (distance t l r) = some ((List.zipWith (fun a b : ℤ => |a - b|) l r).sum % 2 ^ t.bits) := by
  have hp : t.promoted = t := by simp [IntType.promoted, Nat.not_lt.2 hb]
  have hr : ∀ z, t.result z = some (z % 2 ^ t.bits) := by intro z; simp [IntType.result, hs]
  have hsum : ∀ a b, summand t a b = some (|a - b| % 2 ^ t.bits) := by
    intro a b
    unfold summand
    rw [hp, hs]
    simp only [Bool.false_eq_true, if_false, hr]
    split
    · rw [abs_of_pos (by omega)]
    · rw [abs_of_nonpos (by omega), neg_sub]
  have key : ∀ (l r : List ℤ) (acc : ℤ), l.length ≤ r.length → acc % 2 ^ t.bits = acc →
      sum t l r acc = some ((acc + (List.zipWith (fun a b : ℤ => |a - b|) l r).sum) % 2 ^ t.bits) := by
    intro l
    induction l with
    | nil => intro r acc _ h; simp [sum, h]
    | cons a l ih =>
      intro r acc hl h
      cases r with
      | nil => simp at hl
      | cons b r =>
        simp only [sum, hsum, hp, hr, Option.bind_eq_bind, Option.bind_some, List.zipWith_cons_cons,
          List.sum_cons]
        rw [ih r _ (by simpa using hl) (Int.emod_emod_of_dvd _ (dvd_refl _))]
        congr 1
        rw [← add_assoc]
        simp [Int.emod_add_emod, Int.add_emod]
  unfold distance
  rw [key l r 0 hl (by simp), zero_add]

/-- `int` data 4000000000 apart, `int8_t` data 200 apart, and `uint32_t` data whose distance wraps. -/
example : distance ⟨32, true⟩ [-2000000000] [2000000000] = none ∧
    distance ⟨32, true⟩ [2000000000, 100000000] [0, 0] = some 2100000000 ∧
    distance ⟨32, true⟩ [2000000000, 200000000] [0, 0] = none ∧
    distance ⟨8, true⟩ [-100] [100] = some 200 ∧
    distance ⟨32, false⟩ [4000000000, 0] [0, 300000000] = some 5032704 := by decide +kernel

/-! ### counterexamples -/

/-- **C87, distances that do not fit in the data type.**  `int8_t` samples -100 and 50, query 100: the
distance 200 is stored as -56, so the farther sample is returned as the nearest one, at a negative
distance. -/
theorem C87_int8_counterexample :
    (make eqExact (fun i _ => ([-100, 50] : List ℤ).getD i 0) (fun _ _ _ => 0) 1 10 1 127 (-128)
      [0, 1]).bind (fun r => (search (fun i _ => ([-100, 50] : List ℤ).getD i 0) (fun _ => 100)
        (ops ⟨8, true⟩ (fun _ _ => 0) 1 (fun i _ => ([-100, 50] : List ℤ).getD i 0) (fun _ => 100))
        r.2 (Buffer.mk 0 1)).map (fun b => (b.indices, b.distances))) = some ([0], [-56]) := by
  decide +kernel

/-- **C87**, the same with `uint8_t` samples of two features (255, 255) and (100, 0), query (0, 0):
the distance 510 is stored as 254, the distance 100 as 100; with (130, 130) the distance 260 is
stored as 4 and wins. -/
theorem C87_uint8_counterexample :
    (make eqExact (fun i a => (([[130, 130], [100, 0]] : List (List ℤ)).getD i []).getD a 0)
      (fun _ _ _ => 0) 1 10 2 255 0 [0, 1]).bind (fun r =>
        (search (fun i a => (([[130, 130], [100, 0]] : List (List ℤ)).getD i []).getD a 0) (fun _ => 0)
        (ops ⟨8, false⟩ (fun _ _ => 0) 2
          (fun i a => (([[130, 130], [100, 0]] : List (List ℤ)).getD i []).getD a 0) (fun _ => 0))
        r.2 (Buffer.mk 0 1)).map (fun b => (b.indices, b.distances))) = some ([0], [4]) := by
  decide +kernel

/-- **C87**, `int` data: coordinates more than `INT_MAX` apart overflow, which is undefined. -/
theorem C87_int_counterexample : distance ⟨32, true⟩ [-2000000000] [2000000000] = none := by
  decide +kernel

/-- The hypotheses are met by `int8_t` data in [-60, 60]: the nearest sample of 40 among -60, 10, 55. -/
example : (make eqExact (fun i _ => ([-60, 10, 55] : List ℤ).getD i 0) (fun _ _ _ => 0) 1 10 1 127
    (-128) [0, 1, 2]).bind (fun r => (search (fun i _ => ([-60, 10, 55] : List ℤ).getD i 0)
      (fun _ => 40) (ops ⟨8, true⟩ (fun _ _ => 0) 1 (fun i _ => ([-60, 10, 55] : List ℤ).getD i 0)
        (fun _ => 40)) r.2 (Buffer.mk 0 1)).map (fun b => (b.indices, b.distances))) =
      some ([2], [15]) := by decide +kernel

end Verif.MachineInt
