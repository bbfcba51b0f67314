import Verif.Lemmas.Hamerly
import Verif.Lemmas.KMeansMotion

/-
The loops of k-means on samples given in another order.
-/

namespace Verif.KMeans

set_option linter.unusedSectionVars false

/-! ### sizes and sums -/

theorem sizesLoop_swap (a b : Nat) (l s : List Nat) :
    sizesLoop s (a :: b :: l) = sizesLoop s (b :: a :: l) := by
  by_cases hab : a = b
  · rw [hab]
  · simp only [sizesLoop]
    cases ha : s[a]? with
    | none =>
      cases hb : s[b]? with
      | none => rfl
      | some m => simp [List.getElem?_set_ne (Ne.symm hab), ha]
    | some n =>
      cases hb : s[b]? with
      | none => simp [List.getElem?_set_ne hab, hb]
      | some m =>
        simp only [Option.bind_eq_bind, Option.bind_some, List.getElem?_set_ne hab, hb,
          List.getElem?_set_ne (Ne.symm hab), ha]
        rw [List.set_comm _ _ hab]

theorem sizesLoop_perm {a b : List Nat} (h : a.Perm b) : ∀ s, sizesLoop s a = sizesLoop s b := by
  induction h with
  | nil => intro s; rfl
  | cons x _ ih => intro s; simp only [sizesLoop, ih]
  | swap x y l => intro s; exact sizesLoop_swap y x l s
  | trans _ _ ih1 ih2 => intro s; rw [ih1, ih2]

theorem sumsLoop_swap {V : Type} [AddCommGroup V] (p q : V × Nat) (l : List (V × Nat)) (s : List V) :
    sumsLoop s (p :: q :: l) = sumsLoop s (q :: p :: l) := by
  obtain ⟨x, a⟩ := p
  obtain ⟨y, b⟩ := q
  simp only [sumsLoop]
  by_cases hab : a = b
  · subst hab
    cases ha : s[a]? with
    | none => rfl
    | some u =>
      have hl := (List.getElem?_eq_some_iff.1 ha).1
      simp only [Option.bind_eq_bind, Option.bind_some, List.getElem?_set_self hl, List.set_set]
      rw [add_right_comm]
  · cases ha : s[a]? with
    | none =>
      cases hb : s[b]? with
      | none => rfl
      | some m => simp [List.getElem?_set_ne (Ne.symm hab), ha]
    | some n =>
      cases hb : s[b]? with
      | none => simp [List.getElem?_set_ne hab, hb]
      | some m =>
        simp only [Option.bind_eq_bind, Option.bind_some, List.getElem?_set_ne hab, hb,
          List.getElem?_set_ne (Ne.symm hab), ha]
        rw [List.set_comm _ _ hab]

theorem sumsLoop_perm {V : Type} [AddCommGroup V] {a b : List (V × Nat)} (h : a.Perm b) :
    ∀ s, sumsLoop s a = sumsLoop s b := by
  induction h with
  | nil => intro s; rfl
  | cons x _ ih => intro s; obtain ⟨x, j⟩ := x; simp only [sumsLoop, ih]
  | swap x y l => intro s; exact sumsLoop_swap y x l s
  | trans _ _ ih1 ih2 => intro s; rw [ih1, ih2]

theorem zip_map_self {V B : Type} (xs : List V) (f : V → B) :
    xs.zip (xs.map f) = xs.map fun x => (x, f x) := by
  induction xs with
  | nil => rfl
  | cons x xs ih => simp only [List.map_cons, List.zip_cons_cons, ih]

theorem clusterSizes_perm {V : Type} {xs ys : List V} (h : xs.Perm ys) (k : Nat) (f : V → Nat) :
    clusterSizes k (xs.map f) = clusterSizes k (ys.map f) := sizesLoop_perm (h.map f) _

theorem clusterSums_perm {V : Type} [AddCommGroup V] {xs ys : List V} (h : xs.Perm ys) (k : Nat)
    (f : V → Nat) : clusterSums k xs (xs.map f) = clusterSums k ys (ys.map f) := by
  unfold clusterSums
  rw [zip_map_self, zip_map_self]
  exact sumsLoop_perm (h.map _) _

theorem sizesLoop_lt : ∀ (a s : List Nat) {r : List Nat}, sizesLoop s a = some r →
    ∀ j ∈ a, j < s.length
  | [], _, _, _ => by simp
  | i :: a, s, r, h => by
    simp only [sizesLoop, Option.bind_eq_bind, Option.bind_eq_some_iff] at h
    obtain ⟨n, hn, h⟩ := h
    intro j hj
    rcases List.mem_cons.1 hj with rfl | hj
    · exact (List.getElem?_eq_some_iff.1 hn).1
    · have := sizesLoop_lt a _ h j hj
      rwa [List.length_set] at this

theorem members_perm {V : Type} {ps qs : List (V × Nat)} (h : ps.Perm qs) (j : Nat) :
    (members ps j).Perm (members qs j) := (h.filter _).map _

theorem Tally.perm {V : Type} [AddCommGroup V] {k : Nat} {ps qs : List (V × Nat)} (h : ps.Perm qs)
    {s1 s2 : List Nat} {u1 u2 : List V} (h1 : Tally k ps s1 u1) (h2 : Tally k qs s2 u2) :
    s1 = s2 ∧ u1 = u2 := by
  rw [h1.1, h1.2, h2.1, h2.2]
  constructor
  · exact List.map_congr_left fun j _ => (members_perm h j).length_eq
  · exact List.map_congr_left fun j _ => (members_perm h j).sum_eq

/-! ### Hamerly: what happens to one sample does not depend on the others -/

section Hamerly

variable {V K : Type} [AddCommGroup V] [Field K] [LinearOrder K] [IsStrictOrderedRing K] [Module K V]

/-- The new entries of a sample and the change of the loss. -/
def swapOne (inf : K) (dist : V → V → K) (cs : List V) (near : List K) (x : V) (q : Cached K) :
    Cached K × K :=
  let bound := max (near.getD q.assigned 0 / 2) q.lower
  if q.upper > bound then
    let u := dist x (cs.getD q.assigned 0)
    if u > bound then
      let r := scanLoop dist x 0 cs (q.assigned, u, inf)
      if q.assigned ≠ r.1 then (⟨r.1, r.2.1, r.2.2⟩, r.2.1 - q.upper)
      else (⟨q.assigned, u, r.2.2⟩, 0)
    else (⟨q.assigned, u, q.lower⟩, 0)
  else (q, 0)

theorem scanLoop_lt (dist : V → V → K) (x : V) : ∀ (cs : List V) (j a : Nat) (u l : K) (k : Nat),
    a < k → j + cs.length ≤ k → (scanLoop dist x j cs (a, u, l)).1 < k
  | [], j, a, u, l, k, ha, _ => ha
  | c :: cs, j, a, u, l, k, ha, hk => by
    simp only [List.length_cons] at hk
    simp only [scanLoop]
    split
    · split
      · exact scanLoop_lt dist x cs _ _ _ _ _ (by omega) (by omega)
      · split <;> exact scanLoop_lt dist x cs _ _ _ _ _ ha (by omega)
    · exact scanLoop_lt dist x cs _ _ _ _ _ ha (by omega)

theorem swapSample_one (inf : K) (dist : V → V → K) (cs : List V) (near : List K)
    (hl : near.length = cs.length) (x : V) (q : Cached K) (hq : q.assigned < cs.length)
    {pre post : List (V × Nat)} {sizes : List Nat} {sums : List V}
    (ht : Tally cs.length (pre ++ (x, q.assigned) :: post) sizes sums) (loss : K) :
    ∃ sizes' sums', swapSample inf dist cs near x q sizes sums loss =
        some ((swapOne inf dist cs near x q).1, sizes', sums', loss + (swapOne inf dist cs near x q).2) ∧
      (swapOne inf dist cs near x q).1.assigned < cs.length ∧
      Tally cs.length (pre ++ (x, (swapOne inf dist cs near x q).1.assigned) :: post) sizes' sums' := by
  have hn : near[q.assigned]? = some (near.getD q.assigned 0) := by
    rw [List.getD_eq_getElem?_getD, List.getElem?_eq_getElem (by omega), Option.getD_some]
  have hc : cs[q.assigned]? = some (cs.getD q.assigned 0) := by
    rw [List.getD_eq_getElem?_getD, List.getElem?_eq_getElem (by omega), Option.getD_some]
  have hr := scanLoop_lt dist x cs 0 q.assigned (dist x (cs.getD q.assigned 0)) inf cs.length hq (by simp)
  simp only [swapSample, swapOne, hn, hc, Option.bind_eq_bind, Option.bind_some]
  split
  · split
    · split
      · rename_i hne
        obtain ⟨s', u', e1, e2, ht'⟩ := tally_move ht hq hr hne
        refine ⟨s', u', ?_, hr, ht'⟩
        simp only [e1, e2, Option.bind_some]
        rw [sub_add_eq_add_sub, add_sub_assoc]
      · exact ⟨sizes, sums, by simp, hq, ht⟩
    · exact ⟨sizes, sums, by simp, hq, ht⟩
  · exact ⟨sizes, sums, by simp, hq, ht⟩

theorem swapLoop_one (inf : K) (dist : V → V → K) (cs : List V) (near : List K)
    (hl : near.length = cs.length) (F : V → Cached K) : ∀ (xs : List V) (pre : List (V × Nat))
    (sizes : List Nat) (sums : List V) (loss : K), (∀ x ∈ xs, (F x).assigned < cs.length) →
    Tally cs.length (pre ++ xs.map fun x => (x, (F x).assigned)) sizes sums →
    ∃ sizes' sums', swapLoop inf dist cs near (xs.map fun x => (x, F x)) sizes sums loss =
        some (xs.map fun x => (swapOne inf dist cs near x (F x)).1, sizes', sums',
          loss + (xs.map fun x => (swapOne inf dist cs near x (F x)).2).sum) ∧
      (∀ x ∈ xs, (swapOne inf dist cs near x (F x)).1.assigned < cs.length) ∧
      Tally cs.length (pre ++ xs.map fun x => (x, (swapOne inf dist cs near x (F x)).1.assigned))
        sizes' sums'
  | [], pre, sizes, sums, loss, _, ht => ⟨sizes, sums, by simp [swapLoop], by simp, by simpa using ht⟩
  | x :: xs, pre, sizes, sums, loss, hF, ht => by
    obtain ⟨s1, u1, e1, hx, ht1⟩ := swapSample_one inf dist cs near hl x (F x)
      (hF x List.mem_cons_self) (pre := pre) (post := xs.map fun x => (x, (F x).assigned))
      (by simpa using ht) loss
    obtain ⟨s2, u2, e2, hxs, ht2⟩ := swapLoop_one inf dist cs near hl F xs
      (pre ++ [(x, (swapOne inf dist cs near x (F x)).1.assigned)]) s1 u1
      (loss + (swapOne inf dist cs near x (F x)).2) (fun y hy => hF y (List.mem_cons_of_mem _ hy))
      (by simpa using ht1)
    refine ⟨s2, u2, ?_, ?_, by simpa using ht2⟩
    · simp only [List.map_cons, swapLoop, e1, Option.bind_eq_bind, Option.bind_some, e2,
        List.sum_cons, add_assoc]
    · intro y hy
      rcases List.mem_cons.1 hy with rfl | hy
      · exact hx
      · exact hxs y hy

/-- The states of two runs of `Hamerly` that differ in the order of the samples. -/
structure SameUpToOrder (xs ys : List V) (s t : HState V K) : Prop where
  cached : ∃ F : V → Cached K, s.cached = xs.map F ∧ t.cached = ys.map F ∧
    (∀ x ∈ xs, (F x).assigned < s.centroids.length) ∧
    Tally s.centroids.length (xs.map fun x => (x, (F x).assigned)) s.sizes s.sums
  near_len : s.near.length = s.centroids.length
  centroids : t.centroids = s.centroids
  near : t.near = s.near
  sizes : t.sizes = s.sizes
  sums : t.sums = s.sums
  loss : t.loss = s.loss

theorem neighborDistances_length (inf : K) (dist : V → V → K) (cs : List V) :
    (neighborDistances inf dist cs).length = cs.length := by simp [neighborDistances]

theorem hamerlyInit_order (inf vmax : K) (eq : K → K → Bool) (dist : V → V → K) {xs ys : List V}
    (h : xs.Perm ys) (cs : List V) :
    (hamerlyInit inf vmax eq dist xs cs = none ∧ hamerlyInit inf vmax eq dist ys cs = none) ∨
    ∃ s t, hamerlyInit inf vmax eq dist xs cs = some s ∧ hamerlyInit inf vmax eq dist ys cs = some t ∧
      SameUpToOrder xs ys s t := by
  unfold hamerlyInit
  simp only [nearestIndices, ← clusterSizes_perm h, ← clusterSums_perm h]
  cases h1 : clusterSizes cs.length (xs.map fun x => (nearestLoop dist x 0 cs (0, inf)).1) with
  | none => left; exact ⟨rfl, rfl⟩
  | some sizes =>
    cases h2 : clusterSums cs.length xs (xs.map fun x => (nearestLoop dist x 0 cs (0, inf)).1) with
    | none => left; exact ⟨rfl, rfl⟩
    | some sums =>
      right
      have hlt : ∀ x ∈ xs, (nearestLoop dist x 0 cs (0, inf)).1 < cs.length := by
        intro x hx
        have := sizesLoop_lt _ _ h1 _ (List.mem_map.2 ⟨x, hx, rfl⟩)
        simpa using this
      have hz : ∀ zs : List V, List.zipWith (fun a (ul : K × K) => (⟨a, ul.1, ul.2⟩ : Cached K))
          (zs.map fun x => (nearestLoop dist x 0 cs (0, inf)).1)
          ((nearestDistances inf dist zs cs).zip (secondDistances vmax eq dist zs cs)) =
          zs.map fun x => ⟨(nearestLoop dist x 0 cs (0, inf)).1, minLoop dist x cs inf,
            (secondLoop eq dist x cs (vmax, vmax)).2⟩ := by
        intro zs
        simp only [nearestDistances, secondDistances]
        induction zs with
        | nil => rfl
        | cons z zs ih => simp only [List.map_cons, List.zip_cons_cons, List.zipWith_cons_cons, ih]
      refine ⟨_, _, rfl, rfl, ⟨⟨_, hz xs, hz ys, hlt, ?_⟩, neighborDistances_length inf dist cs, rfl, rfl,
        rfl, rfl, ?_⟩⟩
      · obtain ⟨s', u', e1, e2, ht⟩ := cluster_spec cs.length xs
          (xs.map fun x => (nearestLoop dist x 0 cs (0, inf)).1) (by simp) (by
            intro i hi
            obtain ⟨x, hx, rfl⟩ := List.mem_map.1 hi
            exact hlt x hx)
        rw [h1] at e1
        rw [h2] at e2
        rw [zip_map_self] at ht
        obtain rfl := Option.some.inj e1
        obtain rfl := Option.some.inj e2
        exact ht
      · exact (h.symm.map _).sum_eq

theorem updateCentroids_length {cs : List V} {sizes : List Nat} {sums : List V}
    (h1 : sizes.length = cs.length) (h2 : sums.length = cs.length) :
    (updateCentroids (K := K) cs sizes sums).length = cs.length := by
  simp [updateCentroids, h1, h2]

theorem hamerlyStep_order (inf lowest : K) (dist : V → V → K) {xs ys : List V} (h : xs.Perm ys)
    {s t : HState V K} (hst : SameUpToOrder xs ys s t) :
    (hamerlyStep inf lowest dist xs s = none ∧ hamerlyStep inf lowest dist ys t = none) ∨
    ∃ s' t', hamerlyStep inf lowest dist xs s = some s' ∧ hamerlyStep inf lowest dist ys t = some t' ∧
      SameUpToOrder xs ys s' t' := by
  obtain ⟨⟨F, hs, ht, hF, htal⟩, hnl, hc, hn, hsz, hsm, hlo⟩ := hst
  have htal' : Tally s.centroids.length (ys.map fun x => (x, (F x).assigned)) s.sizes s.sums := by
    constructor
    · rw [htal.1]
      exact List.map_congr_left fun j _ => (members_perm (h.map _) j).length_eq
    · rw [htal.2]
      exact List.map_congr_left fun j _ => (members_perm (h.map _) j).sum_eq
  obtain ⟨s1, u1, e1, hG, ht1⟩ := swapLoop_one inf dist s.centroids s.near hnl F xs [] s.sizes s.sums
    s.loss hF htal
  obtain ⟨s2, u2, e2, _, ht2⟩ := swapLoop_one inf dist s.centroids s.near hnl F ys [] s.sizes s.sums
    s.loss (fun y hy => hF y (h.mem_iff.2 hy)) htal'
  simp only [List.nil_append] at ht1 ht2
  obtain ⟨rfl, rfl⟩ := ht1.perm (h.map _) ht2
  have hul := updateCentroids_length (K := K) ht1.length.1 ht1.length.2
  unfold hamerlyStep
  simp only [hs, ht, hc, hn, hsz, hsm, hlo, zip_map_self, e1, e2, Option.bind_eq_bind, Option.bind_some]
  generalize hvel : List.zipWith dist s.centroids (updateCentroids (K := K) s.centroids s1 u1) = vel
  have hvl : vel.length = s.centroids.length := by rw [← hvel]; simp [hul]
  unfold updateBounds
  simp only [Option.bind_eq_bind]
  cases Stats.maxPair vel with
  | none => left; exact ⟨rfl, rfl⟩
  | some f =>
    cases Stats.secondMaxPair lowest vel with
    | none => left; exact ⟨rfl, rfl⟩
    | some g =>
      right
      let H : Cached K → Cached K := fun q => ⟨q.assigned, q.upper + vel.getD q.assigned 0,
        q.lower - (if q.assigned = f.1 then g.2 else f.2)⟩
      have hm : ∀ zs : List V, (∀ z ∈ zs, z ∈ xs) →
          (zs.map fun x => (swapOne inf dist s.centroids s.near x (F x)).1).mapM
            (fun s : Cached K => (vel[s.assigned]?).bind fun v =>
              some (⟨s.assigned, s.upper + v,
                s.lower - (if s.assigned = f.1 then g.2 else f.2)⟩ : Cached K)) =
          some (zs.map fun x => H (swapOne inf dist s.centroids s.near x (F x)).1) := by
        intro zs hzs
        rw [mapM_some _ H]
        · rw [List.map_map]; rfl
        · intro q hq
          obtain ⟨z, hz, rfl⟩ := List.mem_map.1 hq
          have := hG z (hzs z hz)
          have hv : vel[(swapOne inf dist s.centroids s.near z (F z)).1.assigned]? =
              some (vel.getD (swapOne inf dist s.centroids s.near z (F z)).1.assigned 0) := by
            rw [List.getD_eq_getElem?_getD, List.getElem?_eq_getElem (by omega), Option.getD_some]
          rw [hv]
          rfl
      simp only [Option.bind_some]
      rw [hm xs fun z hz => hz, hm ys fun z hz => h.mem_iff.2 hz]
      refine ⟨_, _, rfl, rfl, ⟨⟨_, rfl, rfl, ?_, ?_⟩, neighborDistances_length _ _ _, rfl, rfl, rfl, rfl, ?_⟩⟩
      · intro x hx
        simp only [H, hul]
        exact hG x hx
      · simp only [H, hul]
        exact ht1
      · simp only
        rw [(h.symm.map _).sum_eq]

end Hamerly

/-! ### fit -/

section Fit

variable {S S' C K : Type} [LinearOrder K]

/-- Two computations that fail together or end in related results. -/
def Both {A B : Type} (R : A → B → Prop) (a : Option A) (b : Option B) : Prop :=
  (a = none ∧ b = none) ∨ ∃ x y, a = some x ∧ b = some y ∧ R x y

theorem iterate_rel {step : S → Option S} {step' : S' → Option S'} {cent : S → C} {cent' : S' → C}
    {same : C → C → Bool} (o : Options) (R : S → S' → Prop)
    (hstep : ∀ s t, R s t → Both R (step s) (step' t)) (hcent : ∀ s t, R s t → cent' t = cent s) :
    ∀ (iter : Nat) (s : S) (t : S') (cand prev : C) (pat : Nat), R s t →
      Both (fun p q => R p.1 q.1 ∧ q.2 = p.2) (iterate step cent same o iter s cand prev pat)
        (iterate step' cent' same o iter t cand prev pat)
  | 0, s, t, cand, _, _, h => Or.inr ⟨_, _, rfl, rfl, h, rfl⟩
  | iter + 1, s, t, cand, prev, pat, h => by
    simp only [iterate]
    rcases hstep s t h with ⟨e1, e2⟩ | ⟨s', t', e1, e2, h'⟩
    · simp only [e1, e2]; exact Or.inl ⟨rfl, rfl⟩
    · simp only [e1, e2, Option.bind_eq_bind, Option.bind_some, hcent s' t' h']
      split
      · split
        · exact Or.inr ⟨_, _, rfl, rfl, h', rfl⟩
        · exact iterate_rel o R hstep hcent iter s' t' _ _ _ h'
      · exact iterate_rel o R hstep hcent iter s' t' _ _ _ h'

theorem mapM_rel {A B B' : Type} (f : A → Option B) (g : A → Option B') (R : B → B' → Prop)
    (h : ∀ a, Both R (f a) (g a)) : ∀ l : List A, Both (List.Forall₂ R) (l.mapM f) (l.mapM g)
  | [] => Or.inr ⟨[], [], by simp, by simp, List.Forall₂.nil⟩
  | a :: l => by
    rw [List.mapM_cons, List.mapM_cons]
    rcases h a with ⟨e1, e2⟩ | ⟨x, y, e1, e2, hr⟩
    · left; rw [e1, e2]; exact ⟨rfl, rfl⟩
    · rcases mapM_rel f g R h l with ⟨e3, e4⟩ | ⟨xs, ys, e3, e4, hrs⟩
      · left; rw [e1, e2, e3, e4]; exact ⟨rfl, rfl⟩
      · right
        refine ⟨x :: xs, y :: ys, ?_, ?_, List.Forall₂.cons hr hrs⟩
        · rw [e1, e3]; rfl
        · rw [e2, e4]; rfl

theorem fit_rel {init : C → Option S} {init' : C → Option S'} {step : S → Option S}
    {step' : S' → Option S'} {cent : S → C} {cent' : S' → C} {loss : S → K} {loss' : S' → K}
    {same : C → C → Bool} {isEmpty : C → Bool} (o : Options) (R : S → S' → Prop)
    (hinit : ∀ c, Both R (init c) (init' c)) (hstep : ∀ s t, R s t → Both R (step s) (step' t))
    (hcent : ∀ s t, R s t → cent' t = cent s) (hloss : ∀ s t, R s t → loss' t = loss s)
    (none' stored : C) (drawn : Nat → C) :
    fit init' step' cent' loss' same isEmpty none' o stored drawn =
      fit init step cent loss same isEmpty none' o stored drawn := by
  unfold fit
  simp only
  rcases mapM_rel (fun c => (init c).bind fun s => iterate step cent same o o.maxIter s c none' 0)
    (fun c => (init' c).bind fun s => iterate step' cent' same o o.maxIter s c none' 0)
    (fun p q => R p.1 q.1 ∧ q.2 = p.2) (by
      intro c
      rcases hinit c with ⟨e1, e2⟩ | ⟨s, t, e1, e2, h⟩
      · simp only [e1, e2]; exact Or.inl ⟨rfl, rfl⟩
      · simp only [e1, e2, Option.bind_some]
        exact iterate_rel o R hstep hcent o.maxIter s t c none' 0 h)
    (if isEmpty stored = true then (List.range o.nInit).map drawn else [stored])
    with ⟨e1, e2⟩ | ⟨ps, qs, e1, e2, hr⟩
  · simp only [Option.bind_eq_bind, e1, e2]; rfl
  · have hl : qs.map (fun r => loss' r.1) = ps.map fun r => loss r.1 := by
      clear e1 e2
      induction hr with
      | nil => rfl
      | cons h _ ih => simp only [List.map_cons, ih, hloss _ _ h.1]
    have hc : qs.map (fun r => r.2) = ps.map fun r => r.2 := by
      clear e1 e2 hl
      induction hr with
      | nil => rfl
      | cons h _ ih => simp only [List.map_cons, ih, h.2]
    simp only [Option.bind_eq_bind, e1, e2, Option.bind_some, hl]
    cases Stats.argmin none (ps.map fun r => loss r.1) with
    | none => rfl
    | some i =>
      simp only [Option.bind_some]
      have := congrArg (·[i]?) hc
      simp only [List.getElem?_map] at this
      cases hq : qs[i]? <;> cases hp : ps[i]? <;> simp_all

end Fit

end Verif.KMeans
