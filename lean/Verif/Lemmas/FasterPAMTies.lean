import Verif.Lemmas.FasterPAM

/-
Lemmas on kmedoids/FasterPAM.hpp without any assumption on ties: what the cached records still satisfy
when a sample is at the same distance of two medoids.
-/

namespace Verif.KMedoids

open Spec

set_option linter.unusedSectionVars false

variable {K : Type} [LinearOrder K] [CommRing K] [IsStrictOrderedRing K]

/-- The first distance is that of the first position; the second distance is that of another position,
or the initial value. -/
def WRec (vmax : K) (l : List K) (r : Rec K) : Prop :=
  l[r.i1]? = some r.d1 ∧
    ((r.i2 ≠ r.i1 ∧ l[r.i2]? = some r.d2) ∨ (r.d2 = vmax ∧ r.i2 < l.length))

theorem WRec.lt1 {vmax : K} {l : List K} {r : Rec K} (h : WRec vmax l r) : r.i1 < l.length :=
  lt_of_some h.1

/-! ### The constructor -/

/-- What `secondLoop` knows after the prefix `p`, with ties. -/
structure WInv2 (vmax : K) (p : List K) (r : Rec K) : Prop where
  start : p = [] → r = ⟨0, vmax, 0, vmax⟩
  at1 : p ≠ [] → p[r.i1]? = some r.d1
  le1 : ∀ (j : Nat) (y : K), p[j]? = some y → r.d1 ≤ y
  at2 : p ≠ [] → (r.i2 ≠ r.i1 ∧ p[r.i2]? = some r.d2) ∨ (r.d2 = vmax ∧ r.i2 < p.length)

theorem secondLoop_winv (vmax : K) (eq : K → K → Bool) (l : List K) : ∀ (p : List K) (r : Rec K),
    (∀ v ∈ l, v < vmax) → WInv2 vmax p r → WInv2 vmax (p ++ l) (secondLoop eq p.length l r) := by
  induction l with
  | nil => intro p a _ h; simpa [secondLoop] using h
  | cons v vs ih =>
    intro p a hv h
    obtain ⟨i1, d1, i2, d2⟩ := a
    have e : p ++ v :: vs = (p ++ [v]) ++ vs := by simp
    have el : p.length + 1 = (p ++ [v]).length := by simp
    have hvs : ∀ w ∈ vs, w < vmax := fun w hw => hv w (List.mem_cons_of_mem _ hw)
    have hsn := snoc_getElem? p v
    have hpv : (p ++ [v])[p.length]? = some v := by simp
    have hkeep : ∀ (j : Nat) (y : K), p[j]? = some y → (p ++ [v])[j]? = some y :=
      fun j y hy => (hsn j y).2 (Or.inl hy)
    rw [e, secondLoop, el]
    split
    · rename_i hlt
      refine ih _ _ hvs ⟨by simp, fun _ => hpv, ?_, fun _ => ?_⟩
      · intro j y hy
        rcases (hsn _ _).1 hy with h' | ⟨-, rfl⟩
        · exact le_trans hlt.le (h.le1 j y h')
        · exact le_refl _
      · by_cases hp : p = []
        · have := h.start hp
          simp only [Rec.mk.injEq] at this
          exact Or.inr ⟨this.2.1, by simp [this.1]⟩
        · have h1 := h.at1 hp
          have := lt_of_some h1
          dsimp only at h1 this
          refine Or.inl ⟨?_, hkeep _ _ h1⟩
          dsimp only
          omega
    · rename_i hlt
      have hp : p ≠ [] := by
        intro hp
        have := h.start hp
        simp only [Rec.mk.injEq] at this
        exact hlt (by rw [this.2.1]; exact hv v (by simp))
      have h1 := h.at1 hp
      have hl1 := lt_of_some h1
      dsimp only at h1 hl1
      have hle : ∀ (j : Nat) (y : K), (p ++ [v])[j]? = some y → d1 ≤ y := by
        intro j y hy
        rcases (hsn _ _).1 hy with h' | ⟨-, rfl⟩
        · exact h.le1 j y h'
        · exact not_lt.1 hlt
      split
      · refine ih _ _ hvs ⟨by simp, fun _ => hkeep _ _ h1, hle, fun _ => Or.inl ⟨?_, hpv⟩⟩
        dsimp only
        omega
      · refine ih _ _ hvs ⟨by simp, fun _ => hkeep _ _ h1, hle, fun _ => ?_⟩
        rcases h.at2 hp with ⟨h2, h3⟩ | ⟨h2, h3⟩
        · exact Or.inl ⟨h2, hkeep _ _ h3⟩
        · refine Or.inr ⟨h2, ?_⟩
          rw [List.length_append]
          exact Nat.lt_add_right _ h3

theorem second_wspec (vmax : K) (eq : K → K → Bool) (l : List K) (hne : l ≠ []) (hv : ∀ v ∈ l, v < vmax) :
    WRec vmax l (second vmax eq l) ∧ Smallest l [] (second vmax eq l).i1 (second vmax eq l).d1 := by
  have h := secondLoop_winv vmax eq l [] ⟨0, vmax, 0, vmax⟩ hv
    ⟨fun _ => rfl, fun h => absurd rfl h, by simp, fun h => absurd rfl h⟩
  simp only [List.nil_append, List.length_nil] at h
  exact ⟨⟨h.at1 hne, h.at2 hne⟩, ⟨by simp, h.at1 hne, fun j y _ => h.le1 j y⟩⟩

/-! ### Refreshing a record -/

theorem swapSample_wspec {vmax : K} {l : List K} {r : Rec K} (h : WRec vmax l r) (b : Nat)
    (hb : b < l.length) (own : Bool) (doc : K) (hdoc : doc < vmax) (hown : own = true → doc = 0) :
    WRec vmax (l.set b doc) (swapSample (l.set b doc) own doc b r) := by
  have hs := set_iff l b doc hb
  obtain ⟨h1, h2⟩ := h
  have hbd : (l.set b doc)[b]? = some doc := (hs _ _).2 (Or.inl ⟨rfl, rfl⟩)
  have hrefill : ∀ q, q ≠ b → (refillLoop q b 0 (l.set b doc) (b, doc)).1 ≠ q ∧
      (l.set b doc)[(refillLoop q b 0 (l.set b doc) (b, doc)).1]? =
        some (refillLoop q b 0 (l.set b doc) (b, doc)).2 := by
    intro q hq
    have := refillLoop_spec q b (l.set b doc) [] b doc (by simpa using hb)
      ⟨fun e => hq e.symm, by simpa using hbd⟩
      (by intro y hy; simp only [List.nil_append, hbd, Option.some.injEq] at hy; exact le_of_eq hy)
      (by simp)
    simp only [List.nil_append, List.length_nil] at this
    exact ⟨by simpa using this.1, this.2.1⟩
  have hkeep : r.i1 = b → (r.i2 ≠ b ∧ (l.set b doc)[r.i2]? = some r.d2) ∨
      (r.d2 = vmax ∧ r.i2 < (l.set b doc).length) := by
    intro hib
    rcases h2 with ⟨h3, h4⟩ | ⟨h3, h4⟩
    · exact Or.inl ⟨by omega, (hs _ _).2 (Or.inr ⟨by omega, h4⟩)⟩
    · exact Or.inr ⟨h3, by simpa using h4⟩
  unfold swapSample
  split
  · rename_i ho
    have h0 := hown ho
    subst h0
    split
    · rename_i hib
      exact ⟨hbd, Or.inl ⟨hib, (hs _ _).2 (Or.inr ⟨hib, h1⟩)⟩⟩
    · rename_i hib
      exact ⟨hbd, hkeep (not_not.1 hib)⟩
  · split
    · rename_i hib
      split
      · exact ⟨hbd, hkeep hib⟩
      · rename_i hlt
        rcases h2 with ⟨h3, h4⟩ | ⟨h3, -⟩
        · have hne : r.i2 ≠ b := by omega
          exact ⟨(hs _ _).2 (Or.inr ⟨hne, h4⟩), Or.inl (hrefill r.i2 hne)⟩
        · exact absurd (by rw [h3]; exact hdoc) hlt
    · rename_i hib
      have h1' := (hs _ _).2 (Or.inr ⟨hib, h1⟩)
      split
      · exact ⟨hbd, Or.inl ⟨hib, h1'⟩⟩
      · split
        · exact ⟨h1', Or.inl ⟨fun e => hib e.symm, hbd⟩⟩
        · split
          · exact ⟨h1', Or.inl (hrefill _ hib)⟩
          · rename_i hi2
            refine ⟨h1', ?_⟩
            rcases h2 with ⟨h3, h4⟩ | ⟨h3, h4⟩
            · exact Or.inl ⟨h3, (hs _ _).2 (Or.inr ⟨hi2, h4⟩)⟩
            · exact Or.inr ⟨h3, by simpa using h4⟩

/-- What `find_best_swap` adds up for one sample when position `j` is exchanged. -/
def wgain (doc : K) (r : Rec K) (j : Nat) : K :=
  if doc < r.d1 then doc - r.d1
  else if j = r.i1 then (if doc < r.d2 then doc - r.d1 else r.d2 - r.d1) else 0

/-- The cached first distance after the exchange is at most the prediction. -/
theorem swapSample_le {r : Rec K} (h1 : 0 ≤ r.d1) (h2 : 0 ≤ r.d2) (l : List K) (b : Nat) (own : Bool)
    (doc : K) (hown : own = true → doc = 0) :
    (swapSample l own doc b r).d1 ≤ r.d1 + wgain doc r b := by
  by_cases ho : own = true
  · have h0 := hown ho
    subst h0
    have e : (swapSample l own 0 b r).d1 = 0 := by
      rw [swapSample, if_pos ho]
      split <;> rfl
    rw [e, wgain]
    split
    · linarith
    · split
      · split <;> linarith
      · linarith
  · rw [swapSample, if_neg ho]
    by_cases hib : r.i1 = b
    · rw [if_pos hib, wgain]
      by_cases hlt : doc < r.d2
      · rw [if_pos hlt, if_pos hib.symm, if_pos hlt]
        dsimp only
        split <;> linarith
      · rw [if_neg hlt, if_pos hib.symm, if_neg hlt]
        dsimp only
        have := not_lt.1 hlt
        split <;> linarith
    · rw [if_neg hib, wgain]
      have hib' : ¬ b = r.i1 := fun e => hib e.symm
      by_cases hlt : doc < r.d1
      · rw [if_pos hlt, if_pos hlt]
        dsimp only
        linarith
      · rw [if_neg hlt, if_neg hlt, if_neg hib', add_zero]
        split
        · exact le_refl _
        · split <;> exact le_refl _

theorem swapGainLoop_wspec (d : Nat → Nat → K) (buf : List (Rec K)) (c k : Nat) (os : List Nat) :
    ∀ (mi : List K) (xc : K), mi.length = k →
      (∀ o ∈ os, ∃ r, buf[o]? = some r ∧ r.i1 < k) →
      ∃ mi' xc', swapGainLoop d buf c os mi xc = some (mi', xc') ∧ mi'.length = k ∧
        ∀ j, mi'.getD j 0 + xc' = mi.getD j 0 + xc + (os.map fun o =>
          wgain (d c o) ((buf[o]?).getD ⟨0, 0, 0, 0⟩) j -
          (if j = ((buf[o]?).getD ⟨0, 0, 0, 0⟩).i1 then
            ((buf[o]?).getD ⟨0, 0, 0, 0⟩).d2 - ((buf[o]?).getD ⟨0, 0, 0, 0⟩).d1 else 0)).sum := by
  induction os with
  | nil => intro mi xc hk _; exact ⟨mi, xc, rfl, hk, by simp⟩
  | cons o os ih =>
    intro mi xc hk h
    obtain ⟨r, er, hr⟩ := h o (by simp)
    have ho : ∀ q ∈ os, ∃ r, buf[q]? = some r ∧ r.i1 < k := fun q hq => h q (by simp [hq])
    simp only [swapGainLoop, er, Option.bind_eq_bind, Option.bind_some]
    split
    · rename_i hlt
      obtain ⟨a1, e1, l1, g1⟩ := addAt_spec mi r.i1 (r.d1 - r.d2) (by omega)
      obtain ⟨a2, x2, e2, l2, g2⟩ := ih a1 (xc + (d c o - r.d1)) (by omega) ho
      refine ⟨a2, x2, by simp only [e1, Option.bind_some, e2], l2, fun j => ?_⟩
      rw [g2, g1, List.map_cons, List.sum_cons, er, Option.getD_some, wgain, if_pos hlt]
      split <;> ring
    · rename_i hlt
      split
      · rename_i hlt2
        obtain ⟨a1, e1, l1, g1⟩ := addAt_spec mi r.i1 (d c o - r.d2) (by omega)
        obtain ⟨a2, x2, e2, l2, g2⟩ := ih a1 xc (by omega) ho
        refine ⟨a2, x2, by simp only [e1, Option.bind_some, e2], l2, fun j => ?_⟩
        rw [g2, g1, List.map_cons, List.sum_cons, er, Option.getD_some, wgain, if_neg hlt, if_pos hlt2]
        split <;> ring
      · rename_i hlt2
        obtain ⟨a2, x2, e2, l2, g2⟩ := ih mi xc hk ho
        refine ⟨a2, x2, e2, l2, fun j => ?_⟩
        rw [g2, List.map_cons, List.sum_cons, er, Option.getD_some, wgain, if_neg hlt, if_neg hlt2]
        split <;> ring

/-! ### The state -/

/-- The sum of the cached first distances. -/
def cached (n : Nat) (buf : List (Rec K)) : K :=
  ((List.range n).map fun o => ((buf[o]?).getD ⟨0, 0, 0, 0⟩).d1).sum

/-- The invariant of FasterPAM that ties do not destroy. -/
structure WOK (vmax : K) (d : Nat → Nat → K) (n : Nat) (s : PState K) : Prop where
  two : 2 ≤ s.medoids.length
  range : ∀ m ∈ s.medoids, m < n
  len : s.buf.length = n
  recs : ∀ (o : Nat) (r : Rec K), s.buf[o]? = some r → WRec vmax (dists d s.medoids o) r
  rem : removal s.medoids.length s.buf = some s.removal
  loss : s.loss = cached n s.buf

theorem wrecAt {vmax : K} {d : Nat → Nat → K} {n : Nat} {s : PState K} (h : WOK vmax d n s) (o : Nat)
    (ho : o < n) : ∃ r, s.buf[o]? = some r ∧ WRec vmax (dists d s.medoids o) r ∧
      r.i1 < s.medoids.length := by
  have ho' : o < s.buf.length := by rw [h.len]; exact ho
  refine ⟨s.buf[o], List.getElem?_eq_getElem ho', h.recs _ _ (List.getElem?_eq_getElem ho'), ?_⟩
  have := (h.recs _ _ (List.getElem?_eq_getElem ho')).lt1
  simpa [dists] using this

theorem WRec.nonneg {vmax : K} {d : Nat → Nat → K} {n : Nat} (hd : IsTable d n) {ms : List Nat}
    (hms : ∀ m ∈ ms, m < n) {o : Nat} (ho : o < n) {r : Rec K} (h : WRec vmax (dists d ms o) r)
    (hv : 0 < vmax) : 0 ≤ r.d1 ∧ 0 ≤ r.d2 := by
  have key : ∀ (j : Nat) (y : K), (dists d ms o)[j]? = some y → 0 ≤ y := by
    intro j y hy
    have := List.mem_of_getElem? hy
    simp only [dists, List.mem_map] at this
    obtain ⟨m, hm, rfl⟩ := this
    exact hd.1 _ _ (hms m hm) ho
  refine ⟨key _ _ h.1, ?_⟩
  rcases h.2 with ⟨-, h2⟩ | ⟨h2, -⟩
  · exact key _ _ h2
  · rw [h2]; exact hv.le

/-- The reported total deviation is at least the total deviation. -/
theorem td_le_cached {vmax : K} {d : Nat → Nat → K} {n : Nat} {s : PState K} (h : WOK vmax d n s) :
    td d n s.medoids ≤ s.loss := by
  rw [h.loss]
  unfold td cached
  apply List.sum_le_sum
  intro o ho
  obtain ⟨r, er, hr, -⟩ := wrecAt h o (List.mem_range.1 ho)
  rw [er, Option.getD_some]
  have hmem := List.mem_of_getElem? hr.1
  have hne : dists d s.medoids o ≠ [] := List.ne_nil_of_mem hmem
  obtain ⟨x, hx⟩ := Option.isSome_iff_exists.1 (List.isSome_min?_iff.2 hne)
  rw [hx, Option.getD_some]
  exact (List.min?_eq_some_iff.1 hx).2 _ hmem

theorem wremoval_some {vmax : K} {ms : List Nat} {d : Nat → Nat → K} {buf : List (Rec K)}
    (h : ∀ (o : Nat) (r : Rec K), buf[o]? = some r → WRec vmax (dists d ms o) r) :
    ∃ rem, removal ms.length buf = some rem ∧ rem.length = ms.length ∧ ∀ j, j < ms.length →
      rem.getD j 0 = (buf.map fun r => if j = r.i1 then r.d2 - r.d1 else 0).sum := by
  obtain ⟨rem, e0, l0, g0⟩ := removalLoop_spec buf (List.replicate ms.length (0 : K)) (by
    intro r hr
    obtain ⟨o, ho, rfl⟩ := List.mem_iff_getElem.1 hr
    have := (h _ _ (List.getElem?_eq_getElem ho)).lt1
    simpa [dists] using this)
  refine ⟨rem, e0, by simpa using l0, fun j hj => ?_⟩
  have e3 : (List.replicate ms.length (0 : K)).getD j 0 = 0 := by
    rw [List.getD_eq_getElem?_getD, List.getElem?_replicate, if_pos hj]; rfl
  rw [g0, e3, zero_add]

/-- The sum of the predictions for the returned position. -/
theorem findBestSwap_wspec {vmax : K} {d : Nat → Nat → K} {n : Nat} {s : PState K} (h : WOK vmax d n s)
    (c : Nat) : ∃ delta i, findBestSwap d n s c = some (delta, i) ∧ i < s.medoids.length ∧
      delta = ((List.range n).map fun o => wgain (d c o) ((s.buf[o]?).getD ⟨0, 0, 0, 0⟩) i).sum := by
  obtain ⟨rem, e0, l0, g0⟩ := wremoval_some h.recs
  have hrem := h.rem
  rw [e0, Option.some.injEq] at hrem
  subst hrem
  obtain ⟨mi, xc, e1, l1, g1⟩ := swapGainLoop_wspec d s.buf c s.medoids.length (List.range n)
    s.removal 0 l0 (fun o ho => by
      obtain ⟨r, e, -, hi⟩ := wrecAt h o (List.mem_range.1 ho)
      exact ⟨r, e, hi⟩)
  have hne : mi ≠ [] := by
    rintro rfl
    have := h.two
    simp at l1
    omega
  obtain ⟨i, v, e2, hi, -, -⟩ := Stats.minPair_spec mi hne
  have hil := lt_of_some hi
  refine ⟨xc + v, i, ?_, by omega, ?_⟩
  · simp only [findBestSwap, e1, Option.bind_eq_bind, Option.bind_some, e2]
  · have hg : mi.getD i 0 = v := by rw [List.getD_eq_getElem?_getD, hi, Option.getD_some]
    rw [add_comm xc v, ← hg, g1, g0 i (by omega), add_zero, sum_sub_map]
    conv_lhs => rw [buf_eq s.buf n h.len, List.map_map]
    rw [← buf_eq s.buf n h.len]
    simp only [Function.comp_def]
    ring

theorem swapBuffers_wspec {vmax : K} {d : Nat → Nat → K} {n : Nat} {s : PState K} (hd : IsTable d n)
    (hv : ∀ i o, i < n → o < n → d i o < vmax) (h : WOK vmax d n s) (c b : Nat) (hc : c < n)
    (hb : b < s.medoids.length) :
    ∃ buf', swapBuffers d n (s.medoids.set b c) s.buf c b = some (buf', cached n buf') ∧
      buf'.length = n ∧
      (∀ (o : Nat) (r : Rec K), buf'[o]? = some r → WRec vmax (dists d (s.medoids.set b c) o) r) ∧
      cached n buf' ≤ cached n s.buf +
        ((List.range n).map fun o => wgain (d c o) ((s.buf[o]?).getD ⟨0, 0, 0, 0⟩) b).sum := by
  have hv0 : 0 < vmax := lt_of_le_of_lt (hd.1 c c hc hc) (hv c c hc hc)
  let g : Nat → Rec K := fun o =>
    swapSample (row d (s.medoids.set b c) o) (decide (o = c)) (d c o) b ((s.buf[o]?).getD ⟨0, 0, 0, 0⟩)
  have e1 : (List.range n).mapM (fun o => do
      let r ← s.buf[o]?
      pure (swapSample (row d (s.medoids.set b c) o) (decide (o = c)) (d c o) b r)) =
      some ((List.range n).map g) := by
    apply KMeans.mapM_some
    intro o ho
    have ho' : o < s.buf.length := by rw [h.len]; exact List.mem_range.1 ho
    simp only [g, List.getElem?_eq_getElem ho', Option.getD_some, Option.bind_eq_bind,
      Option.bind_some]
    rfl
  have hlen : ((List.range n).map g).length = n := by simp
  have hget : ∀ o, o < n → ((List.range n).map g)[o]? = some (g o) := by
    intro o ho
    rw [List.getElem?_map, List.getElem?_range ho, Option.map_some]
  have hown : ∀ o, o < n → decide (o = c) = true → d c o = 0 := by
    intro o ho hoc
    have : o = c := of_decide_eq_true hoc
    subst this
    exact hd.2 _ ho
  have hrec : ∀ (o : Nat) (r : Rec K), ((List.range n).map g)[o]? = some r →
      WRec vmax (dists d (s.medoids.set b c) o) r := by
    intro o r hr
    have ho : o < n := by
      by_contra hn
      rw [List.getElem?_eq_none (by simpa using hn)] at hr
      cases hr
    obtain ⟨r0, er, hr0, -⟩ := wrecAt h o ho
    rw [hget o ho, Option.some.injEq] at hr
    subst hr
    simp only [g, er, Option.getD_some]
    show WRec _ _ (swapSample (dists d (s.medoids.set b c) o) _ _ _ _)
    rw [dists_set]
    exact swapSample_wspec hr0 b (by simpa [dists] using hb) _ _ (hv c o hc ho) (hown o ho)
  refine ⟨(List.range n).map g, ?_, hlen, hrec, ?_⟩
  · simp only [Option.bind_eq_bind] at e1
    simp only [swapBuffers, Option.bind_eq_bind, e1, Option.bind_some]
    rw [lossLoop_spec _ _ _ _ (by intro o ho; rw [hlen]; exact List.mem_range.1 ho), zero_add,
      Option.bind_some]
    congr 3
    apply List.map_congr_left
    intro o ho
    have ho' := List.mem_range.1 ho
    split
    · rename_i hoc
      subst hoc
      rw [List.getElem?_map, List.getElem?_range ho']
      simp only [Option.map_some, Option.getD_some, g, swapSample, decide_true, if_true]
      split <;> rfl
    · rfl
  · unfold cached
    rw [← sum_add_map]
    apply List.sum_le_sum
    intro o ho
    have ho' := List.mem_range.1 ho
    obtain ⟨r0, er, hr0, -⟩ := wrecAt h o ho'
    obtain ⟨hp1, hp2⟩ := hr0.nonneg hd h.range ho' hv0
    rw [hget o ho', er, Option.getD_some, Option.getD_some]
    simp only [g, er, Option.getD_some]
    exact swapSample_le hp1 hp2 _ _ _ _ (hown o ho')

/-- One candidate: either nothing changes, or one exchange that lowers the reported total deviation. -/
theorem tryCandidate_wspec {vmax : K} {d : Nat → Nat → K} {n : Nat} {s : PState K} (hd : IsTable d n)
    (hv : ∀ i o, i < n → o < n → d i o < vmax) (h : WOK vmax d n s) (c : Nat) (hc : c < n) :
    ∃ s', tryCandidate d n s c = some s' ∧ WOK vmax d n s' ∧
      s'.medoids.length = s.medoids.length ∧
      (s' = s ∨ (s'.loss < s.loss ∧ ∃ b, b < s.medoids.length ∧ s'.medoids = s.medoids.set b c)) := by
  obtain ⟨r, er, -, -⟩ := wrecAt h c hc
  simp only [tryCandidate, er, Option.bind_eq_bind, Option.bind_some]
  split
  · exact ⟨s, rfl, h, rfl, Or.inl rfl⟩
  · obtain ⟨delta, b, e1, hb, hdelta⟩ := findBestSwap_wspec h c
    simp only [e1, Option.bind_some]
    split
    · rename_i hneg
      obtain ⟨buf', e2, hl2, hr2, hle⟩ := swapBuffers_wspec hd hv h c b hc hb
      obtain ⟨rem, e3, -⟩ := wremoval_some hr2
      simp only [e2, Option.bind_some, e3]
      refine ⟨_, rfl, ⟨by simpa using h.two, ?_, hl2, hr2, e3, rfl⟩, by simp,
        Or.inr ⟨?_, b, hb, rfl⟩⟩
      · intro m hm
        rcases List.mem_or_eq_of_mem_set hm with h' | rfl
        · exact h.range m h'
        · exact hc
      · dsimp only
        rw [← hdelta, ← h.loss] at hle
        linarith
    · exact ⟨s, rfl, h, rfl, Or.inl rfl⟩

theorem stepLoop_wspec {vmax : K} {d : Nat → Nat → K} {n : Nat} (hd : IsTable d n)
    (hv : ∀ i o, i < n → o < n → d i o < vmax) (cs : List Nat) :
    ∀ s : PState K, (∀ c ∈ cs, c < n) → WOK vmax d n s →
    ∃ s', stepLoop d n cs s = some s' ∧ WOK vmax d n s' ∧ s'.medoids.length = s.medoids.length ∧
      (s' = s ∨ s'.loss < s.loss) := by
  induction cs with
  | nil => intro s _ h; exact ⟨s, rfl, h, rfl, Or.inl rfl⟩
  | cons c cs ih =>
    intro s hcs h
    obtain ⟨s1, e1, h1, l1, c1⟩ := tryCandidate_wspec hd hv h c (hcs c (by simp))
    obtain ⟨s2, e2, h2, l2, c2⟩ := ih s1 (fun q hq => hcs q (by simp [hq])) h1
    refine ⟨s2, by simp only [stepLoop, e1, Option.bind_eq_bind, Option.bind_some, e2], h2, by omega, ?_⟩
    rcases c1 with rfl | ⟨c1, -⟩
    · exact c2
    · rcases c2 with rfl | c2
      · exact Or.inr c1
      · exact Or.inr (lt_trans c2 c1)

/-- Any number of steps. -/
theorem run_wspec {vmax : K} {d : Nat → Nat → K} {n : Nat} (hd : IsTable d n)
    (hv : ∀ i o, i < n → o < n → d i o < vmax) {s : PState K} (h : WOK vmax d n s) : ∀ t : Nat,
    ∃ s', KMeans.runN (pamStep d n) t s = some s' ∧ WOK vmax d n s' ∧
      s'.medoids.length = s.medoids.length ∧ s'.loss ≤ s.loss := by
  intro t
  induction t with
  | zero => exact ⟨s, rfl, h, rfl, le_refl _⟩
  | succ t ih =>
    obtain ⟨s1, e1, h1, hl1, hle1⟩ := ih
    obtain ⟨s2, e2, h2, hl2, c2⟩ := stepLoop_wspec hd hv (List.range n) s1
      (fun c hc => List.mem_range.1 hc) h1
    refine ⟨s2, by simp only [KMeans.runN, e1, Option.bind_some]; exact e2, h2, by omega, ?_⟩
    rcases c2 with rfl | c2
    · exact hle1
    · exact le_trans c2.le hle1

theorem pamInit_wspec (vmax : K) (eq : K → K → Bool) {d : Nat → Nat → K} {n : Nat} {ms : List Nat}
    (hk : 2 ≤ ms.length) (hms : ∀ m ∈ ms, m < n) (hv : ∀ i o, i < n → o < n → d i o < vmax) :
    ∃ s, pamInit vmax eq d n ms = some s ∧ s.medoids = ms ∧ WOK vmax d n s ∧ s.loss = td d n ms := by
  have hne : ms ≠ [] := by rintro rfl; simp at hk
  have e1 : nthIndices vmax eq d n ms 1 =
      some ((List.range n).map fun o => (first vmax (row d ms o)).1) := by
    rw [nthIndices, if_neg (by omega), if_neg hne, if_pos rfl, nearestIndices, if_neg hne]
  have e2 : nthIndices vmax eq d n ms 2 =
      some ((List.range n).map fun o => (second vmax eq (row d ms o)).i2) := by
    rw [nthIndices, if_neg (by omega), if_neg hne, if_neg (by omega), if_pos rfl]
  have e3 : nthDistances vmax eq d n ms 1 =
      some ((List.range n).map fun o => (first vmax (row d ms o)).2) := by
    rw [nthDistances, if_neg (by omega), if_neg hne, if_pos rfl, nearestDistances, if_neg hne]
  have e4 : nthDistances vmax eq d n ms 2 =
      some ((List.range n).map fun o => (second vmax eq (row d ms o)).d2) := by
    rw [nthDistances, if_neg (by omega), if_neg hne, if_neg (by omega), if_pos rfl]
  have hs := second_first vmax eq
  have e5 : (List.range n).mapM (fun o => do
      let i1 ← ((List.range n).map fun o => (first vmax (row d ms o)).1)[o]?
      let d1 ← ((List.range n).map fun o => (first vmax (row d ms o)).2)[o]?
      let i2 ← ((List.range n).map fun o => (second vmax eq (row d ms o)).i2)[o]?
      let d2 ← ((List.range n).map fun o => (second vmax eq (row d ms o)).d2)[o]?
      pure (Rec.mk i1 d1 i2 d2)) =
      some ((List.range n).map fun o => second vmax eq (dists d ms o)) := by
    apply KMeans.mapM_some
    intro o ho
    have ho' := List.mem_range.1 ho
    simp only [List.getElem?_map, List.getElem?_range ho', Option.map_some, Option.bind_eq_bind,
      Option.bind_some]
    have := hs (row d ms o) 0 ⟨0, vmax, 0, vmax⟩
    simp only [first, second, ← this.1, ← this.2]
    rfl
  have hlen : ((List.range n).map fun o => second vmax eq (dists d ms o)).length = n := by simp
  have hsec : ∀ o, o < n → WRec vmax (dists d ms o) (second vmax eq (dists d ms o)) ∧
      Smallest (dists d ms o) [] (second vmax eq (dists d ms o)).i1 (second vmax eq (dists d ms o)).d1 := by
    intro o ho
    refine second_wspec vmax eq _ (by simpa [dists] using hne) ?_
    intro v hv'
    simp only [dists, List.mem_map] at hv'
    obtain ⟨m, hm, rfl⟩ := hv'
    exact hv m o (hms m hm) ho
  have hrec : ∀ (o : Nat) (r : Rec K),
      ((List.range n).map fun o => second vmax eq (dists d ms o))[o]? = some r →
      WRec vmax (dists d ms o) r := by
    intro o r hr
    rw [List.getElem?_map, Option.map_eq_some_iff] at hr
    obtain ⟨a, ha, rfl⟩ := hr
    have ho : o < n := by
      by_contra hn
      rw [List.getElem?_eq_none (by simpa using hn)] at ha
      cases ha
    rw [List.getElem?_range ho, Option.some.injEq] at ha
    subst ha
    exact (hsec o ho).1
  obtain ⟨rem, e6, -⟩ := wremoval_some hrec
  have hloss : ((List.range n).map fun o => (first vmax (row d ms o)).2).sum =
      ((List.range n).map fun o => (second vmax eq (dists d ms o)).d1).sum := by
    congr 1
    apply List.map_congr_left
    intro o _
    exact (hs (row d ms o) 0 ⟨0, vmax, 0, vmax⟩).2.symm
  refine ⟨⟨ms, (List.range n).map fun o => second vmax eq (dists d ms o), rem,
    ((List.range n).map fun o => (first vmax (row d ms o)).2).sum⟩, by
    simp only [pamInit, e1, e2, e3, e4, Option.bind_eq_bind, Option.bind_some]
    simp only [Option.bind_eq_bind] at e5
    simp only [e5, Option.bind_some, e6], rfl, ⟨hk, hms, hlen, hrec, e6, ?_⟩, ?_⟩
  · dsimp only
    rw [hloss]
    unfold cached
    congr 1
    apply List.map_congr_left
    intro o ho
    rw [List.getElem?_map, List.getElem?_range (List.mem_range.1 ho)]
    rfl
  · dsimp only
    rw [hloss]
    unfold td
    congr 1
    apply List.map_congr_left
    intro o ho
    rw [min_smallest (hsec o (List.mem_range.1 ho)).2, Option.getD_some]

/-- The reported total deviation takes finitely many values: it is the sum of the distances of the
samples to some samples. -/
theorem loss_values {vmax : K} {d : Nat → Nat → K} {n : Nat} {s : PState K} (h : WOK vmax d n s) :
    ∃ a : List Nat, (a.length = n ∧ ∀ x ∈ a, x < n) ∧
      s.loss = ((List.range n).map fun o => d (a.getD o 0) o).sum := by
  refine ⟨(List.range n).map fun o => s.medoids.getD ((s.buf[o]?).getD ⟨0, 0, 0, 0⟩).i1 0, ⟨by simp, ?_⟩, ?_⟩
  · intro x hx
    obtain ⟨o, ho, rfl⟩ := List.mem_map.1 hx
    obtain ⟨r, er, -, hi⟩ := wrecAt h o (List.mem_range.1 ho)
    rw [er, Option.getD_some, List.getD_eq_getElem?_getD, List.getElem?_eq_getElem hi, Option.getD_some]
    exact h.range _ (List.getElem_mem hi)
  · rw [h.loss, cached]
    congr 1
    apply List.map_congr_left
    intro o ho
    have ho' := List.mem_range.1 ho
    obtain ⟨r, er, hr, hi⟩ := wrecAt h o ho'
    rw [List.getD_eq_getElem?_getD (l := List.map _ _), List.getElem?_map, List.getElem?_range ho',
      Option.map_some, Option.getD_some, er, Option.getD_some]
    have := hr.1
    rw [dists, List.getElem?_map, List.getElem?_eq_getElem hi, Option.map_some, Option.some.injEq] at this
    rw [List.getD_eq_getElem?_getD, List.getElem?_eq_getElem hi, Option.getD_some, this]

end Verif.KMedoids
