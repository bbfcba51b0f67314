import Verif.Model.Dendrogram
import Verif.Model.RoundingRange

/-
The condensed tree and the selection of clusters with the arithmetic left open, and with every operation
rounded: `CondensedClusterNode::add_excess_of_mass`, `preorder_traversal_build`, `select_subtree` and the
constructor of `CondensedClusterTree`.  The traversals are those of Model/Dendrogram.lean.
-/

namespace Verif.Dendrogram

/-- The operations on stabilities: `stability_ += size * (lambda_value - lambda_min_)`
(CondensedClusterNode.hpp:87), the sum of the stabilities of the children and the comparison `>`
(CondensedClusterTree.hpp:272-276). -/
structure Arith (D : Type) where
  mass : D → Nat → D → D → D
  add : D → D → D
  gt : D → D → Bool

variable {D : Type} [Zero D]

/-- `add_excess_of_mass` (CondensedClusterNode.hpp:84-88). -/
def CNode.addMassA (A : Arith D) (n : CNode D) (size : Nat) (lambda : D) : CNode D :=
  { n with stability := A.mass n.stability size lambda n.lambdaMin }

/-- `preorder_traversal_build` (CondensedClusterTree.hpp:144-220), as `condense`. -/
def condenseA (A : Arith D) (inv : D → D) (minSize : Nat) : CNode D → STree D → CTree D
  | n, .leaf _ => .leaf { n with selected := true }
  | n, .node _ level size l r =>
    if minSize ≤ l.size ∧ minSize ≤ r.size then
      .split (n.addMassA A size (inv level))
        (condenseA A inv minSize ⟨l, inv level, 0, false⟩ l)
        (condenseA A inv minSize ⟨r, inv level, 0, false⟩ r)
    else if minSize ≤ l.size then condenseA A inv minSize (n.addMassA A r.size (inv level)) l
    else if minSize ≤ r.size then condenseA A inv minSize (n.addMassA A l.size (inv level)) r
    else .leaf { n.addMassA A size (inv level) with selected := true }

/-- `build` (CondensedClusterTree.hpp:134-141). -/
def condenseRootA (A : Arith D) (inv : D → D) (minSize : Nat) (root : STree D) : CTree D :=
  condenseA A inv minSize ⟨root, 0, 0, false⟩ root

/-- `select_subtree` (CondensedClusterTree.hpp:264-288). -/
def selectA (A : Arith D) : CTree D → CTree D × D
  | .leaf n => (.leaf n, n.stability)
  | .split n l r =>
    let (l', sl) := selectA A l
    let (r', sr) := selectA A r
    if A.gt (A.add sl sr) n.stability then (.split n l' r', A.add sl sr)
    else (.split { n with selected := true } l' r', n.stability)

/-- Constructor of `CondensedClusterTree` (CondensedClusterTree.hpp:113-131). -/
def condensedTreeA (A : Arith D) (inv : D → D) (minSize : Nat) (allowSingle returnLeaves : Bool)
    (root : STree D) : CTree D :=
  let t := condenseRootA A inv minSize root
  if returnLeaves then t
  else
    let t := (selectA A t).1
    if !allowSingle && !t.isLeaf then t.unselectRoot else t

/-- `common::division(1, level)` (common/Utils.hpp:431-440) before rounding: 0 when `common::equality` takes
the level for 0 (Utils.hpp:416-417; the difference with 0 is exact). -/
noncomputable def divOne (eps level : ℝ) : ℝ := if |level| ≤ eps then 0 else 1 / level

/-- Floating arithmetic, `fl` giving the result of an operation from the exact result.  The number of samples
is converted to the floating type; with `fused` the product and the sum of `add_excess_of_mass` are one
operation, as compilers may do. -/
noncomputable def floatArith (fl : ℝ → ℝ) (fused : Bool) : Arith ℝ where
  mass s size lambda lambdaMin :=
    if fused then fl (s + fl size * fl (lambda - lambdaMin))
    else fl (s + fl (fl size * fl (lambda - lambdaMin)))
  add a b := fl (a + b)
  gt a b := decide (a > b)

/-- `fl` rounds as `R` does when the result is in range.  Nothing is said about results that overflow: what
holds for all such `fl` does not depend on them. -/
def Computes {p : Nat} {emax : ℤ} (R : Rounding.RoundingE p emax) (fl : ℝ → ℝ) : Prop :=
  ∀ x, |R.rnd x| < (2 : ℝ) ^ emax → fl x = R.rnd x

/-- The constructor of `CondensedClusterTree` (CondensedClusterTree.hpp:113-131) in floating arithmetic;
`eps` is `numeric_limits<ValueType>::epsilon()`. -/
noncomputable def condensedTreeF (fl : ℝ → ℝ) (fused : Bool) (eps : ℝ) (minSize : Nat)
    (allowSingle returnLeaves : Bool) (root : STree ℝ) : CTree ℝ :=
  condensedTreeA (floatArith fl fused) (fun level => fl (divOne eps level)) minSize allowSingle returnLeaves root

end Verif.Dendrogram
