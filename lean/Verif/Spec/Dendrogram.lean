import Verif.Model.Dendrogram

/-
Specification vocabulary for dendrograms and condensed trees: leaves, subtrees, common ancestors,
clusterings that cut a hierarchy.
-/

namespace Verif.Dendrogram

variable {D : Type}

/-- The samples below a node, from left to right. -/
def STree.leaves : STree D → List Nat
  | .leaf i => [i]
  | .node _ _ _ l r => l.leaves ++ r.leaves

/-- All nodes below a node, itself included. -/
def STree.subtrees : STree D → List (STree D)
  | .leaf i => [.leaf i]
  | .node c lv s l r => .node c lv s l r :: (l.subtrees ++ r.subtrees)

/-- The children of a node. -/
def STree.children : STree D → List (STree D)
  | .leaf _ => []
  | .node _ _ _ l r => [l, r]

/-- Some node of level at most `c` has both samples below it. -/
def STree.Under [LE D] [Zero D] (t : STree D) (c : D) (a b : Nat) : Prop :=
  ∃ s ∈ t.subtrees, s.level ≤ c ∧ a ∈ s.leaves ∧ b ∈ s.leaves

/-- A well-formed dendrogram: no sample twice, sizes are numbers of samples, levels do not decrease
towards the root, and the representative of a node is one of its samples. -/
structure Good [LE D] [Zero D] (t : STree D) : Prop where
  nodup : t.leaves.Nodup
  size : ∀ s ∈ t.subtrees, s.size = s.leaves.length
  height : ∀ s ∈ t.subtrees, ∀ c ∈ s.children, c.level ≤ s.level
  rep : ∀ s ∈ t.subtrees, s.representative ∈ s.leaves

/-- Levels increase strictly towards the root (leaves aside, whose level is 0). -/
def STree.Strict [LT D] [Zero D] (t : STree D) : Prop :=
  ∀ s ∈ t.subtrees, ∀ c ∈ s.children, c.children ≠ [] → c.level < s.level

/-- Both children of the node have at least `m` samples. -/
def STree.Splits (m : Nat) (t : STree D) : Prop :=
  t.children ≠ [] ∧ ∀ c ∈ t.children, m ≤ c.leaves.length

/-- `v` still is the cluster that starts at `s`: it is big enough and no node strictly above it, up to
`s`, splits into two clusters of at least `m` samples. -/
def Carries (m : Nat) (s v : STree D) : Prop :=
  v ∈ s.subtrees ∧ (v = s ∨ m ≤ v.leaves.length) ∧
    ∀ w ∈ s.subtrees, v ∈ w.subtrees → w ≠ v → ¬ w.Splits m

/-- `v` is the lowest node that still is the cluster started at `s` and contains the sample `p`; its
level is the distance at which `p` leaves the cluster. -/
def IsExit (m : Nat) (s : STree D) (p : Nat) (v : STree D) : Prop :=
  Carries m s v ∧ p ∈ v.leaves ∧ ∀ v', Carries m s v' → p ∈ v'.leaves → v ∈ v'.subtrees

/-- All clusters below a cluster of a condensed tree, itself included. -/
def CTree.subtrees : CTree D → List (CTree D)
  | .leaf n => [.leaf n]
  | .split n l r => .split n l r :: (l.subtrees ++ r.subtrees)

/-- The samples of a cluster. -/
def CTree.samples (t : CTree D) : List Nat := t.root.slink.leaves

/-- The ways of cutting a hierarchy of clusters into clusters none of which is above another, such
that each leaf cluster is below one of them. -/
inductive Cut : CTree D → List (CTree D) → Prop
  | here (t : CTree D) : Cut t [t]
  | children (n : CNode D) {l r : CTree D} {a b : List (CTree D)} (ha : Cut l a) (hb : Cut r b) :
      Cut (.split n l r) (a ++ b)

/-- The sum of the stabilities of some clusters. -/
def totalStability [Zero D] [Add D] (cs : List (CTree D)) : D :=
  (cs.map (fun c => c.root.stability)).sum

/-- A cut that is allowed: the whole data set as the only cluster requires `allow`, except when there
is no other cluster. -/
def Allowed (allow : Bool) (t : CTree D) (cs : List (CTree D)) : Prop :=
  allow = true ∨ t.isLeaf = true ∨ cs.length ≠ 1

/-- The labels of `n` samples for the clusters `cs`: the samples of the `j`-th cluster carry `j + 1`,
those in no cluster `0`; the clusters are disjoint and not empty (so that the labels in use are
`1, ..., cs.length`). -/
structure Labels (n : Nat) (flat : List Nat) (cs : List (CTree D)) : Prop where
  length : flat.length = n
  disjoint : cs.Pairwise (fun a b => ∀ i ∈ a.samples, i ∉ b.samples)
  positive : ∀ i j : Nat, flat[i]? = some (j + 1) ↔ ∃ c, cs[j]? = some c ∧ i ∈ c.samples
  noise : ∀ i : Nat, flat[i]? = some 0 ↔ i < n ∧ ∀ c ∈ cs, i ∉ c.samples
  used : ∀ j, j < cs.length → ∃ i : Nat, flat[i]? = some (j + 1)

/-- Two labellings that describe the same clusters and the same noise, up to the numbers of the
clusters. -/
structure SameClusters (f g : List Nat) : Prop where
  length : f.length = g.length
  noise : ∀ i : Nat, f[i]? = some 0 ↔ g[i]? = some 0
  same : ∀ i j : Nat, f[i]? = f[j]? ↔ g[i]? = g[j]?

/-- Two labellings that describe the same clusters and the same noise when sample `i` of the first is
sample `σ i` of the second, up to the numbers of the clusters. -/
structure SameClustersVia (σ : Nat → Nat) (f g : List Nat) : Prop where
  length : f.length = g.length
  noise : ∀ i : Nat, f[i]? = some 0 ↔ g[σ i]? = some 0
  same : ∀ i j : Nat, f[i]? = f[j]? ↔ g[σ i]? = g[σ j]?

end Verif.Dendrogram
