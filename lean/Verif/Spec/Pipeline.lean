import Verif.Spec.ClusterSum
import Verif.Model.Pipeline

/-! # Specification vocabulary: results of the distributed expansion -/

namespace ED

/-- The expansion of the property `p`, a function of `T` temperatures, over the clusters with up to `N` sites: the
table contains the property of each cluster; the weights are those of the clusters; the contribution of an order is
the sum of the weights of all connected shapes of this size; the total is the sum over the orders, and the resummed
value is Euler's transform of the orders. -/
def Expansion.IsSum (E : Expansion) (N : ℕ) (p : Finset (ℤ × ℤ) → List ℕ → ℝ) (clusters : List Geometry) (T : ℕ) :
    Prop :=
  IsPropertyTable p clusters [T] E.table ∧
  ∀ w, IsClusterWeight p w → ∀ j < T,
    (∀ i (h : i < clusters.length) l, clusters[i].HasSites l → E.weights.data [i, j] = w (shape l.toFinset) [j]) ∧
    (∀ k < N, E.orders.data [k, j] = ∑ᶠ c ∈ connectedShapes squareLattice (k + 1), w c [j]) ∧
    E.total.data [j] = ∑ k ∈ Finset.range N, ∑ᶠ c ∈ connectedShapes squareLattice (k + 1), w c [j] ∧
    E.euler.data [j] = ∑ i ∈ Finset.range N, (1 / 2) ^ (i + 1) *
      ∑ m ∈ Finset.range (i + 1), (i.choose m : ℝ) * ∑ᶠ c ∈ connectedShapes squareLattice (m + 1), w c [j]

end ED
