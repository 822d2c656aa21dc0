import Verif.Spec.Clusters
import Verif.Model.Nlce
import Verif.Lemmas.Broadcast

/-! # Specification vocabulary: the linked cluster expansion on the square lattice -/

namespace ED

open Classical in
/-- `w` gives every shape of a cluster its weight for the property `p` of clusters: the property of a connected
finite set of sites is the sum of its weight and the weights of all its connected proper subsets. The property and
the weights are tables, with the entries `idx`. -/
def IsClusterWeight (p : Finset (ℤ × ℤ) → List ℕ → ℝ) (w : Shape → List ℕ → ℝ) : Prop :=
  ∀ S, ConnectedSites squareLattice S → ∀ idx,
    p S idx = w (shape S) idx + ∑ T ∈ S.ssubsets with ConnectedSites squareLattice T, w (shape T) idx

/-- A matrix as a two-dimensional array. -/
def Arr.table (A : Arr ℝ) : ND ℝ := ⟨[A.rows, A.cols], fun idx => A.e (idx.getD 0 0) (idx.getD 1 0)⟩

/-- The table with the property of each cluster of the list, whose entries have the shape `s`. -/
def IsPropertyTable (p : Finset (ℤ × ℤ) → List ℕ → ℝ) (clusters : List Geometry) (s : List ℕ) (P : ND ℝ) : Prop :=
  P.shape = clusters.length :: s ∧
    ∀ i (h : i < clusters.length) l, clusters[i].HasSites l → ∀ idx, Inside idx s →
      P.data (i :: idx) = p l.toFinset idx

end ED
