import Verif.Model.Broadcast
import Mathlib.Data.Real.Basic
import Mathlib.Algebra.BigOperators.Group.Finset.Basic
import Mathlib.Data.Nat.Choose.Basic
import Mathlib.Order.Interval.Finset.Nat

/-!
# Model of `exact_diag/ed_nlce.py` 503-587: cluster weights and Euler resummation

The first axis of an array of cluster properties runs over the clusters, the other axes are arbitrary.
-/

namespace ED

open scoped BigOperators

/-- `np.tensordot(coeffs, w[a:b, ...], axes=(1, 0))` for one row of coefficients: the result has a first
axis of length one. The caller checks the lengths. -/
noncomputable def rowDot (coeffs : ℕ → ℝ) (a b : ℕ) (w : ND ℝ) : ND ℝ :=
  ⟨1 :: w.shape.tail, fun idx => ∑ j ∈ Finset.Ico a b, coeffs j * w.data (j :: idx.tail)⟩

/-- `a / x` for a number `x`. -/
noncomputable def ND.divBy (a : ND ℝ) (x : ℝ) : ND ℝ := ⟨a.shape, fun idx => a.data idx / x⟩

/-- The loop computing the weights, ed_nlce.py 540-547, starting from `weights = np.zeros(...)`. -/
noncomputable def nlceWeights (P M : ND ℝ) : Res (ND ℝ) :=
  (List.range (P.shape.headD 0)).foldlM (fun W ii => do
    if ¬ ii < M.shape.headD 0 then throw .index
    if M.shape.getD 1 0 ≠ P.shape.headD 0 then throw .value
    let r ← (P.row ii).zip (· - ·)
      (rowDot (fun j => M.data [ii, j]) 0 (P.shape.headD 0) W).squeeze
    W.setRow ii r) (⟨P.shape, fun _ => 0⟩ : ND ℝ)

/-- `get_nlce_exp_val`, ed_nlce.py 503-563: `(exp_val_nlce, nlce_orders, weights)`. `parent` is the
flattened `parent_clust_multiplicity_vect`; `M` is the two-dimensional multiplicity matrix. Slices are
clipped at the number of clusters. -/
noncomputable def getNlceExpVal (P M : ND ℝ) (parent : List ℝ) (orders : List ℕ) (nsites : ℕ) :
    Res (ND ℝ × ND ℝ × ND ℝ) := do
  let n := P.shape.headD 0
  let W ← nlceWeights P M
  if parent.length ≠ n then throw .value
  let c := fun j => parent.getD j 0
  let total := ((rowDot c 0 n W).squeeze).divBy nsites
  if n = 0 then throw .index
  let ords ← (List.range (orders.length - 1)).foldlM (fun O ii =>
    O.setRow ii ((rowDot c (min n (orders.getD ii 0)) (min n (orders.getD (ii + 1) 0)) W).squeeze.divBy
      nsites)) (⟨(orders.length - 1) :: P.shape.tail, fun _ => 0⟩ : ND ℝ)
  pure (total, ords, W)

/-- `euler_resum`, ed_nlce.py 566-587: `(euler_resum, euler_orders)`. -/
noncomputable def eulerResum (A : ND ℝ) (y : ℝ) : ND ℝ × ND ℝ :=
  let orders : ND ℝ := ⟨A.shape, fun idx =>
    match idx with
    | [] => 0
    | i :: idx => 1 / (1 + y) ^ (i + 1) *
        ∑ j ∈ Finset.range (i + 1), (i.choose j : ℝ) * y ^ (j + 1) * A.data (j :: idx)⟩
  (⟨A.shape.tail, fun idx => ∑ i ∈ Finset.range (A.shape.headD 0), orders.data (i :: idx)⟩, orders)

end ED
