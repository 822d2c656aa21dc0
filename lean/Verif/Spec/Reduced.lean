import Verif.Spec.Zn
import Verif.Spec.Conf
import Verif.Spec.Decomposition
import Mathlib.Data.Matrix.Mul
import Mathlib.Algebra.Order.BigOperators.Group.List

/-!
# Specification: symmetry adapted bases

`P` are unnormalised projectors onto the isotypic components, `dims` the dimensions of the irreducible
representations, `order` the order of the group. `projs` are lists of rows, one list for every
representation: row vectors that are meant to be a basis of the component.
-/

namespace ED.Spec

open scoped BigOperators Matrix

/-- The operator permutes the basis states up to signs. -/
def SignedPermutation {d : ℕ} (U : Matrix (Fin d) (Fin d) ℂ) : Prop :=
  ∃ (σ : Equiv.Perm (Fin d)) (u : Fin d → ℂ), (∀ i, u i = 1 ∨ u i = -1) ∧
    ∀ i j, U i j = if j = σ i then u i else 0

/-- The rows are an orthonormal basis adapted to the decomposition, up to rounding. -/
structure Reduces {d : ℕ} (order : ℕ) (dims : List ℕ) (P : List (Matrix (Fin d) (Fin d) ℂ))
    (projs : List (List (Fin d → ℂ))) : Prop where
  length : projs.length = dims.length
  /-- the dimensions of the subspaces add up to the dimension of the space -/
  total : (projs.map List.length).sum = d
  unit : ∀ Q ∈ projs, ∀ r ∈ Q, rowInner r r = 1
  /-- different rows of one projector are orthogonal -/
  orth : ∀ Q ∈ projs, ∀ (a b : ℕ) (ha : a < Q.length) (hb : b < Q.length), a ≠ b →
    ‖rowInner Q[a] Q[b]‖ ≤ 1 / 10 ^ 13
  /-- rows of different projectors are orthogonal -/
  across : ∀ (k l : ℕ) (Q Q' : List (Fin d → ℂ)), projs[k]? = some Q → projs[l]? = some Q' → k ≠ l →
    ∀ r ∈ Q, ∀ s ∈ Q', ‖rowInner r s‖ ≤ 1 / 10 ^ 13
  /-- the rows of projector `k` span the `k`-th isotypic component -/
  range : ∀ (k n : ℕ) (Q : List (Fin d → ℂ)) (p : Matrix (Fin d) (Fin d) ℂ), projs[k]? = some Q → P[k]? = some p →
    dims[k]? = some n → ∀ i j,
      ‖(Q.map fun r => (starRingEnd ℂ) (r i) * r j).sum - (n : ℂ) / (order : ℂ) * p i j‖ ≤ 1 / 10 ^ 11
  /-- an operator that commutes with the symmetry has no elements between different projectors; `C` bounds
  the norm of the operator -/
  blocks : ∀ (H : Matrix (Fin d) (Fin d) ℂ) (C : ℝ), 0 ≤ C → AllCommute P H →
    (∀ v : Fin d → ℂ, ∑ j, ‖(v ᵥ* H) j‖ ^ 2 ≤ C ^ 2 * ∑ j, ‖v j‖ ^ 2) →
    ∀ (k l : ℕ) (Q Q' : List (Fin d → ℂ)), projs[k]? = some Q → projs[l]? = some Q' → k ≠ l →
      ∀ r ∈ Q, ∀ s ∈ Q', ‖rowInner (r ᵥ* H) s‖ ≤ C / 10 ^ 13

/-- The array as a matrix of the given dimension. -/
def asMatrix (M : Mat) (d : ℕ) : Matrix (Fin d) (Fin d) ℂ := fun i j => M.e i j

/-- The operator has no elements between different projectors, up to rounding errors in proportion to a bound
`C` of its norm. -/
def BlockDiagonal {d : ℕ} (projs : List (List (Fin d → ℂ))) (H : Matrix (Fin d) (Fin d) ℂ) : Prop :=
  ∀ C : ℝ, 0 ≤ C → (∀ v : Fin d → ℂ, ∑ j, ‖(v ᵥ* H) j‖ ^ 2 ≤ C ^ 2 * ∑ j, ‖v j‖ ^ 2) →
    ∀ (k l : ℕ) (Q Q' : List (Fin d → ℂ)), projs[k]? = some Q → projs[l]? = some Q' → k ≠ l →
      ∀ r ∈ Q, ∀ s ∈ Q', ‖rowInner (r ᵥ* H) s‖ ≤ C / 10 ^ 13

end ED.Spec
