import Mathlib.Data.Matrix.Mul
import Mathlib.Data.Complex.Basic
import Mathlib.LinearAlgebra.Matrix.ConjTranspose
import Mathlib.Data.Matrix.Diagonal

/-!
# Specification: singular value decomposition

`np.linalg.svd` belongs to the trusted base. What is assumed of it is stated here, in exact arithmetic.
-/

namespace ED

open scoped Matrix

/-- The rows of `V` are right singular vectors of `M`, in the order of decreasing singular values: the
matrix `vh` of `np.linalg.svd(M, full_matrices=True)`. Real matrices have real singular vectors. -/
structure RightSingular {m n : ℕ} (M : Matrix (Fin m) (Fin n) ℂ) (V : Matrix (Fin n) (Fin n) ℂ) : Prop where
  unitary : V * Vᴴ = 1
  real : (∀ i j, (M i j).im = 0) → ∀ i j, (V i j).im = 0
  values : ∃ s : Fin n → ℝ, Antitone s ∧ (∀ a, 0 ≤ s a) ∧
    Mᴴ * M = Vᴴ * Matrix.diagonal (fun a => ((s a : ℂ)) ^ 2) * V

/-- A function that returns right singular vectors of every matrix. -/
abbrev Svd := ∀ m n : ℕ, Matrix (Fin m) (Fin n) ℂ → Matrix (Fin n) (Fin n) ℂ

/-- The function does what is assumed of `np.linalg.svd`. -/
def Svd.Correct (svd : Svd) : Prop := ∀ (m n : ℕ) (M : Matrix (Fin m) (Fin n) ℂ), RightSingular M (svd m n M)

end ED
