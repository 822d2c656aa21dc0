import Mathlib.LinearAlgebra.Matrix.ConjTranspose
import Mathlib.Data.Complex.Basic

/-! # Specification vocabulary: sectors of a Hamiltonian -/

namespace ED

open Matrix

/-- The projectors `P i` belong to sectors of the Hamiltonian: their rows together are an orthonormal basis, and the
Hamiltonian does not connect different sectors. -/
structure IsSectors {ι κ : Type*} [Fintype ι] [DecidableEq ι] [Fintype κ] {τ : κ → Type*} [∀ i, Fintype (τ i)]
    [∀ i, DecidableEq (τ i)] (P : ∀ i, Matrix (τ i) ι ℂ) (H : Matrix ι ι ℂ) : Prop where
  normal : ∀ i, P i * (P i)ᴴ = 1
  orthogonal : ∀ i j, i ≠ j → P i * (P j)ᴴ = 0
  complete : ∑ i, (P i)ᴴ * P i = 1
  block : ∀ i j, i ≠ j → P i * H * (P j)ᴴ = 0

end ED
