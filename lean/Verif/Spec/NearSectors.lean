import Verif.Spec.Zn
import Mathlib.LinearAlgebra.Matrix.ConjTranspose

/-! # Specification: a bound of the norm of an operator, and numbers close to its eigenvalues -/

namespace ED.Spec

open scoped Matrix

/-- `C` bounds the norm of the operator. -/
def NormLe {ι : Type} [Fintype ι] (H : Matrix ι ι ℂ) (C : ℝ) : Prop :=
  0 ≤ C ∧ ∀ v : ι → ℂ, ∑ j, ‖(v ᵥ* H) j‖ ^ 2 ≤ C ^ 2 * ∑ j, ‖v j‖ ^ 2

/-- The numbers are the eigenvalues of the operator with their multiplicities, up to `ε`: there is an orthonormal basis of
eigenvectors whose eigenvalues are, one by one, within `ε` of the numbers. -/
def NearSpectrum {ι : Type} [Fintype ι] [DecidableEq ι] (E : List ℝ) (H : Matrix ι ι ℂ) (ε : ℝ) : Prop :=
  ∃ (n : ℕ) (a b : Fin n → ℝ) (V : Matrix ι (Fin n) ℂ), E.Perm (List.ofFn a) ∧ Vᴴ * V = 1 ∧ V * Vᴴ = 1 ∧
    H * V = V * Matrix.diagonal (fun k => (b k : ℂ)) ∧ ∀ k, |a k - b k| ≤ ε

end ED.Spec
