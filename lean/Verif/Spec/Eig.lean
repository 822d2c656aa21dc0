import Verif.Model.Diag
import Verif.Spec.Conf
import Mathlib.LinearAlgebra.Matrix.Hermitian

/-! # Specification vocabulary: eigenpairs, and the contracts of the numerical routines -/

namespace ED

open Matrix

/-- The columns of `V` are orthonormal eigenvectors of `H` with the eigenvalues `w`. -/
structure EigPairs {n k : ℕ} (H : Matrix (Fin n) (Fin n) ℂ) (w : Fin k → ℝ) (V : Matrix (Fin n) (Fin k) ℂ) : Prop where
  orthonormal : Vᴴ * V = 1
  eigen : H * V = V * Matrix.diagonal fun i => (w i : ℂ)

/-- The Hermitian matrix with the lower triangle of `H` and the real part of its diagonal; this is what LAPACK reads. -/
noncomputable def lowerHerm {n : ℕ} (H : Matrix (Fin n) (Fin n) ℂ) : Matrix (Fin n) (Fin n) ℂ :=
  fun i j => if j < i then H i j else if i < j then star (H j i) else ((H i i).re : ℂ)

/-- What the numerical routines are assumed to do, in exact arithmetic. -/
structure EigContract (S : EigSolvers) : Prop where
  /-- Documentation of `numpy.linalg.eigh` (`UPLO='L'`): the eigenpairs of the Hermitian matrix
  given by the lower triangle. -/
  eigh : ∀ (n : ℕ) (A : Mat) (H : Matrix (Fin n) (Fin n) ℂ), A.Is H → ∃ V : Matrix (Fin n) (Fin n) ℂ,
    (S.eigh A).2.Is V ∧ EigPairs (lowerHerm H) (fun i => (S.eigh A).1 i) V
  /-- Documentation of `scipy.sparse.linalg.eigsh` (`which='LM'`): `k` eigenpairs with the eigenvalues of largest
  magnitude; every eigenvector orthogonal to the returned ones has an eigenvalue of at most their magnitude. -/
  eigsh : ∀ (n k : ℕ) (A : Mat) (H : Matrix (Fin n) (Fin n) ℂ), A.Is H → H.IsHermitian → k < n →
    ∃ V : Matrix (Fin n) (Fin k) ℂ, (S.eigsh A k).2.Is V ∧ EigPairs H (fun i => (S.eigsh A k).1 i) V ∧
      ∀ (μ : ℝ) (v : Fin n → ℂ), v ≠ 0 → H.mulVec v = (μ : ℂ) • v → Vᴴ.mulVec v = 0 →
        ∀ i : Fin k, |μ| ≤ |(S.eigsh A k).1 i|
  /-- `np.argsort` returns an order in which the entries ascend (nothing is assumed about ties). -/
  argsort : ∀ (n : ℕ) (x : ℕ → ℝ), ∃ σ : Equiv.Perm (Fin n), (∀ i : Fin n, S.argsort n x i = σ i) ∧
    Monotone fun i : Fin n => x (σ i)

end ED
