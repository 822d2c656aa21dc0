import Verif.Model.Mat
import Mathlib.Data.Real.Basic

/-! # Model of `exact_diag/ed_base.py`: diagonalization -/

namespace ED

/-- The library routines that `diagH` calls; what they are assumed to do is stated in `Spec/Eig.lean`. -/
structure EigSolvers where
  /-- `np.linalg.eigh(A)`: eigenvalues and the array whose columns are the eigenvectors. -/
  eigh : Mat → (ℕ → ℝ) × Mat
  /-- `scipy.sparse.linalg.eigsh(A, k, which='LM')`. -/
  eigsh : Mat → ℕ → (ℕ → ℝ) × Mat
  /-- `np.argsort` of an array with the given number of entries. -/
  argsort : ℕ → (ℕ → ℝ) → ℕ → ℕ

/-- `ed_base.diagH`, ed_base.py 165-204. The result is the number of eigenvalues, the eigenvalues and the array of the
eigenvectors. `eigh` raises `LinAlgError` (a `ValueError`) for an array that is not square; `eigsh` raises `ValueError`
for `k = 0` and `TypeError` for a sparse matrix and `k` not smaller than its size. -/
def diagH (S : EigSolvers) (haml : Mat) (neigs : ℕ) (useSparse : Bool) : Res (ℕ × (ℕ → ℝ) × Mat) := do
  let (count, eigvals, eigvects) ←
    if useSparse then do
      let shifted ← haml.add ((Mat.eye haml.rows).smul 100)
      if neigs = 0 then .error .value
      else if shifted.rows ≤ neigs then .error .type
      else
        let r := S.eigsh shifted neigs
        pure (neigs, fun i => r.1 i - 100, r.2)
    else if haml.rows = haml.cols then
      let r := S.eigh haml
      pure (haml.rows, r.1, r.2)
    else .error .value
  let is := S.argsort count eigvals
  pure (count, fun i => eigvals (is i), ⟨eigvects.rows, count, fun r c => eigvects.e r (is c)⟩)

end ED
