import Verif.Model.Symmetry
import Mathlib.Data.Matrix.Mul
import Mathlib.Data.List.FinRange

/-!
# Model of the cyclic symmetry projectors of `ed_symmetry.py`

A sparse matrix with `d` columns is the list of its rows, a row is a function on the columns. Explicit
zeros are removed by the library before the stored indices are used (`eliminate_zeros`), and the rows of
powers of a matrix with one entry in each row are sorted, so the first stored index is the first column
with a non-zero entry.
-/

namespace ED

open Classical
open scoped BigOperators

/-- A matrix with `d` columns. -/
abbrev Rows (d : ℕ) := List (Fin d → ℂ)

/-- `p_full.data[np.abs(p_full.data) < 1e-10] = 0`, ed_symmetry.py 251, for a row. -/
noncomputable def dropSmall {d : ℕ} (r : Fin d → ℂ) : Fin d → ℂ :=
  fun j => if ‖r j‖ < (10 : ℝ) ^ (-10 : ℤ) then 0 else r j

/-- First column with a non-zero entry, `p_full.indices[p_full.indptr[:-1]]`, ed_symmetry.py 261. -/
noncomputable def firstNonzero {d : ℕ} (r : Fin d → ℂ) : Option (Fin d) :=
  (List.finRange d).find? fun j => r j ≠ 0

/-- `np.unique(first_nonzero_col, return_index=True)` and `p_full[unique_indices, :]`, ed_symmetry.py
266-267: for every value, in increasing order, the first row with that value. -/
noncomputable def uniqueRows {d : ℕ} (p : Rows d) : Rows d :=
  (List.finRange d).filterMap fun c => p.find? fun r => firstNonzero r = some c

/-- Normalisation of a row, ed_symmetry.py 322-323. -/
noncomputable def normalizeRow {d : ℕ} (r : Fin d → ℂ) : Fin d → ℂ :=
  fun j => (((Real.sqrt (∑ i, (r i * (starRingEnd ℂ) (r i)).re))⁻¹ : ℝ) : ℂ) * r j

/-- `reduce_symm_projector` for one-dimensional representations, ed_symmetry.py 220-329 with `dim == 1`.
(The branch for larger dimensions, which uses a singular value decomposition, is `reduceBySvd`.) -/
noncomputable def reduceSymmProjector {d : ℕ} (p : Rows d) : Rows d :=
  let small := p.map dropSmall
  let noz := small.filter fun r => ∃ j, r j ≠ 0
  (uniqueRows noz).map normalizeRow

/-- `conj_classes` of `getZnProjectors`, ed_symmetry.py 403-404. -/
def znClasses {A : Type} [Monoid A] (U : A) (n : ℕ) : List (List A) :=
  [[1]] ++ (List.range (n - 1)).map fun l => [U ^ (l + 1)]

/-- `char_table` of `getZnProjectors` as a list of rows, ed_symmetry.py 400-401. -/
noncomputable def znRows (n : ℕ) : List (List ℂ) :=
  (List.range n).map fun k => (List.range n).map (znTable n k)

/-- `getZnProjectors`, ed_symmetry.py 370-409, together with the reduction and the check of the sizes in
`get_symmetry_projectors`, ed_symmetry.py 352-363. Every entry of the first column of the table is one, so
every representation takes the branch `dim == 1`. For `n_xforms = 0` the table is empty and the validation
fails. -/
noncomputable def getZnProjectors {d : ℕ} (U : Matrix (Fin d) (Fin d) ℂ) (n : ℕ) :
    Res (List (Rows d) × List ℝ) := do
  if n = 0 then throw .generic
  let full ← getSymmetryProjectors (znRows n) (znClasses U n)
  let projs := full.map fun p => reduceSymmProjector (List.ofFn fun i j => p i j)
  if (projs.map List.length).sum ≠ d then throw .generic
  pure (projs, (List.range n).map fun k : ℕ => 2 * Real.pi * (k : ℝ) / (n : ℝ))

end ED
