import Verif.Model.Zn
import Verif.Spec.Svd
import Mathlib.LinearAlgebra.Matrix.Rank

/-!
# Model of `reduce_symm_projector` and `get_symmetry_projectors` for representations of any dimension

The singular value decomposition is a parameter. `np.linalg.matrix_rank` is the rank in exact arithmetic.
-/

namespace ED

open Classical
open scoped BigOperators

variable {d : ℕ}

/-- `states_related_by_symm`, ed_symmetry.py 347: the sum of the absolute values of all group elements. -/
noncomputable def statesRelated (classes : List (List (Matrix (Fin d) (Fin d) ℂ))) : Rows d :=
  List.ofFn fun i j => (classes.map fun cc => (cc.map fun g => ((‖g i j‖ : ℝ) : ℂ)).sum).sum

/-- `mat = p_full[rrows, ccols].todense()`, ed_symmetry.py 299-301. -/
def sectorMat (rows : Rows d) (cols : List (Fin d)) : Matrix (Fin rows.length) (Fin cols.length) ℂ :=
  fun a b => rows[a] cols[b]

/-- The rows of `p_red` for one set of states related by symmetry, ed_symmetry.py 301-308: the first
`rank` right singular vectors, rounded to 15 decimals and written to the columns `cols`. The array `p_red`
is real (`sp.lil_matrix` without a type), so that imaginary parts are lost. -/
noncomputable def sectorBasis (svd : Svd) (rows : Rows d) (cols : List (Fin d)) : Rows d :=
  ((List.finRange cols.length).take (sectorMat rows cols).rank).map fun a j =>
    if h : cols.idxOf j < cols.length then
      ((npRound 15 (svd _ _ (sectorMat rows cols) a ⟨cols.idxOf j, h⟩).re : ℝ) : ℂ)
    else 0

/-- One pass of the loop over the sets of states related by symmetry, ed_symmetry.py 291-312. `grp` are the
non-zero rows of the projector that belong to the set, each with its row of `states_related_by_symm`. (The
library takes the rows of a set in the order of `np.argsort`, which need not be increasing.) -/
noncomputable def sectorRows (svd : Svd) (grp : List ((Fin d → ℂ) × (Fin d → ℂ))) : Rows d :=
  match grp.head? with
  | none => []
  | some g => sectorBasis svd (grp.map Prod.fst) ((List.finRange d).filter fun j => g.2 j ≠ 0)

/-- The branch `dim > 1` of `reduce_symm_projector`, ed_symmetry.py 251-255 and 268-323. -/
noncomputable def reduceBySvd (svd : Svd) (p related : Rows d) : Rows d :=
  let noz := ((p.map dropSmall).zip related).filter fun r => ∃ j, r.1 j ≠ 0
  ((List.finRange d).flatMap fun c =>
    sectorRows svd (noz.filter fun r => firstNonzero r.2 = some c)).map normalizeRow

/-- `reduce_symm_projector`, ed_symmetry.py 220-329. -/
noncomputable def reduceProjector (svd : Svd) (dim : ℂ) (p related : Rows d) : Rows d :=
  if dim = 1 then reduceSymmProjector p else reduceBySvd svd p related

/-- `get_symmetry_projectors`, ed_symmetry.py 332-365, with the reduction of the projectors and the final
check of their sizes. -/
noncomputable def getReducedProjectors (svd : Svd) (table : List (List ℂ))
    (classes : List (List (Matrix (Fin d) (Fin d) ℂ))) : Res (List (Rows d)) := do
  if ¬ validateCharTable table.length (tableOf table) (fun c => (classes.getD c []).length) then
    throw .generic
  let projs := table.map fun chars =>
    reduceProjector svd (chars.getD 0 0) (List.ofFn fun i j => symmProjFull chars classes i j)
      (statesRelated classes)
  if (projs.map List.length).sum ≠ d then throw .generic
  pure projs

variable (svd : Svd) (R S X Y : Matrix (Fin d) (Fin d) ℂ)

/-- `getD2Projectors`, ed_symmetry.py 455-487, with the reduction of the projectors. -/
noncomputable def reducedD2 : Res (List (Rows d)) := getReducedProjectors svd d2Table (d2Classes R S)

/-- `getD3Projectors`, ed_symmetry.py 490-525, with the reduction of the projectors. -/
noncomputable def reducedD3 : Res (List (Rows d)) := getReducedProjectors svd d3Table (d3Classes R S)

/-- `getD4Projectors`, ed_symmetry.py 528-568, with the reduction of the projectors. -/
noncomputable def reducedD4 : Res (List (Rows d)) := getReducedProjectors svd d4Table (d4Classes R S)

/-- `getD5Projectors`, ed_symmetry.py 571-594, with the reduction of the projectors. -/
noncomputable def reducedD5 : Res (List (Rows d)) := getReducedProjectors svd d5Table (d5Classes R S)

/-- `getD6Projectors`, ed_symmetry.py 597-624, with the reduction of the projectors. -/
noncomputable def reducedD6 : Res (List (Rows d)) := getReducedProjectors svd d6Table (d6Classes R S)

/-- `getC4V_and_3byb3`, ed_symmetry.py 656-772, with the reduction of the projectors. -/
noncomputable def reducedTorus : Res (List (Rows d)) :=
  getReducedProjectors svd torusTable (torusClasses R S X Y)

end ED
