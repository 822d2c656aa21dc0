import Verif.Model.Thermo
import Verif.Model.Fermions

/-! # Model of the energies of fermion models -/

namespace ED

/-- The eigenvalues of a fermion model, as in fermions_unittest.py 189-190 (`createH`, then `diagH`). -/
noncomputable def fermionEnergies (S : EigSolvers) (F : Fermions) : Res (List ℝ) := do
  let H ← F.createH none
  let (w, _) ← diagList S H
  pure w

end ED
