import Verif.Model.FermionModel
import Verif.Model.Thermal
import Verif.Model.HeisenbergScript

/-!
# Model of `examples/spinless_fermion_example.py`

Free spinless fermions on a ring, with a fixed number of particles and with a fixed chemical potential. The number of sites, the
number of particles, the hopping, the chemical potential and the temperatures are arguments.
-/

namespace ED

/-- `corrs - exps[:, 0] * exps[:, 1]`, lines 32 and 46 of the script, for one site and one pair of sites: both arrays have one row and
one column for each temperature, and the array of products has a single entry. -/
noncomputable def subtractProduct (exps corrs : List (List ℝ)) : Res (List ℝ) :=
  match exps, corrs with
  | [x :: y :: _], [c] => .ok (c.map fun z => z - x * y)
  | [_], [_] => .error .index
  | _, _ => .error .shape

/-- Lines 21-32 of the script: a fixed number of particles. -/
noncomputable def spinlessNumber (S : EigSolvers) (n : ℕ) (N : ℤ) (t : ℝ) (temps : List ℝ) : Res (List ℝ) := do
  let g ← Geometry.createSquare n 1 0 0 false true
  let F ← fermionModel g ⟨[], fun _ => 0⟩ ⟨[], fun _ => (t : ℂ)⟩ ⟨[], fun _ => 0⟩ ⟨[], fun _ => 0⟩ ⟨[], fun _ => 0⟩ 1
  let P ← F.nProjector (some [some N])
  let ham ← F.createH (some P)
  let (w, V) ← diagList S ham
  let exps ← thermalExpSites F.sys V w nOp 0 temps (some [0]) (some P) "boson"
  let corrs ← thermalCorrSites F.sys V w 0 0 nOp nOp temps (some [(0, 1)]) (some P) "boson"
  subtractProduct exps.1 corrs.1

/-- Lines 21 and 38-46 of the script: a fixed chemical potential. -/
noncomputable def spinlessMu (S : EigSolvers) (n : ℕ) (t mu : ℝ) (temps : List ℝ) : Res (List ℝ) := do
  let g ← Geometry.createSquare n 1 0 0 false true
  let F ← fermionModel g ⟨[], fun _ => 0⟩ ⟨[], fun _ => (t : ℂ)⟩ ⟨[], fun _ => (mu : ℂ)⟩ ⟨[], fun _ => 0⟩ ⟨[], fun _ => 0⟩ 1
  let ham ← F.createH none
  let (w, V) ← diagList S ham
  let exps ← thermalExpSites F.sys V w nOp 0 temps (some [0]) none "boson"
  let corrs ← thermalCorrSites F.sys V w 0 0 nOp nOp temps (some [(0, 1)]) none "boson"
  subtractProduct exps.1 corrs.1

end ED
