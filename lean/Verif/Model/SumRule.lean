import Verif.Model.Current
import Verif.Model.Thermal
import Verif.Model.Thermo

/-! # Model of `examples/measure_current_hubbard.py`: kinetic energy, integrated conductivity and Drude weight -/

namespace ED

/-- `P * x * P.conj().transpose()`, examples/measure_current_hubbard.py 74 (and 109), for `x` a matrix or (the current operator of a
system without bonds) a number. -/
def sandwichVal (P : Mat) : Val → Res Mat
  | .num z => (P.smul z).mul P.dagger
  | .mat A => sandwich 1 P A

/-- One pass of the loop over sectors, measure_current_hubbard.py 95-111 and 122-123, for one temperature: the thermal
average of the kinetic energy along `(dx, dy)`, the integrated conductivity and the energies. `nP` is `h.n_projector`,
`cur` is `current_op_x` and `proj` the projector of the sector. The direction is `(1, 0)` in the script. -/
noncomputable def sectorConductivity (S : EigSolvers) (F : Fermions) (nP cur proj : Mat) (dx dy T : ℝ) :
    Res (ℝ × ℝ × List ℝ) := do
  let p ← proj.mul nP
  let H ← F.createH (some p)
  let (w, V) ← diagList S H
  let kx ← F.kineticOp p dx dy
  let jx ← sandwich 1 proj cur
  let jm ← getMatrixElems V jx
  let kin ← expValsThermal V kx w T
  let int ← integrateConductivity F.nsites jm w T
  pure (kin, int, w)

/-- measure_current_hubbard.py 74 and 94-144 for one temperature: the kinetic energy, the integrated conductivity and the
Drude weight. `hop` are the attributes `tx` and `ty` (see `Fermions.currentOp`). The optical conductivity at given
frequencies (lines 124-131) is `opticalCond` and is left out here. -/
noncomputable def drudeWeight (S : EigSolvers) (F : Fermions) (adj : ℕ → ℕ → ℝ) (hop : Option (ℂ × ℂ)) (nP : Mat)
    (projs : List Mat) (dx dy T : ℝ) : Res (ℝ × ℝ × ℝ) := do
  let j ← F.currentOp adj hop dx dy
  let cur ← sandwichVal nP j
  let r ← projs.mapM fun proj => sectorConductivity S F nP cur proj dx dy T
  let kin ← thermalAvgCombine (r.map fun x => x.1) (r.map fun x => x.2.2) T
  let int ← thermalAvgCombine (r.map fun x => x.2.1) (r.map fun x => x.2.2) T
  pure (kin, int, -Real.pi * kin / F.nsites - int)

end ED
