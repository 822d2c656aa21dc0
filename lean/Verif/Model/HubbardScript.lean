import Verif.Model.Measure
import Verif.Model.Thermo
import Verif.Model.Translation

/-!
# Model of the sectors of `examples/measure_hubbard.py`

`numberSectors` is the script with `projs = [1]`, lines 99-101; `momentumSectors` is the script as it stands, with both
directions periodic. (With an open direction the script stops at line 85 or 86, because the translation of that direction
is not defined.)
-/

namespace ED

/-- `p * op * p.conj().transpose()`, e.g. measure_hubbard.py 168 and 185. -/
noncomputable def inSector (p op : Mat) : Res Mat := do
  let a ← p.mul op
  a.mul p.dagger

/-- The particle numbers and the projectors on them, measure_hubbard.py 52-57 and 78-83. -/
noncomputable def numberSectors (F : Fermions) : Res (List ((ℂ × ℂ) × Mat)) := do
  let nupOp ← getSumOp F.sys nOp 0 "boson"
  let nups := getSubspaceProjs nupOp none
  let ndnOp ← getSumOp F.sys nOp 1 "boson"
  let ls ← (nups.2.zip nups.1).mapM fun up => do
    let d ← inSector up.2 ndnOp
    let ndns := getSubspaceProjs d none
    (ndns.2.zip ndns.1).mapM fun dn => do
      let p ← dn.2.mul up.2
      pure ((up.1, dn.1), p)
  pure ls.flatten

/-- The translation operator of the script for a list of cycles, measure_hubbard.py 64 and 69. The projector of the model
is the identity. -/
noncomputable def Fermions.translation (F : Fermions) (cycles : List (List ℕ)) : Res Mat := do
  let np ← F.nProjector none
  let v ← getXformOp F.nspecies (fermionSwapOp F.sys) cycles
  let a ← Val.mul (.mat np) v
  let b ← Val.mul a (.mat np.dagger)
  b.tocsr

/-- The sparse matrix with these rows. -/
noncomputable def rowsMat {d : ℕ} (p : Rows d) : Mat :=
  ⟨p.length, d, fun i j => if h : i < p.length ∧ j < d then p[i] ⟨j, h.2⟩ else 0⟩

open Classical in
/-- The projectors of one sector of fixed particle numbers and their momenta, measure_hubbard.py 85-92 and 103-106. -/
noncomputable def momentumStep {β : Type} (tx ty : Mat) (nx ny : ℕ) (s : β × Mat) : Res (List (β × (ℝ × ℝ) × Mat)) := do
  let t1 ← inSector s.2 tx
  let t2 ← inSector s.2 ty
  let (projs, kxs, kys) ← get2DTranslationProjectors (d := s.2.rows) (Matrix.of fun i j => t1.e i j) nx
    (Matrix.of fun i j => t2.e i j) ny
  let all ← ((kxs.zip kys).zip projs).mapM fun k => do
    let p ← (rowsMat k.2).mul s.2
    pure (s.1, k.1, p)
  pure (all.filter fun x => decide (∃ i < x.2.2.rows, ∃ j < x.2.2.cols, x.2.2.e i j ≠ 0))

/-- All projectors of the script with their particle numbers and momenta, measure_hubbard.py 52-110. -/
noncomputable def momentumSectors (F : Fermions) (cx cy : List (List ℕ)) (nx ny : ℕ) :
    Res (List ((ℂ × ℂ) × (ℝ × ℝ) × Mat)) := do
  let tx ← F.translation cx
  let ty ← F.translation cy
  let ns ← numberSectors F
  let ls ← ns.mapM (momentumStep tx ty nx ny)
  pure ls.flatten

/-- measure_hubbard.py 160-199 at one temperature: diagonalize in every sector, average the operator `op` there, and
combine the averages. -/
noncomputable def sectorAverage (S : EigSolvers) (haml : Mat) (projs : List Mat) (op : Mat) (T : ℝ) : Res ℝ := do
  let rs ← projs.mapM fun p => do
    let h ← inSector p haml
    let (w, V) ← diagList S h
    let o ← inSector p op
    let x ← expValsThermal V o w T
    pure (x, w)
  thermalAvgCombine (rs.map Prod.fst) (rs.map Prod.snd) T

/-- The thermodynamic quantities of measure_hubbard.py 160-199 at one temperature. -/
noncomputable def sectorEnergies (S : EigSolvers) (haml : Mat) (projs : List Mat) (T : ℝ) : Res (ℝ × ℝ × ℝ) := do
  let rs ← projs.mapM fun p => do
    let h ← inSector p haml
    let (w, V) ← diagList S h
    let x ← thermoAt V h w T
    pure (x, w)
  hubbardThermo (rs.map Prod.fst) (rs.map Prod.snd) T

/-- Energies of all sectors, heisenberg_chain.py 101-106 (sorting is left out). -/
noncomputable def sectorEigs (S : EigSolvers) (haml : Mat) (projs : List Mat) : Res (List ℝ) := do
  let rs ← projs.mapM fun p => do
    let h ← inSector p haml
    let (w, _) ← diagList S h
    pure w
  pure rs.flatten

/-- `max_diff` of heisenberg_chain.py 98-108: the largest difference between the energies of the whole system and those
of the sectors, both sorted. (Arrays of different lengths cannot be subtracted; that numpy repeats an array of length one
is left out.) -/
noncomputable def maxDiff (S : EigSolvers) (haml : Mat) (projs : List Mat) : Res ℝ := do
  let (w, _) ← diagList S haml
  let eigs ← sectorEigs S haml projs
  let sorted := eigs.mergeSort fun a b => decide (a ≤ b)
  if sorted.length ≠ w.length then throw .value
  pure ((List.zipWith (fun a b => |a - b|) sorted w).foldl max 0)

end ED
