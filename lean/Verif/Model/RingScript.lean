import Verif.Model.HeisenbergScript
import Verif.Model.FermionModel
import Verif.Model.Thermal

/-!
# Model of `examples/fermions_attractive_phase_diagram_v2.py`

Spinless fermions with an interaction between neighbours on a ring; the number of sites, hopping, interaction and temperature are
arguments. The script passes `np.zeros(nsites)` for the first sites of the correlators; the floating point zero is the site `0`
here. The arrays over temperatures and interactions are treated entry by entry.
-/

namespace ED

open Classical in
/-- The projectors of one number of particles and their momenta, lines 61-70 of the script. `curr_proj.size > 0` asks whether
there is a stored entry. -/
noncomputable def ringStep {β : Type} (tx : Mat) (n : ℕ) (s : β × Mat) : Res (List (β × ℝ × Mat)) := do
  let subs ← splitBy s.2 tx n
  let subs := subs.filter fun x => decide (∃ i < x.2.rows, ∃ j < x.2.cols, x.2.e i j ≠ 0)
  pure (subs.map fun x => (s.1, x.1, x.2))

/-- All projectors of the script with their particle numbers and momenta, lines 51-70. -/
noncomputable def ringSectors (F : Fermions) (cycles : List (List ℕ)) (n : ℕ) : Res (List (ℂ × ℝ × Mat)) := do
  let op ← getSumOp F.sys nOp 0 "boson"
  let ns := getSubspaceProjs op none
  let v ← getXformOp F.nspecies (fermionSwapOp F.sys) cycles
  let ls ← (ns.2.zip ns.1).mapM (ringStep (v.asOp F.sys.nstates) n)
  pure ls.flatten

/-- Densities, correlators of the first site with all sites, and energies in one sector, lines 100-118 of the script at one
temperature. -/
noncomputable def ringSector (S : EigSolvers) (F : Fermions) (ham : Mat) (T : ℝ) (proj : Mat) :
    Res (List ℝ × List ℝ × List ℝ) := do
  let h ← inSector proj ham
  let (w, V) ← diagList S h
  let dens ← thermalExpSites F.sys V w nOp 0 [T] none (some proj) "boson"
  let corrs ← thermalCorrSites F.sys V w 0 0 nOp nOp [T] (some ((List.range F.nsites).map fun j => (0, j))) (some proj) "boson"
  pure (dens.1.map fun r => r.getD 0 0, corrs.1.map fun r => r.getD 0 0, w)

/-- Densities and correlators, combined from all sectors, lines 99-126. -/
noncomputable def ringMeasure (S : EigSolvers) (F : Fermions) (ham : Mat) (projs : List Mat) (T : ℝ) : Res (List ℝ × List ℝ) := do
  let rs ← projs.mapM (ringSector S F ham T)
  let eigs := rs.map fun r => r.2.2
  let dens ← (List.range F.nsites).mapM fun j => thermalAvgCombine (rs.map fun r => r.1.getD j 0) eigs T
  let corrs ← (List.range F.nsites).mapM fun j => thermalAvgCombine (rs.map fun r => r.2.1.getD j 0) eigs T
  pure (dens, corrs)

/-- `np.fft.fft`, line 132. -/
noncomputable def npFft (x : List ℝ) : List ℂ :=
  (List.range x.length).map fun q : ℕ => ∑ j ∈ Finset.range x.length,
    (x.getD j 0 : ℂ) * Complex.exp (-2 * Real.pi * Complex.I * (q : ℂ) * (j : ℂ) / (x.length : ℂ))

/-- `corrs_c = corrs - dens ** 2` and `sfact = np.fft.fft(corrs_c, axis=-1) / gm.nsites`, lines 131-132. -/
noncomputable def structureFactor (dens corrs : List ℝ) : List ℝ × List ℂ :=
  let c := List.zipWith (fun c n => c - n ^ 2) corrs dens
  (c, (npFft c).map fun z => z / (dens.length : ℂ))

/-- The results of the script. -/
structure RingResult where
  dens : List ℝ
  corrs : List ℝ
  connected : List ℝ
  sfact : List ℂ

/-- Lines 41-132 of the script for one interaction and temperature. The sectors come from a model without interactions. -/
noncomputable def ringScript (S : EigSolvers) (n : ℕ) (t U T : ℝ) : Res RingResult := do
  let g ← Geometry.createSquare n 1 0 0 false true
  let (cycles, m) ← Geometry.findSiteCycles (getTranslFn (1, 0)) g (1 / 10 ^ 10)
  let F0 ← fermionModel g ⟨[], fun _ => 0⟩ ⟨[], fun _ => (t : ℂ)⟩ ⟨[], fun _ => 0⟩ ⟨[], fun _ => 0⟩ ⟨[], fun _ => 0⟩ 1
  let secs ← ringSectors F0 cycles m
  let F ← fermionModel g ⟨[], fun _ => 0⟩ ⟨[], fun _ => (t : ℂ)⟩ ⟨[], fun _ => (U : ℂ)⟩ ⟨[], fun _ => 0⟩ ⟨[], fun _ => (U : ℂ)⟩ 1
  let ham ← F.createH none
  let (dens, corrs) ← ringMeasure S F ham (secs.map fun x => x.2.2) T
  let s := structureFactor dens corrs
  pure ⟨dens, corrs, s.1, s.2⟩

end ED
