import Mathlib.Analysis.Normed.Algebra.MatrixExponential
import Mathlib.Analysis.Matrix.HermitianFunctionalCalculus
import Mathlib.Analysis.SpecialFunctions.Log.Basic
import Mathlib.Analysis.CStarAlgebra.ContinuousFunctionalCalculus.Unital

/-! # Specification vocabulary: the canonical ensemble of a Hamiltonian -/

namespace ED

open Matrix

section

variable {ι : Type*} [Fintype ι] [DecidableEq ι]

/-- `e^{-H/T}`. -/
noncomputable def boltzOp (H : Matrix ι ι ℂ) (T : ℝ) : Matrix ι ι ℂ := NormedSpace.exp (-(1 / T : ℂ) • H)

/-- The partition function `Tr e^{-H/T}`. -/
noncomputable def partitionFn (H : Matrix ι ι ℂ) (T : ℝ) : ℝ := (trace (boltzOp H T)).re

/-- The density matrix `e^{-H/T} / Z`. -/
noncomputable def gibbs (H : Matrix ι ι ℂ) (T : ℝ) : Matrix ι ι ℂ := (1 / partitionFn H T : ℂ) • boltzOp H T

/-- The thermal average `Tr (ρ O)`. -/
noncomputable def thermalAvg (H O : Matrix ι ι ℂ) (T : ℝ) : ℝ := (trace (gibbs H T * O)).re

/-- The free energy `-T log Z`. -/
noncomputable def freeEnergy (H : Matrix ι ι ℂ) (T : ℝ) : ℝ := -T * Real.log (partitionFn H T)

/-- Von Neumann's entropy `-Tr (ρ log ρ)`. -/
noncomputable def vonNeumann (ρ : Matrix ι ι ℂ) : ℝ := -(trace (ρ * cfc Real.log ρ)).re

end

end ED
