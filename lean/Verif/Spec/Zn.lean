import Mathlib.Data.Matrix.Mul
import Mathlib.Analysis.Complex.Norm
import Mathlib.Analysis.SpecialFunctions.Exp

/-! # Specification vocabulary: operators that permute basis states with phases -/

namespace ED

open scoped BigOperators

/-- The operator sends basis states to basis states, times a phase. -/
def PhasePermutation {d : ℕ} (U : Matrix (Fin d) (Fin d) ℂ) : Prop :=
  ∃ (σ : Equiv.Perm (Fin d)) (u : Fin d → ℂ), (∀ i, ‖u i‖ = 1) ∧
    ∀ i j, U i j = if j = σ i then u i else 0

/-- The scalar product of two rows, `p * q.conj().transpose()`. -/
noncomputable def rowInner {d : ℕ} (r s : Fin d → ℂ) : ℂ := ∑ j, r j * (starRingEnd ℂ) (s j)

end ED
