import Verif.Spec.Fock
import Verif.Spec.Thermal
import Mathlib.Analysis.SpecialFunctions.Log.NegMulLog

/-! # Specification vocabulary: sites without hopping -/

namespace ED

/-- The energy of one site that holds `n s` particles of species `s`: an interaction `U` between the first two species, if
there are two, and an energy `v s` for each particle. -/
noncomputable def atomEnergy {b : ℕ} (U : ℝ) (v : Fin b → ℝ) (n : Fin b → Fin 2) : ℝ :=
  (if h : 2 ≤ b then U * ((n ⟨0, by omega⟩ : ℕ) * (n ⟨1, by omega⟩ : ℕ)) else 0) + ∑ s, v s * (n s : ℕ)

/-- The partition function of levels `E`. -/
noncomputable def levelsZ {κ : Type*} [Fintype κ] (T : ℝ) (E : κ → ℝ) : ℝ := ∑ k, Real.exp (-E k / T)

/-- The entropy of the probabilities of levels `E`. -/
noncomputable def levelsEntropy {κ : Type*} [Fintype κ] (T : ℝ) (E : κ → ℝ) : ℝ :=
  ∑ k, Real.negMulLog (Real.exp (-E k / T) / levelsZ T E)

/-- The variance of the energy over the square of the temperature. -/
noncomputable def levelsHeat {κ : Type*} [Fintype κ] (T : ℝ) (E : κ → ℝ) : ℝ :=
  1 / T ^ 2 * (canonical T E (fun k => E k ^ 2) - canonical T E E ^ 2)

end ED
