import Mathlib.Data.Complex.Basic
import Mathlib.Data.Matrix.Mul
import Mathlib.LinearAlgebra.Matrix.ConjTranspose
import Mathlib.Analysis.SpecialFunctions.Exp

/-! # Specification vocabulary: expectation values and the canonical ensemble -/

namespace ED

open scoped BigOperators
open Matrix

/-- `⟨ψ|O|ψ⟩`. -/
def expect {ι : Type*} [Fintype ι] (O : Matrix ι ι ℂ) (ψ : ι → ℂ) : ℂ :=
  star ψ ⬝ᵥ O *ᵥ ψ

/-- `⟨ψ|ψ⟩`. -/
noncomputable def norm2 {ι : Type*} [Fintype ι] (ψ : ι → ℂ) : ℝ := ∑ i, ‖ψ i‖ ^ 2

/-- Column `k` of a matrix, as a state. -/
def colOf {ι κ : Type*} (V : Matrix ι κ ℂ) (k : κ) : ι → ℂ := fun i => V i k

open Classical in
/-- Unnormalised probability of level `k` at temperature `T`: the Boltzmann factor, and at `T = 0`
equal weight on all states of lowest energy. -/
noncomputable def boltz {κ : Type*} (T : ℝ) (E : κ → ℝ) (k : κ) : ℝ :=
  if T = 0 then (if ∀ l, E k ≤ E l then 1 else 0) else Real.exp (-(E k) / T)

/-- Canonical average of the values `v` over levels of energies `E`. -/
noncomputable def canonical {κ : Type*} [Fintype κ] (T : ℝ) (E v : κ → ℝ) : ℝ :=
  (∑ k, boltz T E k * v k) / ∑ k, boltz T E k

/-- Energies are either equal or differ by more than the rounding step of the library
(`np.round(energies, 13)`). -/
def Gapped {κ : Type*} (E : κ → ℝ) : Prop :=
  ∀ k l, E k = E l ∨ 1 / 2 * (1 / 10 ^ 13 : ℝ) < |E k - E l|

end ED
