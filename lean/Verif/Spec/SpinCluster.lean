import Verif.Spec.Clusters
import Verif.Spec.Spin
import Verif.Spec.Gibbs

/-! # Specification vocabulary: the spin model on a set of sites of the square lattice -/

namespace ED

open Matrix

section

variable {σ : Type*} [Fintype σ] [DecidableEq σ]

/-- The matrix `A` acts on the spin at site `i`; the states are the configurations of the spins. -/
def spinAt (A : Matrix (Fin 2) (Fin 2) ℂ) (i : σ) : Matrix (σ → Fin 2) (σ → Fin 2) ℂ :=
  Matrix.of fun s t => if ∀ j, j ≠ i → s j = t j then A (s i) (t i) else 0

open Classical in
/-- `½ Σ_{⟨i,k⟩, a} j_a σ_i^a σ_k^a - ½ Σ_{i,a} h_a σ_i^a`: the first sum has every pair of neighbours once. -/
noncomputable def spinHOn (adj : σ → σ → Prop) (jx jy jz hx hy hz : ℂ) : Matrix (σ → Fin 2) (σ → Fin 2) ℂ :=
  (1 / 4 : ℂ) • (∑ i, ∑ k, if adj i k then jx • (spinAt sigmaX i * spinAt sigmaX k) +
      jy • (spinAt sigmaY i * spinAt sigmaY k) + jz • (spinAt sigmaZ i * spinAt sigmaZ k) else 0) -
    (1 / 2 : ℂ) • ∑ i, (hx • spinAt sigmaX i + hy • spinAt sigmaY i + hz • spinAt sigmaZ i)

/-- `Σ_{i<k} σ_i^z σ_k^z`: every pair once. -/
noncomputable def szszOn (σ : Type*) [Fintype σ] [DecidableEq σ] : Matrix (σ → Fin 2) (σ → Fin 2) ℂ :=
  (1 / 2 : ℂ) • ∑ i, ∑ k, if i ≠ k then spinAt sigmaZ i * spinAt sigmaZ k else (0 : Matrix (σ → Fin 2) (σ → Fin 2) ℂ)

end

/-- The Hamiltonian of the spins at the sites `S` of the square lattice. -/
noncomputable def clusterH (jx jy jz hx hy hz : ℝ) (S : Finset (ℤ × ℤ)) : Matrix (S → Fin 2) (S → Fin 2) ℂ :=
  spinHOn (fun p q : S => squareLattice.Adj p q) jx jy jz hx hy hz

/-- A property of sets of sites at each of the temperatures. -/
def atTemps (temps : List ℝ) (f : Finset (ℤ × ℤ) → ℝ → ℝ) : Finset (ℤ × ℤ) → List ℕ → ℝ :=
  fun C idx => f C (temps.getD (idx.getD 0 0) 0)

end ED
