import Verif.Spec.Fock
import Mathlib.Analysis.SpecialFunctions.Exp

/-! # Specification vocabulary: fermions without interactions -/

namespace ED

open Matrix

/-- `Σ_{pq} h_{pq} c†_p c_q`: the energy of fermions that do not interact, where `h` is the energy of a single
particle. -/
noncomputable def secondQuant {N : ℕ} (h : Matrix (Fin N) (Fin N) ℂ) : Op N 2 :=
  ∑ p, ∑ q, h p q • (create p * annih q)

/-- The Fermi function `1 / (e^{ε/T} + 1)`, with the energy measured from the chemical potential. -/
noncomputable def occupancy (T ε : ℝ) : ℝ := 1 / (Real.exp (ε / T) + 1)

/-- The energy of a single particle on a lattice: hopping `-t` between different sites and a potential `v`. -/
noncomputable def oneParticle {n : ℕ} (t : Fin n → Fin n → ℝ) (v : Fin n → ℝ) : Matrix (Fin n) (Fin n) ℂ :=
  of fun i j => if i = j then (v i : ℂ) else -(t i j : ℂ)

/-- An orthonormal basis of eigenstates: the columns of `φ` are the states, `ε` their energies. -/
structure IsEigenbasis {ι κ : Type*} [Fintype ι] [DecidableEq ι] [Fintype κ] [DecidableEq κ] (h : Matrix ι ι ℂ)
    (φ : Matrix ι κ ℂ) (ε : κ → ℝ) : Prop where
  ortho : φᴴ * φ = 1
  complete : φ * φᴴ = 1
  eigen : h * φ = φ * diagonal fun k => (ε k : ℂ)

/-- The one-particle density matrix `Σ_k φ_k(i) f(ε_k) φ_k(j)^*`. -/
noncomputable def oneDensity {ι κ : Type*} [Fintype κ] (φ : Matrix ι κ ℂ) (ε : κ → ℝ) (T : ℝ) (i j : ι) : ℂ :=
  ∑ k, φ i k * (occupancy T (ε k) : ℂ) * star (φ j k)

/-- The density `Σ_k |φ_k(i)|² f(ε_k)`. -/
noncomputable def siteDensity {ι κ : Type*} [Fintype κ] (φ : Matrix ι κ ℂ) (ε : κ → ℝ) (T : ℝ) (i : ι) : ℝ :=
  ∑ k, ‖φ i k‖ ^ 2 * occupancy T (ε k)

/-- The occupation of a state at zero temperature: states with negative energy are filled, those with positive energy are
empty; a state with energy zero may be filled or empty. -/
noncomputable def filling (ε : ℝ) : ℝ := if ε < 0 then 1 else if ε = 0 then 1 / 2 else 0

/-- The one-particle density matrix at zero temperature. -/
noncomputable def groundMatrix {ι κ : Type*} [Fintype κ] (φ : Matrix ι κ ℂ) (ε : κ → ℝ) (i j : ι) : ℂ :=
  ∑ k, φ i k * (filling (ε k) : ℂ) * star (φ j k)

/-- The density at zero temperature. -/
noncomputable def groundDensity {ι κ : Type*} [Fintype κ] (φ : Matrix ι κ ℂ) (ε : κ → ℝ) (i : ι) : ℝ :=
  ∑ k, ‖φ i k‖ ^ 2 * filling (ε k)

/-- Energies are zero or exceed the rounding step of the library (`np.round(energies, 13)`). -/
def ResolvedLevels {κ : Type*} (ε : κ → ℝ) : Prop := ∀ k, ε k = 0 ∨ 1 / 2 * (1 / 10 ^ 13 : ℝ) < |ε k|

end ED
