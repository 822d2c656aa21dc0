import Mathlib.Data.Int.Interval
import Mathlib.Data.Finset.Prod
import Mathlib.Analysis.SpecialFunctions.Trigonometric.Basic
import Mathlib.Analysis.Complex.Exponential
import Mathlib.Analysis.Calculus.Deriv.Basic

/-! # Specification vocabulary: tight-binding lattices and independent gases -/

namespace ED

open scoped BigOperators

/-- All displacements of a periodic lattice with `n` sites per direction: a chain (the second
component is zero) or a square. -/
noncomputable def displacements (n : ℕ) (dim : String) : Finset (ℤ × ℤ) :=
  if dim = "1d" then Finset.Ico 0 (n : ℤ) ×ˢ {0} else Finset.Ico 0 (n : ℤ) ×ˢ Finset.Ico 0 (n : ℤ)

/-- The `j`-th wavevector of a periodic chain of `n` sites. -/
noncomputable def wave (n j : ℕ) : ℝ := 2 * Real.pi * j / n

/-- Tight-binding energy of the chain. -/
noncomputable def band1 (k : ℝ) : ℝ := -2 * Real.cos k

/-- Tight-binding energy of the square lattice. -/
noncomputable def band2 (kx ky : ℝ) : ℝ := -2 * (Real.cos kx + Real.cos ky)

/-- The energies of a single particle on the periodic chain (`"1d"`) and on the periodic square lattice with `n` sites in
each direction. -/
noncomputable def gasLevels (n : ℕ) (dim : String) : List ℝ :=
  if dim = "1d" then (List.range n).map fun j => band1 (wave n j)
  else (List.range n).flatMap fun i => (List.range n).map fun j => band2 (wave n i) (wave n j)

/-- Fermi-Dirac occupation at inverse temperature `b`. -/
noncomputable def fermiOcc (b mu e : ℝ) : ℝ := 1 / (Real.exp (b * (e - mu)) + 1)

/-- One term of the Lindhard sum: the ratio of differences, or its limit (the slope of the
occupation) for equal energies at zero frequency and broadening. -/
noncomputable def lindhardTerm (b mu omega eta e e' : ℝ) : ℂ :=
  if e = e' ∧ omega = 0 ∧ eta = 0 then ((deriv (fun x => fermiOcc b mu x) e : ℝ) : ℂ)
  else ((fermiOcc b mu e - fermiOcc b mu e' : ℝ) : ℂ) / (omega + e - e' + Complex.I * eta)

/-- A probability distribution on a finite set. -/
structure Prob (Ω : Type) [Fintype Ω] where
  p : Ω → ℝ
  nonneg : ∀ ω, 0 ≤ p ω
  sum : ∑ ω, p ω = 1

/-- Mean of a random variable. -/
noncomputable def Prob.mean {Ω : Type} [Fintype Ω] (P : Prob Ω) (x : Ω → ℝ) : ℝ := ∑ ω, P.p ω * x ω

/-- Covariance of two random variables. -/
noncomputable def Prob.cov {Ω : Type} [Fintype Ω] (P : Prob Ω) (x y : Ω → ℝ) : ℝ :=
  P.mean (fun ω => x ω * y ω) - P.mean x * P.mean y

/-- Two independent systems. -/
noncomputable def Prob.prod {Ω Ω' : Type} [Fintype Ω] [Fintype Ω'] (P : Prob Ω) (Q : Prob Ω') : Prob (Ω × Ω') where
  p ω := P.p ω.1 * Q.p ω.2
  nonneg ω := mul_nonneg (P.nonneg _) (Q.nonneg _)
  sum := by
    rw [Fintype.sum_prod_type, ← Finset.sum_mul_sum, P.sum, Q.sum, one_mul]

end ED
