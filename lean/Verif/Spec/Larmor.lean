import Verif.Model.Numpy
import Verif.Model.Spins
import Mathlib.Analysis.Calculus.Deriv.Basic

/-! # Specification vocabulary: precession -/

namespace ED

/-- A two-dimensional array as a matrix. -/
def ND.asMat (a : ND ℂ) : Mat := ⟨a.shape.getD 0 0, a.shape.getD 1 0, fun i j => a.data [i, j]⟩

/-- A vector that precesses about the field `h` with the angular velocity `|h|`: `ds/dt = s × h`. -/
def Precesses (h : Fin 3 → ℝ) (s : Fin 3 → ℝ → ℝ) : Prop :=
  ∀ t, HasDerivAt (s 0) (s 1 t * h 2 - s 2 t * h 1) t ∧ HasDerivAt (s 1) (s 2 t * h 0 - s 0 t * h 2) t ∧
    HasDerivAt (s 2) (s 0 t * h 1 - s 1 t * h 0) t

/-- Real isotropic couplings and a uniform field. -/
structure UniformField (F : Spins) (a b c : ℝ) : Prop where
  half : F.twoS = 1
  sites : 0 < F.nsites
  isotropic : ∀ i < F.nsites, ∀ j < F.nsites, F.jx i j = F.jy i j ∧ F.jy i j = F.jz i j
  real : ∀ i < F.nsites, ∀ j < F.nsites, star (F.jx i j) = F.jx i j
  field : ∀ i < F.nsites, F.hx i = a ∧ F.hy i = b ∧ F.hz i = c

end ED
