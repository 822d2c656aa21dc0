import Verif.Spec.Spin
import Mathlib.Analysis.SpecialFunctions.Trigonometric.Basic
import Mathlib.LinearAlgebra.Matrix.ConjTranspose
import Mathlib.Logic.Equiv.Fin.Rotate

/-! # Specification: states of a spin chain with given quantum numbers -/

namespace ED.Spec

open Matrix

/-- The magnetization of a configuration of spins one half. -/
noncomputable def magnetization {n : ℕ} (t : Conf n 2) : ℂ := ∑ i, spinVal t i / 2

/-- The rows of `X` are orthonormal states with magnetization `mz` and momentum `kx` of the translation `T` of order `N`.
With `mz = 0` they have the parity `spin` under the flip `F` of all spins, and with momentum zero or pi the parity `space`
under the inversion `I`. Parities that are not quantum numbers of the states are zero. -/
structure QuantumNumbers {m n : ℕ} (X : Matrix (Fin m) (Conf n 2) ℂ) (T F I : Op n 2) (N : ℕ) (mz : ℂ)
    (kx spin space : ℝ) : Prop where
  orthonormal : X * Xᴴ = 1
  magnetization : ∀ a t, X a t ≠ 0 → magnetization t = mz
  wavenumber : ∃ q < N, kx = 2 * Real.pi * (q : ℝ) / (N : ℝ)
  momentum : X * T = Complex.exp (-(Complex.I * (kx : ℂ))) • X
  flip : mz = 0 → (spin = 1 ∨ spin = -1) ∧ X * F = (spin : ℂ) • X
  noflip : mz ≠ 0 → spin = 0
  inversion : kx = 0 ∨ kx = Real.pi → (space = 1 ∨ space = -1) ∧ X * I = (space : ℂ) • X
  noinversion : ¬ (kx = 0 ∨ kx = Real.pi) → space = 0

/-- Neighbours on a ring. -/
def RingNeighbours {n : ℕ} (a b : Fin n) : Prop := b = finRotate n a ∨ a = finRotate n b

end ED.Spec
