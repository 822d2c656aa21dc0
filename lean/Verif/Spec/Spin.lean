import Verif.Spec.Fock

/-! # Specification vocabulary: spins

Configurations of spin-1/2 sites: digit `0` is up, digit `1` is down. -/

namespace ED

open scoped BigOperators

/-- The operator acting with the matrix `A` on site `i` and as the identity on all others. -/
def siteOp {n b : ℕ} (A : Matrix (Fin b) (Fin b) ℂ) (i : Fin n) : Op n b :=
  Matrix.of fun s t => if AgreeOff i s t then A (s i) (t i) else 0

/-- Pauli matrices. -/
def sigmaX : Matrix (Fin 2) (Fin 2) ℂ := Matrix.of fun i j => if i = j then 0 else 1
def sigmaY : Matrix (Fin 2) (Fin 2) ℂ :=
  Matrix.of fun i j => if i = 0 ∧ j = 1 then -Complex.I else if i = 1 ∧ j = 0 then Complex.I else 0
def sigmaZ : Matrix (Fin 2) (Fin 2) ℂ :=
  Matrix.of fun i j => if i = j then (if i = 0 then 1 else -1) else 0

/-- The classical spin of a site: `+1` up, `-1` down. -/
def spinVal {n : ℕ} (t : Conf n 2) (i : Fin n) : ℂ := if t i = 0 then 1 else -1

/-- The number of excitations of a site: `1` up, `0` down. -/
def upVal {n : ℕ} (t : Conf n 2) (i : Fin n) : ℂ := if t i = 0 then 1 else 0

/-- All spins reversed. -/
def flipAll {n : ℕ} (t : Conf n 2) : Conf n 2 := fun i => 1 - t i

/-- `½ Σ_{i>j, a} j_a σ_i^a σ_j^a - ½ Σ_{i,a} h_a σ_i^a`, the Hamiltonian of the class docstring
(ed_spins.py 31-45). -/
noncomputable def spinH {n : ℕ} (jx jy jz : Fin n → Fin n → ℂ) (hx hy hz : Fin n → ℂ) : Op n 2 :=
  (∑ i, ∑ j, if j < i then
      (1 / 2 : ℂ) • (jx i j • (siteOp sigmaX i * siteOp sigmaX j) +
        jy i j • (siteOp sigmaY i * siteOp sigmaY j) +
        jz i j • (siteOp sigmaZ i * siteOp sigmaZ j)) else 0) -
    ∑ i, (1 / 2 : ℂ) • (hx i • siteOp sigmaX i + hy i • siteOp sigmaY i + hz i • siteOp sigmaZ i)

end ED
