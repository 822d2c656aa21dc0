import Verif.Spec.Hubbard
import Mathlib.Data.Complex.Basic
import Mathlib.LinearAlgebra.Matrix.Notation
import Mathlib.Data.Matrix.Block

/-! # Lemmas: two sites with two species, integer matrices -/

namespace ED

open Matrix

namespace TwoSites

/-- The creation operators have integer entries. -/
def createZ {n : ℕ} (i : Fin n) : Matrix (Conf n 2) (Conf n 2) ℤ :=
  Matrix.of fun s t => if AgreeOff i s t ∧ s i = 1 ∧ t i = 0 then (-1) ^ occAfter i s else 0

theorem create_eq {n : ℕ} (i : Fin n) : create i = (createZ i).map (Int.castRingHom ℂ) := by
  ext s t
  simp only [create, createZ, map_apply, of_apply]
  split_ifs <;> simp

theorem annih_eq {n : ℕ} (i : Fin n) : annih i = (createZ i)ᵀ.map (Int.castRingHom ℂ) := by
  ext s t
  simp only [annih, create, createZ, map_apply, of_apply, conjTranspose_apply, transpose_apply]
  split_ifs <;> simp

/-- The hopping between the two sites, for both species. -/
def hopZ : Matrix (Conf 4 2) (Conf 4 2) ℤ :=
  (createZ 1 * (createZ 0)ᵀ + createZ 0 * (createZ 1)ᵀ) + (createZ 3 * (createZ 2)ᵀ + createZ 2 * (createZ 3)ᵀ)

/-- The same, entry by entry: one species changes its site and the other one does not move. -/
def flipZ : Matrix (Conf 4 2) (Conf 4 2) ℤ := Matrix.of fun s t =>
  if s 0 = t 1 ∧ s 1 = t 0 ∧ t 0 ≠ t 1 ∧ s 2 = t 2 ∧ s 3 = t 3 ∨ s 2 = t 3 ∧ s 3 = t 2 ∧ t 2 ≠ t 3 ∧ s 0 = t 0 ∧ s 1 = t 1
  then 1 else 0


theorem hopZ_eq : ∀ p : Conf 4 2 × Conf 4 2, hopZ p.1 p.2 = flipZ p.1 p.2 := by
  decide +kernel

/-- The new basis: for each state its coefficients, as a function of the number of the configuration. -/
def vec (k : ℕ) : ℕ → ℤ :=
  match k with
  | 0 => Pi.single 0 1
  | 1 => Pi.single 8 1 + Pi.single 4 1
  | 2 => Pi.single 8 1 - Pi.single 4 1
  | 3 => Pi.single 2 1 + Pi.single 1 1
  | 4 => Pi.single 2 1 - Pi.single 1 1
  | 5 => Pi.single 12 1
  | 6 => Pi.single 3 1
  | 7 => Pi.single 10 1 - Pi.single 5 1
  | 8 => Pi.single 9 1 - Pi.single 6 1
  | 9 => Pi.single 14 1 + Pi.single 13 1
  | 10 => Pi.single 14 1 - Pi.single 13 1
  | 11 => Pi.single 11 1 + Pi.single 7 1
  | 12 => Pi.single 11 1 - Pi.single 7 1
  | 13 => Pi.single 15 1
  | 14 => Pi.single 10 1 + Pi.single 5 1
  | _ => Pi.single 9 1 + Pi.single 6 1

/-- The change of basis. -/
def P : Matrix (Fin 14 ⊕ Fin 2) (Conf 4 2) ℤ := Matrix.of fun r t =>
  match r with
  | .inl i => vec i (idx t)
  | .inr i => vec (14 + i) (idx t)

/-- Twice its inverse. -/
def Q : Matrix (Conf 4 2) (Fin 14 ⊕ Fin 2) ℤ := Matrix.of fun t r =>
  match r with
  | .inl i => (if (i : ℕ) ∈ [0, 5, 6, 13] then 2 else 1) * vec i (idx t)
  | .inr i => vec (14 + i) (idx t)

theorem P_mul_Q : ∀ r s, (P * Q) r s = (2 • 1 : Matrix (Fin 14 ⊕ Fin 2) (Fin 14 ⊕ Fin 2) ℤ) r s := by
  decide +kernel

theorem Q_mul_P : ∀ r s, (Q * P) r s = (2 • 1 : Matrix (Conf 4 2) (Conf 4 2) ℤ) r s := by
  decide +kernel

/-- The hopping in the new basis. -/
def hopD : Fin 14 → ℤ := ![0, 1, -1, 1, -1, 0, 0, 0, 0, 1, -1, 1, -1, 0]
/-- The number of doubly occupied sites. -/
def doubD : Fin 14 → ℤ := ![0, 0, 0, 0, 0, 0, 0, 1, 0, 1, 1, 1, 1, 2]
/-- The numbers of particles of the two species. -/
def num0 : Fin 14 → ℤ := ![0, 1, 1, 0, 0, 2, 0, 1, 1, 2, 2, 1, 1, 2]
def num1 : Fin 14 → ℤ := ![0, 0, 0, 1, 1, 0, 2, 1, 1, 1, 1, 2, 2, 2]

theorem P_hop : ∀ r t, (P * flipZ) r t = (fromBlocks (diagonal hopD) 0 0 !![0, 2; 2, 0] * P) r t := by
  decide +kernel

/-- A diagonal operator with integer entries. -/
def diagZ (f : Conf 4 2 → ℤ) : Matrix (Conf 4 2) (Conf 4 2) ℤ := diagonal f

theorem P_doub : ∀ r t, (P * diagZ fun t => (t 0 : ℕ) * (t 2 : ℕ) + (t 1 : ℕ) * (t 3 : ℕ)) r t =
    (fromBlocks (diagonal doubD) 0 0 !![1, 0; 0, 0] * P) r t := by
  decide +kernel

theorem P_num0 : ∀ r t, (P * diagZ fun t => (t 0 : ℕ) + (t 1 : ℕ)) r t =
    (fromBlocks (diagonal num0) 0 0 !![1, 0; 0, 1] * P) r t := by
  decide +kernel

theorem P_num1 : ∀ r t, (P * diagZ fun t => (t 2 : ℕ) + (t 3 : ℕ)) r t =
    (fromBlocks (diagonal num1) 0 0 !![1, 0; 0, 1] * P) r t := by
  decide +kernel

/-- The configurations with one particle of each species. -/
def pairs : Fin 4 → Conf 4 2 := ![![0, 1, 0, 1], ![0, 1, 1, 0], ![1, 0, 0, 1], ![1, 0, 1, 0]]

/-- The change of basis for these. -/
def P4 : Matrix (Fin 2 ⊕ Fin 2) (Fin 4) ℤ := Matrix.of fun r => match r with
  | .inl i => if i = 0 then ![-1, 0, 0, 1] else ![0, -1, 1, 0]
  | .inr i => if i = 0 then ![1, 0, 0, 1] else ![0, 1, 1, 0]

theorem P4_mul : ∀ r s, (P4 * P4ᵀ) r s = (2 • 1 : Matrix (Fin 2 ⊕ Fin 2) (Fin 2 ⊕ Fin 2) ℤ) r s := by
  decide +kernel

theorem mul_P4 : ∀ r s, (P4ᵀ * P4) r s = (2 • 1 : Matrix (Fin 4) (Fin 4) ℤ) r s := by
  decide +kernel

/-- Two blocks. -/
abbrev blk (a b : Matrix (Fin 2) (Fin 2) ℤ) : Matrix (Fin 2 ⊕ Fin 2) (Fin 2 ⊕ Fin 2) ℤ := fromBlocks a 0 0 b

theorem P4_hop : ∀ r t, (P4 * flipZ.submatrix pairs pairs) r t = (blk 0 !![0, 2; 2, 0] * P4) r t := by
  decide +kernel

theorem P4_doub : ∀ r t, (P4 * (diagZ fun t => (t 0 : ℕ) * (t 2 : ℕ) + (t 1 : ℕ) * (t 3 : ℕ)).submatrix pairs pairs) r t =
    (blk !![1, 0; 0, 0] !![1, 0; 0, 0] * P4) r t := by
  decide +kernel

theorem P4_num0 : ∀ r t, (P4 * (diagZ fun t => (t 0 : ℕ) + (t 1 : ℕ)).submatrix pairs pairs) r t =
    (blk !![1, 0; 0, 1] !![1, 0; 0, 1] * P4) r t := by
  decide +kernel

theorem P4_num1 : ∀ r t, (P4 * (diagZ fun t => (t 2 : ℕ) + (t 3 : ℕ)).submatrix pairs pairs) r t =
    (blk !![1, 0; 0, 1] !![1, 0; 0, 1] * P4) r t := by
  decide +kernel

/-- These are all configurations with one particle of each species. -/
theorem pairs_range : ∀ t : Conf 4 2, (∃ k, pairs k = t) ↔ (t 0 : ℕ) + (t 1 : ℕ) = 1 ∧ (t 2 : ℕ) + (t 3 : ℕ) = 1 := by
  decide +kernel

theorem pairs_inj : ∀ i j, pairs i = pairs j → i = j := by
  decide +kernel

end TwoSites

end ED
