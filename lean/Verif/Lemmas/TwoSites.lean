import Verif.Lemmas.TwoSitesData
import Mathlib.LinearAlgebra.Matrix.Charpoly.Basic
import Mathlib.LinearAlgebra.Matrix.Charpoly.Coeff
import Mathlib.Algebra.Polynomial.Roots
import Mathlib.Analysis.Real.Sqrt
import Mathlib.Tactic.LinearCombination

/-! # Lemmas: two sites with two species -/

namespace ED

open Matrix Polynomial

/-- Matrices that are related by an invertible change of basis have the same characteristic polynomial. -/
theorem charpoly_of_similar {ι κ : Type*} [Fintype ι] [DecidableEq ι] [Fintype κ] [DecidableEq κ] {H : Matrix ι ι ℂ}
    {K : Matrix κ κ ℂ} {P : Matrix κ ι ℂ} {Q : Matrix ι κ ℂ} (hc : Fintype.card ι = Fintype.card κ) (h1 : P * Q = 1)
    (h2 : Q * P = 1) (h : P * H = K * P) : H.charpoly = K.charpoly := by
  have e : K = P * H * Q := by rw [h, Matrix.mul_assoc, h1, Matrix.mul_one]
  rw [e, charpoly_mul_comm_of_le _ _ hc.le, hc, Nat.sub_self, pow_zero, one_mul, ← Matrix.mul_assoc, h2, Matrix.one_mul]

namespace TwoSites

/-- The Hamiltonian of two sites as an integer combination. -/
noncomputable def ham (U t m0 m1 : ℂ) : Matrix (Conf 4 2) (Conf 4 2) ℂ :=
  U • (diagZ fun t => (t 0 : ℕ) * (t 2 : ℕ) + (t 1 : ℕ) * (t 3 : ℕ)).map (Int.castRingHom ℂ) -
    t • flipZ.map (Int.castRingHom ℂ) - m0 • (diagZ fun t => (t 0 : ℕ) + (t 1 : ℕ)).map (Int.castRingHom ℂ) -
    m1 • (diagZ fun t => (t 2 : ℕ) + (t 3 : ℕ)).map (Int.castRingHom ℂ)

/-- The energies outside of the block of two states. -/
noncomputable def levels (U t m0 m1 : ℂ) (i : Fin 14) : ℂ := doubD i * U - hopD i * t - num0 i * m0 - num1 i * m1

/-- The block of two states. -/
noncomputable def block (U t m0 m1 : ℂ) : Matrix (Fin 2) (Fin 2) ℂ := !![U - m0 - m1, -(2 * t); -(2 * t), -m0 - m1]

theorem cast_mul {ι κ ν : Type*} [Fintype κ] {A : Matrix ι κ ℤ} {B : Matrix κ ν ℤ} :
    (A * B).map (Int.castRingHom ℂ) = A.map (Int.castRingHom ℂ) * B.map (Int.castRingHom ℂ) := Matrix.map_mul

theorem cast_ext {ι κ : Type*} {A B : Matrix ι κ ℤ} (h : ∀ i j, A i j = B i j) :
    A.map (Int.castRingHom ℂ) = B.map (Int.castRingHom ℂ) := by
  rw [Matrix.ext h]

theorem ham_charpoly (U t m0 m1 : ℂ) :
    (ham U t m0 m1).charpoly = (diagonal (levels U t m0 m1)).charpoly * (block U t m0 m1).charpoly := by
  have hP : ∀ (D : Matrix (Conf 4 2) (Conf 4 2) ℤ) (K : Matrix (Fin 14 ⊕ Fin 2) (Fin 14 ⊕ Fin 2) ℤ),
      (∀ r t, (P * D) r t = (K * P) r t) → P.map (Int.castRingHom ℂ) * D.map (Int.castRingHom ℂ) =
        K.map (Int.castRingHom ℂ) * P.map (Int.castRingHom ℂ) := fun D K h => by
    rw [← cast_mul, ← cast_mul, cast_ext h]
  have e1 : P.map (Int.castRingHom ℂ) * ((1 / 2 : ℂ) • Q.map (Int.castRingHom ℂ)) = 1 := by
    rw [Matrix.mul_smul, ← cast_mul, cast_ext P_mul_Q]
    ext r s
    simp only [Matrix.smul_apply, map_apply, one_apply]
    split_ifs <;> simp
  have e2 : ((1 / 2 : ℂ) • Q.map (Int.castRingHom ℂ)) * P.map (Int.castRingHom ℂ) = 1 := by
    rw [Matrix.smul_mul, ← cast_mul, cast_ext Q_mul_P]
    ext r s
    simp only [Matrix.smul_apply, map_apply, one_apply]
    split_ifs <;> simp
  rw [charpoly_of_similar (K := fromBlocks (diagonal (levels U t m0 m1)) 0 0 (block U t m0 m1)) (by simp) e1 e2,
    charpoly_fromBlocks_zero₁₂]
  unfold ham
  rw [Matrix.mul_sub, Matrix.mul_sub, Matrix.mul_sub, Matrix.mul_smul, Matrix.mul_smul, Matrix.mul_smul, Matrix.mul_smul,
    hP _ _ P_hop, hP _ _ P_doub, hP _ _ P_num0, hP _ _ P_num1, ← Matrix.smul_mul, ← Matrix.smul_mul, ← Matrix.smul_mul,
    ← Matrix.smul_mul, ← Matrix.sub_mul, ← Matrix.sub_mul, ← Matrix.sub_mul]
  congr 1
  ext r s
  rcases r with r | r <;> rcases s with s | s
  · simp only [Matrix.sub_apply, Matrix.smul_apply, map_apply, fromBlocks_apply₁₁, diagonal_apply]
    split_ifs
    · simp only [levels, eq_intCast, smul_eq_mul]
      ring
    · simp
  · simp
  · simp
  · fin_cases r <;> fin_cases s <;> simp [block] <;> ring

/-- The states with one particle of each species. -/
noncomputable def hamSub (U t m0 m1 : ℂ) : Matrix (Fin 4) (Fin 4) ℂ := (ham U t m0 m1).submatrix pairs pairs

theorem hamSub_charpoly (U t m0 m1 : ℂ) :
    (hamSub U t m0 m1).charpoly = (diagonal ![U - m0 - m1, -m0 - m1]).charpoly * (block U t m0 m1).charpoly := by
  have hP : ∀ (D : Matrix (Conf 4 2) (Conf 4 2) ℤ) (K : Matrix (Fin 2 ⊕ Fin 2) (Fin 2 ⊕ Fin 2) ℤ),
      (∀ r t, (P4 * D.submatrix pairs pairs) r t = (K * P4) r t) →
        P4.map (Int.castRingHom ℂ) * (D.map (Int.castRingHom ℂ)).submatrix pairs pairs =
        K.map (Int.castRingHom ℂ) * P4.map (Int.castRingHom ℂ) := fun D K h => by
    rw [← cast_mul, ← cast_ext h, cast_mul]
    rfl
  have e1 : P4.map (Int.castRingHom ℂ) * ((1 / 2 : ℂ) • P4ᵀ.map (Int.castRingHom ℂ)) = 1 := by
    rw [Matrix.mul_smul, ← cast_mul, cast_ext P4_mul]
    ext r s
    simp only [Matrix.smul_apply, map_apply, one_apply]
    split_ifs <;> simp
  have e2 : ((1 / 2 : ℂ) • P4ᵀ.map (Int.castRingHom ℂ)) * P4.map (Int.castRingHom ℂ) = 1 := by
    rw [Matrix.smul_mul, ← cast_mul, cast_ext mul_P4]
    ext r s
    simp only [Matrix.smul_apply, map_apply, one_apply]
    split_ifs <;> simp
  rw [charpoly_of_similar (K := fromBlocks (diagonal ![U - m0 - m1, -m0 - m1]) 0 0 (block U t m0 m1)) (by simp) e1 e2,
    charpoly_fromBlocks_zero₁₂]
  have e : hamSub U t m0 m1 = U • ((diagZ fun t => (t 0 : ℕ) * (t 2 : ℕ) + (t 1 : ℕ) * (t 3 : ℕ)).map
        (Int.castRingHom ℂ)).submatrix pairs pairs -
      t • (flipZ.map (Int.castRingHom ℂ)).submatrix pairs pairs -
      m0 • ((diagZ fun t => (t 0 : ℕ) + (t 1 : ℕ)).map (Int.castRingHom ℂ)).submatrix pairs pairs -
      m1 • ((diagZ fun t => (t 2 : ℕ) + (t 3 : ℕ)).map (Int.castRingHom ℂ)).submatrix pairs pairs := rfl
  rw [e, Matrix.mul_sub, Matrix.mul_sub, Matrix.mul_sub, Matrix.mul_smul, Matrix.mul_smul, Matrix.mul_smul, Matrix.mul_smul,
    hP _ _ P4_hop, hP _ _ P4_doub, hP _ _ P4_num0, hP _ _ P4_num1, ← Matrix.smul_mul, ← Matrix.smul_mul, ← Matrix.smul_mul,
    ← Matrix.smul_mul, ← Matrix.sub_mul, ← Matrix.sub_mul, ← Matrix.sub_mul]
  congr 1
  ext r s
  rcases r with r | r <;> rcases s with s | s
  · fin_cases r <;> fin_cases s <;> simp
  · simp
  · simp
  · fin_cases r <;> fin_cases s <;> simp [block] <;> ring

/-- The roots of the characteristic polynomial of a diagonal matrix. -/
theorem roots_diagonal {n : ℕ} (d : Fin n → ℂ) : (diagonal d).charpoly.roots = Finset.univ.val.map d := by
  rw [charpoly_diagonal]
  exact roots_multiset_prod_X_sub_C (Finset.univ.val.map d) ▸ by rw [Multiset.map_map]; rfl

theorem block_roots (U t m0 m1 : ℝ) : (block U t m0 m1).charpoly.roots =
    {(((U + √(U ^ 2 + 16 * t ^ 2)) / 2 - m0 - m1 : ℝ) : ℂ), (((U - √(U ^ 2 + 16 * t ^ 2)) / 2 - m0 - m1 : ℝ) : ℂ)} := by
  have h : (block U t m0 m1).charpoly = (X - C (((U + √(U ^ 2 + 16 * t ^ 2)) / 2 - m0 - m1 : ℝ) : ℂ)) *
      (X - C (((U - √(U ^ 2 + 16 * t ^ 2)) / 2 - m0 - m1 : ℝ) : ℂ)) := by
    have hs : √(U ^ 2 + 16 * t ^ 2) ^ 2 = U ^ 2 + 16 * t ^ 2 := Real.sq_sqrt (by positivity)
    generalize √(U ^ 2 + 16 * t ^ 2) = q at hs
    have hq : (q : ℂ) ^ 2 = U ^ 2 + 16 * t ^ 2 := by exact_mod_cast hs
    rw [charpoly_fin_two, trace_fin_two, det_fin_two]
    simp only [block, of_apply, cons_val', cons_val_zero, cons_val_one, cons_val_fin_one]
    have e1 : ((U : ℂ) - m0 - m1 + (-m0 - m1)) = (((U + q) / 2 - m0 - m1 : ℝ) : ℂ) + (((U - q) / 2 - m0 - m1 : ℝ) : ℂ) := by
      push_cast
      ring
    have e2 : ((U : ℂ) - m0 - m1) * (-m0 - m1) - -(2 * (t : ℂ)) * -(2 * t) =
        (((U + q) / 2 - m0 - m1 : ℝ) : ℂ) * (((U - q) / 2 - m0 - m1 : ℝ) : ℂ) := by
      push_cast
      linear_combination (1 / 4 : ℂ) * hq
    rw [e1, e2, C_add, C_mul]
    ring
  rw [h, roots_mul, roots_X_sub_C, roots_X_sub_C]
  · rfl
  · exact mul_ne_zero (X_sub_C_ne_zero _) (X_sub_C_ne_zero _)

end TwoSites

end ED
