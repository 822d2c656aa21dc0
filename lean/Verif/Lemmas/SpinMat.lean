import Verif.Lemmas.Gives
import Verif.Model.Spins
import Mathlib.Tactic.LinearCombination
import Mathlib.Tactic.NoncommRing

/-! # Helper lemmas: spin matrices -/

namespace ED

open scoped BigOperators
open Matrix

/-- The matrix of `getSplus`: it is non-zero one below the diagonal. -/
noncomputable def spM (d : ℕ) : Matrix (Fin (d + 1)) (Fin (d + 1)) ℂ :=
  Matrix.of fun i j => if (i : ℕ) = j + 1 then ((Real.sqrt ((j + 1) * (d - j)) : ℝ) : ℂ) else 0

/-- The matrix of `getSminus`. -/
noncomputable def smM (d : ℕ) : Matrix (Fin (d + 1)) (Fin (d + 1)) ℂ :=
  Matrix.of fun i j => if (j : ℕ) = i + 1 then ((Real.sqrt ((i + 1) * (d - i)) : ℝ) : ℂ) else 0

/-- The matrix of `getSz`. -/
noncomputable def szM (d : ℕ) : Matrix (Fin (d + 1)) (Fin (d + 1)) ℂ :=
  Matrix.diagonal fun i => (((d : ℝ) / 2 - i : ℝ) : ℂ)

theorem getSplus_is (d : ℕ) : (getSplus d).Is (spM d) := by
  refine ⟨by simp [getSplus, diagsBelow], by simp [getSplus, diagsBelow], fun i j => ?_⟩
  simp only [getSplus, diagsBelow, spM, of_apply]
  change (if (i : ℕ) = j + 1 then _ else _) = _
  refine if_congr Iff.rfl ?_ rfl
  congr 2
  change ((d : ℝ) / 2 - (d / 2 - 1 - (j : ℕ))) * (d / 2 + (d / 2 - 1 - (j : ℕ)) + 1) = _
  ring

theorem getSminus_is (d : ℕ) : (getSminus d).Is (smM d) := by
  refine ⟨by simp [getSminus, diagsAbove], by simp [getSminus, diagsAbove], fun i j => ?_⟩
  simp only [getSminus, diagsAbove, smM, of_apply]
  change (if (j : ℕ) = i + 1 then _ else _) = _
  refine if_congr Iff.rfl ?_ rfl
  congr 2
  change ((d : ℝ) / 2 + (d / 2 - (i : ℕ))) * (d / 2 - (d / 2 - (i : ℕ)) + 1) = _
  ring

theorem getSz_is (d : ℕ) : (getSz d).Is (szM d) := by
  refine ⟨by simp [getSz], by simp [getSz], fun i j => ?_⟩
  simp only [getSz, szM, diagonal_apply]
  change (if (i : ℕ) = j then _ else _) = _
  simp only [Fin.ext_iff]
  rfl

theorem getSx_gives (d : ℕ) : Gives (getSx d) ((1 / 2 : ℂ) • (spM d + smM d)) :=
  ((getSplus_is d).add (getSminus_is d)).bind' fun _ hA => (hA.smul _).pure

theorem getSy_gives (d : ℕ) :
    Gives (getSy d) ((1 / Complex.I) • ((1 / 2 : ℂ) • (spM d - smM d))) :=
  ((getSplus_is d).sub (getSminus_is d)).bind' fun _ hA => ((hA.smul _).smul _).pure

theorem smM_star (d : ℕ) : (spM d)ᴴ = smM d := by
  ext i j
  rw [conjTranspose_apply, spM, smM, of_apply, of_apply]
  split_ifs
  · exact Complex.conj_ofReal _
  · simp

theorem spM_star (d : ℕ) : (smM d)ᴴ = spM d := by
  rw [← smM_star, conjTranspose_conjTranspose]

theorem szM_star (d : ℕ) : (szM d)ᴴ = szM d := by
  rw [szM, diagonal_conjTranspose]
  congr 1; funext i; exact Complex.conj_ofReal _

theorem sqrt_sq_c {x : ℝ} (h : 0 ≤ x) : ((Real.sqrt x : ℝ) : ℂ) * ((Real.sqrt x : ℝ) : ℂ) = x := by
  rw [← Complex.ofReal_mul, Real.mul_self_sqrt h]

theorem sp_sm (d : ℕ) : spM d * smM d =
    Matrix.diagonal fun i : Fin (d + 1) => (((i : ℝ) * (d + 1 - i) : ℝ) : ℂ) := by
  ext i j
  rw [mul_apply, diagonal_apply]
  by_cases hi : (i : ℕ) = 0
  · rw [Finset.sum_eq_zero]
    · simp [hi]
    · intro k _
      rw [spM, of_apply, if_neg (by omega), zero_mul]
  · have hi2 := i.2
    rw [Finset.sum_eq_single ⟨i - 1, by omega⟩]
    · simp only [spM, smM, of_apply]
      rw [if_pos (by omega)]
      have e : (j : ℕ) = (i : ℕ) - 1 + 1 ↔ i = j := by
        rw [Fin.ext_iff]; omega
      simp only [e]
      split_ifs
      · rw [sqrt_sq_c]
        · congr 1
          have : ((i - 1 : ℕ) : ℝ) = i - 1 := by push_cast [Nat.one_le_iff_ne_zero.2 hi]; ring
          rw [this]; ring
        · apply mul_nonneg
          · positivity
          · have : ((i - 1 : ℕ) : ℝ) ≤ d := by exact_mod_cast (by omega)
            linarith
      · simp
    · intro k _ hk
      rw [spM, of_apply, if_neg, zero_mul]
      intro e
      apply hk
      apply Fin.ext
      simp only
      omega
    · simp

theorem sm_sp (d : ℕ) : smM d * spM d =
    Matrix.diagonal fun i : Fin (d + 1) => ((((i : ℝ) + 1) * (d - i) : ℝ) : ℂ) := by
  ext i j
  rw [mul_apply, diagonal_apply]
  by_cases hi : (i : ℕ) = d
  · rw [Finset.sum_eq_zero]
    · simp [hi]
    · intro k _
      have := k.2
      rw [smM, of_apply, if_neg (by omega), zero_mul]
  · have hi2 := i.2
    rw [Finset.sum_eq_single ⟨i + 1, by omega⟩]
    · simp only [spM, smM, of_apply]
      rw [if_pos trivial]
      have e : (i : ℕ) + 1 = j + 1 ↔ i = j := by
        rw [Fin.ext_iff]; omega
      simp only [e]
      split_ifs with h
      · subst h
        rw [sqrt_sq_c]
        apply mul_nonneg
        · positivity
        · have : ((i : ℕ) : ℝ) ≤ d := by exact_mod_cast (by omega)
          linarith
      · simp
    · intro k _ hk
      rw [smM, of_apply, if_neg, zero_mul]
      intro e
      apply hk
      apply Fin.ext
      simp only
      omega
    · simp

theorem sp_sm_comm (d : ℕ) : spM d * smM d - smM d * spM d = (-2 : ℂ) • szM d := by
  rw [sp_sm, sm_sp, szM, diagonal_sub, ← diagonal_smul]
  congr 1
  funext i
  simp only [Pi.smul_apply, smul_eq_mul]
  push_cast
  ring

theorem sz_sp (d : ℕ) : szM d * spM d - spM d * szM d = -spM d := by
  ext i j
  rw [Matrix.sub_apply, Matrix.neg_apply, szM, diagonal_mul, mul_diagonal, spM, of_apply]
  split_ifs with h
  · rw [h]; push_cast; ring
  · simp

theorem sz_sm (d : ℕ) : szM d * smM d - smM d * szM d = smM d := by
  have := congrArg conjTranspose (sz_sp d)
  rw [conjTranspose_sub, conjTranspose_mul, conjTranspose_mul, conjTranspose_neg, smM_star, szM_star]
    at this
  rw [← neg_sub, this, neg_neg]

/-- The algebra, for matrices related like the library's. -/
theorem su2_alg {R : Type} [Ring R] [Algebra ℂ R] {p m z : R} (h1 : p * m - m * p = (-2 : ℂ) • z)
    (h2 : z * p - p * z = -p) (h3 : z * m - m * z = m) :
    let x := (1 / 2 : ℂ) • (p + m)
    let y := (1 / Complex.I) • ((1 / 2 : ℂ) • (p - m))
    x * y - y * x = (-Complex.I) • z ∧ y * z - z * y = (-Complex.I) • x ∧
      z * x - x * z = (-Complex.I) • y := by
  intro x y
  have hI : (1 / Complex.I : ℂ) = -Complex.I := by simp
  have hII : Complex.I * Complex.I = -1 := Complex.I_mul_I
  simp only [x, y, hI, smul_smul]
  refine ⟨?_, ?_, ?_⟩
  · have e : (p + m) * (p - m) - (p - m) * (p + m) = (-2 : ℂ) • (p * m - m * p) := by
      rw [neg_smul, two_smul]; noncomm_ring
    simp only [smul_mul_assoc, mul_smul_comm, smul_smul]
    rw [mul_comm (-Complex.I * (1 / 2)) (1 / 2), ← smul_sub, e, h1, smul_smul, smul_smul]
    congr 1; ring
  · have e : (p - m) * z - z * (p - m) = (p + m) := by
      have : (p - m) * z - z * (p - m) = -(z * p - p * z) + (z * m - m * z) := by noncomm_ring
      rw [this, h2, h3, neg_neg]
    simp only [smul_mul_assoc, mul_smul_comm, ← smul_sub, e]
  · have e : z * (p + m) - (p + m) * z = -(p - m) := by
      have : z * (p + m) - (p + m) * z = (z * p - p * z) + (z * m - m * z) := by noncomm_ring
      rw [this, h2, h3]; abel
    simp only [smul_mul_assoc, mul_smul_comm, ← smul_sub, e]
    rw [smul_neg, ← neg_smul]
    congr 1
    linear_combination (-1 / 2 : ℂ) * hII

theorem su2_casimir (d : ℕ) :
    let x := (1 / 2 : ℂ) • (spM d + smM d)
    let y := (1 / Complex.I) • ((1 / 2 : ℂ) • (spM d - smM d))
    x * x + y * y + szM d * szM d = (((d : ℂ) / 2) * (d / 2 + 1)) • 1 := by
  intro x y
  have hI : (1 / Complex.I : ℂ) = -Complex.I := by simp
  have hII : Complex.I * Complex.I = -1 := Complex.I_mul_I
  have e : x * x + y * y = (1 / 2 : ℂ) • (spM d * smM d + smM d * spM d) := by
    simp only [x, y, hI, smul_smul, smul_mul_assoc, mul_smul_comm]
    have e1 : -Complex.I * (1 / 2) * (-Complex.I * (1 / 2)) = -(1 / 4 : ℂ) := by
      linear_combination (1 / 4 : ℂ) * hII
    rw [e1, show (1 / 2 : ℂ) * (1 / 2) = 1 / 4 by norm_num, neg_smul, ← sub_eq_add_neg, ← smul_sub]
    have e2 : (spM d + smM d) * (spM d + smM d) - (spM d - smM d) * (spM d - smM d) =
        (2 : ℂ) • (spM d * smM d + smM d * spM d) := by
      rw [two_smul]; noncomm_ring
    rw [e2, smul_smul]
    norm_num
  rw [e, sp_sm, sm_sp, szM, diagonal_mul_diagonal, diagonal_add, ← diagonal_smul, diagonal_add,
    ← Matrix.diagonal_one, ← diagonal_smul]
  congr 1
  funext i
  simp only [Pi.smul_apply, smul_eq_mul]
  push_cast
  ring

end ED
