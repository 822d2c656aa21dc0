import Verif.Spec.NearSectors
import Verif.Lemmas.SpinCluster
import Mathlib.Analysis.CStarAlgebra.Matrix

/-! # Norms of spin Hamiltonians -/

namespace ED

open Matrix Spec
open scoped Matrix.Norms.L2Operator

theorem normLe_of_transpose {ι : Type} [Fintype ι] [DecidableEq ι] {O : Matrix ι ι ℂ} {C : ℝ} (h : ‖Oᵀ‖ ≤ C) : NormLe O C := by
  refine ⟨(norm_nonneg _).trans h, fun v => ?_⟩
  have := (l2_opNorm_mulVec Oᵀ (WithLp.toLp 2 v)).trans (mul_le_mul_of_nonneg_right h (norm_nonneg _))
  have h2 := pow_le_pow_left₀ (norm_nonneg _) this 2
  rw [mul_pow, EuclideanSpace.norm_sq_eq, EuclideanSpace.norm_sq_eq] at h2
  simpa [mulVec_transpose] using h2

/-- The square of the matrix is the identity. -/
theorem norm_involution {ι : Type} [Fintype ι] [DecidableEq ι] {A : Matrix ι ι ℂ} (h : Aᴴ * A = 1) : ‖A‖ ≤ 1 := by
  have h1 := l2_opNorm_conjTranspose_mul_self A
  rw [h, ← diagonal_one, l2_opNorm_diagonal] at h1
  have h2 : ‖(fun _ => 1 : ι → ℂ)‖ ≤ 1 := (pi_norm_le_iff_of_nonneg zero_le_one).2 fun _ => by simp
  nlinarith [norm_nonneg A]

theorem norm_spinAt {n : ℕ} {A : Matrix (Fin 2) (Fin 2) ℂ} (h : Aᴴ * A = 1) (i : Fin n) :
    ‖(spinAt A i : Op n 2)‖ ≤ 1 := by
  refine norm_involution ?_
  rw [spinAt_conj, spinAt_fin, spinAt_fin, siteOp_eq_bop, siteOp_eq_bop, bop_mul, h, bop_one]

theorem sigma_unitary : sigmaXᴴ * sigmaX = 1 ∧ sigmaYᴴ * sigmaY = 1 ∧ sigmaZᴴ * sigmaZ = 1 := by
  rw [sigma_conj.1, sigma_conj.2.1, sigma_conj.2.2]
  refine ⟨?_, ?_, ?_⟩ <;>
  · ext a b
    fin_cases a <;> fin_cases b <;> simp [sigmaX, sigmaY, sigmaZ, mul_apply, Fin.sum_univ_two]

theorem norm_pairs {E : Type*} [SeminormedAddCommGroup E] {n : ℕ} {adj : Fin n → Fin n → Prop} {z : ℕ} {inst : ∀ i k, Decidable (adj i k)}
    (hz : ∀ i, (Finset.univ.filter (adj i)).card ≤ z) {T : Fin n → Fin n → E} {c : ℝ} (hc : 0 ≤ c) (hT : ∀ i k, ‖T i k‖ ≤ c) :
    ‖∑ i, ∑ k, if adj i k then T i k else 0‖ ≤ n * (z * c) := by
  refine (norm_sum_le _ _).trans ?_
  refine (Finset.sum_le_card_nsmul _ _ (z * c) fun i _ => ?_).trans (by simp)
  refine (norm_sum_le _ _).trans ?_
  have : ∀ k, ‖if adj i k then T i k else 0‖ ≤ if adj i k then c else 0 := by
    intro k
    split
    · exact hT i k
    · simp
  refine (Finset.sum_le_sum fun k _ => this k).trans ?_
  rw [← Finset.sum_filter, Finset.sum_const, nsmul_eq_mul]
  exact mul_le_mul_of_nonneg_right (by exact_mod_cast hz i) hc

/-- A bound of the Hamiltonian without fields, if every site has at most `z` neighbours. -/
theorem norm_spinHOn {n : ℕ} {adj : Fin n → Fin n → Prop} (h : ∀ i, ¬ adj i i) (J : ℝ) {z : ℕ}
    (hz : ∀ i, open Classical in (Finset.univ.filter (adj i)).card ≤ z) :
    NormLe (spinHOn adj (J : ℂ) J J 0 0 0 : Op n 2) (3 * n * z * |J| / 4) := by
  refine normLe_of_transpose ?_
  rw [spinHOn_transpose h, neg_zero]
  unfold spinHOn
  have hb : ∀ (A : Matrix (Fin 2) (Fin 2) ℂ) (i k : Fin n), Aᴴ * A = 1 → ‖(J : ℂ) • (spinAt A i * spinAt A k : Op n 2)‖ ≤ |J| := by
    intro A i k hA
    rw [norm_smul, Complex.norm_real, Real.norm_eq_abs]
    have := (l2_opNorm_mul (spinAt A i : Op n 2) (spinAt A k)).trans
      (mul_le_one₀ (norm_spinAt hA i) (norm_nonneg _) (norm_spinAt hA k))
    exact mul_le_of_le_one_right (abs_nonneg J) this
  simp only [zero_smul, add_zero, Finset.sum_const_zero, smul_zero, sub_zero]
  rw [norm_smul]
  have h4 : ‖(1 / 4 : ℂ)‖ = 1 / 4 := by norm_num
  rw [h4]
  have key := norm_pairs (inst := fun _ _ => Classical.propDecidable _) hz (T := fun i k => ((J : ℂ) • (spinAt sigmaX i * spinAt sigmaX k) +
      (J : ℂ) • (spinAt sigmaY i * spinAt sigmaY k) + (J : ℂ) • (spinAt sigmaZ i * spinAt sigmaZ k) : Op n 2)) (c := 3 * |J|) (by positivity) (fun i k => by
    refine (norm_add_le _ _).trans ?_
    have h1 := norm_add_le ((J : ℂ) • (spinAt sigmaX i * spinAt sigmaX k) : Op n 2) ((J : ℂ) • (spinAt sigmaY i * spinAt sigmaY k))
    have h2 := hb sigmaX i k sigma_unitary.1
    have h3 := hb sigmaY i k sigma_unitary.2.1
    have h4 := hb sigmaZ i k sigma_unitary.2.2
    linarith)
  have e : 3 * n * z * |J| / 4 = 1 / 4 * (n * (z * (3 * |J|))) := by ring
  rw [e]
  exact mul_le_mul_of_nonneg_left key (by norm_num)

end ED
