import Verif.Lemmas.SpinAlg
import Mathlib.Analysis.Normed.Algebra.MatrixExponential
import Mathlib.LinearAlgebra.Matrix.Charpoly.Basic
import Mathlib.LinearAlgebra.Matrix.Charpoly.Coeff
import Mathlib.Analysis.SpecialFunctions.Exponential

/-! # Helper lemmas: rotations of all spins -/

namespace ED

open Matrix
open scoped BigOperators

section rotation
variable {m : Type} [Fintype m] [DecidableEq m]

attribute [local instance] Matrix.linftyOpNormedRing Matrix.linftyOpNormedAlgebra in
theorem exp_semiconj {x a b : Matrix m m ℂ} (h : x * a = b * x) :
    x * NormedSpace.exp a = NormedSpace.exp b * x := by
  have : SemiconjBy x a b := h
  exact this.exp_right

/-- The exponential of an operator that shifts: if `a p = p (a - c)` then `exp a p = exp (-c) p exp a`. -/
theorem exp_shift {a p : Matrix m m ℂ} {c : ℂ} (h : a * p = p * a + c • p) :
    NormedSpace.exp a * p = Complex.exp c • (p * NormedSpace.exp a) := by
  have h1 : p * (a + c • (1 : Matrix m m ℂ)) = a * p := by
    rw [Matrix.mul_add, Matrix.mul_smul, Matrix.mul_one, h]
  have h2 := exp_semiconj h1
  rw [← h2, Matrix.exp_add_of_commute _ _ (Commute.smul_right (Commute.one_right _) _)]
  have h3 : NormedSpace.exp (c • (1 : Matrix m m ℂ)) = Complex.exp c • (1 : Matrix m m ℂ) := by
    rw [Matrix.smul_one_eq_diagonal, Matrix.smul_one_eq_diagonal, Matrix.exp_diagonal]
    congr 1
    funext i
    rw [Pi.coe_exp, Complex.exp_eq_exp_ℂ]
  rw [h3, Matrix.mul_smul, Matrix.mul_one, Matrix.mul_smul]

/-- A quarter turn about the axis of `a`. -/
theorem exists_rotation {a b c : Matrix m m ℂ} (ha : aᴴ = a) (h1 : a * b - b * a = (-Complex.I) • c)
    (h2 : a * c - c * a = Complex.I • b) :
    ∃ U : Matrix m m ℂ, Uᴴ * U = 1 ∧ U * Uᴴ = 1 ∧ U * a * Uᴴ = a ∧ U * b * Uᴴ = c ∧ U * c * Uᴴ = -b := by
  have hI := Complex.I_mul_I
  have key : ∀ (p : Matrix m m ℂ) (s : ℂ), a * p - p * a = s • p → ((Real.pi / 2 * Complex.I) • a) * p =
      p * ((Real.pi / 2 * Complex.I) • a) + (s * (Real.pi / 2 * Complex.I)) • p := by
    intro p s h
    rw [Matrix.smul_mul, Matrix.mul_smul, eq_add_of_sub_eq h, smul_add, smul_smul, mul_comm s, add_comm]
  have e1 : a * (b + Complex.I • c) - (b + Complex.I • c) * a = (-1 : ℂ) • (b + Complex.I • c) := by
    have : a * (b + Complex.I • c) - (b + Complex.I • c) * a = (a * b - b * a) + Complex.I • (a * c - c * a) := by
      rw [Matrix.mul_add, Matrix.add_mul, Matrix.mul_smul, Matrix.smul_mul, smul_sub]
      abel
    rw [this, h1, h2, smul_smul, hI, smul_add, smul_smul, neg_one_mul, add_comm]
  have e2 : a * (b - Complex.I • c) - (b - Complex.I • c) * a = (1 : ℂ) • (b - Complex.I • c) := by
    have : a * (b - Complex.I • c) - (b - Complex.I • c) * a = (a * b - b * a) - Complex.I • (a * c - c * a) := by
      rw [Matrix.mul_sub, Matrix.sub_mul, Matrix.mul_smul, Matrix.smul_mul, smul_sub]
      abel
    rw [this, h1, h2, smul_smul, hI, one_smul, neg_smul, neg_smul, one_smul]
    abel
  have e3 : a * a - a * a = (0 : ℂ) • a := by simp
  have f1 := exp_shift (key _ _ e1)
  have f2 := exp_shift (key _ _ e2)
  have f3 := exp_shift (key _ _ e3)
  obtain ⟨U, hU⟩ : ∃ U, U = NormedSpace.exp ((Real.pi / 2 * Complex.I) • a) := ⟨_, rfl⟩
  rw [← hU] at f1 f2 f3
  have g1 : Complex.exp (-1 * (Real.pi / 2 * Complex.I)) = -Complex.I := by
    rw [neg_one_mul, Complex.exp_neg, Complex.exp_pi_div_two_mul_I, Complex.inv_I]
  have g2 : Complex.exp (1 * (Real.pi / 2 * Complex.I)) = Complex.I := by
    rw [one_mul, Complex.exp_pi_div_two_mul_I]
  rw [g1] at f1
  rw [g2] at f2
  rw [zero_mul, Complex.exp_zero, one_smul] at f3
  have hs : Uᴴ = NormedSpace.exp (-((Real.pi / 2 * Complex.I) • a)) := by
    rw [hU, ← Matrix.exp_conjTranspose, conjTranspose_smul, ha, ← neg_smul]
    congr 2
    simp [Complex.conj_ofReal]
  have hUU : U * Uᴴ = 1 := by
    rw [hs, hU, ← Matrix.exp_add_of_commute _ _ ((Commute.refl (_ : Matrix m m ℂ)).neg_right), add_neg_cancel, NormedSpace.exp_zero]
  simp only [Matrix.mul_add, Matrix.add_mul, Matrix.mul_sub, Matrix.sub_mul, Matrix.mul_smul, Matrix.smul_mul] at f1 f2
  have fb : U * b = c * U := by
    ext i j
    have h1 := congrFun (congrFun f1 i) j
    have h2 := congrFun (congrFun f2 i) j
    simp only [Matrix.add_apply, Matrix.sub_apply, Matrix.smul_apply, smul_eq_mul] at h1 h2
    linear_combination (1 / 2 : ℂ) * h1 + (1 / 2 : ℂ) * h2 - (c * U) i j * hI
  have fc : U * c = -b * U := by
    ext i j
    have h1 := congrFun (congrFun f1 i) j
    have h2 := congrFun (congrFun f2 i) j
    rw [Matrix.neg_mul, Matrix.neg_apply]
    simp only [Matrix.add_apply, Matrix.sub_apply, Matrix.smul_apply, smul_eq_mul] at h1 h2
    linear_combination (-Complex.I / 2 : ℂ) * h1 + (Complex.I / 2 : ℂ) * h2 + ((U * c) i j + (b * U) i j) * hI
  refine ⟨U, mul_eq_one_comm.1 hUU, hUU, ?_, ?_, ?_⟩
  · rw [f3, Matrix.mul_assoc, hUU, Matrix.mul_one]
  · rw [fb, Matrix.mul_assoc, hUU, Matrix.mul_one]
  · rw [fc, Matrix.mul_assoc, hUU, Matrix.mul_one]

end rotation

variable {n b : ℕ}

/-- The same single-site operator on every site. -/
def everywhere (n : ℕ) {b : ℕ} (U : Matrix (Fin b) (Fin b) ℂ) : Op n b := tensor fun _ => U

theorem everywhere_unitary {U : Matrix (Fin b) (Fin b) ℂ} (h : U * Uᴴ = 1) :
    everywhere n U * (everywhere n U)ᴴ = 1 := by
  unfold everywhere
  rw [tensor_conjTranspose, tensor_mul]
  simp only [h]
  exact tensor_one

theorem everywhere_conj {U : Matrix (Fin b) (Fin b) ℂ} (h : U * Uᴴ = 1) (A : Matrix (Fin b) (Fin b) ℂ) (i : Fin n) :
    everywhere n U * siteOp A i * (everywhere n U)ᴴ = siteOp (U * A * Uᴴ) i := by
  rw [siteOp_eq_bop, siteOp_eq_bop]
  unfold everywhere bop
  rw [tensor_conjTranspose, tensor_mul, tensor_mul]
  congr 1
  funext j
  simp only [fam1]
  split_ifs <;> simp [h]

theorem heis_everywhere {U : Matrix (Fin b) (Fin b) ℂ} (h : U * Uᴴ = 1) (X Y Z : Matrix (Fin b) (Fin b) ℂ)
    (jx jy jz : Fin n → Fin n → ℂ) (hx hy hz : Fin n → ℂ) :
    everywhere n U * heis X Y Z jx jy jz hx hy hz * (everywhere n U)ᴴ =
      heis (U * X * Uᴴ) (U * Y * Uᴴ) (U * Z * Uᴴ) jx jy jz hx hy hz := by
  have hW : (everywhere n U)ᴴ * everywhere n U = 1 := mul_eq_one_comm.1 (everywhere_unitary h)
  unfold heis
  rw [mul_sub, sub_mul]
  simp only [Finset.mul_sum, Finset.sum_mul]
  congr 1
  · refine Finset.sum_congr rfl fun i _ => Finset.sum_congr rfl fun j _ => ?_
    split_ifs
    · simp only [mul_add, add_mul, mul_smul_comm, smul_mul_assoc, conj_mul2 hW, everywhere_conj h]
    · simp
  · refine Finset.sum_congr rfl fun i _ => ?_
    simp only [mul_add, add_mul, mul_smul_comm, smul_mul_assoc, everywhere_conj h]

theorem siteOp_transpose (A : Matrix (Fin b) (Fin b) ℂ) (i : Fin n) : (siteOp A i)ᵀ = siteOp Aᵀ i := by
  ext s t
  simp only [siteOp, Matrix.transpose_apply, of_apply]
  refine if_congr ⟨fun h j hj => (h j hj).symm, fun h j hj => (h j hj).symm⟩ rfl rfl

theorem heis_transpose (X Y Z : Matrix (Fin b) (Fin b) ℂ) (jx jy jz : Fin n → Fin n → ℂ) (hx hy hz : Fin n → ℂ) :
    (heis X Y Z jx jy jz hx hy hz)ᵀ = heis Xᵀ Yᵀ Zᵀ jx jy jz hx hy hz := by
  unfold heis
  rw [transpose_sub, transpose_sum, transpose_sum]
  congr 1
  · refine Finset.sum_congr rfl fun i _ => ?_
    rw [transpose_sum]
    refine Finset.sum_congr rfl fun j _ => ?_
    split_ifs with h
    · simp only [transpose_add, transpose_smul, transpose_mul, siteOp_transpose]
      rw [siteOp_comm h.ne, siteOp_comm h.ne, siteOp_comm h.ne]
    · simp
  · refine Finset.sum_congr rfl fun i _ => ?_
    simp only [transpose_add, transpose_smul, siteOp_transpose]

theorem charpoly_conj {ι : Type} [Fintype ι] [DecidableEq ι] {W H : Matrix ι ι ℂ} (h : W * Wᴴ = 1) :
    (W * H * Wᴴ).charpoly = H.charpoly := by
  have h' : Wᴴ * W = 1 := mul_eq_one_comm.1 h
  have e := Matrix.charpoly_units_conj ⟨W, Wᴴ, h, h'⟩ H
  rwa [show ((⟨W, Wᴴ, h, h'⟩ : (Matrix ι ι ℂ)ˣ) : Matrix ι ι ℂ)⁻¹ = Wᴴ from Matrix.inv_eq_right_inv h] at e

theorem spM_transpose (d : ℕ) : (spM d)ᵀ = smM d := by
  ext i j
  simp only [Matrix.transpose_apply, spM, smM, of_apply]

theorem smM_transpose (d : ℕ) : (smM d)ᵀ = spM d := by rw [← spM_transpose, transpose_transpose]

theorem sxM_transpose (d : ℕ) : (sxM d)ᵀ = sxM d := by
  rw [sxM, transpose_smul, transpose_add, spM_transpose, smM_transpose, add_comm (smM d)]

theorem syM_transpose (d : ℕ) : (syM d)ᵀ = -syM d := by
  rw [syM, transpose_smul, transpose_smul, transpose_sub, spM_transpose, smM_transpose, ← smul_neg, ← smul_neg, neg_sub]

theorem szM_transpose (d : ℕ) : (szM d)ᵀ = szM d := by rw [szM, diagonal_transpose]

theorem heis_comm_xy (X Y Z : Matrix (Fin b) (Fin b) ℂ) (jx jy jz : Fin n → Fin n → ℂ) (hx hy hz : Fin n → ℂ) :
    heis Y X Z jx jy jz hx hy hz = heis X Y Z jy jx jz hy hx hz := by
  unfold heis
  congr 1
  · refine Finset.sum_congr rfl fun i _ => Finset.sum_congr rfl fun j _ => ?_
    split_ifs
    · abel
    · rfl
  · refine Finset.sum_congr rfl fun i _ => ?_
    abel

theorem heis_comm_yz (X Y Z : Matrix (Fin b) (Fin b) ℂ) (jx jy jz : Fin n → Fin n → ℂ) (hx hy hz : Fin n → ℂ) :
    heis X Z Y jx jy jz hx hy hz = heis X Y Z jx jz jy hx hz hy := by
  unfold heis
  congr 1
  · refine Finset.sum_congr rfl fun i _ => Finset.sum_congr rfl fun j _ => ?_
    split_ifs
    · abel
    · rfl
  · refine Finset.sum_congr rfl fun i _ => ?_
    abel

section
variable (d : ℕ) (jx jy jz : Fin n → Fin n → ℂ) (hx hy hz : Fin n → ℂ)

theorem charpoly_flip_y :
    (heis (sxM d) (-syM d) (szM d) jx jy jz hx hy hz).charpoly = (heis (sxM d) (syM d) (szM d) jx jy jz hx hy hz).charpoly := by
  rw [← Matrix.charpoly_transpose (heis (sxM d) (syM d) (szM d) jx jy jz hx hy hz), heis_transpose, sxM_transpose, syM_transpose,
    szM_transpose]

theorem charpoly_swap_xy :
    (heis (sxM d) (syM d) (szM d) jy jx jz hy hx hz).charpoly = (heis (sxM d) (syM d) (szM d) jx jy jz hx hy hz).charpoly := by
  obtain ⟨h1, h2, h3⟩ := su2_alg (sp_sm_comm d) (sz_sp d) (sz_sm d)
  obtain ⟨U, -, hU, u1, u2, u3⟩ := exists_rotation (szM_star d) h3 (show _ = Complex.I • sxM d by
    rw [← neg_sub, h2, neg_smul, neg_neg]; rfl)
  rw [← charpoly_flip_y d jx, ← charpoly_conj (H := heis (sxM d) (-syM d) (szM d) jx jy jz hx hy hz) (everywhere_unitary (n := n) hU),
    heis_everywhere hU]
  rw [show U * sxM d * Uᴴ = syM d from u2, Matrix.mul_neg, Matrix.neg_mul, show U * syM d * Uᴴ = -sxM d from u3, u1, neg_neg,
    heis_comm_xy]

theorem charpoly_swap_yz :
    (heis (sxM d) (syM d) (szM d) jx jz jy hx hz hy).charpoly = (heis (sxM d) (syM d) (szM d) jx jy jz hx hy hz).charpoly := by
  obtain ⟨h1, h2, h3⟩ := su2_alg (sp_sm_comm d) (sz_sp d) (sz_sm d)
  obtain ⟨U, hU', hU, u1, u2, u3⟩ := exists_rotation (sxM_star d) h1 (show _ = Complex.I • syM d by
    rw [← neg_sub]; erw [h3]; rw [neg_smul, neg_neg]; rfl)
  have v1 : Uᴴ * sxM d * Uᴴᴴ = sxM d := by
    rw [conjTranspose_conjTranspose]
    conv_lhs => rw [← show U * sxM d * Uᴴ = sxM d from u1]
    rw [← Matrix.mul_assoc, ← Matrix.mul_assoc, hU', Matrix.one_mul, Matrix.mul_assoc, hU', Matrix.mul_one]
  have v2 : Uᴴ * syM d * Uᴴᴴ = -szM d := by
    rw [conjTranspose_conjTranspose, ← neg_neg (syM d), ← show U * szM d * Uᴴ = -syM d from u3]
    rw [Matrix.mul_neg, Matrix.neg_mul, ← Matrix.mul_assoc, ← Matrix.mul_assoc, hU', Matrix.one_mul, Matrix.mul_assoc, hU',
      Matrix.mul_one]
  have v3 : Uᴴ * szM d * Uᴴᴴ = syM d := by
    rw [conjTranspose_conjTranspose, ← show U * syM d * Uᴴ = szM d from u2]
    rw [← Matrix.mul_assoc, ← Matrix.mul_assoc, hU', Matrix.one_mul, Matrix.mul_assoc, hU', Matrix.mul_one]
  have hV : Uᴴ * Uᴴᴴ = 1 := by rw [conjTranspose_conjTranspose, hU']
  rw [← charpoly_flip_y d jx jy jz, ← charpoly_conj (H := heis (sxM d) (-syM d) (szM d) jx jy jz hx hy hz) (everywhere_unitary (n := n) hV),
    heis_everywhere hV]
  rw [v1, Matrix.mul_neg, Matrix.neg_mul, v2, v3, neg_neg, heis_comm_yz]

end
end ED
