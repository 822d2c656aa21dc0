import Verif.Lemmas.Weyl
import Mathlib.Data.Matrix.Block
import Mathlib.Data.Fin.Tuple.Sort

/-! # Eigenvalues of blocks that are almost decoupled -/

namespace ED

open Matrix

section

variable {κ : Type} [Fintype κ]

theorem quad_diagonal [DecidableEq κ] (a : κ → ℝ) (c : κ → ℂ) :
    star c ⬝ᵥ diagonal (fun p => (a p : ℂ)) *ᵥ c = ((∑ p, a p * ‖c p‖ ^ 2 : ℝ) : ℂ) := by
  simp only [dotProduct, mulVec_diagonal, Pi.star_apply]
  push_cast
  refine Finset.sum_congr rfl fun p _ => ?_
  rw [show ((‖c p‖ : ℝ) : ℂ) ^ 2 = c p * star (c p) by
    rw [← Complex.ofReal_pow, ← Complex.normSq_eq_norm_sq, ← Complex.mul_conj]; rfl]
  ring

theorem quad_one [DecidableEq κ] (c : κ → ℂ) : star c ⬝ᵥ c = ((∑ p, ‖c p‖ ^ 2 : ℝ) : ℂ) := by
  have := quad_diagonal (fun _ => 1) c
  simpa using this

theorem quad_mul {ι : Type} [Fintype ι] (X : Matrix ι κ ℂ) (G : Matrix ι ι ℂ) (c : κ → ℂ) :
    star (X *ᵥ c) ⬝ᵥ G *ᵥ (X *ᵥ c) = star c ⬝ᵥ (Xᴴ * G * X) *ᵥ c := by
  rw [star_mulVec, ← dotProduct_mulVec, mulVec_mulVec, mulVec_mulVec, Matrix.mul_assoc]

theorem sq_mulVec [DecidableEq κ] {ι : Type} [Fintype ι] [DecidableEq ι] {X : Matrix ι κ ℂ} (h : Xᴴ * X = 1) (c : κ → ℂ) :
    ∑ p, ‖(X *ᵥ c) p‖ ^ 2 = ∑ p, ‖c p‖ ^ 2 := by
  have := quad_mul X 1 c
  rw [one_mulVec, Matrix.mul_one, h, one_mulVec, quad_one, quad_one] at this
  exact_mod_cast this

end

variable {ι κ μ : Type} [Fintype ι] [DecidableEq ι] [Fintype κ] [DecidableEq κ] [Fintype μ] [DecidableEq μ] {N : ℕ}

/-- The eigenvalues of two matrices that differ little in some basis. -/
theorem weyl_blocks {H : Matrix ι ι ℂ} {X : Matrix κ ι ℂ} {D : Matrix κ κ ℂ} {B : Matrix κ μ ℂ} {a : μ → ℝ}
    {V : Matrix ι (Fin N) ℂ} {h : Fin N → ℝ} {η : ℝ} (hX : X * Xᴴ = 1)
    (hD : ∀ c : κ → ℂ, ‖star c ⬝ᵥ (X * H * Xᴴ - D) *ᵥ c‖ ≤ η * ∑ p, ‖c p‖ ^ 2) (hB : Bᴴ * B = 1)
    (hDB : D * B = B * diagonal fun p => (a p : ℂ)) (hV : V * Vᴴ = 1)
    (hHV : H * V = V * diagonal fun k => (h k : ℂ)) (e : Fin N ≃ μ) (ha : Monotone (a ∘ e))
    (hh : Monotone h) (k : Fin N) : |h k - a (e k)| ≤ η := by
  have hH : V * diagonal (fun k => (h k : ℂ)) * Vᴴ = H := by rw [← hHV, Matrix.mul_assoc, hV, Matrix.mul_one]
  set K : Matrix (Fin N) μ ℂ := Vᴴ * Xᴴ * B with hK
  have hKe : ∀ c : Fin N → ℂ, K.submatrix id e *ᵥ c = K *ᵥ (c ∘ e.symm) := by
    intro c
    funext j
    simp only [mulVec, dotProduct, submatrix_apply, id]
    exact Fintype.sum_equiv e _ _ fun i => by simp
  have hs : ∀ f : μ → ℝ, ∑ i, f (e i) = ∑ p, f p := fun f => Fintype.sum_equiv e _ _ fun i => rfl
  have hKK : Kᴴ * K = 1 := by
    rw [hK]
    simp only [conjTranspose_mul, conjTranspose_conjTranspose]
    rw [show Bᴴ * (X * V) * (Vᴴ * Xᴴ * B) = Bᴴ * (X * (V * Vᴴ) * Xᴴ) * B by simp only [Matrix.mul_assoc], hV,
      Matrix.mul_one, hX, Matrix.mul_one, hB]
  have key : ∀ c : μ → ℂ, |∑ j, h j * ‖(K *ᵥ c) j‖ ^ 2 - ∑ p, a p * ‖c p‖ ^ 2| ≤ η * ∑ p, ‖c p‖ ^ 2 := by
    intro c
    have e1 : Kᴴ * diagonal (fun k => (h k : ℂ)) * K - diagonal (fun p => (a p : ℂ)) = Bᴴ * (X * H * Xᴴ - D) * B := by
      rw [Matrix.mul_sub, Matrix.sub_mul, Matrix.mul_assoc Bᴴ D, hDB, ← Matrix.mul_assoc Bᴴ B, hB, Matrix.one_mul,
        ← hH, hK]
      simp only [conjTranspose_mul, conjTranspose_conjTranspose, Matrix.mul_assoc]
    have e2 : ((∑ j, h j * ‖(K *ᵥ c) j‖ ^ 2 - ∑ p, a p * ‖c p‖ ^ 2 : ℝ) : ℂ) =
        star (B *ᵥ c) ⬝ᵥ (X * H * Xᴴ - D) *ᵥ (B *ᵥ c) := by
      rw [Complex.ofReal_sub, ← quad_diagonal, ← quad_diagonal, quad_mul, quad_mul, ← e1, sub_mulVec, dotProduct_sub]
    have e3 := hD (B *ᵥ c)
    rwa [← e2, Complex.norm_real, sq_mulVec hB] at e3
  have := weyl (K := K.submatrix id e) (a := a ∘ e) ha hh (δ := η) (ε := 0) (fun c => ?_) (fun c => ?_) k
  · simpa using this
  · have := key (c ∘ e.symm)
    rw [hKe]
    rw [← hs, ← hs fun p => ‖(c ∘ e.symm) p‖ ^ 2] at this
    simpa using this
  · rw [hKe, sq_mulVec hKK, ← hs]
    simp

/-- Quadratic forms of block diagonal matrices. -/
theorem quad_block {r : ℕ} {m : Fin r → ℕ} (M : ∀ i, Matrix (Fin (m i)) (Fin (m i)) ℂ) (c : (Σ i, Fin (m i)) → ℂ) :
    star c ⬝ᵥ blockDiagonal' M *ᵥ c = ∑ i, (star fun a => c ⟨i, a⟩) ⬝ᵥ M i *ᵥ fun a => c ⟨i, a⟩ := by
  simp only [dotProduct, mulVec, Fintype.sum_sigma]
  refine Finset.sum_congr rfl fun i _ => Finset.sum_congr rfl fun x _ => ?_
  congr 1
  rw [Finset.sum_eq_single i]
  · simp only [blockDiagonal'_apply_eq]
  · intro j _ hj
    exact Finset.sum_eq_zero fun y _ => by rw [blockDiagonal'_apply_ne _ _ _ (Ne.symm hj), zero_mul]
  · simp

end ED
