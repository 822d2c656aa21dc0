import Verif.Spec.Svd
import Mathlib.Analysis.Matrix.Spectrum
import Mathlib.LinearAlgebra.Matrix.PosDef
import Mathlib.Analysis.Matrix.PosDef
import Mathlib.Data.Fin.Tuple.Sort
import Mathlib.Analysis.Complex.Basic

/-! # A correct singular value decomposition exists -/

namespace ED

open scoped Matrix ComplexOrder

theorem svd_field {𝕜 : Type} [RCLike 𝕜] {m n : ℕ} (M : Matrix (Fin m) (Fin n) 𝕜) :
    ∃ (V : Matrix (Fin n) (Fin n) 𝕜) (s : Fin n → ℝ), V * Vᴴ = 1 ∧ Antitone s ∧ (∀ a, 0 ≤ s a) ∧
      Mᴴ * M = Vᴴ * Matrix.diagonal (fun a => ((s a : ℝ) : 𝕜) ^ 2) * V := by
  classical
  have hP : (Mᴴ * M).PosSemidef := Matrix.posSemidef_conjTranspose_mul_self M
  have hH := hP.isHermitian
  set U : Matrix (Fin n) (Fin n) 𝕜 := (hH.eigenvectorUnitary : Matrix (Fin n) (Fin n) 𝕜) with hU
  have hUU : Uᴴ * U = 1 := Unitary.coe_star_mul_self hH.eigenvectorUnitary
  have hsp : Mᴴ * M = U * Matrix.diagonal (fun a => ((hH.eigenvalues a : ℝ) : 𝕜)) * Uᴴ := by
    have := hH.spectral_theorem
    rw [Unitary.conjStarAlgAut_apply] at this
    exact this
  let τ : Equiv.Perm (Fin n) := Tuple.sort fun a => -hH.eigenvalues a
  have hτ : Monotone ((fun a => -hH.eigenvalues a) ∘ τ) := Tuple.monotone_sort _
  refine ⟨(U.submatrix id τ)ᴴ, fun a => Real.sqrt (hH.eigenvalues (τ a)), ?_, ?_, fun a => Real.sqrt_nonneg _, ?_⟩
  · rw [Matrix.conjTranspose_conjTranspose]
    have : (U.submatrix id τ)ᴴ * U.submatrix id τ = (Uᴴ * U).submatrix τ τ := by
      ext i j
      simp [Matrix.mul_apply]
    rw [this, hUU, Matrix.submatrix_one_equiv]
  · intro a b hab
    have := hτ hab
    simp only [Function.comp] at this
    exact Real.sqrt_le_sqrt (by linarith)
  · rw [Matrix.conjTranspose_conjTranspose]
    refine hsp.trans ?_
    ext i j
    rw [Matrix.mul_apply, Matrix.mul_apply, ← Equiv.sum_comp τ]
    refine Finset.sum_congr rfl fun a _ => ?_
    rw [Matrix.mul_diagonal, Matrix.mul_diagonal]
    simp only [Matrix.submatrix_apply, id, Matrix.conjTranspose_apply]
    congr 2
    rw [← RCLike.ofReal_pow, Real.sq_sqrt (hP.eigenvalues_nonneg _)]

theorem rightSingular_exists {m n : ℕ} (M : Matrix (Fin m) (Fin n) ℂ) : ∃ V, RightSingular M V := by
  classical
  by_cases hr : ∀ i j, (M i j).im = 0
  · obtain ⟨V, s, h1, h2, h3, h4⟩ := svd_field (𝕜 := ℝ) (M.map Complex.re)
    have hM : M = (M.map Complex.re).map Complex.ofRealHom := by
      ext i j
      rw [Matrix.map_apply, Matrix.map_apply]
      exact Complex.ext rfl (hr i j)
    have hstar : ∀ {p q : ℕ} (W : Matrix (Fin p) (Fin q) ℝ), (W.map Complex.ofRealHom)ᴴ = (Wᴴ).map Complex.ofRealHom := by
      intro p q W
      ext i j
      simp
    refine ⟨V.map Complex.ofRealHom, ?_, fun _ i j => ?_, s, h2, h3, ?_⟩
    · rw [hstar, ← Matrix.map_mul, h1]
      exact Matrix.map_one _ (map_zero _) (map_one _)
    · rw [Matrix.map_apply]
      exact Complex.ofReal_im _
    · have h5 := congrArg (fun W : Matrix (Fin n) (Fin n) ℝ => W.map Complex.ofRealHom) h4
      simp only [Matrix.map_mul] at h5
      rw [hM, hstar, hstar, h5]
      congr 2
      ext i j
      rw [Matrix.map_apply]
      by_cases hij : i = j
      · subst hij
        simp
      · simp [Matrix.diagonal_apply_ne _ hij]
  · obtain ⟨V, s, h1, h2, h3, h4⟩ := svd_field M
    exact ⟨V, h1, fun h => absurd h hr, s, h2, h3, h4⟩

theorem svd_exists : ∃ svd : Svd, svd.Correct :=
  ⟨fun _ _ M => (rightSingular_exists M).choose, fun _ _ M => (rightSingular_exists M).choose_spec⟩

end ED
