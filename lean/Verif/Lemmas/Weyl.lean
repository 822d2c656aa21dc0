import Mathlib.Analysis.Complex.Basic
import Mathlib.LinearAlgebra.FiniteDimensional.Lemmas
import Mathlib.LinearAlgebra.Matrix.ToLin
import Mathlib.LinearAlgebra.Matrix.Hermitian
import Mathlib.Algebra.Order.Chebyshev
import Mathlib.Data.Fin.Rev
import Mathlib.Order.Fin.Basic

/-!
# Eigenvalues of matrices that are almost the same

`a` and `h` are the eigenvalues of two Hermitian matrices in increasing order. `K` takes coefficients in the first
eigenbasis to coefficients in the second one.
-/

namespace ED

open Matrix

/-- More unknowns than equations. -/
theorem exists_kernel {m n : Type} [Fintype m] [Fintype n] [DecidableEq n] (M : Matrix m n ℂ)
    (h : Fintype.card m < Fintype.card n) : ∃ c, c ≠ 0 ∧ M *ᵥ c = 0 := by
  have : LinearMap.ker (Matrix.toLin' M) ≠ ⊥ := LinearMap.ker_ne_bot_of_finrank_lt (by simpa using h)
  obtain ⟨c, hc, h0⟩ := Submodule.exists_mem_ne_zero_of_ne_bot this
  exact ⟨c, h0, by simpa using hc⟩

theorem sum_sq_pos {n : Type} [Fintype n] {c : n → ℂ} (h : c ≠ 0) : 0 < ∑ i, ‖c i‖ ^ 2 := by
  obtain ⟨i, hi⟩ := Function.ne_iff.1 h
  refine Finset.sum_pos' (fun i _ => by positivity) ⟨i, Finset.mem_univ _, ?_⟩
  have : 0 < ‖c i‖ := norm_pos_iff.2 hi
  positivity

theorem weyl_le {N : ℕ} {K : Matrix (Fin N) (Fin N) ℂ} {a h : Fin N → ℝ} (ha : Monotone a) (hh : Monotone h) {δ ε : ℝ}
    (h1 : ∀ c : Fin N → ℂ, ∑ j, h j * ‖(K *ᵥ c) j‖ ^ 2 ≤ ∑ i, a i * ‖c i‖ ^ 2 + δ * ∑ i, ‖c i‖ ^ 2)
    (h2 : ∀ c : Fin N → ℂ, |∑ j, ‖(K *ᵥ c) j‖ ^ 2 - ∑ i, ‖c i‖ ^ 2| ≤ ε * ∑ i, ‖c i‖ ^ 2) (k : Fin N) :
    h k ≤ a k + δ + ε * |h k| := by
  obtain ⟨x, hx, hM⟩ := exists_kernel (Matrix.of fun (j : {j : Fin N // j < k}) (i : {i : Fin N // i ≤ k}) => K j i) (by
    rw [Fintype.card_subtype, Fintype.card_subtype]
    refine Finset.card_lt_card ((Finset.ssubset_iff_of_subset fun j hj => ?_).2 ⟨k, by simp, by simp⟩)
    simp only [Finset.mem_filter, Finset.mem_univ, true_and] at hj ⊢
    exact hj.le)
  set c : Fin N → ℂ := fun i => if h : i ≤ k then x ⟨i, h⟩ else 0 with hc
  have hcx : ∀ i : {i : Fin N // i ≤ k}, c i = x i := fun i => by simp [hc, i.2]
  have hc0 : c ≠ 0 := fun h0 => hx (by
    funext i
    rw [← hcx, h0]
    rfl)
  have hQ := sum_sq_pos hc0
  set Q := ∑ i, ‖c i‖ ^ 2 with hQdef
  have hg : ∀ j, j < k → (K *ᵥ c) j = 0 := by
    intro j hj
    have e := congrFun hM ⟨j, hj⟩
    simp only [mulVec, dotProduct, of_apply, Pi.zero_apply] at e ⊢
    rw [← e, ← Finset.sum_subset (Finset.subset_univ (Finset.univ.filter fun i => i ≤ k))]
    · rw [← Finset.sum_coe_sort]
      refine Finset.sum_bij' (fun i _ => ⟨i.1, (Finset.mem_filter.1 i.2).2⟩)
        (fun i _ => ⟨i.1, Finset.mem_filter.2 ⟨Finset.mem_univ _, i.2⟩⟩)
        ?_ ?_ ?_ ?_ ?_ <;> simp [hcx]
      intro i hi
      rw [← hcx]
      exact Or.inl rfl
    · intro i _ hi
      have : ¬ i ≤ k := by simpa using hi
      simp [hc, this]
  have e1 : ∑ i, a i * ‖c i‖ ^ 2 ≤ a k * Q := by
    rw [hQdef, Finset.mul_sum]
    refine Finset.sum_le_sum fun i _ => ?_
    by_cases hi : i ≤ k
    · exact mul_le_mul_of_nonneg_right (ha hi) (by positivity)
    · have : c i = 0 := by simp [hc, hi]
      simp [this]
  have e2 : h k * ∑ j, ‖(K *ᵥ c) j‖ ^ 2 ≤ ∑ j, h j * ‖(K *ᵥ c) j‖ ^ 2 := by
    rw [Finset.mul_sum]
    refine Finset.sum_le_sum fun j _ => ?_
    by_cases hj : j < k
    · rw [hg j hj]
      simp
    · exact mul_le_mul_of_nonneg_right (hh (not_lt.1 hj)) (by positivity)
  have e3 := h1 c
  have e4 := h2 c
  rw [← hQdef] at e3 e4
  set G := ∑ j, ‖(K *ᵥ c) j‖ ^ 2
  have e5 : h k * Q - |h k| * (ε * Q) ≤ h k * G := by
    have : |h k * (G - Q)| ≤ |h k| * (ε * Q) := by
      rw [abs_mul]
      exact mul_le_mul_of_nonneg_left e4 (abs_nonneg _)
    have := (abs_le.1 this).1
    linarith
  have : h k * Q ≤ (a k + δ + ε * |h k|) * Q := by
    have := e5.trans (e2.trans (e3.trans (add_le_add_left e1 _)))
    linarith
  exact le_of_mul_le_mul_right this hQ

theorem weyl {N : ℕ} {K : Matrix (Fin N) (Fin N) ℂ} {a h : Fin N → ℝ} (ha : Monotone a) (hh : Monotone h) {δ ε : ℝ}
    (h1 : ∀ c : Fin N → ℂ, |∑ j, h j * ‖(K *ᵥ c) j‖ ^ 2 - ∑ i, a i * ‖c i‖ ^ 2| ≤ δ * ∑ i, ‖c i‖ ^ 2)
    (h2 : ∀ c : Fin N → ℂ, |∑ j, ‖(K *ᵥ c) j‖ ^ 2 - ∑ i, ‖c i‖ ^ 2| ≤ ε * ∑ i, ‖c i‖ ^ 2) (k : Fin N) :
    |h k - a k| ≤ δ + ε * |h k| := by
  refine abs_le.2 ⟨?_, ?_⟩
  · have hK : ∀ c : Fin N → ℂ, K.submatrix Fin.revPerm Fin.revPerm *ᵥ c
        = fun j => (K *ᵥ (fun i => c i.rev)) j.rev := by
      intro c
      funext j
      simp only [mulVec, dotProduct, submatrix_apply, Fin.revPerm_apply]
      exact Fintype.sum_equiv Fin.revPerm _ _ fun i => by simp
    have hs : ∀ f : Fin N → ℝ, ∑ i : Fin N, f i.rev = ∑ i, f i := fun f =>
      Fintype.sum_equiv Fin.revPerm _ _ fun i => by simp
    have := weyl_le (K := K.submatrix Fin.revPerm Fin.revPerm) (a := fun i => - a i.rev) (h := fun i => - h i.rev)
      (fun i j hij => neg_le_neg (ha (Fin.rev_le_rev.2 hij))) (fun i j hij => neg_le_neg (hh (Fin.rev_le_rev.2 hij)))
      (δ := δ) (ε := ε)
      (by
        intro c
        have e := h1 fun i => c i.rev
        rw [hK]
        simp only [neg_mul, Finset.sum_neg_distrib]
        rw [hs fun j => h j * ‖(K *ᵥ fun i => c i.rev) j‖ ^ 2, ← hs fun i => a i.rev * ‖c i‖ ^ 2]
        rw [hs fun i => ‖c i‖ ^ 2] at e
        simp only [Fin.rev_rev]
        have := (abs_le.1 e).1
        linarith)
      (by
        intro c
        have e := h2 fun i => c i.rev
        rw [hK, hs fun j => ‖(K *ᵥ fun i => c i.rev) j‖ ^ 2]
        rwa [hs fun i => ‖c i‖ ^ 2] at e)
      k.rev
    simp only [Fin.rev_rev, abs_neg] at this
    linarith
  · have := weyl_le ha hh (fun c => by have := (abs_le.1 (h1 c)).2; linarith) h2 k
    linarith

end ED
