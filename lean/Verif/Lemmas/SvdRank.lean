import Verif.Spec.Svd
import Mathlib.LinearAlgebra.Matrix.Rank
import Mathlib.LinearAlgebra.Matrix.NonsingularInverse
import Mathlib.Analysis.Complex.Order
import Mathlib.Analysis.Complex.Basic
import Mathlib.Order.Interval.Finset.Fin
import Mathlib.Data.Fintype.Card
import Mathlib.LinearAlgebra.Matrix.Trace
import Mathlib.Tactic.LinearCombination

/-! # Right singular vectors of a multiple of a projection -/

namespace ED

open scoped BigOperators Matrix ComplexOrder
open Classical

theorem RightSingular.unitary' {m n : ℕ} {M : Matrix (Fin m) (Fin n) ℂ} {V : Matrix (Fin n) (Fin n) ℂ}
    (h : RightSingular M V) : Vᴴ * V = 1 := mul_eq_one_comm.1 h.unitary

/-- If `Mᴴ M` is a multiple of a projection, the first right singular vectors are a basis of its range. -/
theorem RightSingular.split {m n : ℕ} {M : Matrix (Fin m) (Fin n) ℂ} {V E : Matrix (Fin n) (Fin n) ℂ} {c : ℂ}
    (h : RightSingular M V) (hc : c ≠ 0) (hE : E * E = E) (hM : Mᴴ * M = c • E) :
    M.rank ≤ n ∧ (∀ j k, ∑ a : Fin n, (if a.val < M.rank then star (V a j) * V a k else 0) = E j k) := by
  obtain ⟨s, hs, h0, hv⟩ := h.values
  have hVV := h.unitary
  have hVV' := h.unitary'
  set D : Matrix (Fin n) (Fin n) ℂ := Matrix.diagonal (fun a => ((s a : ℂ)) ^ 2) with hD
  have hDE : D = c • (V * E * Vᴴ) := by
    have : V * (Mᴴ * M) * Vᴴ = D := by
      rw [hv]
      calc V * (Vᴴ * D * V) * Vᴴ = (V * Vᴴ) * D * (V * Vᴴ) := by simp only [Matrix.mul_assoc]
        _ = D := by rw [hVV, Matrix.one_mul, Matrix.mul_one]
    rw [← this, hM, Matrix.mul_smul, Matrix.smul_mul]
  have hDD : D * D = c • D := by
    conv_lhs => rw [hDE]
    rw [Matrix.smul_mul, Matrix.mul_smul]
    congr 1
    rw [hDE]
    congr 1
    calc V * E * Vᴴ * (V * E * Vᴴ) = V * (E * (Vᴴ * V) * E) * Vᴴ := by simp only [Matrix.mul_assoc]
      _ = V * E * Vᴴ := by rw [hVV', Matrix.mul_one, hE]
  have hval : ∀ a, s a ≠ 0 → ((s a : ℂ)) ^ 2 = c := by
    intro a ha
    have := congrFun (congrFun hDD a) a
    rw [hD, Matrix.diagonal_mul_diagonal, Matrix.smul_apply, Matrix.diagonal_apply_eq, Matrix.diagonal_apply_eq,
      smul_eq_mul] at this
    have hne : ((s a : ℂ)) ^ 2 ≠ 0 := pow_ne_zero _ (by exact_mod_cast ha)
    exact mul_right_cancel₀ hne this
  have hrank : M.rank = Fintype.card {a : Fin n // s a ≠ 0} := by
    rw [← Matrix.rank_conjTranspose_mul_self, hv]
    have hu : IsUnit V.det := by
      rw [← Matrix.isUnit_iff_isUnit_det]
      exact IsUnit.of_mul_eq_one _ hVV
    have hu' : IsUnit (Vᴴ).det := by
      rw [← Matrix.isUnit_iff_isUnit_det]
      exact IsUnit.of_mul_eq_one _ hVV'
    rw [Matrix.rank_mul_eq_left_of_isUnit_det _ _ hu, Matrix.rank_mul_eq_right_of_isUnit_det _ _ hu', hD,
      Matrix.rank_diagonal]
    refine Fintype.card_congr (Equiv.subtypeEquivRight fun a => ?_)
    simp
  have hlt : ∀ a : Fin n, a.val < M.rank ↔ s a ≠ 0 := by
    -- the indices with non-zero value are an initial segment
    have hcard : M.rank = (Finset.univ.filter fun a : Fin n => s a ≠ 0).card := by
      rw [hrank, Fintype.card_subtype]
    intro a
    constructor
    · intro ha hz
      have hsub : (Finset.univ.filter fun b : Fin n => s b ≠ 0) ⊆ Finset.univ.filter fun b : Fin n => b < a := by
        intro b hb
        rw [Finset.mem_filter] at hb ⊢
        refine ⟨Finset.mem_univ _, ?_⟩
        by_contra hge
        push Not at hge
        have := hs hge
        exact hb.2 (le_antisymm (hz ▸ this) (h0 b))
      have h1 := Finset.card_le_card hsub
      rw [← hcard] at h1
      have h2 : (Finset.univ.filter fun b : Fin n => b < a).card = a.val := by
        rw [show (Finset.univ.filter fun b : Fin n => b < a) = Finset.Iio a by ext; simp, Fin.card_Iio]
      omega
    · intro hz
      have hsub : (Finset.univ.filter fun b : Fin n => b ≤ a) ⊆ Finset.univ.filter fun b : Fin n => s b ≠ 0 := by
        intro b hb
        rw [Finset.mem_filter] at hb ⊢
        refine ⟨Finset.mem_univ _, fun hb0 => ?_⟩
        have := hs hb.2
        exact hz (le_antisymm (hb0 ▸ this) (h0 a))
      have h1 := Finset.card_le_card hsub
      rw [← hcard] at h1
      have h2 : (Finset.univ.filter fun b : Fin n => b ≤ a).card = a.val + 1 := by
        rw [show (Finset.univ.filter fun b : Fin n => b ≤ a) = Finset.Iic a by ext; simp, Fin.card_Iic]
      omega
  refine ⟨Matrix.rank_le_width M, fun j k => ?_⟩
  have hEc : c * E j k = ∑ a : Fin n, star (V a j) * (s a : ℂ) ^ 2 * V a k := by
    have := congrFun (congrFun (hM.symm.trans hv) j) k
    rw [Matrix.smul_apply, smul_eq_mul] at this
    rw [this, Matrix.mul_apply]
    refine Finset.sum_congr rfl fun a _ => ?_
    rw [hD, Matrix.mul_diagonal, Matrix.conjTranspose_apply]
  apply mul_left_cancel₀ hc
  rw [hEc, Finset.mul_sum]
  refine Finset.sum_congr rfl fun a _ => ?_
  by_cases ha : a.val < M.rank
  · rw [if_pos ha, hval a ((hlt a).1 ha)]
    ring
  · have : s a = 0 := by
      by_contra hne
      exact ha ((hlt a).2 hne)
    rw [if_neg ha, this]
    simp

end ED
