import Verif.Lemmas.Sectors
import Verif.Lemmas.Independent

/-! # Averages as averages over snapshots -/

namespace ED

open Matrix

/-- Thermal averages are averages with probabilities. -/
theorem canonical_probability {κ : Type*} [Fintype κ] [Nonempty κ] (T : ℝ) (E : κ → ℝ) :
    ∃ q : κ → ℝ, (∀ k, 0 ≤ q k) ∧ ∑ k, q k = 1 ∧ ∀ v, canonical T E v = ∑ k, q k * v k := by
  have hp := boltz_sum_pos T E
  refine ⟨fun k => boltz T E k / ∑ l, boltz T E l, fun k => div_nonneg (boltz_nonneg T E k) hp.le, ?_, fun v => ?_⟩
  · rw [← Finset.sum_div, div_self hp.ne']
  · unfold canonical
    rw [Finset.sum_div]
    exact Finset.sum_congr rfl fun k _ => by ring

/-- The expectation value of a diagonal operator is an average over basis states. -/
theorem expect_diagonal_proj {ι κ μ : Type*} [Fintype ι] [DecidableEq ι] [Fintype κ] [Fintype μ] (P : Matrix κ ι ℂ) (x : ι → ℝ) (V : Matrix κ μ ℂ)
    (k : μ) : (expect (P * diagonal (fun t => (x t : ℂ)) * Pᴴ) (colOf V k)).re = ∑ t, Complex.normSq ((Pᴴ * V) t k) * x t := by
  rw [expect_col]
  have e : Vᴴ * (P * diagonal (fun t => (x t : ℂ)) * Pᴴ) * V = (Pᴴ * V)ᴴ * (diagonal (fun t => (x t : ℂ)) * (Pᴴ * V)) := by
    rw [conjTranspose_mul, conjTranspose_conjTranspose]
    simp only [Matrix.mul_assoc]
  rw [e, mul_apply, Complex.re_sum]
  refine Finset.sum_congr rfl fun t _ => ?_
  rw [diagonal_mul, conjTranspose_apply, mul_left_comm, Complex.star_def, ← Complex.normSq_eq_conj_mul_self, ← Complex.ofReal_mul, Complex.ofReal_re, mul_comm]

/-- Averages of diagonal operators in a projected space are averages over basis states. -/
theorem canonical_snapshots {ι κ : Type*} [Fintype ι] [DecidableEq ι] [Fintype κ] [DecidableEq κ] {P : Matrix κ ι ℂ} (hP : P * Pᴴ = 1) {m : ℕ}
    {V : Matrix κ (Fin (m + 1)) ℂ} (hV : Vᴴ * V = 1) (T : ℝ) (E : Fin (m + 1) → ℝ) :
    ∃ p : ι → ℝ, (∀ t, 0 ≤ p t) ∧ ∑ t, p t = 1 ∧ (∀ t, (∀ r, P r t = 0) → p t = 0) ∧
      ∀ x : ι → ℝ, canonical T E (fun k => (expect (P * diagonal (fun t => (x t : ℂ)) * Pᴴ) (colOf V k)).re) = ∑ t, p t * x t := by
  obtain ⟨q, hq, hq1, hc⟩ := canonical_probability T E
  refine ⟨fun t => ∑ k, q k * Complex.normSq ((Pᴴ * V) t k), fun t => Finset.sum_nonneg fun k _ => mul_nonneg (hq k) (Complex.normSq_nonneg _), ?_,
    fun t ht => ?_, fun x => ?_⟩
  · rw [Finset.sum_comm]
    have h1 : ∀ k, ∑ t, Complex.normSq ((Pᴴ * V) t k) = 1 := by
      intro k
      have h := expect_diagonal_proj P (fun _ => 1) V k
      simp only [Complex.ofReal_one, mul_one] at h
      rw [← h, diagonal_one, Matrix.mul_one, hP, expect_col, Matrix.mul_one, hV, one_apply_eq, Complex.one_re]
    simp only [← Finset.mul_sum, h1, mul_one, hq1]
  · refine Finset.sum_eq_zero fun k _ => ?_
    have : (Pᴴ * V) t k = 0 := by
      rw [mul_apply]
      refine Finset.sum_eq_zero fun r _ => ?_
      rw [conjTranspose_apply, ht r, star_zero, zero_mul]
    rw [this, Complex.normSq_zero, mul_zero]
  · rw [hc]
    simp only [expect_diagonal_proj, Finset.mul_sum, Finset.sum_mul]
    rw [Finset.sum_comm]
    exact Finset.sum_congr rfl fun t _ => Finset.sum_congr rfl fun k _ => by ring

section Probability

variable {Ω α : Type*} [Fintype Ω] [Fintype α] {p : Ω → ℝ}

/-- Correlations are positive semidefinite. -/
theorem snapshot_covariance (hp : ∀ t, 0 ≤ p t) (h1 : ∑ t, p t = 1) (x : α → Ω → ℝ) (f : α → ℂ) :
    0 ≤ (∑ a, ∑ b, f a * star (f b) * ((∑ t, p t * (x a t * x b t) - (∑ t, p t * x a t) * ∑ t, p t * x b t : ℝ) : ℂ)).re := by
  set d : α → ℝ := fun a => ∑ t, p t * x a t with hd
  have e : ∀ a b, (∑ t, p t * (x a t * x b t) - d a * d b : ℝ) = ∑ t, p t * ((x a t - d a) * (x b t - d b)) := by
    intro a b
    have : ∀ t, p t * ((x a t - d a) * (x b t - d b)) = p t * (x a t * x b t) - d b * (p t * x a t) - d a * (p t * x b t) + d a * d b * p t :=
      fun t => by ring
    simp only [this, Finset.sum_add_distrib, Finset.sum_sub_distrib, ← Finset.mul_sum, h1]
    simp only [hd]
    ring
  have e2 : (∑ a, ∑ b, f a * star (f b) * ((∑ t, p t * (x a t * x b t) - d a * d b : ℝ) : ℂ)) =
      ∑ t, ((p t * Complex.normSq (∑ a, f a * ((x a t - d a : ℝ) : ℂ)) : ℝ) : ℂ) := by
    have : ∀ t, ((p t * Complex.normSq (∑ a, f a * ((x a t - d a : ℝ) : ℂ)) : ℝ) : ℂ) =
        ∑ a, ∑ b, f a * star (f b) * ((p t * ((x a t - d a) * (x b t - d b)) : ℝ) : ℂ) := by
      intro t
      rw [Complex.ofReal_mul, Complex.normSq_eq_conj_mul_self, map_sum, Finset.sum_mul_sum, Finset.sum_comm, Finset.mul_sum]
      refine Finset.sum_congr rfl fun a _ => ?_
      rw [Finset.mul_sum]
      refine Finset.sum_congr rfl fun b _ => ?_
      rw [map_mul, Complex.conj_ofReal, Complex.star_def]
      push_cast
      ring
    simp only [this, e, Complex.ofReal_sum, Finset.mul_sum]
    refine Eq.trans ?_ Finset.sum_comm
    exact Finset.sum_congr rfl fun a _ => Finset.sum_comm
  rw [e2, Complex.re_sum]
  exact Finset.sum_nonneg fun t _ => by
    rw [Complex.ofReal_re]
    exact mul_nonneg (hp t) (Complex.normSq_nonneg _)

end Probability

end ED
