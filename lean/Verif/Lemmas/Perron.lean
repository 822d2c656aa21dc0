import Verif.Lemmas.Thermal
import Mathlib.Logic.Relation
import Mathlib.LinearAlgebra.Matrix.Hermitian
import Mathlib.Analysis.Complex.Basic

/-! # Lowest states of matrices whose off-diagonal entries are negative up to phases -/

namespace ED

open Matrix

section

variable {ι κ : Type} [Fintype ι] [DecidableEq ι] [Fintype κ] [DecidableEq κ]

theorem form_levels {H : Matrix ι ι ℂ} {E : κ → ℝ} {V : Matrix ι κ ℂ} (h4 : V * Vᴴ = 1) (h5 : H * V = V * diagonal fun k => (E k : ℂ)) (x : ι → ℂ) :
    (star x ⬝ᵥ (H *ᵥ x)).re = ∑ k, E k * Complex.normSq ((Vᴴ *ᵥ x) k) ∧ ∑ s, Complex.normSq (x s) = ∑ k, Complex.normSq ((Vᴴ *ᵥ x) k) := by
  have hx : x = V *ᵥ (Vᴴ *ᵥ x) := by rw [mulVec_mulVec, h4, one_mulVec]
  have hs : star x ᵥ* V = star (Vᴴ *ᵥ x) := by rw [star_mulVec, conjTranspose_conjTranspose]
  constructor
  · have hH : H *ᵥ x = V *ᵥ (diagonal (fun k => (E k : ℂ)) *ᵥ (Vᴴ *ᵥ x)) := by
      conv_lhs => rw [hx, mulVec_mulVec, h5, ← mulVec_mulVec]
    rw [hH, dotProduct_mulVec, hs, dotProduct, Complex.re_sum]
    refine Finset.sum_congr rfl fun k _ => ?_
    rw [mulVec_diagonal, Pi.star_apply, Complex.star_def, ← mul_assoc, mul_comm _ (E k : ℂ), mul_assoc, ← Complex.normSq_eq_conj_mul_self, ← Complex.ofReal_mul,
      Complex.ofReal_re]
  · have e : star x ⬝ᵥ x = star (Vᴴ *ᵥ x) ⬝ᵥ (Vᴴ *ᵥ x) := by
      conv_lhs => rw [hx, dotProduct_mulVec, ← hx, hs]
    have n : ∀ {μ : Type} [Fintype μ] (y : μ → ℂ), star y ⬝ᵥ y = ((∑ k, Complex.normSq (y k) : ℝ) : ℂ) := by
      intro μ _ y
      rw [dotProduct, Complex.ofReal_sum]
      exact Finset.sum_congr rfl fun k _ => by rw [Pi.star_apply, Complex.star_def, Complex.normSq_eq_conj_mul_self]
    rw [n, n] at e
    exact_mod_cast e

/-- A vector that reaches the lowest energy is an eigenvector. -/
theorem lowest_eigenvector {H : Matrix ι ι ℂ} {E : κ → ℝ} {V : Matrix ι κ ℂ} (h4 : V * Vᴴ = 1) (h5 : H * V = V * diagonal fun k => (E k : ℂ)) {e : ℝ}
    (he : ∀ k, e ≤ E k) {x : ι → ℂ} (hx : (star x ⬝ᵥ (H *ᵥ x)).re ≤ e * ∑ s, Complex.normSq (x s)) : H *ᵥ x = (e : ℂ) • x := by
  obtain ⟨f1, f2⟩ := form_levels h4 h5 x
  rw [f1, f2, Finset.mul_sum, ← sub_nonpos, ← Finset.sum_sub_distrib] at hx
  have hnn : ∀ k ∈ Finset.univ, 0 ≤ E k * Complex.normSq ((Vᴴ *ᵥ x) k) - e * Complex.normSq ((Vᴴ *ᵥ x) k) := fun k _ => by
    rw [← sub_mul]
    exact mul_nonneg (sub_nonneg.2 (he k)) (Complex.normSq_nonneg _)
  have hz := (Finset.sum_eq_zero_iff_of_nonneg hnn).1 (le_antisymm hx (Finset.sum_nonneg hnn))
  have hx' : x = V *ᵥ (Vᴴ *ᵥ x) := by rw [mulVec_mulVec, h4, one_mulVec]
  have hd : diagonal (fun k => (E k : ℂ)) *ᵥ (Vᴴ *ᵥ x) = (e : ℂ) • (Vᴴ *ᵥ x) := by
    funext k
    rw [mulVec_diagonal, Pi.smul_apply, smul_eq_mul]
    have := hz k (Finset.mem_univ k)
    rw [← sub_mul, mul_eq_zero, sub_eq_zero] at this
    rcases this with h | h
    · rw [h]
    · rw [Complex.normSq_eq_zero.1 h, mul_zero, mul_zero]
  conv_lhs => rw [hx', mulVec_mulVec, h5, ← mulVec_mulVec, hd, mulVec_smul, ← hx']

/-- Up to phases, all off-diagonal entries are negative or zero, and all states are connected by entries that are not zero. -/
structure Connected (H : Matrix ι ι ℂ) (θ : ι → ℂ) (c : ι → ι → ℝ) : Prop where
  phase : ∀ s, Complex.normSq (θ s) = 1
  nonneg : ∀ s t, 0 ≤ c s t
  off : ∀ s t, s ≠ t → H s t = -((c s t : ℂ) * (θ s * star (θ t)))
  conn : ∀ s t, Relation.ReflTransGen (fun s t => s ≠ t ∧ 0 < c s t) s t

variable {H : Matrix ι ι ℂ} {θ : ι → ℂ} {c : ι → ι → ℝ}

/-- Replacing the amplitudes of a lowest state by positive ones, up to the phases, gives a lowest state. -/
theorem Connected.positive (hC : Connected H θ c) {E : κ → ℝ} {V : Matrix ι κ ℂ} (h4 : V * Vᴴ = 1) (h5 : H * V = V * diagonal fun k => (E k : ℂ)) {e : ℝ}
    (he : ∀ k, e ≤ E k) {v : ι → ℂ} (hv : H *ᵥ v = (e : ℂ) • v) :
    H *ᵥ (fun s => θ s * (‖v s‖ : ℂ)) = (e : ℂ) • fun s => θ s * (‖v s‖ : ℂ) := by
  have hθ : ∀ s, star (θ s) * θ s = 1 := fun s => by
    rw [Complex.star_def, ← Complex.normSq_eq_conj_mul_self, hC.phase, Complex.ofReal_one]
  have hn : ∀ s, ‖θ s‖ = 1 := fun s => by
    have := hC.phase s
    rw [Complex.normSq_eq_norm_sq] at this
    exact (pow_eq_one_iff_of_nonneg (norm_nonneg _) two_ne_zero).1 this
  refine lowest_eigenvector h4 h5 he ?_
  have hnorm : ∑ s, Complex.normSq (θ s * (‖v s‖ : ℂ)) = ∑ s, Complex.normSq (v s) := by
    refine Finset.sum_congr rfl fun s _ => ?_
    rw [Complex.normSq_mul, hC.phase, one_mul, Complex.normSq_ofReal, Complex.normSq_eq_norm_sq, sq]
  have hform : (star v ⬝ᵥ (H *ᵥ v)).re = e * ∑ s, Complex.normSq (v s) := by
    rw [hv, dotProduct_smul, dotProduct, smul_eq_mul, Finset.mul_sum, Complex.re_sum, Finset.mul_sum]
    refine Finset.sum_congr rfl fun s _ => ?_
    rw [Pi.star_apply, Complex.star_def, ← Complex.normSq_eq_conj_mul_self, ← Complex.ofReal_mul, Complex.ofReal_re]
  rw [hnorm, ← hform]
  simp only [dotProduct, mulVec, Complex.re_sum, Finset.mul_sum]
  refine Finset.sum_le_sum fun s _ => Finset.sum_le_sum fun t _ => ?_
  by_cases hst : s = t
  · subst hst
    refine le_of_eq ?_
    congr 1
    simp only [Pi.star_apply, star_mul']
    have h1 : star (v s) * v s = (‖v s‖ : ℂ) * ‖v s‖ := by
      rw [Complex.star_def, ← Complex.normSq_eq_conj_mul_self, Complex.normSq_eq_norm_sq, sq, Complex.ofReal_mul]
    have h2 : star (‖v s‖ : ℂ) = ‖v s‖ := Complex.conj_ofReal _
    rw [h2]
    linear_combination (H s s * ‖v s‖ * ‖v s‖) * hθ s - H s s * h1
  · rw [hC.off s t hst]
    simp only [Pi.star_apply, star_mul']
    have h2 : star (‖v s‖ : ℂ) = ‖v s‖ := Complex.conj_ofReal _
    have e1 : star (θ s) * star (‖v s‖ : ℂ) * (-((c s t : ℂ) * (θ s * star (θ t))) * (θ t * (‖v t‖ : ℂ))) = ((-(c s t * (‖v s‖ * ‖v t‖)) : ℝ) : ℂ) := by
      rw [h2]
      push_cast
      linear_combination (-(c s t : ℂ) * ‖v s‖ * ‖v t‖ * (star (θ t) * θ t)) * hθ s - ((c s t : ℂ) * ‖v s‖ * ‖v t‖) * hθ t
    have e2 : star (v s) * (-((c s t : ℂ) * (θ s * star (θ t))) * v t) = ((-c s t : ℝ) : ℂ) * (star (v s) * (θ s * star (θ t)) * v t) := by
      push_cast
      ring
    rw [e1, e2, Complex.ofReal_re, Complex.re_ofReal_mul]
    have h3 : (star (v s) * (θ s * star (θ t)) * v t).re ≤ ‖v s‖ * ‖v t‖ := by
      refine (Complex.re_le_norm _).trans (le_of_eq ?_)
      rw [norm_mul, norm_mul, norm_mul, norm_star, norm_star, hn, hn]
      ring
    have h0 := hC.nonneg s t
    nlinarith

/-- No amplitude of a lowest state vanishes. -/
theorem Connected.ne_zero (hC : Connected H θ c) {E : κ → ℝ} {V : Matrix ι κ ℂ} (h4 : V * Vᴴ = 1) (h5 : H * V = V * diagonal fun k => (E k : ℂ)) {e : ℝ}
    (he : ∀ k, e ≤ E k) {v : ι → ℂ} (hv : H *ᵥ v = (e : ℂ) • v) (h0 : v ≠ 0) (s : ι) : v s ≠ 0 := by
  have hp := hC.positive h4 h5 he hv
  have hθ : ∀ s, star (θ s) * θ s = 1 := fun s => by
    rw [Complex.star_def, ← Complex.normSq_eq_conj_mul_self, hC.phase, Complex.ofReal_one]
  have step : ∀ s t, (s ≠ t ∧ 0 < c s t) → v s = 0 → v t = 0 := by
    rintro s t ⟨hst, hc⟩ hs
    have := congrFun hp s
    simp only [mulVec, dotProduct, Pi.smul_apply, hs, norm_zero, Complex.ofReal_zero, mul_zero, smul_zero] at this
    have h1 : ∀ u, H s u * (θ u * (‖v u‖ : ℂ)) = -θ s * ((c s u * ‖v u‖ : ℝ) : ℂ) := by
      intro u
      by_cases hu : s = u
      · subst hu
        simp [hs]
      · rw [hC.off s u hu]
        push_cast
        linear_combination (-(c s u : ℂ) * θ s * ‖v u‖) * hθ u
    rw [Finset.sum_congr rfl fun u _ => h1 u, ← Finset.mul_sum, mul_eq_zero, neg_eq_zero, ← Complex.ofReal_sum, Complex.ofReal_eq_zero] at this
    have h2 : θ s ≠ 0 := fun e => by have := hθ s; rw [e, mul_zero] at this; exact zero_ne_one this
    have h3 := this.resolve_left h2
    have h4 := (Finset.sum_eq_zero_iff_of_nonneg fun u _ => mul_nonneg (hC.nonneg s u) (norm_nonneg (v u))).1 h3 t (Finset.mem_univ t)
    exact norm_eq_zero.1 ((mul_eq_zero.1 h4).resolve_left hc.ne')
  intro hs
  refine h0 (funext fun t => ?_)
  have := hC.conn s t
  induction this with
  | refl => exact hs
  | tail _ hbc ih => exact step _ _ hbc ih

/-- Two lowest states are multiples of each other. -/
theorem Connected.unique (hC : Connected H θ c) {E : κ → ℝ} {V : Matrix ι κ ℂ} (h4 : V * Vᴴ = 1) (h5 : H * V = V * diagonal fun k => (E k : ℂ)) {e : ℝ}
    (he : ∀ k, e ≤ E k) {v w : ι → ℂ} (hv : H *ᵥ v = (e : ℂ) • v) (hw : H *ᵥ w = (e : ℂ) • w) (s : ι) : w s • v = v s • w := by
  by_contra hne
  have h1 : H *ᵥ (w s • v - v s • w) = (e : ℂ) • (w s • v - v s • w) := by
    rw [mulVec_sub, mulVec_smul, mulVec_smul, hv, hw, smul_sub, smul_comm (w s), smul_comm (v s)]
  refine hC.ne_zero h4 h5 he h1 (sub_ne_zero.2 hne) s ?_
  simp only [Pi.sub_apply, Pi.smul_apply, smul_eq_mul]
  ring

end

end ED
