import Verif.Lemmas.Gibbs
import Verif.Lemmas.GibbsIneq
import Mathlib.Analysis.Calculus.Deriv.MeanValue
import Mathlib.Analysis.SpecialFunctions.Exp

/-! # Energy, entropy and specific heat of a list of levels -/

namespace ED

open Filter Topology

section

variable {κ : Type*} [Fintype κ]

/-- The entropy of levels `E`, as the scripts compute it. -/
noncomputable def levelEntropy (E : κ → ℝ) (T : ℝ) : ℝ := Real.log (∑ k, Real.exp (-E k / T)) + canonical T E E / T

/-- The specific heat of levels `E`, as the scripts compute it. -/
noncomputable def levelHeat (E : κ → ℝ) (T : ℝ) : ℝ := 1 / T ^ 2 * (canonical T E (fun k => E k ^ 2) - canonical T E E ^ 2)

variable [Nonempty κ]

theorem levelHeat_nonneg (E : κ → ℝ) {T : ℝ} (hT : T ≠ 0) : 0 ≤ levelHeat E T := by
  unfold levelHeat
  refine mul_nonneg (by positivity) ?_
  have hpos : 0 < ∑ k, Real.exp (-E k / T) := Finset.sum_pos (fun k _ => Real.exp_pos _) Finset.univ_nonempty
  rw [canonical_ne hT, canonical_ne hT, div_pow, sub_nonneg, div_le_div_iff₀ (pow_pos hpos 2) hpos]
  have := Finset.sum_mul_sq_le_sq_mul_sq Finset.univ (fun k => Real.exp (-E k / T / 2)) fun k => Real.exp (-E k / T / 2) * E k
  have e : ∀ k, Real.exp (-E k / T / 2) ^ 2 = Real.exp (-E k / T) := fun k => by
    rw [sq, ← Real.exp_add, add_halves]
  simp only [← mul_assoc, mul_pow, ← sq, e] at this
  calc _ ≤ ((∑ k, Real.exp (-E k / T)) * ∑ k, Real.exp (-E k / T) * E k ^ 2) * ∑ k, Real.exp (-E k / T) :=
        mul_le_mul_of_nonneg_right this hpos.le
    _ = _ := by ring

theorem hasDerivAt_levelEntropy (E : κ → ℝ) {T : ℝ} (hT : T ≠ 0) : HasDerivAt (levelEntropy E) (levelHeat E T / T) T := by
  have h1 := hasDerivAt_energy E hT
  have h2 := hasDerivAt_free E hT
  have h3 := (h1.sub h2).div (hasDerivAt_id T) hT
  have h4 : HasDerivAt (levelEntropy E) _ T := h3.congr_of_eventuallyEq (by
    filter_upwards [isOpen_ne.mem_nhds hT] with T hT
    simp only [levelEntropy, Pi.sub_apply, Pi.div_apply, id]
    have hT : T ≠ 0 := hT
    field_simp
    ring)
  refine h4.congr_deriv ?_
  simp only [levelHeat, Pi.sub_apply, id]
  field_simp
  ring

theorem energy_monotone (E : κ → ℝ) : MonotoneOn (fun T => canonical T E E) (Set.Ioi 0) := by
  refine monotoneOn_of_deriv_nonneg (convex_Ioi 0) ?_ ?_ ?_
  · exact fun T hT => (hasDerivAt_energy E (ne_of_gt hT)).continuousAt.continuousWithinAt
  · rw [interior_Ioi]
    exact fun T hT => (hasDerivAt_energy E (ne_of_gt hT)).differentiableAt.differentiableWithinAt
  · rw [interior_Ioi]
    intro T hT
    rw [(hasDerivAt_energy E (ne_of_gt hT)).deriv]
    exact levelHeat_nonneg E (ne_of_gt hT)

theorem entropy_monotone (E : κ → ℝ) : MonotoneOn (levelEntropy E) (Set.Ioi 0) := by
  refine monotoneOn_of_deriv_nonneg (convex_Ioi 0) ?_ ?_ ?_
  · exact fun T hT => (hasDerivAt_levelEntropy E (ne_of_gt hT)).continuousAt.continuousWithinAt
  · rw [interior_Ioi]
    exact fun T hT => (hasDerivAt_levelEntropy E (ne_of_gt hT)).differentiableAt.differentiableWithinAt
  · rw [interior_Ioi]
    intro T hT
    rw [(hasDerivAt_levelEntropy E (ne_of_gt hT)).deriv]
    exact div_nonneg (levelHeat_nonneg E (ne_of_gt hT)) (le_of_lt hT)

/-- The entropy with energies counted from a level. -/
theorem levelEntropy_shift (E : κ → ℝ) (e : ℝ) {T : ℝ} (hT : T ≠ 0) :
    levelEntropy E T = Real.log (∑ k, Real.exp (-((E k - e) / T))) +
      (∑ k, Real.exp (-((E k - e) / T)) * ((E k - e) / T)) / ∑ k, Real.exp (-((E k - e) / T)) := by
  have hq : ∀ k, Real.exp (-E k / T) = Real.exp (-e / T) * Real.exp (-((E k - e) / T)) := fun k => by
    rw [← Real.exp_add]
    congr 1
    field_simp
    ring
  have hpos : 0 < ∑ k, Real.exp (-((E k - e) / T)) := Finset.sum_pos (fun k _ => Real.exp_pos _) Finset.univ_nonempty
  unfold levelEntropy
  rw [canonical_ne hT]
  simp only [hq, mul_assoc, ← Finset.mul_sum]
  rw [mul_div_mul_left _ _ (Real.exp_pos _).ne', Real.log_mul (Real.exp_pos _).ne' hpos.ne', Real.log_exp, add_assoc, add_left_comm]
  congr 1
  have : ∑ k, Real.exp (-((E k - e) / T)) * ((E k - e) / T) =
      ((∑ k, Real.exp (-((E k - e) / T)) * E k) - e * ∑ k, Real.exp (-((E k - e) / T))) / T := by
    rw [Finset.mul_sum, ← Finset.sum_sub_distrib, Finset.sum_div]
    exact Finset.sum_congr rfl fun k _ => by ring
  rw [this]
  generalize (∑ k, Real.exp (-((E k - e) / T))) = Z at hpos ⊢
  generalize (∑ k, Real.exp (-((E k - e) / T)) * E k) = X
  field_simp
  ring

theorem levelEntropy_nonneg (E : κ → ℝ) {T : ℝ} (hT : 0 < T) : 0 ≤ levelEntropy E T := by
  obtain ⟨k0, hk0⟩ := Finite.exists_min E
  rw [levelEntropy_shift E (E k0) hT.ne']
  refine add_nonneg (Real.log_nonneg ?_) (div_nonneg (Finset.sum_nonneg fun k _ => mul_nonneg (Real.exp_pos _).le
    (div_nonneg (sub_nonneg.2 (hk0 k)) hT.le)) (Finset.sum_nonneg fun k _ => (Real.exp_pos _).le))
  refine le_trans ?_ (Finset.single_le_sum (fun k _ => (Real.exp_pos _).le) (Finset.mem_univ k0))
  simp

/-- At low temperatures the entropy is the logarithm of the number of ground states. -/
theorem levelEntropy_zero (E : κ → ℝ) {k0 : κ} (hk0 : ∀ k, E k0 ≤ E k) :
    Tendsto (levelEntropy E) (𝓝[>] 0) (𝓝 (Real.log (Finset.univ.filter fun k => E k = E k0).card)) := by
  have hx : ∀ k, E k ≠ E k0 → Tendsto (fun T : ℝ => (E k - E k0) / T) (𝓝[>] 0) atTop := fun k hk => by
    have hlt : 0 < E k - E k0 := sub_pos.2 (lt_of_le_of_ne (hk0 k) (Ne.symm hk))
    refine ((tendsto_inv_nhdsGT_zero (𝕜 := ℝ)).const_mul_atTop hlt).congr fun T => ?_
    rw [div_eq_mul_inv]
  have hw : ∀ k, Tendsto (fun T : ℝ => Real.exp (-((E k - E k0) / T))) (𝓝[>] 0) (𝓝 (if E k = E k0 then 1 else 0)) := fun k => by
    by_cases hk : E k = E k0
    · simp [hk]
    · rw [if_neg hk]
      exact Real.tendsto_exp_neg_atTop_nhds_zero.comp (hx k hk)
  have hv : ∀ k, Tendsto (fun T : ℝ => Real.exp (-((E k - E k0) / T)) * ((E k - E k0) / T)) (𝓝[>] 0) (𝓝 0) := fun k => by
    by_cases hk : E k = E k0
    · simp [hk]
    · have := (Real.tendsto_pow_mul_exp_neg_atTop_nhds_zero 1).comp (hx k hk)
      refine this.congr fun T => ?_
      simp only [Function.comp, pow_one]
      ring
  have hZ := tendsto_finset_sum Finset.univ fun k _ => hw k
  have hc : ∑ k, (if E k = E k0 then (1 : ℝ) else 0) = (Finset.univ.filter fun k => E k = E k0).card := by
    rw [Finset.sum_boole]
  have hc0 : ((Finset.univ.filter fun k => E k = E k0).card : ℝ) ≠ 0 := by
    rw [Nat.cast_ne_zero, Finset.card_ne_zero]
    exact ⟨k0, by simp⟩
  rw [hc] at hZ
  have h1 := (hZ.log hc0).add ((tendsto_finset_sum Finset.univ fun k _ => hv k).div hZ hc0)
  rw [Finset.sum_const_zero, zero_div, add_zero] at h1
  refine h1.congr' ?_
  filter_upwards [self_mem_nhdsWithin] with T hT
  exact (levelEntropy_shift E (E k0) (ne_of_gt hT)).symm

theorem boltz_high (e : ℝ) : Tendsto (fun T : ℝ => Real.exp (-e / T)) atTop (𝓝 1) := by
  have : Tendsto (fun T : ℝ => -e / T) atTop (𝓝 0) := tendsto_const_nhds.div_atTop tendsto_id
  have h := (Real.continuous_exp.tendsto 0).comp this
  rw [Real.exp_zero] at h
  exact h

/-- At high temperatures all levels have the same weight. -/
theorem canonical_high (E v : κ → ℝ) : Tendsto (fun T => canonical T E v) atTop (𝓝 ((∑ k, v k) / Fintype.card κ)) := by
  have h1 := (tendsto_finset_sum Finset.univ fun k _ => (boltz_high (E k)).mul_const (v k)).div
    (tendsto_finset_sum Finset.univ fun k _ => boltz_high (E k)) (by simp)
  simp only [one_mul, Finset.sum_const, Finset.card_univ, nsmul_eq_mul, mul_one] at h1
  refine h1.congr' ?_
  filter_upwards [eventually_ne_atTop 0] with T hT
  exact (canonical_ne hT E v).symm

theorem levelEntropy_high (E : κ → ℝ) : Tendsto (levelEntropy E) atTop (𝓝 (Real.log (Fintype.card κ))) := by
  have h1 := tendsto_finset_sum Finset.univ fun k _ => boltz_high (E k)
  simp only [Finset.sum_const, Finset.card_univ, nsmul_eq_mul, mul_one] at h1
  have h2 := (h1.log (by simp)).add ((canonical_high E E).div_atTop tendsto_id)
  rw [add_zero] at h2
  exact h2

theorem levelEntropy_le (E : κ → ℝ) {T : ℝ} (hT : 0 < T) : levelEntropy E T ≤ Real.log (Fintype.card κ) := by
  refine ge_of_tendsto (levelEntropy_high E) ?_
  filter_upwards [eventually_ge_atTop T] with T' hT'
  exact entropy_monotone E hT (hT.trans_le hT') hT'

theorem energy_zero (E : κ → ℝ) {k0 : κ} (hk0 : ∀ k, E k0 ≤ E k) :
    canonical 0 E E = E k0 := by
  have e : ∀ k, boltz 0 E k * E k = boltz 0 E k * E k0 := fun k => by
    unfold boltz
    rw [if_pos rfl]
    split_ifs with h
    · rw [le_antisymm (h k0) (hk0 k)]
    · rw [zero_mul, zero_mul]
  have hpos : 0 < ∑ k, boltz 0 E k := by
    refine Finset.sum_pos' (fun k _ => ?_) ⟨k0, Finset.mem_univ _, ?_⟩
    · unfold boltz
      split_ifs <;> simp
    · unfold boltz
      rw [if_pos rfl, if_pos hk0]
      exact one_pos
  unfold canonical
  simp only [e, ← Finset.sum_mul]
  field_simp

end

end ED
