import Verif.Lemmas.FreeThermo
import Verif.Props.Thermal

/-! # Lemmas: free fermions at zero temperature -/

namespace ED

open Matrix Filter Topology
open scoped BigOperators

theorem exp_bounded {a C : ℝ} (h : ∀ T : ℝ, 0 < T → Real.exp (a / T) ≤ C) : a ≤ 0 := by
  by_contra ha
  have ha : 0 < a := not_le.1 ha
  have hC : 0 < C := lt_of_lt_of_le (Real.exp_pos _) (h 1 one_pos)
  have := h (a / C) (div_pos ha hC)
  rw [div_div_cancel₀ ha.ne'] at this
  linarith [Real.add_one_le_exp C]

theorem exp_vanishes {a : ℝ} (ha : 0 < a) : Tendsto (fun T : ℝ => Real.exp (-a / T)) (𝓝[>] 0) (𝓝 0) := by
  refine Real.tendsto_exp_atBot.comp ?_
  have h3 : Tendsto (fun T : ℝ => T⁻¹ * a) (𝓝[>] 0) atTop := tendsto_inv_nhdsGT_zero.atTop_mul_const ha
  refine (tendsto_neg_atTop_atBot.comp h3).congr fun T => ?_
  simp only [Function.comp]
  ring

theorem one_add_pow_le {x : ℝ} (h0 : 0 ≤ x) (h1 : x ≤ 1) (K : ℕ) : (1 + x) ^ K ≤ 1 + (2 ^ K - 1) * x := by
  induction K with
  | zero => simp
  | succ K ih =>
    have h2 : (1 : ℝ) ≤ 2 ^ K := one_le_pow₀ one_le_two
    have h3 : (0 : ℝ) ≤ 1 + x := by linarith
    calc (1 + x) ^ (K + 1) = (1 + x) ^ K * (1 + x) := pow_succ _ _
      _ ≤ (1 + (2 ^ K - 1) * x) * (1 + x) := mul_le_mul_of_nonneg_right ih h3
      _ ≤ 1 + (2 ^ (K + 1) - 1) * x := by
        rw [pow_succ]
        nlinarith [mul_nonneg (mul_nonneg (sub_nonneg.2 h2) h0) (sub_nonneg.2 h1)]

/-- A sum over levels which is a product over modes: levels above the lowest one are as far away as the mode that is
closest to zero. -/
theorem ground_gap {m : ℕ} {E : Fin (m + 1) → ℝ} (hE : Monotone E) {π : Type*} [Fintype π] {ε : π → ℝ} {δ : ℝ} (h0 : 0 ≤ δ)
    (hδ : ∀ p, ε p = 0 ∨ δ < |ε p|)
    (hZ : ∀ T : ℝ, 0 < T → ∑ k, Real.exp (-E k / T) = ∏ p, (1 + Real.exp (-ε p / T))) (k : Fin (m + 1)) :
    E k = E 0 ∨ δ < |E k - E 0| := by
  classical
  obtain ⟨γ, hγ, hγ'⟩ : ∃ γ, δ < γ ∧ ∀ p, ε p = 0 ∨ γ ≤ |ε p| := by
    set A := Finset.univ.filter fun p => ε p ≠ 0 with hA
    rcases A.eq_empty_or_nonempty with h | h
    · refine ⟨δ + 1, by linarith, fun p => ?_⟩
      by_contra hp
      have : p ∈ A := by rw [hA]; simp; exact fun h => hp (Or.inl h)
      rw [h] at this
      simp at this
    · obtain ⟨q, hq, hmin⟩ := A.exists_min_image (fun p => |ε p|) h
      have hq0 : ε q ≠ 0 := by rw [hA] at hq; simpa using hq
      refine ⟨|ε q|, (hδ q).resolve_left hq0, fun p => ?_⟩
      by_cases hp : ε p = 0
      · exact Or.inl hp
      · exact Or.inr (hmin p (by rw [hA]; simpa using hp))
  set G := ∑ p, min (ε p) 0 with hG
  set z := (Finset.univ.filter fun p => ε p = 0).card with hz
  set K := (Finset.univ.filter fun p => ¬ ε p = 0).card with hK
  have hF : ∀ T : ℝ, 0 < T → ∑ k, Real.exp (-(E k - G) / T) =
      2 ^ z * ∏ p ∈ Finset.univ.filter (fun p => ¬ ε p = 0), (1 + Real.exp (-|ε p| / T)) := by
    intro T hT
    have e1 : ∀ k, Real.exp (-(E k - G) / T) = Real.exp (G / T) * Real.exp (-E k / T) := fun k => by
      rw [← Real.exp_add]; congr 1; ring
    simp only [e1]
    rw [← Finset.mul_sum, hZ T hT, hG, Finset.sum_div, Real.exp_sum, ← Finset.prod_mul_distrib,
      ← Finset.prod_filter_mul_prod_filter_not Finset.univ (fun p => ε p = 0), hz, ← Finset.prod_const]
    congr 1
    · refine Finset.prod_congr rfl fun p hp => ?_
      rw [(Finset.mem_filter.1 hp).2]
      simp
      norm_num
    · refine Finset.prod_congr rfl fun p hp => ?_
      rcases le_total (ε p) 0 with h | h
      · rw [min_eq_left h, abs_of_nonpos h, neg_neg, mul_add, ← Real.exp_add]
        rw [show ε p / T + -ε p / T = 0 by ring, Real.exp_zero]
        ring
      · rw [min_eq_right h, abs_of_nonneg h, zero_div, Real.exp_zero, one_mul]
  set F : ℝ → ℝ := fun T => ∑ k, Real.exp (-(E k - G) / T) with hFdef
  have hlow : ∀ T : ℝ, 0 < T → 2 ^ z ≤ F T := fun T hT => by
    have : (1 : ℝ) ≤ ∏ p ∈ Finset.univ.filter (fun p => ¬ ε p = 0), (1 + Real.exp (-|ε p| / T)) := by
      have := Finset.prod_le_prod (s := Finset.univ.filter fun p => ¬ ε p = 0) (f := fun _ => (1 : ℝ))
        (g := fun p => 1 + Real.exp (-|ε p| / T)) (fun _ _ => zero_le_one)
        fun p _ => by linarith [Real.exp_pos (-|ε p| / T)]
      rwa [Finset.prod_const_one] at this
    simp only [hFdef]
    rw [hF T hT]
    nlinarith [pow_pos (two_pos : (0 : ℝ) < 2) z]
  have hup : ∀ T : ℝ, 0 < T → F T ≤ 2 ^ z * (1 + Real.exp (-γ / T)) ^ K := fun T hT => by
    simp only [hFdef]
    rw [hF T hT, hK, ← Finset.prod_const (1 + Real.exp (-γ / T))]
    refine mul_le_mul_of_nonneg_left (Finset.prod_le_prod (fun p _ => by positivity) fun p hp => ?_) (by positivity)
    have h1 := (hγ' p).resolve_left (Finset.mem_filter.1 hp).2
    have h2 : Real.exp (-|ε p| / T) ≤ Real.exp (-γ / T) := Real.exp_le_exp.2 (by
      rw [div_le_div_iff_of_pos_right hT]; linarith)
    linarith
  have hterm : ∀ k, ∀ T : ℝ, 0 < T → Real.exp (-(E k - G) / T) ≤ F T := fun k T _ =>
    Finset.single_le_sum (f := fun k => Real.exp (-(E k - G) / T)) (fun _ _ => (Real.exp_pos _).le) (Finset.mem_univ k)
  have hγ0 : 0 < γ := lt_of_le_of_lt h0 hγ
  have hx : ∀ T : ℝ, 0 < T → Real.exp (-γ / T) ≤ 1 := fun T hT => by
    rw [← Real.exp_zero]
    exact Real.exp_le_exp.2 (div_nonpos_of_nonpos_of_nonneg (by linarith) hT.le)
  have hup' : ∀ T : ℝ, 0 < T → F T ≤ 2 ^ z + 2 ^ z * 2 ^ K * Real.exp (-γ / T) := fun T hT => by
    have h1 := one_add_pow_le (Real.exp_pos (-γ / T)).le (hx T hT) K
    have h2 := Real.exp_pos (-γ / T)
    have h3 : (0 : ℝ) < 2 ^ z := by positivity
    refine (hup T hT).trans ?_
    calc 2 ^ z * (1 + Real.exp (-γ / T)) ^ K ≤ 2 ^ z * (1 + (2 ^ K - 1) * Real.exp (-γ / T)) :=
          mul_le_mul_of_nonneg_left h1 h3.le
      _ ≤ _ := by nlinarith [mul_pos h3 h2]
  have hge : ∀ k, G ≤ E k := fun k => by
    have : G - E k ≤ 0 := exp_bounded (C := 2 ^ z + 2 ^ z * 2 ^ K) fun T hT => by
      have h1 := (hterm k T hT).trans (hup' T hT)
      have h2 := mul_le_mul_of_nonneg_left (hx T hT) (by positivity : (0 : ℝ) ≤ 2 ^ z * 2 ^ K)
      rw [show G - E k = -(E k - G) by ring]
      linarith
    linarith
  have hlim : Tendsto F (𝓝[>] 0) (𝓝 (∑ k, if E k = G then (1 : ℝ) else 0)) := by
    refine tendsto_finsetSum _ fun k _ => ?_
    split_ifs with h
    · rw [h]
      simp
    · exact exp_vanishes (sub_pos.2 (lt_of_le_of_ne (hge k) (Ne.symm h)))
  have hd : (2 : ℝ) ^ z ≤ ∑ k, if E k = G then (1 : ℝ) else 0 := by
    refine ge_of_tendsto hlim ?_
    filter_upwards [self_mem_nhdsWithin] with T hT using hlow T hT
  have hE0 : E 0 = G := by
    by_contra hne
    have hz0 : (∑ k, if E k = G then (1 : ℝ) else 0) = 0 := Finset.sum_eq_zero fun k _ => by
      rw [if_neg]
      intro h
      exact hne (le_antisymm (h ▸ hE (Fin.zero_le k)) (hge 0))
    rw [hz0] at hd
    linarith [pow_pos (two_pos : (0 : ℝ) < 2) z]
  by_cases hk : E k = G
  · exact Or.inl (by rw [hk, hE0])
  · right
    rw [hE0, abs_of_nonneg (sub_nonneg.2 (hge k))]
    refine lt_of_lt_of_le hγ ?_
    have : γ - (E k - G) ≤ 0 := exp_bounded (C := 2 ^ z * 2 ^ K) fun T hT => by
      have h1 : (∑ k, if E k = G then (1 : ℝ) else 0) + Real.exp (-(E k - G) / T) ≤ F T := by
        have e : Real.exp (-(E k - G) / T) = ∑ l, if l = k then Real.exp (-(E k - G) / T) else 0 := by simp
        rw [e, ← Finset.sum_add_distrib]
        refine Finset.sum_le_sum fun l _ => ?_
        by_cases hl : l = k
        · subst hl
          rw [if_neg hk, if_pos rfl, zero_add]
        · rw [if_neg hl, add_zero]
          split_ifs with h
          · rw [h]; simp
          · exact (Real.exp_pos _).le
      have h2 := hup' T hT
      have h3 : Real.exp (-(E k - G) / T) ≤ 2 ^ z * 2 ^ K * Real.exp (-γ / T) := by linarith
      rw [show (γ - (E k - G)) / T = -(E k - G) / T - -γ / T by ring, Real.exp_sub, div_le_iff₀ (Real.exp_pos _)]
      exact h3
    linarith

theorem occupancy_limit (ε : ℝ) : Tendsto (fun T : ℝ => occupancy T ε) (𝓝[>] 0) (𝓝 (filling ε)) := by
  unfold filling occupancy
  rcases lt_trichotomy ε 0 with h | h | h
  · rw [if_pos h]
    have h1 := exp_vanishes (neg_pos.2 h)
    simp only [neg_neg] at h1
    have : Tendsto (fun T : ℝ => 1 / (Real.exp (ε / T) + 1)) (𝓝[>] 0) (𝓝 (1 / (0 + 1))) :=
      tendsto_const_nhds.div (h1.add_const 1) (by norm_num)
    simpa using this
  · subst h
    simp only [lt_irrefl, if_false, if_true, zero_div, Real.exp_zero]
    have e : (1 : ℝ) / (1 + 1) = 1 / 2 := by norm_num
    rw [e]
    exact tendsto_const_nhds
  · rw [if_neg (not_lt.2 h.le), if_neg h.ne']
    have h1 := exp_vanishes h
    have e : ∀ T : ℝ, 1 / (Real.exp (ε / T) + 1) = Real.exp (-ε / T) / (1 + Real.exp (-ε / T)) := fun T => by
      have h2 := Real.exp_pos (ε / T)
      rw [neg_div, Real.exp_neg]
      field_simp
    simp only [e]
    have : Tendsto (fun T : ℝ => Real.exp (-ε / T) / (1 + Real.exp (-ε / T))) (𝓝[>] 0) (𝓝 (0 / (1 + 0))) :=
      h1.div (h1.const_add 1) (by norm_num)
    simpa using this

variable {ι κ : Type*} [Fintype κ]

theorem siteDensity_limit (φ : Matrix ι κ ℂ) (ε : κ → ℝ) (i : ι) :
    Tendsto (fun T : ℝ => siteDensity φ ε T i) (𝓝[>] 0) (𝓝 (groundDensity φ ε i)) :=
  tendsto_finsetSum _ fun k _ => (occupancy_limit (ε k)).const_mul _

theorem oneDensity_limit (φ : Matrix ι κ ℂ) (ε : κ → ℝ) (i j : ι) :
    Tendsto (fun T : ℝ => oneDensity φ ε T i j) (𝓝[>] 0) (𝓝 (groundMatrix φ ε i j)) :=
  tendsto_finsetSum _ fun k _ =>
    (((Complex.continuous_ofReal.tendsto _).comp (occupancy_limit (ε k))).const_mul _).mul_const _

theorem covar_limit {a : ℕ} (φ : Matrix (Fin a) κ ℂ) (ε : κ → ℝ) (i j : Fin a) :
    Tendsto (fun T : ℝ => (if i = j then siteDensity φ ε T i else 0) - ‖oneDensity φ ε T i j‖ ^ 2) (𝓝[>] 0)
      (𝓝 ((if i = j then groundDensity φ ε i else 0) - ‖groundMatrix φ ε i j‖ ^ 2)) := by
  refine Tendsto.sub ?_ ((oneDensity_limit φ ε i j).norm.pow 2)
  split_ifs
  · exact siteDensity_limit φ ε i
  · exact tendsto_const_nhds

end ED
