import Mathlib.Analysis.SpecialFunctions.Complex.Circle
import Mathlib.RingTheory.RootsOfUnity.Complex
import Mathlib.Algebra.Field.GeomSum
import Mathlib.Data.ZMod.Basic
import Mathlib.Tactic.LinearCombination

/-! # Fourier sums of correlations that only depend on the distance -/

namespace ED

open Complex

/-- The factor of one step along a ring of `n` sites in the Fourier sum number `q`. -/
noncomputable def stepPhase (n q : ℕ) : ℂ := exp (-2 * Real.pi * I * (q : ℂ) / (n : ℂ))

theorem stepPhase_pow {n : ℕ} (hn : 0 < n) (q : ℕ) : stepPhase n q ^ n = 1 := by
  have hn' : (n : ℂ) ≠ 0 := by exact_mod_cast hn.ne'
  unfold stepPhase
  rw [← exp_nat_mul, Complex.exp_eq_one_iff]
  refine ⟨-(q : ℤ), ?_⟩
  push_cast
  field_simp

theorem stepPhase_norm (n q : ℕ) : ‖stepPhase n q‖ = 1 := by
  unfold stepPhase
  have : (-2 * Real.pi * I * (q : ℂ) / (n : ℂ)) = ((-2 * Real.pi * q / n : ℝ) : ℂ) * I := by
    push_cast
    ring
  rw [this, norm_exp_ofReal_mul_I]

theorem exp_stepPhase (n q j : ℕ) : exp (-2 * Real.pi * I * (q : ℂ) * (j : ℂ) / (n : ℂ)) = stepPhase n q ^ j := by
  unfold stepPhase
  rw [← exp_nat_mul]
  congr 1
  ring

theorem stepPhase_swap (n q j : ℕ) : stepPhase n q ^ j = stepPhase n j ^ q := by
  rw [← exp_stepPhase, ← exp_stepPhase]
  congr 1
  ring

/-- The Fourier sums add up to the value at distance zero. -/
theorem sum_stepPhase {n : ℕ} (hn : 0 < n) {j : ℕ} (hj : j < n) :
    ∑ q ∈ Finset.range n, stepPhase n q ^ j = if j = 0 then (n : ℂ) else 0 := by
  have hn' : (n : ℂ) ≠ 0 := by exact_mod_cast hn.ne'
  rw [Finset.sum_congr rfl fun q _ => stepPhase_swap n q j]
  split_ifs with h
  · subst h
    simp [stepPhase]
  · have h1 : stepPhase n j ≠ 1 := by
      intro h1
      unfold stepPhase at h1
      rw [Complex.exp_eq_one_iff] at h1
      obtain ⟨k, hk⟩ := h1
      have h2 : ((j : ℤ) : ℂ) = ((-k * n : ℤ) : ℂ) := by
        have hpi : (2 * Real.pi * I : ℂ) ≠ 0 := Complex.two_pi_I_ne_zero
        have : (-2 * Real.pi * I * (j : ℂ)) = k * (2 * Real.pi * I) * n := by
          rw [← hk]
          field_simp
        have h3 : (2 * Real.pi * I : ℂ) * ((j : ℂ) + k * n) = 0 := by linear_combination -this
        have h4 := (mul_eq_zero.1 h3).resolve_left hpi
        push_cast
        linear_combination h4
      have h3 : (j : ℤ) = -k * n := by exact_mod_cast h2
      have h4 : (n : ℤ) ∣ j := ⟨-k, by rw [h3]; ring⟩
      have h5 : n ∣ j := by exact_mod_cast h4
      exact h (Nat.eq_zero_of_dvd_of_lt h5 hj)
    have := mul_neg_geom_sum (stepPhase n j) n
    rw [stepPhase_pow hn, sub_self] at this
    exact (mul_eq_zero.1 this).resolve_left (sub_ne_zero.2 (Ne.symm h1))

theorem cyclic_shift {k : ℕ} {C : Fin (k + 1) → Fin (k + 1) → ℝ} (ht : ∀ i j, C (i + 1) (j + 1) = C i j) : ∀ i d, C i (d + i) = C 0 d := by
  intro i
  induction i using Fin.induction with
  | zero => intro d; rw [add_zero]
  | succ i ih =>
    intro d
    rw [← Fin.coeSucc_eq_succ, ← add_assoc, ht, ih]

theorem cyclic_total {k : ℕ} {C : Fin (k + 1) → Fin (k + 1) → ℝ} (ht : ∀ i j, C (i + 1) (j + 1) = C i j) :
    ∑ i, ∑ j, C i j = ((k + 1 : ℕ) : ℝ) * ∑ d, C 0 d := by
  have : ∀ i, ∑ j, C i j = ∑ d, C 0 d := fun i => by
    rw [← Equiv.sum_comp (Equiv.addRight i)]
    exact Finset.sum_congr rfl fun d _ => cyclic_shift ht i d
  rw [Finset.sum_congr rfl fun i _ => this i, Finset.sum_const, Finset.card_univ, Fintype.card_fin, nsmul_eq_mul]

/-- Correlations that only depend on the distance along a ring, and that come from a positive form, have nonnegative Fourier sums. -/
theorem fourier_nonneg {k : ℕ} {C : Fin (k + 1) → Fin (k + 1) → ℝ} (hs : ∀ i j, C i j = C j i) (ht : ∀ i j, C (i + 1) (j + 1) = C i j)
    (hp : ∀ x : Fin (k + 1) → ℝ, 0 ≤ ∑ i, ∑ j, x i * x j * C i j) (q : ℕ) :
    ∃ s : ℝ, 0 ≤ s ∧ ∑ d : Fin (k + 1), (C 0 d : ℂ) * stepPhase (k + 1) q ^ (d : ℕ) = s := by
  set ζ := stepPhase (k + 1) q with hζ
  have z1 : ζ ^ (k + 1) = 1 := stepPhase_pow (by omega) q
  have z2 : ζ * (starRingEnd ℂ) ζ = 1 := by
    rw [Complex.mul_conj, Complex.normSq_eq_norm_sq, stepPhase_norm]
    norm_num
  set e : Fin (k + 1) → ℂ := fun i => ζ ^ (i : ℕ) with he
  have e1 : ∀ i j, e (i + j) = e i * e j := by
    intro i j
    simp only [he]
    rw [Fin.val_add, ← pow_eq_pow_mod _ z1, pow_add]
  have e2 : ∀ i, e i * (starRingEnd ℂ) (e i) = 1 := by
    intro i
    simp only [he, map_pow]
    rw [← mul_pow, z2, one_pow]
  have c0 := cyclic_shift ht
  have key : ((k + 1 : ℕ) : ℂ) * ∑ d, (C 0 d : ℂ) * e d = ∑ i, ∑ j, (C i j : ℂ) * (e j * (starRingEnd ℂ) (e i)) := by
    have : ∀ i, ∑ j, (C i j : ℂ) * (e j * (starRingEnd ℂ) (e i)) = ∑ d, (C 0 d : ℂ) * e d := by
      intro i
      rw [← Equiv.sum_comp (Equiv.addRight i)]
      refine Finset.sum_congr rfl fun d _ => ?_
      rw [Equiv.coe_addRight, c0, e1]
      rw [mul_assoc (e d), e2, mul_one]
    rw [Finset.sum_congr rfl fun i _ => this i, Finset.sum_const, Finset.card_univ, Fintype.card_fin, nsmul_eq_mul]
  have hre := hp fun i => (e i).re
  have him := hp fun i => (e i).im
  have hzero : ∑ i, ∑ j, (e j).im * (e i).re * C i j = ∑ i, ∑ j, (e j).re * (e i).im * C i j := by
    rw [Finset.sum_comm]
    refine Finset.sum_congr rfl fun i _ => Finset.sum_congr rfl fun j _ => ?_
    rw [hs j i]
    ring
  have split : ∑ i, ∑ j, (C i j : ℂ) * (e j * (starRingEnd ℂ) (e i)) =
      ((∑ i, ∑ j, (e i).re * (e j).re * C i j) + (∑ i, ∑ j, (e i).im * (e j).im * C i j) : ℝ) := by
    apply Complex.ext
    · rw [Complex.ofReal_re]
      simp only [Complex.re_sum, Complex.mul_re, Complex.mul_im, Complex.conj_re, Complex.conj_im, Complex.ofReal_re, Complex.ofReal_im]
      rw [← Finset.sum_add_distrib]
      refine Finset.sum_congr rfl fun i _ => ?_
      rw [← Finset.sum_add_distrib]
      refine Finset.sum_congr rfl fun j _ => ?_
      ring
    · rw [Complex.ofReal_im]
      simp only [Complex.im_sum, Complex.mul_re, Complex.mul_im, Complex.conj_re, Complex.conj_im, Complex.ofReal_re, Complex.ofReal_im]
      rw [← sub_eq_zero, ← Finset.sum_sub_distrib] at hzero
      refine Eq.trans ?_ hzero
      refine Finset.sum_congr rfl fun i _ => ?_
      rw [← Finset.sum_sub_distrib]
      refine Finset.sum_congr rfl fun j _ => ?_
      ring
  rw [split] at key
  have hk : ((k + 1 : ℕ) : ℂ) ≠ 0 := by exact_mod_cast (Nat.succ_ne_zero k)
  refine ⟨((∑ i, ∑ j, (e i).re * (e j).re * C i j) + (∑ i, ∑ j, (e i).im * (e j).im * C i j)) / ((k + 1 : ℕ) : ℝ), by positivity, ?_⟩
  rw [Complex.ofReal_div, Complex.ofReal_natCast, eq_div_iff hk, mul_comm]
  exact key

end ED
