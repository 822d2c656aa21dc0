import Verif.Lemmas.GibbsIneq
import Verif.Lemmas.OpNorm
import Mathlib.Analysis.Calculus.Deriv.Mul
import Mathlib.Analysis.SpecialFunctions.Exponential

/-! # Derivatives of the free energy and of averages with respect to parameters of the Hamiltonian -/

namespace ED

open Matrix Topology
open ED.Spec (NormLe)

section

variable {ι : Type} [Fintype ι] [DecidableEq ι]

theorem normLe_exists (B : Matrix ι ι ℂ) : ∃ c, NormLe B c := ⟨_, normLe_of_transpose le_rfl⟩

theorem normLe_smul {B : Matrix ι ι ℂ} {c : ℝ} (h : NormLe B c) (x : ℝ) : NormLe ((x : ℂ) • B) (|x| * c) := by
  refine ⟨mul_nonneg (abs_nonneg x) h.1, fun v => ?_⟩
  simp only [vecMul_smul, Pi.smul_apply, smul_eq_mul, norm_mul, mul_pow, Complex.norm_real, Real.norm_eq_abs, ← Finset.mul_sum]
  rw [mul_assoc]
  exact mul_le_mul_of_nonneg_left (h.2 v) (by positivity)

theorem param_hermitian {H B : Matrix ι ι ℂ} (hH : H.IsHermitian) (hB : B.IsHermitian) (x : ℝ) : (H + (x : ℂ) • B).IsHermitian := by
  refine hH.add ?_
  unfold IsHermitian
  rw [conjTranspose_smul, hB.eq]
  congr 1
  exact Complex.conj_ofReal x

theorem thermalAvg_smul (H O : Matrix ι ι ℂ) (x T : ℝ) : thermalAvg H ((x : ℂ) • O) T = x * thermalAvg H O T := by
  unfold thermalAvg
  rw [Matrix.mul_smul, trace_smul, smul_eq_mul, Complex.re_ofReal_mul]

/-- The average is the derivative of the free energy. -/
theorem hasDerivAt_freeEnergy [Nonempty ι] {H B : Matrix ι ι ℂ} (hH : H.IsHermitian) (hB : B.IsHermitian) {T : ℝ} (hT : 0 < T) (x : ℝ) :
    HasDerivAt (fun x : ℝ => freeEnergy (H + (x : ℂ) • B) T) (thermalAvg (H + (x : ℂ) • B) B T) x := by
  obtain ⟨c, hc⟩ := normLe_exists B
  have hd : ∀ x y : ℝ, (H + (y : ℂ) • B) - (H + (x : ℂ) • B) = ((y - x : ℝ) : ℂ) • B := fun x y => by
    push_cast
    module
  have key : ∀ y : ℝ, |freeEnergy (H + (y : ℂ) • B) T - freeEnergy (H + (x : ℂ) • B) T - (y - x) * thermalAvg (H + (x : ℂ) • B) B T| ≤
      2 * c * c / T * (y - x) ^ 2 := by
    intro y
    have g1 := gibbs_variational (param_hermitian hH hB x) (param_hermitian hH hB y) hT
    have g2 := gibbs_variational (param_hermitian hH hB y) (param_hermitian hH hB x) hT
    have n := thermalAvg_near (param_hermitian hH hB x) (param_hermitian hH hB y) hT (by rw [hd]; exact normLe_smul hc (y - x)) hc
    rw [hd, thermalAvg_smul] at g1 g2
    have m : |(y - x) * (thermalAvg (H + (x : ℂ) • B) B T - thermalAvg (H + (y : ℂ) • B) B T)| ≤ 2 * c * c / T * (y - x) ^ 2 := by
      rw [abs_mul, ← sq_abs (y - x)]
      calc _ ≤ |y - x| * (2 * (|y - x| * c) * c / T) := mul_le_mul_of_nonneg_left n (abs_nonneg _)
        _ = _ := by ring
    rw [abs_le] at m ⊢
    constructor <;> nlinarith [m.1, m.2]
  rw [hasDerivAt_iff_isLittleO]
  have hO : (fun y : ℝ => freeEnergy (H + (y : ℂ) • B) T - freeEnergy (H + (x : ℂ) • B) T - (y - x) • thermalAvg (H + (x : ℂ) • B) B T) =O[𝓝 x]
      fun y => (y - x) ^ 2 := by
    refine Asymptotics.IsBigO.of_bound (2 * c * c / T) (Filter.Eventually.of_forall fun y => ?_)
    rw [Real.norm_eq_abs, Real.norm_eq_abs, abs_of_nonneg (sq_nonneg (y - x)), smul_eq_mul]
    exact key y
  refine hO.trans_isLittleO ?_
  have h0 : Filter.Tendsto (fun y : ℝ => y - x) (𝓝 x) (𝓝 0) := by
    have : Filter.Tendsto (fun y : ℝ => y - x) (𝓝 x) (𝓝 (x - x)) := (continuous_id.sub continuous_const).tendsto x
    rwa [sub_self] at this
  simpa only [pow_one, Function.comp_def] using (Asymptotics.isLittleO_pow_id (𝕜 := ℝ) (one_lt_two)).comp_tendsto h0

theorem boltzOp_hermitian {H : Matrix ι ι ℂ} (hH : H.IsHermitian) (T : ℝ) : (boltzOp H T).IsHermitian := by
  unfold boltzOp
  refine Matrix.IsHermitian.exp ?_
  unfold IsHermitian
  rw [conjTranspose_smul, hH.eq]
  congr 1
  have : (-(1 / T : ℂ)) = ((-(1 / T) : ℝ) : ℂ) := by push_cast; rfl
  rw [this]
  exact Complex.conj_ofReal _

theorem trace_hermitian_real {X Y : Matrix ι ι ℂ} (hX : X.IsHermitian) (hY : Y.IsHermitian) : ((trace (X * Y)).re : ℂ) = trace (X * Y) := by
  refine Complex.conj_eq_iff_re.1 ?_
  change star _ = _
  rw [← trace_conjTranspose, conjTranspose_mul, hX.eq, hY.eq, trace_mul_comm]

/-- Response to a conserved quantity: the derivative of an average is the connected correlation over the temperature. -/
theorem hasDerivAt_conserved [Nonempty ι] {H B : Matrix ι ι ℂ} (hH : H.IsHermitian) (hB : B.IsHermitian) (hc : Commute H B)
    (O : Matrix ι ι ℂ) {T : ℝ} (hT : T ≠ 0) (x : ℝ) :
    HasDerivAt (fun x : ℝ => thermalAvg (H - (x : ℂ) • B) O T)
      ((thermalAvg (H - (x : ℂ) • B) (B * O) T - thermalAvg (H - (x : ℂ) • B) B T * thermalAvg (H - (x : ℂ) • B) O T) / T) x := by
  letI : NormedRing (Matrix ι ι ℂ) := Matrix.linftyOpNormedRing
  letI : NormedAlgebra ℝ (Matrix ι ι ℂ) := Matrix.linftyOpNormedAlgebra
  have hb : ∀ x : ℝ, boltzOp (H - (x : ℂ) • B) T = boltzOp H T * NormedSpace.exp (x • ((1 / T : ℂ) • B)) := by
    intro x
    unfold boltzOp
    rw [← Matrix.exp_add_of_commute]
    · congr 1
      ext i j
      simp only [Matrix.smul_apply, Matrix.sub_apply, Matrix.add_apply, smul_eq_mul, Complex.real_smul]
      ring
    · exact ((hc.smul_left _).smul_right _).smul_right _
  set C : Matrix ι ι ℂ := (1 / T : ℂ) • B with hC
  have hp : ∀ O : Matrix ι ι ℂ, HasDerivAt (fun x : ℝ => trace (boltzOp (H - (x : ℂ) • B) T * O))
      ((1 / T : ℂ) * trace (boltzOp (H - (x : ℂ) • B) T * (B * O))) x := by
    intro O
    let L : Matrix ι ι ℂ →ₗ[ℝ] ℂ :=
      { toFun := fun X => trace (boltzOp H T * X * O)
        map_add' := fun X Y => by rw [Matrix.mul_add, Matrix.add_mul, trace_add]
        map_smul' := fun r X => by rw [Matrix.mul_smul, Matrix.smul_mul, trace_smul, RingHom.id_apply] }
    have h1 := (LinearMap.toContinuousLinearMap L).hasFDerivAt.comp_hasDerivAt x (hasDerivAt_exp_smul_const C x)
    have e : ∀ y : ℝ, (LinearMap.toContinuousLinearMap L ∘ fun u : ℝ => NormedSpace.exp (u • C)) y = trace (boltzOp (H - (y : ℂ) • B) T * O) := by
      intro y
      rw [hb]
      rfl
    refine (h1.congr_of_eventuallyEq (Filter.Eventually.of_forall fun y => (e y).symm)).congr_deriv ?_
    change trace (boltzOp H T * (NormedSpace.exp (x • C) * C) * O) = _
    rw [hb, ← Matrix.mul_assoc, hC, Matrix.mul_smul, Matrix.smul_mul, trace_smul, smul_eq_mul, Matrix.mul_assoc _ B O]
  have hx : (H - (x : ℂ) • B).IsHermitian := by
    have := param_hermitian hH hB (-x)
    rwa [Complex.ofReal_neg, neg_smul, ← sub_eq_add_neg] at this
  have hZ : ∀ y : ℝ, trace (boltzOp (H - (y : ℂ) • B) T * (1 : Matrix ι ι ℂ)) = (partitionFn (H - (y : ℂ) • B) T : ℂ) := fun y => by
    have hy := param_hermitian hH hB (-y)
    rw [Complex.ofReal_neg, neg_smul, ← sub_eq_add_neg] at hy
    rw [Matrix.mul_one]
    exact trace_boltz_one hy T
  have hpos := partitionFn_pos hx T
  have hne : trace (boltzOp (H - (x : ℂ) • B) T * (1 : Matrix ι ι ℂ)) ≠ 0 := by
    rw [hZ]
    exact Complex.ofReal_ne_zero.2 hpos.ne'
  have h2 := (hp O).div (hp 1) hne
  have h3 := Complex.reCLM.hasFDerivAt.comp_hasDerivAt x h2
  refine (h3.congr_of_eventuallyEq (Filter.Eventually.of_forall fun y => ?_)).congr_deriv ?_
  · change _ = (trace (boltzOp (H - (y : ℂ) • B) T * O) / trace (boltzOp (H - (y : ℂ) • B) T * (1 : Matrix ι ι ℂ)) : ℂ).re
    rw [thermalAvg_ratio, hZ]
  · change (_ / _ : ℂ).re = _
    rw [thermalAvg_ratio, thermalAvg_ratio, thermalAvg_ratio, hZ, Matrix.mul_one]
    have hr := trace_hermitian_real (boltzOp_hermitian hx T) hB
    have hne' : (partitionFn (H - (x : ℂ) • B) T : ℂ) ≠ 0 := Complex.ofReal_ne_zero.2 hpos.ne'
    have hT' : (T : ℂ) ≠ 0 := Complex.ofReal_ne_zero.2 hT
    generalize partitionFn (H - (x : ℂ) • B) T = Z at *
    generalize trace (boltzOp (H - (x : ℂ) • B) T * B) = b at *
    generalize trace (boltzOp (H - (x : ℂ) • B) T * O) = p at *
    generalize trace (boltzOp (H - (x : ℂ) • B) T * (B * O)) = q at *
    have e : (1 / (T : ℂ) * q * Z - p * (1 / (T : ℂ) * b)) / (Z : ℂ) ^ 2 = ((1 / T : ℝ) : ℂ) * (q / Z - ((b.re / Z : ℝ) : ℂ) * (p / Z)) := by
      push_cast
      rw [hr]
      field_simp
    rw [e, Complex.re_ofReal_mul, Complex.sub_re, Complex.re_ofReal_mul]
    simp only [Complex.div_ofReal_re]
    ring

end

end ED
