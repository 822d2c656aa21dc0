import Verif.Spec.Gibbs
import Verif.Spec.Thermal
import Mathlib.Analysis.SpecialFunctions.ContinuousFunctionalCalculus.ExpLog.Basic
import Mathlib.Analysis.CStarAlgebra.Matrix
import Mathlib.Analysis.SpecialFunctions.ExpDeriv
import Mathlib.Analysis.SpecialFunctions.Log.Deriv
import Mathlib.Analysis.Calculus.Deriv.Inv

/-! # Lemmas: the canonical ensemble in a basis of eigenvectors -/

namespace ED

open Matrix

section

variable {ι κ : Type*} [Fintype ι] [DecidableEq ι] [Fintype κ] [DecidableEq κ]

/-- Conjugation with a unitary matrix commutes with the exponential. -/
theorem exp_unitary {V : Matrix ι κ ℂ} (h1 : Vᴴ * V = 1) (h2 : V * Vᴴ = 1) (D : Matrix κ κ ℂ) :
    NormedSpace.exp (V * D * Vᴴ) = V * NormedSpace.exp D * Vᴴ := by
  let f : Matrix κ κ ℂ →+* Matrix ι ι ℂ :=
    { toFun := fun D => V * D * Vᴴ
      map_one' := by rw [Matrix.mul_one, h2]
      map_zero' := by simp
      map_add' := fun A B => by rw [Matrix.mul_add, Matrix.add_mul]
      map_mul' := fun A B => by
        have e : V * A * Vᴴ * (V * B * Vᴴ) = V * A * (Vᴴ * V) * B * Vᴴ := by simp only [Matrix.mul_assoc]
        rw [e, h1, Matrix.mul_one]
        simp only [Matrix.mul_assoc] }
  have hf : Continuous f := by
    change Continuous fun D => V * D * Vᴴ
    fun_prop
  open scoped Matrix.Norms.Operator in
  exact (NormedSpace.map_exp f hf D).symm

/-- The spectral decomposition of a Boltzmann operator. -/
theorem boltzOp_eig {H : Matrix ι ι ℂ} {V : Matrix ι κ ℂ} {w : κ → ℝ} (h1 : Vᴴ * V = 1) (h2 : V * Vᴴ = 1)
    (h3 : H * V = V * diagonal fun i => (w i : ℂ)) (T : ℝ) :
    boltzOp H T = V * diagonal (fun i => (Real.exp (-w i / T) : ℂ)) * Vᴴ := by
  have hH : -(1 / T : ℂ) • H = V * diagonal (fun i => ((-w i / T : ℝ) : ℂ)) * Vᴴ := by
    have : H = V * diagonal (fun i => (w i : ℂ)) * Vᴴ := by rw [← h3, Matrix.mul_assoc, h2, Matrix.mul_one]
    conv_lhs => rw [this]
    rw [← Matrix.smul_mul, ← Matrix.mul_smul, ← diagonal_smul]
    congr 3
    funext i
    simp only [Pi.smul_apply, smul_eq_mul]
    push_cast
    ring
  unfold boltzOp
  rw [hH, exp_unitary h1 h2, Matrix.exp_diagonal]
  congr 3
  funext i
  rw [Pi.coe_exp, ← Complex.exp_eq_exp_ℂ, Complex.ofReal_exp]

theorem trace_boltzOp {H : Matrix ι ι ℂ} {V : Matrix ι κ ℂ} {w : κ → ℝ} (h1 : Vᴴ * V = 1) (h2 : V * Vᴴ = 1)
    (h3 : H * V = V * diagonal fun i => (w i : ℂ)) (T : ℝ) (O : Matrix ι ι ℂ) :
    trace (boltzOp H T * O) = ∑ k, (Real.exp (-w k / T) : ℂ) * expect O (colOf V k) := by
  rw [boltzOp_eig h1 h2 h3, Matrix.mul_assoc, Matrix.mul_assoc, trace_mul_comm, Matrix.mul_assoc, Matrix.mul_assoc]
  unfold trace
  refine Finset.sum_congr rfl fun k _ => ?_
  rw [diag_apply, diagonal_mul]
  congr 1

theorem partitionFn_eig {H : Matrix ι ι ℂ} {V : Matrix ι κ ℂ} {w : κ → ℝ} (h1 : Vᴴ * V = 1) (h2 : V * Vᴴ = 1)
    (h3 : H * V = V * diagonal fun i => (w i : ℂ)) (T : ℝ) :
    partitionFn H T = ∑ k, Real.exp (-w k / T) := by
  unfold partitionFn
  rw [boltzOp_eig h1 h2 h3, Matrix.mul_assoc, trace_mul_comm, Matrix.mul_assoc, h1, Matrix.mul_one, trace_diagonal,
    ← Complex.ofReal_sum, Complex.ofReal_re]

theorem thermalAvg_eig {H : Matrix ι ι ℂ} {V : Matrix ι κ ℂ} {w : κ → ℝ} (h1 : Vᴴ * V = 1) (h2 : V * Vᴴ = 1)
    (h3 : H * V = V * diagonal fun i => (w i : ℂ)) (O : Matrix ι ι ℂ) {T : ℝ} (hT : T ≠ 0) :
    thermalAvg H O T = canonical T w fun k => (expect O (colOf V k)).re := by
  unfold thermalAvg gibbs canonical boltz
  simp only [if_neg hT]
  rw [Matrix.smul_mul, trace_smul, trace_boltzOp h1 h2 h3, partitionFn_eig h1 h2 h3, smul_eq_mul, ← Complex.ofReal_one,
    ← Complex.ofReal_div, Complex.re_ofReal_mul, Complex.re_sum, one_div, inv_mul_eq_div]
  congr 1
  exact Finset.sum_congr rfl fun k _ => Complex.re_ofReal_mul _ _

theorem expect_eig {H : Matrix ι ι ℂ} {V : Matrix ι κ ℂ} {w : κ → ℝ} (h1 : Vᴴ * V = 1)
    (h3 : H * V = V * diagonal fun i => (w i : ℂ)) (k : κ) : expect H (colOf V k) = w k := by
  have e : expect H (colOf V k) = (Vᴴ * (H * V)) k k := by
    unfold expect colOf
    simp only [Matrix.mul_apply, dotProduct, conjTranspose_apply, Pi.star_apply, mulVec]
  rw [e, h3, ← Matrix.mul_assoc, h1, Matrix.one_mul, diagonal_apply_eq]

theorem expect_eig_sq {H : Matrix ι ι ℂ} {V : Matrix ι κ ℂ} {w : κ → ℝ} (h1 : Vᴴ * V = 1)
    (h3 : H * V = V * diagonal fun i => (w i : ℂ)) (k : κ) : expect (H * H) (colOf V k) = ((w k ^ 2 : ℝ) : ℂ) := by
  have h4 : H * H * V = V * diagonal fun i => ((w i ^ 2 : ℝ) : ℂ) := by
    rw [Matrix.mul_assoc, h3, ← Matrix.mul_assoc, h3, Matrix.mul_assoc, diagonal_mul_diagonal]
    congr 2
    funext i
    push_cast
    ring
  exact expect_eig h1 h4 k

end

section

variable {κ : Type*} [Fintype κ]

theorem canonical_ne {T : ℝ} (hT : T ≠ 0) (E v : κ → ℝ) :
    canonical T E v = (∑ k, Real.exp (-E k / T) * v k) / ∑ k, Real.exp (-E k / T) := by
  unfold canonical boltz
  simp only [if_neg hT]

theorem hasDerivAt_boltz (e : ℝ) {T : ℝ} (hT : T ≠ 0) :
    HasDerivAt (fun T => Real.exp (-e / T)) (Real.exp (-e / T) * (e / T ^ 2)) T := by
  have h : HasDerivAt (fun T : ℝ => -e / T) (e / T ^ 2) T := by
    have := (hasDerivAt_inv hT).const_mul (-e)
    simp only [← div_eq_mul_inv] at this
    have e : -e * -(T ^ 2)⁻¹ = e / T ^ 2 := by ring
    rwa [e] at this
  exact h.exp

theorem hasDerivAt_sumBoltz (E v : κ → ℝ) {T : ℝ} (hT : T ≠ 0) :
    HasDerivAt (fun T => ∑ k, Real.exp (-E k / T) * v k) (∑ k, Real.exp (-E k / T) * (E k / T ^ 2) * v k) T :=
  HasDerivAt.fun_sum fun k _ => (hasDerivAt_boltz (E k) hT).mul_const (v k)

/-- The derivative of the energy is the variance of the energy. -/
theorem hasDerivAt_energy [Nonempty κ] (E : κ → ℝ) {T : ℝ} (hT : T ≠ 0) :
    HasDerivAt (fun T => canonical T E E)
      (1 / T ^ 2 * (canonical T E (fun k => E k ^ 2) - canonical T E E ^ 2)) T := by
  have hpos : 0 < ∑ k, Real.exp (-E k / T) := Finset.sum_pos (fun k _ => Real.exp_pos _) Finset.univ_nonempty
  have h1 := hasDerivAt_sumBoltz E E hT
  have h2 := hasDerivAt_sumBoltz E (fun _ => 1) hT
  simp only [mul_one] at h2
  have h3 := h1.div h2 hpos.ne'
  have h4 : HasDerivAt (fun T => canonical T E E) _ T := h3.congr_of_eventuallyEq (by
    filter_upwards [isOpen_ne.mem_nhds hT] with T hT
    exact canonical_ne hT E E)
  refine h4.congr_deriv ?_
  rw [canonical_ne hT, canonical_ne hT]
  have e1 : ∑ k, Real.exp (-E k / T) * (E k / T ^ 2) * E k = (∑ k, Real.exp (-E k / T) * E k ^ 2) / T ^ 2 := by
    rw [Finset.sum_div]
    exact Finset.sum_congr rfl fun k _ => by ring
  have e2 : ∑ k, Real.exp (-E k / T) * (E k / T ^ 2) = (∑ k, Real.exp (-E k / T) * E k) / T ^ 2 := by
    rw [Finset.sum_div]
    exact Finset.sum_congr rfl fun k _ => by ring
  rw [e1, e2]
  field_simp

/-- The derivative of the free energy. -/
theorem hasDerivAt_free [Nonempty κ] (E : κ → ℝ) {T : ℝ} (hT : T ≠ 0) :
    HasDerivAt (fun T => -T * Real.log (∑ k, Real.exp (-E k / T)))
      (-(Real.log (∑ k, Real.exp (-E k / T)) + canonical T E E / T)) T := by
  have hpos : 0 < ∑ k, Real.exp (-E k / T) := Finset.sum_pos (fun k _ => Real.exp_pos _) Finset.univ_nonempty
  have h2 := hasDerivAt_sumBoltz E (fun _ => 1) hT
  simp only [mul_one] at h2
  have h3 := ((hasDerivAt_id T).neg).mul (h2.log hpos.ne')
  refine h3.congr_deriv ?_
  rw [canonical_ne hT]
  have e2 : ∑ k, Real.exp (-E k / T) * (E k / T ^ 2) = (∑ k, Real.exp (-E k / T) * E k) / T ^ 2 := by
    rw [Finset.sum_div]
    exact Finset.sum_congr rfl fun k _ => by ring
  rw [e2]
  simp only [id, Pi.neg_apply]
  field_simp
  ring

end

section

variable {ι : Type*} [Fintype ι] [DecidableEq ι]

/-- The entropy of the canonical ensemble. -/
theorem vonNeumann_gibbs {H : Matrix ι ι ℂ} (hH : H.IsHermitian) {T : ℝ} (hZ : 0 < partitionFn H T)
    (hreal : trace (boltzOp H T) = partitionFn H T) :
    vonNeumann (gibbs H T) = Real.log (partitionFn H T) + thermalAvg H H T / T := by
  set Z := partitionFn H T with hZdef
  set L : Matrix ι ι ℂ := -(1 / T : ℂ) • H + (-(Real.log Z) : ℂ) • (1 : Matrix ι ι ℂ) with hL
  have hLs : IsSelfAdjoint L := by
    change Lᴴ = L
    rw [hL, conjTranspose_add, conjTranspose_smul, conjTranspose_smul, hH, conjTranspose_one]
    simp
  have hexp : gibbs H T = NormedSpace.exp L := by
    rw [hL, Matrix.exp_add_of_commute _ _ ((Commute.one_right _).smul_right _), gibbs, boltzOp]
    have : NormedSpace.exp ((-(Real.log Z) : ℂ) • (1 : Matrix ι ι ℂ)) = (1 / Z : ℂ) • 1 := by
      rw [smul_one_eq_diagonal, Matrix.exp_diagonal, smul_one_eq_diagonal]
      congr 1
      funext i
      rw [Pi.coe_exp, ← Complex.exp_eq_exp_ℂ, ← Complex.ofReal_neg, ← Complex.ofReal_exp, Real.exp_neg,
        Real.exp_log hZ]
      push_cast
      rw [one_div]
    rw [this, Matrix.mul_smul, Matrix.mul_one]
  have hlog : cfc Real.log (gibbs H T) = L := by
    rw [hexp]
    open scoped Matrix.Norms.L2Operator in
    exact CFC.log_exp L hLs
  have htr : trace (gibbs H T) = 1 := by
    rw [gibbs, trace_smul, hreal, smul_eq_mul, ← hZdef, one_div, inv_mul_cancel₀]
    exact_mod_cast hZ.ne'
  unfold vonNeumann
  rw [hlog, hL, Matrix.mul_add, Matrix.mul_smul, Matrix.mul_smul, Matrix.mul_one, trace_add, trace_smul, trace_smul,
    htr, smul_eq_mul, smul_eq_mul, mul_one]
  unfold thermalAvg
  rw [Complex.add_re, ← Complex.ofReal_neg, Complex.ofReal_re]
  have : -(1 / T : ℂ) * trace (gibbs H T * H) = ((-(1 / T) : ℝ) : ℂ) * trace (gibbs H T * H) := by push_cast; ring
  rw [this, Complex.re_ofReal_mul]
  ring

end

end ED
