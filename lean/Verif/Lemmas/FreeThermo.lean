import Verif.Lemmas.FreeAvg
import Mathlib.Analysis.SpecialFunctions.BinaryEntropy
import Mathlib.Analysis.Calculus.MeanValue

/-! # Lemmas: energy and partition function of several species without interactions -/

namespace ED

open Matrix

variable {a b : ℕ} {κ : Type*} [Fintype κ] [DecidableEq κ]

theorem card_eigenbasis {ι : Type*} [Fintype ι] [DecidableEq ι] {h : Matrix ι ι ℂ} {φ : Matrix ι κ ℂ} {ε : κ → ℝ}
    (H : IsEigenbasis h φ ε) : Fintype.card κ = Fintype.card ι := by
  have h1 : trace (φᴴ * φ) = Fintype.card κ := by rw [H.ortho, trace_one]
  have h2 : trace (φ * φᴴ) = Fintype.card ι := by rw [H.complete, trace_one]
  rw [trace_mul_comm, h2] at h1
  exact_mod_cast h1.symm

namespace FreeData

variable {h : Fin b → Matrix (Fin a) (Fin a) ℂ} {φ : Fin b → Matrix (Fin a) κ ℂ} {ε : Fin b → κ → ℝ}

/-- The energy. -/
theorem energy (D : FreeData h φ ε) (T : ℝ) : cAvg (secondQuant (modeMat h)) T (secondQuant (modeMat h)) =
    ((∑ s, ∑ k, ε s k * occupancy T (ε s k) : ℝ) : ℂ) := by
  have hH := secondQuant_star (modeMat_star D.herm)
  have hone : ∀ s l, (1 : Op (a * b) 2) * create (mode l s) = create (mode l s) * 1 := fun _ _ => by
    rw [Matrix.one_mul, Matrix.mul_one]
  conv_lhs =>
    arg 3
    rw [secondQuant_modeMat]
  simp only [cAvg_sum, cAvg_smul]
  push_cast
  refine Finset.sum_congr rfl fun s _ => ?_
  have e : ∀ i j, cAvg (secondQuant (modeMat h)) T (create (mode i s) * annih (mode j s)) =
      oneDensity (φ s) (ε s) T j i := by
    intro i j
    have := D.wick2 T i j s s 1 (hone s)
    rwa [Matrix.mul_one, cAvg_one hH, mul_one, if_pos rfl] at this
  simp only [e]
  have e2 : ∑ i, ∑ j, h s i j * oneDensity (φ s) (ε s) T j i =
      trace (h s * (φ s * diagonal (fun k => (occupancy T (ε s k) : ℂ)) * (φ s)ᴴ)) := by
    unfold trace
    refine Finset.sum_congr rfl fun i _ => ?_
    rw [diag_apply, mul_apply]
    refine Finset.sum_congr rfl fun j _ => ?_
    congr 1
    rw [mul_apply]
    unfold oneDensity
    simp only [mul_diagonal, conjTranspose_apply]
  rw [e2, ← Matrix.mul_assoc, ← Matrix.mul_assoc, (D.basis s).eigen, Matrix.mul_assoc _ (diagonal _) (diagonal _),
    diagonal_mul_diagonal, Matrix.mul_assoc, trace_mul_comm, Matrix.mul_assoc, (D.basis s).ortho, Matrix.mul_one,
    trace_diagonal]

/-- The partition function. -/
theorem log_partition (D : FreeData h φ ε) (T : ℝ) : Real.log (partitionFn (secondQuant (modeMat h)) T) =
    ∑ s, ∑ k, Real.log (1 + Real.exp (-ε s k / T)) := by
  set H := secondQuant (modeMat h) with hHdef
  have hH : H.IsHermitian := secondQuant_star (modeMat_star D.herm)
  set V : Op (a * b) 2 := (hH.eigenvectorUnitary : Matrix (Conf (a * b) 2) (Conf (a * b) 2) ℂ) with hV
  have h1 : Vᴴ * V = 1 := Matrix.mem_unitaryGroup_iff'.1 hH.eigenvectorUnitary.2
  have h2 : V * Vᴴ = 1 := Matrix.mem_unitaryGroup_iff.1 hH.eigenvectorUnitary.2
  set w := hH.eigenvalues
  have h3 : H * V = V * diagonal fun i => (w i : ℂ) := by
    have := hH.spectral_theorem
    rw [Unitary.conjStarAlgAut_apply] at this
    have h := congrArg (fun A => A * V) this
    rw [h, Matrix.mul_assoc _ _ V]
    have e : star (hH.eigenvectorUnitary : Op (a * b) 2) * V = 1 := h1
    rw [e, Matrix.mul_one]
    rfl
  have hpos : ∀ x : ℝ, 0 < ∑ k, Real.exp (-w k * x) := fun x =>
    Finset.sum_pos (fun k _ => Real.exp_pos _) Finset.univ_nonempty
  have hd : ∀ x, HasDerivAt (fun x => Real.log (∑ k, Real.exp (-w k * x)) -
      ∑ s, ∑ k, Real.log (1 + Real.exp (-ε s k * x))) 0 x := by
    intro x
    have a1 : HasDerivAt (fun x => ∑ k, Real.exp (-w k * x)) (∑ k, Real.exp (-w k * x) * (-w k)) x :=
      HasDerivAt.fun_sum fun k _ => ((hasDerivAt_id x).const_mul (-w k)).exp.congr_deriv (by simp)
    have a2 := a1.log (hpos x).ne'
    have a3 : HasDerivAt (fun x => ∑ s, ∑ k, Real.log (1 + Real.exp (-ε s k * x)))
        (∑ s, ∑ k, -(ε s k * occupancy (1 / x) (ε s k))) x := by
      refine HasDerivAt.fun_sum fun s _ => HasDerivAt.fun_sum fun k _ => ?_
      have c1 : HasDerivAt (fun x => 1 + Real.exp (-ε s k * x)) (Real.exp (-ε s k * x) * (-ε s k)) x :=
        (((hasDerivAt_id x).const_mul (-ε s k)).exp.const_add 1).congr_deriv (by simp)
      refine (c1.log (by positivity)).congr_deriv ?_
      unfold occupancy
      rw [div_div_eq_mul_div, div_one, neg_mul, Real.exp_neg]
      field_simp
    refine (a2.sub a3).congr_deriv ?_
    have e := D.energy (1 / x)
    rw [← hHdef, cAvg_eq, trace_boltzOp h1 h2 h3, partitionFn_eig h1 h2 h3] at e
    simp only [expect_eig h1 h3, div_div_eq_mul_div, div_one] at e
    have e' : (1 / ∑ k, Real.exp (-w k * x)) * ∑ k, Real.exp (-w k * x) * w k =
        ∑ s, ∑ k, ε s k * occupancy (1 / x) (ε s k) := by
      exact_mod_cast e
    simp only [Finset.sum_neg_distrib, mul_neg]
    rw [← e']
    ring
  have hc := is_const_of_deriv_eq_zero (fun x => (hd x).differentiableAt) fun x => (hd x).deriv
  have h0 := hc T⁻¹ 0
  simp only [mul_zero, Real.exp_zero, Finset.sum_const, Finset.card_univ, nsmul_eq_mul, mul_one, ← div_eq_mul_inv] at h0
  rw [partitionFn_eig h1 h2 h3]
  have hcard : b * (Fintype.card κ * Real.log (1 + 1)) = Real.log ((Fintype.card (Conf (a * b) 2) : ℕ) : ℝ) := by
    have : Fintype.card (Conf (a * b) 2) = 2 ^ (a * b) := by simp
    rw [this]
    push_cast
    rw [Real.log_pow]
    have hcs : ∀ s : Fin b, Fintype.card κ = a := fun s => by
      rw [card_eigenbasis (D.basis s), Fintype.card_fin]
    by_cases hb : b = 0
    · subst hb; simp
    · rw [hcs ⟨0, by omega⟩]
      push_cast
      norm_num
      ring
  rw [Fintype.card_fin, hcard] at h0
  linarith

end FreeData

/-- The entropy of one state. -/
theorem entropy_state (T ε : ℝ) : Real.binEntropy (occupancy T ε) =
    Real.log (1 + Real.exp (-ε / T)) + ε * occupancy T ε / T := by
  have hpos := Real.exp_pos (ε / T)
  have e1 : (occupancy T ε)⁻¹ = Real.exp (ε / T) + 1 := by unfold occupancy; rw [one_div, inv_inv]
  have e2 : 1 - occupancy T ε = Real.exp (ε / T) / (Real.exp (ε / T) + 1) := by
    unfold occupancy; field_simp; ring
  have e3 : 1 + Real.exp (-ε / T) = (Real.exp (ε / T) + 1) / Real.exp (ε / T) := by
    rw [neg_div, Real.exp_neg]; field_simp
  unfold Real.binEntropy
  rw [e1, e2, inv_div, e3, Real.log_div (by positivity) (by positivity), Real.log_exp]
  have e4 : Real.exp (ε / T) / (Real.exp (ε / T) + 1) = 1 - occupancy T ε := e2.symm
  rw [e4]
  ring

/-- The derivative of the energy of one state. -/
theorem hasDerivAt_occupancy (ε : ℝ) {T : ℝ} (hT : T ≠ 0) :
    HasDerivAt (fun T => ε * occupancy T ε) (ε ^ 2 / T ^ 2 * (occupancy T ε * (1 - occupancy T ε))) T := by
  have hd : HasDerivAt (fun T : ℝ => ε / T) (-(ε / T ^ 2)) T := by
    have := (hasDerivAt_inv hT).const_mul ε
    simp only [← div_eq_mul_inv] at this
    refine this.congr_deriv ?_
    ring
  have h2 := (hd.exp.add_const 1).inv (by positivity)
  have h3 := h2.const_mul ε
  unfold occupancy
  simp only [one_div]
  refine h3.congr_deriv ?_
  have hpos := Real.exp_pos (ε / T)
  field_simp
  ring

end ED
