import Verif.Lemmas.Gibbs
import Verif.Spec.NearSectors
import Mathlib.Analysis.SpecialFunctions.Log.Basic
import Mathlib.Analysis.Calculus.Deriv.MeanValue
import Mathlib.Algebra.Order.BigOperators.Ring.Finset
import Mathlib.Analysis.Matrix.Spectrum

/-! # Lemmas: inequalities between canonical ensembles of two Hamiltonians -/

namespace ED

open Matrix

section

variable {ι κ κ' : Type*} [Fintype ι] [DecidableEq ι] [Fintype κ] [DecidableEq κ] [Fintype κ'] [DecidableEq κ']

theorem expect_entry (O : Matrix ι ι ℂ) (V : Matrix ι κ ℂ) (k : κ) : expect O (colOf V k) = (Vᴴ * O * V) k k := by
  rw [Matrix.mul_assoc, Matrix.mul_apply]
  rfl

/-- The weights `|⟨k|l⟩|²` of two orthonormal bases add up to one. -/
theorem overlap_row {C : Matrix κ κ' ℂ} (h : C * Cᴴ = 1) (k : κ) : ∑ l, ‖C k l‖ ^ 2 = 1 := by
  have := congrFun (congrFun h k) k
  rw [Matrix.mul_apply, one_apply_eq] at this
  have e : ∀ l, C k l * Cᴴ l k = ((‖C k l‖ ^ 2 : ℝ) : ℂ) := fun l => by
    rw [conjTranspose_apply, RCLike.star_def, Complex.mul_conj, Complex.normSq_eq_norm_sq]
  simp only [e] at this
  exact_mod_cast this

theorem overlap_col {C : Matrix κ κ' ℂ} (h : Cᴴ * C = 1) (l : κ') : ∑ k, ‖C k l‖ ^ 2 = 1 := by
  have := overlap_row (C := Cᴴ) (by rw [conjTranspose_conjTranspose]; exact h) l
  simpa [conjTranspose_apply] using this

/-- The average of a Hamiltonian in an eigenstate of another one. -/
theorem expect_other {H' : Matrix ι ι ℂ} {V : Matrix ι κ ℂ} {W : Matrix ι κ' ℂ} {E' : κ' → ℝ} (k1 : Wᴴ * W = 1) (k2 : W * Wᴴ = 1)
    (k3 : H' * W = W * diagonal fun i => (E' i : ℂ)) (k : κ) :
    (expect H' (colOf V k)).re = ∑ l, ‖(Vᴴ * W) k l‖ ^ 2 * E' l := by
  have e : Vᴴ * H' * V = (Vᴴ * W) * diagonal (fun i => (E' i : ℂ)) * (Vᴴ * W)ᴴ := by
    rw [conjTranspose_mul, conjTranspose_conjTranspose]
    calc _ = Vᴴ * H' * (W * Wᴴ) * V := by rw [k2, Matrix.mul_one]
      _ = Vᴴ * (H' * W) * Wᴴ * V := by simp only [Matrix.mul_assoc]
      _ = _ := by rw [k3]; simp only [Matrix.mul_assoc]
  rw [expect_entry, e, Matrix.mul_apply, Complex.re_sum]
  refine Finset.sum_congr rfl fun l _ => ?_
  rw [mul_diagonal, conjTranspose_apply, RCLike.star_def, mul_right_comm, Complex.mul_conj, Complex.normSq_eq_norm_sq,
    ← Complex.ofReal_mul, Complex.ofReal_re]

end

section

variable {ι : Type*} [Fintype ι] [DecidableEq ι]

/-- A Hermitian matrix has an orthonormal basis of eigenvectors. -/
theorem eig_exists {H : Matrix ι ι ℂ} (hH : H.IsHermitian) :
    ∃ (V : Matrix ι ι ℂ) (E : ι → ℝ), Vᴴ * V = 1 ∧ V * Vᴴ = 1 ∧ H * V = V * diagonal fun i => (E i : ℂ) := by
  refine ⟨hH.eigenvectorUnitary, hH.eigenvalues, ?_, ?_, ?_⟩
  · exact Unitary.coe_star_mul_self hH.eigenvectorUnitary
  · exact Unitary.coe_mul_star_self hH.eigenvectorUnitary
  · have h0 := hH.spectral_theorem
    rw [Unitary.conjStarAlgAut_apply] at h0
    have h1 : star (hH.eigenvectorUnitary : Matrix ι ι ℂ) * (hH.eigenvectorUnitary : Matrix ι ι ℂ) = 1 :=
      Unitary.coe_star_mul_self hH.eigenvectorUnitary
    generalize (hH.eigenvectorUnitary : Matrix ι ι ℂ) = U at h0 h1 ⊢
    generalize hH.eigenvalues = E at h0 ⊢
    rw [h0, Matrix.mul_assoc, Matrix.mul_assoc, h1, Matrix.mul_one]
    rfl

theorem partitionFn_pos [Nonempty ι] {H : Matrix ι ι ℂ} (hH : H.IsHermitian) (T : ℝ) : 0 < partitionFn H T := by
  obtain ⟨V, E, h1, h2, h3⟩ := eig_exists hH
  rw [partitionFn_eig h1 h2 h3]
  exact Finset.sum_pos (fun k _ => Real.exp_pos _) Finset.univ_nonempty

/-- The variational principle of Gibbs: the free energy of `H'` is at most that of `H` plus the average of the difference. -/
theorem gibbs_variational [Nonempty ι] {H H' : Matrix ι ι ℂ} (hH : H.IsHermitian) (hH' : H'.IsHermitian) {T : ℝ} (hT : 0 < T) :
    freeEnergy H' T ≤ freeEnergy H T + thermalAvg H (H' - H) T := by
  obtain ⟨V, E, h1, h2, h3⟩ := eig_exists hH
  obtain ⟨W, E', k1, k2, k3⟩ := eig_exists hH'
  set C := Vᴴ * W with hC
  have c1 : C * Cᴴ = 1 := by
    rw [hC, conjTranspose_mul, conjTranspose_conjTranspose]
    calc _ = Vᴴ * (W * Wᴴ) * V := by simp only [Matrix.mul_assoc]
      _ = 1 := by rw [k2, Matrix.mul_one, h1]
  have c2 : Cᴴ * C = 1 := by
    rw [hC, conjTranspose_mul, conjTranspose_conjTranspose]
    calc _ = Wᴴ * (V * Vᴴ) * W := by simp only [Matrix.mul_assoc]
      _ = 1 := by rw [h2, Matrix.mul_one, k1]
  set Z := partitionFn H T with hZ
  set Z' := partitionFn H' T with hZ'
  have pZ : 0 < Z := partitionFn_pos hH T
  have pZ' : 0 < Z' := partitionFn_pos hH' T
  have eZ : Z = ∑ k, Real.exp (-E k / T) := partitionFn_eig h1 h2 h3 T
  have eZ' : Z' = ∑ k, Real.exp (-E' k / T) := partitionFn_eig k1 k2 k3 T
  have hval : ∀ k, (expect (H' - H) (colOf V k)).re = ∑ l, ‖C k l‖ ^ 2 * (E' l - E k) := by
    intro k
    have : expect (H' - H) (colOf V k) = expect H' (colOf V k) - expect H (colOf V k) := by
      rw [expect_entry, expect_entry, expect_entry, Matrix.mul_sub, Matrix.sub_mul, Matrix.sub_apply]
    rw [this, Complex.sub_re, expect_other k1 k2 k3, expect_eig h1 h3, Complex.ofReal_re]
    simp only [mul_sub, Finset.sum_sub_distrib, ← Finset.sum_mul]
    rw [overlap_row c1, one_mul]
  have key : 0 ≤ ∑ k, ∑ l, ‖C k l‖ ^ 2 * (Real.exp (-E k / T) / Z * ((E' l - E k) / T + Real.log Z' - Real.log Z) -
      (Real.exp (-E k / T) / Z - Real.exp (-E' l / T) / Z')) := by
    refine Finset.sum_nonneg fun k _ => Finset.sum_nonneg fun l _ => mul_nonneg (sq_nonneg _) ?_
    set p := Real.exp (-E k / T) / Z with hp
    set q := Real.exp (-E' l / T) / Z' with hq
    have pp : 0 < p := div_pos (Real.exp_pos _) pZ
    have pq : 0 < q := div_pos (Real.exp_pos _) pZ'
    have lp : Real.log p = -E k / T - Real.log Z := by rw [hp, Real.log_div (Real.exp_pos _).ne' pZ.ne', Real.log_exp]
    have lq : Real.log q = -E' l / T - Real.log Z' := by rw [hq, Real.log_div (Real.exp_pos _).ne' pZ'.ne', Real.log_exp]
    have e : (E' l - E k) / T + Real.log Z' - Real.log Z = -Real.log (q / p) := by
      rw [Real.log_div pq.ne' pp.ne', lp, lq]
      ring
    rw [e]
    have := Real.log_le_sub_one_of_pos (div_pos pq pp)
    have h' : p * (q / p) = q := by field_simp
    nlinarith [mul_le_mul_of_nonneg_left this pp.le]
  have s1 : ∑ k, ∑ l, ‖C k l‖ ^ 2 * (Real.exp (-E k / T) / Z - Real.exp (-E' l / T) / Z') = 0 := by
    have a : ∑ k, ∑ l, ‖C k l‖ ^ 2 * (Real.exp (-E k / T) / Z) = 1 := by
      simp only [← Finset.sum_mul, overlap_row c1, one_mul]
      rw [← Finset.sum_div, ← eZ, div_self pZ.ne']
    have b : ∑ k, ∑ l, ‖C k l‖ ^ 2 * (Real.exp (-E' l / T) / Z') = 1 := by
      rw [Finset.sum_comm]
      simp only [← Finset.sum_mul, overlap_col c2, one_mul]
      rw [← Finset.sum_div, ← eZ', div_self pZ'.ne']
    simp only [mul_sub, Finset.sum_sub_distrib]
    rw [a, b, sub_self]
  have s2 : ∑ k, ∑ l, ‖C k l‖ ^ 2 * (Real.exp (-E k / T) / Z * ((E' l - E k) / T + Real.log Z' - Real.log Z)) =
      thermalAvg H (H' - H) T / T + Real.log Z' - Real.log Z := by
    rw [thermalAvg_eig h1 h2 h3 _ hT.ne', canonical_ne hT.ne', ← eZ]
    simp only [hval]
    have e : ∀ k, ∑ l, ‖C k l‖ ^ 2 * (Real.exp (-E k / T) / Z * ((E' l - E k) / T + Real.log Z' - Real.log Z)) =
        Real.exp (-E k / T) * (∑ l, ‖C k l‖ ^ 2 * (E' l - E k)) / Z / T +
          Real.exp (-E k / T) / Z * (Real.log Z' - Real.log Z) := by
      intro k
      have : ∀ l, ‖C k l‖ ^ 2 * (Real.exp (-E k / T) / Z * ((E' l - E k) / T + Real.log Z' - Real.log Z)) =
          ‖C k l‖ ^ 2 * (E' l - E k) * (Real.exp (-E k / T) / Z / T) +
            ‖C k l‖ ^ 2 * (Real.exp (-E k / T) / Z * (Real.log Z' - Real.log Z)) := fun l => by ring
      simp only [this, Finset.sum_add_distrib, ← Finset.sum_mul, overlap_row c1]
      ring
    simp only [e, Finset.sum_add_distrib, ← Finset.sum_div, ← Finset.sum_mul]
    rw [← eZ, div_self pZ.ne']
    ring
  have hd : ∑ k, ∑ l, ‖C k l‖ ^ 2 * (Real.exp (-E k / T) / Z * ((E' l - E k) / T + Real.log Z' - Real.log Z) -
      (Real.exp (-E k / T) / Z - Real.exp (-E' l / T) / Z')) =
      (∑ k, ∑ l, ‖C k l‖ ^ 2 * (Real.exp (-E k / T) / Z * ((E' l - E k) / T + Real.log Z' - Real.log Z))) -
        ∑ k, ∑ l, ‖C k l‖ ^ 2 * (Real.exp (-E k / T) / Z - Real.exp (-E' l / T) / Z') := by
    rw [← Finset.sum_sub_distrib]
    refine Finset.sum_congr rfl fun k _ => ?_
    rw [← Finset.sum_sub_distrib]
    exact Finset.sum_congr rfl fun l _ => mul_sub _ _ _
  rw [hd, s1, s2, sub_zero] at key
  unfold freeEnergy
  have := mul_le_mul_of_nonneg_left key hT.le
  rw [mul_zero, mul_sub, mul_add, mul_div_cancel₀ _ hT.ne'] at this
  linarith

/-- The average of the difference of two Hamiltonians is larger in the ensemble of the Hamiltonian that is subtracted. -/
theorem thermalAvg_mono [Nonempty ι] {H H' : Matrix ι ι ℂ} (hH : H.IsHermitian) (hH' : H'.IsHermitian) {T : ℝ} (hT : 0 < T) :
    thermalAvg H' (H' - H) T ≤ thermalAvg H (H' - H) T := by
  have a := gibbs_variational hH hH' hT
  have b := gibbs_variational hH' hH hT
  have e : thermalAvg H' (H - H') T = -thermalAvg H' (H' - H) T := by
    unfold thermalAvg
    rw [← neg_sub H' H, Matrix.mul_neg, trace_neg, Complex.neg_re]
  rw [e] at b
  linarith

/-! ## Differences of averages -/

theorem one_sub_exp_le {d : ℝ} (hd : 0 ≤ d) : 1 - Real.exp (-d) ≤ d * ((1 + Real.exp (-d)) / 2) := by
  have hmono : MonotoneOn (fun x : ℝ => x * ((1 + Real.exp (-x)) / 2) - (1 - Real.exp (-x))) (Set.Ici 0) := by
    have hder : ∀ x : ℝ, HasDerivAt (fun x : ℝ => x * ((1 + Real.exp (-x)) / 2) - (1 - Real.exp (-x)))
        ((1 - Real.exp (-x) - x * Real.exp (-x)) / 2) x := by
      intro x
      have h1 : HasDerivAt (fun x : ℝ => Real.exp (-x)) (-Real.exp (-x)) x := by
        simpa using (hasDerivAt_neg x).exp
      have h2 := ((hasDerivAt_id x).mul ((h1.const_add 1).div_const 2)).sub (h1.const_sub 1)
      refine h2.congr_deriv ?_
      simp only [id]
      ring
    refine monotoneOn_of_deriv_nonneg (convex_Ici 0) (fun x _ => (hder x).continuousAt.continuousWithinAt)
      (fun x _ => (hder x).differentiableAt.differentiableWithinAt) fun x _ => ?_
    rw [(hder x).deriv]
    have h3 : (1 + x) * Real.exp (-x) ≤ 1 := by
      have := Real.add_one_le_exp x
      calc (1 + x) * Real.exp (-x) ≤ Real.exp x * Real.exp (-x) :=
            mul_le_mul_of_nonneg_right (by linarith) (Real.exp_pos _).le
        _ = 1 := by rw [← Real.exp_add, add_neg_cancel, Real.exp_zero]
    linarith
  have := hmono (Set.self_mem_Ici) hd hd
  simp only [neg_zero, Real.exp_zero] at this
  linarith

/-- The logarithmic mean of two numbers is at most their arithmetic mean. -/
theorem abs_exp_sub_le (x y : ℝ) : |Real.exp (-x) - Real.exp (-y)| ≤ |x - y| * ((Real.exp (-x) + Real.exp (-y)) / 2) := by
  wlog h : x ≤ y with H
  · have := H y x (le_of_not_ge h)
    rw [abs_sub_comm, abs_sub_comm x y, add_comm (Real.exp (-x))]
    exact this
  have e : Real.exp (-y) = Real.exp (-x) * Real.exp (-(y - x)) := by rw [← Real.exp_add]; congr 1; ring
  have h1 := one_sub_exp_le (sub_nonneg.2 h)
  have h2 : Real.exp (-y) ≤ Real.exp (-x) := Real.exp_le_exp.2 (neg_le_neg h)
  rw [abs_of_nonneg (sub_nonneg.2 h2), abs_sub_comm, abs_of_nonneg (sub_nonneg.2 h), e]
  have := mul_le_mul_of_nonneg_left h1 (Real.exp_pos (-x)).le
  linarith

end

section

variable {ι : Type} [Fintype ι] [DecidableEq ι]

open Spec

theorem normLe_conjTranspose {O : Matrix ι ι ℂ} {c : ℝ} (h : NormLe O c) : NormLe Oᴴ c := by
  refine ⟨h.1, fun v => ?_⟩
  set u := v ᵥ* Oᴴ with hu
  have e : ((∑ j, ‖u j‖ ^ 2 : ℝ) : ℂ) = ∑ j, v j * star ((u ᵥ* O) j) := by
    have h1 : ((∑ j, ‖u j‖ ^ 2 : ℝ) : ℂ) = u ⬝ᵥ star u := by
      rw [Complex.ofReal_sum]
      refine Finset.sum_congr rfl fun j _ => ?_
      rw [Pi.star_apply, RCLike.star_def, Complex.mul_conj, Complex.normSq_eq_norm_sq]
    rw [h1]
    conv_lhs => rw [hu, ← dotProduct_mulVec]
    refine Finset.sum_congr rfl fun j _ => ?_
    congr 1
    have := congrFun (star_vecMul O u) j
    rw [← this]
    rfl
  have h2 : (∑ j, ‖u j‖ ^ 2) ≤ ∑ j, ‖v j‖ * ‖(u ᵥ* O) j‖ := by
    have h3 : ‖((∑ j, ‖u j‖ ^ 2 : ℝ) : ℂ)‖ ≤ ∑ j, ‖v j‖ * ‖(u ᵥ* O) j‖ := by
      rw [e]
      refine (norm_sum_le _ _).trans (Finset.sum_le_sum fun j _ => ?_)
      rw [norm_mul, norm_star]
    rw [Complex.norm_real, Real.norm_eq_abs] at h3
    exact (le_abs_self _).trans h3
  have h4 := Finset.sum_mul_sq_le_sq_mul_sq Finset.univ (fun j => ‖v j‖) fun j => ‖(u ᵥ* O) j‖
  have h5 := h.2 u
  have p0 : 0 ≤ ∑ j, ‖u j‖ ^ 2 := Finset.sum_nonneg fun _ _ => sq_nonneg _
  have pv : 0 ≤ ∑ j, ‖v j‖ ^ 2 := Finset.sum_nonneg fun _ _ => sq_nonneg _
  rcases p0.eq_or_lt with h0 | h0
  · rw [← h0]
    exact mul_nonneg (sq_nonneg _) pv
  · have h6 : (∑ j, ‖u j‖ ^ 2) * (∑ j, ‖u j‖ ^ 2) ≤ (c ^ 2 * ∑ j, ‖v j‖ ^ 2) * ∑ j, ‖u j‖ ^ 2 := by
      calc (∑ j, ‖u j‖ ^ 2) * (∑ j, ‖u j‖ ^ 2) ≤ (∑ j, ‖v j‖ * ‖(u ᵥ* O) j‖) ^ 2 := by
            rw [← sq]
            exact pow_le_pow_left₀ p0 h2 2
        _ ≤ _ := h4
        _ ≤ (∑ j, ‖v j‖ ^ 2) * (c ^ 2 * ∑ j, ‖u j‖ ^ 2) := mul_le_mul_of_nonneg_left h5 pv
        _ = _ := by ring
    exact le_of_mul_le_mul_right h6 h0

theorem row_sq {m n : Type*} [Fintype n] (M : Matrix m n ℂ) (k : m) : ((∑ j, ‖M k j‖ ^ 2 : ℝ) : ℂ) = (M * Mᴴ) k k := by
  rw [Matrix.mul_apply, Complex.ofReal_sum]
  refine Finset.sum_congr rfl fun j _ => ?_
  rw [conjTranspose_apply, RCLike.star_def, Complex.mul_conj, Complex.normSq_eq_norm_sq]

/-- Matrix elements of an operator of bounded norm between two orthonormal bases. -/
theorem elems_row_le {κ κ' : Type*} [Fintype κ] [DecidableEq κ] [Fintype κ'] [DecidableEq κ'] {A : Matrix ι ι ℂ} {c : ℝ} (h : NormLe A c)
    {V : Matrix ι κ ℂ} {W : Matrix ι κ' ℂ} (hV : Vᴴ * V = 1) (hW : W * Wᴴ = 1) (k : κ) : ∑ l, ‖(Vᴴ * A * W) k l‖ ^ 2 ≤ c ^ 2 := by
  have e1 : ∑ l, ‖(Vᴴ * A * W) k l‖ ^ 2 = ∑ j, ‖(Vᴴ * A) k j‖ ^ 2 := by
    have : ((∑ l, ‖(Vᴴ * A * W) k l‖ ^ 2 : ℝ) : ℂ) = ((∑ j, ‖(Vᴴ * A) k j‖ ^ 2 : ℝ) : ℂ) := by
      rw [row_sq, row_sq, conjTranspose_mul]
      have : Vᴴ * A * W * (Wᴴ * (Vᴴ * A)ᴴ) = Vᴴ * A * (W * Wᴴ) * (Vᴴ * A)ᴴ := by simp only [Matrix.mul_assoc]
      rw [this, hW, Matrix.mul_one]
    exact_mod_cast this
  have e2 : ∑ j, ‖Vᴴ k j‖ ^ 2 = 1 := by
    have : ((∑ j, ‖Vᴴ k j‖ ^ 2 : ℝ) : ℂ) = 1 := by rw [row_sq, conjTranspose_conjTranspose, hV, one_apply_eq]
    exact_mod_cast this
  rw [e1]
  have := h.2 (Vᴴ k)
  rw [e2, mul_one] at this
  exact this

theorem sum_mul_le {κ : Type*} [Fintype κ] {x y : κ → ℝ} {a b : ℝ} (ha : 0 ≤ a) (hb : 0 ≤ b) (hx : ∑ l, x l ^ 2 ≤ a ^ 2)
    (hy : ∑ l, y l ^ 2 ≤ b ^ 2) : ∑ l, x l * y l ≤ a * b := by
  refine abs_le_of_sq_le_sq' ?_ (mul_nonneg ha hb) |>.2
  calc (∑ l, x l * y l) ^ 2 ≤ (∑ l, x l ^ 2) * ∑ l, y l ^ 2 := Finset.sum_mul_sq_le_sq_mul_sq _ _ _
    _ ≤ a ^ 2 * b ^ 2 := mul_le_mul hx hy (Finset.sum_nonneg fun _ _ => sq_nonneg _) (sq_nonneg _)
    _ = _ := by ring

theorem trace_near {H H' O : Matrix ι ι ℂ} (hH : H.IsHermitian) (hH' : H'.IsHermitian) {δ c T : ℝ} (hT : 0 < T)
    (hd : NormLe (H' - H) δ) (hO : NormLe O c) :
    ‖trace (boltzOp H T * O) - trace (boltzOp H' T * O)‖ ≤ δ * c / T * ((partitionFn H T + partitionFn H' T) / 2) := by
  obtain ⟨V, E, h1, h2, h3⟩ := eig_exists hH
  obtain ⟨W, E', k1, k2, k3⟩ := eig_exists hH'
  set C := Vᴴ * W with hC
  set X := Wᴴ * O * V with hX
  set D := Vᴴ * (H' - H) * W with hD
  set a := fun k => Real.exp (-E k / T) with ha
  set b := fun k => Real.exp (-E' k / T) with hb
  have tA : trace (boltzOp H T * O) = ∑ k, ∑ l, (a k : ℂ) * (C k l * X l k) := by
    rw [trace_boltzOp h1 h2 h3]
    refine Finset.sum_congr rfl fun k _ => ?_
    have : Vᴴ * O * V = C * X := by
      calc _ = Vᴴ * 1 * O * V := by rw [Matrix.mul_one]
        _ = _ := by rw [← k2, hC, hX]; simp only [Matrix.mul_assoc]
    rw [expect_entry, this, Matrix.mul_apply, Finset.mul_sum]
  have tB : trace (boltzOp H' T * O) = ∑ k, ∑ l, (b l : ℂ) * (C k l * X l k) := by
    rw [trace_boltzOp k1 k2 k3, Finset.sum_comm]
    refine Finset.sum_congr rfl fun l _ => ?_
    have : Wᴴ * O * W = X * C := by
      calc _ = Wᴴ * O * 1 * W := by rw [Matrix.mul_one]
        _ = _ := by rw [← h2, hC, hX]; simp only [Matrix.mul_assoc]
    rw [expect_entry, this, Matrix.mul_apply, Finset.mul_sum]
    exact Finset.sum_congr rfl fun k _ => by rw [mul_comm (X l k)]
  have hDe : ∀ k l, D k l = ((E' l - E k : ℝ) : ℂ) * C k l := by
    intro k l
    have e1 : Vᴴ * H = diagonal (fun i => (E i : ℂ)) * Vᴴ := by
      have := congrArg conjTranspose h3
      rw [conjTranspose_mul, conjTranspose_mul, hH.eq, diagonal_conjTranspose] at this
      rw [this]
      congr 2
      funext i
      exact Complex.conj_ofReal _
    have e2 : D = C * diagonal (fun i => (E' i : ℂ)) - diagonal (fun i => (E i : ℂ)) * C := by
      rw [hD, hC, Matrix.mul_sub, Matrix.sub_mul, e1, Matrix.mul_assoc Vᴴ H', k3, ← Matrix.mul_assoc, Matrix.mul_assoc (diagonal _)]
    rw [e2, Matrix.sub_apply, mul_diagonal, diagonal_mul]
    push_cast
    ring
  have hterm : ∀ k l, ‖((a k : ℂ) - (b l : ℂ)) * (C k l * X l k)‖ ≤ (a k + b l) / (2 * T) * (‖D k l‖ * ‖X l k‖) := by
    intro k l
    rw [norm_mul, norm_mul, ← Complex.ofReal_sub, Complex.norm_real, Real.norm_eq_abs, hDe, norm_mul, Complex.norm_real,
      Real.norm_eq_abs]
    have := abs_exp_sub_le (E k / T) (E' l / T)
    have e1 : |E k / T - E' l / T| = |E' l - E k| / T := by
      rw [← sub_div, abs_div, abs_of_pos hT, abs_sub_comm]
    rw [e1, ← neg_div, ← neg_div] at this
    calc |a k - b l| * (‖C k l‖ * ‖X l k‖) ≤ (|E' l - E k| / T * ((a k + b l) / 2)) * (‖C k l‖ * ‖X l k‖) :=
          mul_le_mul_of_nonneg_right this (mul_nonneg (norm_nonneg _) (norm_nonneg _))
      _ = _ := by field_simp
  have r1 : ∀ k, ∑ l, ‖D k l‖ * ‖X l k‖ ≤ δ * c := by
    intro k
    refine sum_mul_le hd.1 hO.1 (elems_row_le hd h1 k2 k) ?_
    have := elems_row_le (normLe_conjTranspose hO) h1 k2 k
    have e : Vᴴ * Oᴴ * W = Xᴴ := by rw [hX]; simp only [conjTranspose_mul, conjTranspose_conjTranspose, Matrix.mul_assoc]
    rw [e] at this
    simpa only [conjTranspose_apply, norm_star] using this
  have r2 : ∀ l, ∑ k, ‖D k l‖ * ‖X l k‖ ≤ δ * c := by
    intro l
    refine sum_mul_le hd.1 hO.1 ?_ (elems_row_le hO k1 h2 l)
    have := elems_row_le (normLe_conjTranspose hd) k1 h2 l
    have e : Wᴴ * (H' - H)ᴴ * V = Dᴴ := by rw [hD]; simp only [conjTranspose_mul, conjTranspose_conjTranspose, Matrix.mul_assoc]
    rw [e] at this
    simpa only [conjTranspose_apply, norm_star] using this
  have pa : ∀ k, 0 ≤ a k := fun k => (Real.exp_pos _).le
  have pb : ∀ k, 0 ≤ b k := fun k => (Real.exp_pos _).le
  rw [tA, tB, ← Finset.sum_sub_distrib]
  simp only [← Finset.sum_sub_distrib, ← sub_mul]
  calc _ ≤ ∑ k, ∑ l, (a k + b l) / (2 * T) * (‖D k l‖ * ‖X l k‖) := by
        refine (norm_sum_le _ _).trans (Finset.sum_le_sum fun k _ => (norm_sum_le _ _).trans (Finset.sum_le_sum fun l _ => hterm k l))
    _ = (∑ k, a k * ∑ l, ‖D k l‖ * ‖X l k‖) / (2 * T) + (∑ l, b l * ∑ k, ‖D k l‖ * ‖X l k‖) / (2 * T) := by
        simp only [Finset.mul_sum]
        rw [Finset.sum_comm (f := fun l k => b l * (‖D k l‖ * ‖X l k‖)), ← add_div, ← Finset.sum_add_distrib, Finset.sum_div]
        refine Finset.sum_congr rfl fun k _ => ?_
        rw [← Finset.sum_add_distrib, Finset.sum_div]
        exact Finset.sum_congr rfl fun l _ => by ring
    _ ≤ (∑ k, a k * (δ * c)) / (2 * T) + (∑ l, b l * (δ * c)) / (2 * T) := by
        gcongr with k _ l _
        · exact r1 _
        · exact r2 _
    _ = _ := by
        have hZ : partitionFn H T = ∑ k, a k := partitionFn_eig h1 h2 h3 T
        have hZ' : partitionFn H' T = ∑ k, b k := partitionFn_eig k1 k2 k3 T
        rw [← Finset.sum_mul, ← Finset.sum_mul, hZ, hZ']
        field_simp

theorem normLe_one : NormLe (1 : Matrix ι ι ℂ) 1 := ⟨zero_le_one, fun v => by simp⟩

/-- The average of a bounded operator. -/
theorem trace_boltz_le {H O : Matrix ι ι ℂ} (hH : H.IsHermitian) {c T : ℝ} (hO : NormLe O c) :
    ‖trace (boltzOp H T * O)‖ ≤ c * partitionFn H T := by
  obtain ⟨V, E, h1, h2, h3⟩ := eig_exists hH
  rw [trace_boltzOp h1 h2 h3, partitionFn_eig h1 h2 h3, Finset.mul_sum]
  refine (norm_sum_le _ _).trans (Finset.sum_le_sum fun k _ => ?_)
  rw [norm_mul, Complex.norm_real, Real.norm_eq_abs, abs_of_pos (Real.exp_pos _), mul_comm]
  refine mul_le_mul_of_nonneg_right ?_ (Real.exp_pos _).le
  rw [expect_entry]
  have := elems_row_le hO h1 h2 k
  refine abs_le_of_sq_le_sq' ?_ hO.1 |>.2
  exact (Finset.single_le_sum (f := fun l => ‖(Vᴴ * O * V) k l‖ ^ 2) (fun _ _ => sq_nonneg _) (Finset.mem_univ k)).trans this

theorem trace_boltz_one {H : Matrix ι ι ℂ} (hH : H.IsHermitian) (T : ℝ) : trace (boltzOp H T) = partitionFn H T := by
  obtain ⟨V, E, h1, h2, h3⟩ := eig_exists hH
  have := trace_boltzOp h1 h2 h3 T 1
  rw [Matrix.mul_one] at this
  rw [this, partitionFn_eig h1 h2 h3, Complex.ofReal_sum]
  refine Finset.sum_congr rfl fun k _ => ?_
  rw [expect_entry, Matrix.mul_one, h1, one_apply_eq, mul_one]

theorem thermalAvg_ratio (H O : Matrix ι ι ℂ) (T : ℝ) :
    thermalAvg H O T = (trace (boltzOp H T * O) / partitionFn H T).re := by
  unfold thermalAvg gibbs
  rw [Matrix.smul_mul, trace_smul, smul_eq_mul, one_div, inv_mul_eq_div]

/-- Averages in the ensembles of two Hamiltonians that are close to each other. -/
theorem thermalAvg_near [Nonempty ι] {H H' O : Matrix ι ι ℂ} (hH : H.IsHermitian) (hH' : H'.IsHermitian) {δ c T : ℝ} (hT : 0 < T)
    (hd : NormLe (H' - H) δ) (hO : NormLe O c) : |thermalAvg H O T - thermalAvg H' O T| ≤ 2 * δ * c / T := by
  wlog hle : partitionFn H' T ≤ partitionFn H T with key
  · have hd' : NormLe (H - H') δ := by
      refine ⟨hd.1, fun v => ?_⟩
      have := hd.2 v
      rw [← neg_sub H' H, vecMul_neg]
      simpa only [Pi.neg_apply, norm_neg] using this
    rw [abs_sub_comm]
    exact key hH' hH hT hd' hO (le_of_not_ge hle)
  have pZ := partitionFn_pos hH T
  have pZ' := partitionFn_pos hH' T
  have n1 := trace_near hH hH' hT hd hO
  have n2 := trace_near hH hH' hT hd normLe_one
  rw [Matrix.mul_one, Matrix.mul_one, trace_boltz_one hH, trace_boltz_one hH', ← Complex.ofReal_sub, Complex.norm_real] at n2
  have n3 := trace_boltz_le (T := T) hH' hO
  rw [thermalAvg_ratio, thermalAvg_ratio, ← Complex.sub_re]
  refine (Complex.abs_re_le_norm _).trans ?_
  set Z := partitionFn H T
  set Z' := partitionFn H' T
  set x := trace (boltzOp H T * O)
  set y := trace (boltzOp H' T * O)
  have hZc : (Z : ℂ) ≠ 0 := Complex.ofReal_ne_zero.2 pZ.ne'
  have hZc' : (Z' : ℂ) ≠ 0 := Complex.ofReal_ne_zero.2 pZ'.ne'
  have e : x / Z - y / Z' = ((x - y) - y / Z' * ((Z - Z' : ℝ) : ℂ)) / Z := by
    push_cast
    field_simp
    ring
  rw [e, norm_div, Complex.norm_real, Real.norm_of_nonneg pZ.le, div_le_iff₀ pZ]
  have hy : ‖y / Z'‖ ≤ c := by
    rw [norm_div, Complex.norm_real, Real.norm_of_nonneg pZ'.le, div_le_iff₀ pZ']
    exact n3
  have q0 : 0 ≤ δ * c / T := div_nonneg (mul_nonneg hd.1 hO.1) hT.le
  calc ‖(x - y) - y / Z' * ((Z - Z' : ℝ) : ℂ)‖ ≤ ‖x - y‖ + ‖y / Z'‖ * ‖((Z - Z' : ℝ) : ℂ)‖ := by
        refine (norm_sub_le _ _).trans ?_
        rw [norm_mul]
    _ ≤ δ * c / T * ((Z + Z') / 2) + c * (δ * 1 / T * ((Z + Z') / 2)) := by
        refine add_le_add n1 (mul_le_mul hy ?_ (norm_nonneg _) hO.1)
        rw [Complex.norm_real]
        exact n2
    _ = δ * c / T * (Z + Z') := by ring
    _ ≤ δ * c / T * (2 * Z) := mul_le_mul_of_nonneg_left (by linarith) q0
    _ = _ := by ring

end

end ED
