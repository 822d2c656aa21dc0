import Verif.Spec.FreeFermions
import Verif.Lemmas.HubbardAlg
import Verif.Lemmas.Gibbs
import Mathlib.Analysis.Matrix.Spectrum

/-! # Lemmas: thermal averages of fermions without interactions -/

namespace ED

open Matrix

variable {N : ℕ} {κ : Type*} [Fintype κ] [DecidableEq κ]

theorem secondQuant_create (h : Matrix (Fin N) (Fin N) ℂ) (l : Fin N) :
    secondQuant h * create l = create l * secondQuant h + ∑ p, h p l • create p := by
  have key : ∀ p q, create p * annih q * create l =
      create l * (create p * annih q) + if q = l then create p else 0 := by
    intro p q
    have h1 := car1 q l
    have h2 := car2 l p
    have e : annih q * create l = (if q = l then 1 else 0) - create l * annih q := eq_sub_of_add_eq h1
    have e2 : create p * create l = -(create l * create p) := by
      rw [eq_neg_iff_add_eq_zero, add_comm]; exact h2
    rw [mul_assoc, e, mul_sub, ← mul_assoc (create p), e2, neg_mul, sub_neg_eq_add, mul_assoc, add_comm]
    split_ifs <;> simp
  unfold secondQuant
  simp only [Finset.sum_mul, Finset.mul_sum, smul_mul_assoc, mul_smul_comm, key, smul_add]
  simp only [Finset.sum_add_distrib]
  congr 1
  refine Finset.sum_congr rfl fun p _ => ?_
  simp

theorem secondQuant_star {h : Matrix (Fin N) (Fin N) ℂ} (hh : h.IsHermitian) : (secondQuant h).IsHermitian := by
  unfold secondQuant
  change (_ : Op N 2)ᴴ = _
  simp only [conjTranspose_sum, conjTranspose_smul, conjTranspose_mul, create_star, annih_star]
  rw [Finset.sum_comm]
  refine Finset.sum_congr rfl fun p _ => Finset.sum_congr rfl fun q _ => ?_
  rw [hh.apply]

/-- A raising operator of energy `ε` and the Boltzmann operator. -/
theorem boltzOp_raise {ι : Type*} [Fintype ι] [DecidableEq ι] {H X : Matrix ι ι ℂ} (hH : H.IsHermitian) {ε : ℝ}
    (hX : H * X = X * H + (ε : ℂ) • X) (T : ℝ) :
    boltzOp H T * X = (Real.exp (-ε / T) : ℂ) • (X * boltzOp H T) := by
  set V : Matrix ι ι ℂ := (hH.eigenvectorUnitary : Matrix ι ι ℂ) with hV
  have h1 : Vᴴ * V = 1 := Matrix.mem_unitaryGroup_iff'.1 hH.eigenvectorUnitary.2
  have h2 : V * Vᴴ = 1 := Matrix.mem_unitaryGroup_iff.1 hH.eigenvectorUnitary.2
  set w := hH.eigenvalues
  have h3 : H * V = V * diagonal fun i => (w i : ℂ) := by
    have := hH.spectral_theorem
    rw [Unitary.conjStarAlgAut_apply] at this
    have h := congrArg (fun A => A * V) this
    rw [h, Matrix.mul_assoc _ _ V]
    have e : star (hH.eigenvectorUnitary : Matrix ι ι ℂ) * V = 1 := h1
    rw [e, Matrix.mul_one]
    rfl
  have h4 : Vᴴ * H = (diagonal fun i => (w i : ℂ)) * Vᴴ := by
    have := congrArg (fun A => Vᴴ * A * Vᴴ) h3
    rw [← Matrix.mul_assoc Vᴴ V, h1, Matrix.one_mul, Matrix.mul_assoc, Matrix.mul_assoc, h2, Matrix.mul_one] at this
    exact this
  set Y := Vᴴ * X * V with hY
  have hXY : X = V * Y * Vᴴ := by
    rw [hY]
    simp only [Matrix.mul_assoc]
    rw [h2, Matrix.mul_one, ← Matrix.mul_assoc, h2, Matrix.one_mul]
  have hYc : ∀ i j, ((w i : ℂ) - w j - ε) * Y i j = 0 := by
    intro i j
    have e : (diagonal fun i => (w i : ℂ)) * Y = Y * (diagonal fun i => (w i : ℂ)) + (ε : ℂ) • Y := by
      rw [hY, ← Matrix.mul_assoc, ← Matrix.mul_assoc, ← h4, Matrix.mul_assoc Vᴴ H X, hX, Matrix.mul_add, Matrix.add_mul,
        Matrix.mul_smul, Matrix.smul_mul, Matrix.mul_assoc (Vᴴ * X), ← h3]
      simp only [Matrix.mul_assoc]
    have := congrFun (congrFun e i) j
    rw [diagonal_mul, Matrix.add_apply, mul_diagonal, Matrix.smul_apply, smul_eq_mul] at this
    linear_combination this
  have hYe : (diagonal fun i => (Real.exp (-w i / T) : ℂ)) * Y =
      (Real.exp (-ε / T) : ℂ) • (Y * diagonal fun i => (Real.exp (-w i / T) : ℂ)) := by
    ext i j
    rw [diagonal_mul, Matrix.smul_apply, mul_diagonal, smul_eq_mul]
    rcases mul_eq_zero.1 (hYc i j) with h | h
    · have hw : w i = ε + w j := by
        have : ((w i - w j - ε : ℝ) : ℂ) = 0 := by push_cast; exact h
        have := Complex.ofReal_eq_zero.1 this
        linarith
      rw [hw, neg_add, add_div, Real.exp_add]
      push_cast
      ring
    · rw [h]; simp
  rw [boltzOp_eig h1 h2 h3, hXY]
  have e1 : ∀ D : Matrix ι ι ℂ, V * D * Vᴴ * (V * Y * Vᴴ) = V * (D * Y) * Vᴴ := by
    intro D
    calc V * D * Vᴴ * (V * Y * Vᴴ) = V * D * (Vᴴ * V) * Y * Vᴴ := by simp only [Matrix.mul_assoc]
      _ = _ := by rw [h1, Matrix.mul_one]; simp only [Matrix.mul_assoc]
  have e2 : ∀ D : Matrix ι ι ℂ, V * Y * Vᴴ * (V * D * Vᴴ) = V * (Y * D) * Vᴴ := by
    intro D
    calc V * Y * Vᴴ * (V * D * Vᴴ) = V * Y * (Vᴴ * V) * D * Vᴴ := by simp only [Matrix.mul_assoc]
      _ = _ := by rw [h1, Matrix.mul_one]; simp only [Matrix.mul_assoc]
  rw [e1, e2, hYe, Matrix.mul_smul, Matrix.smul_mul]

/-- The expectation values of a raising operator times any operator (Kubo, Martin and Schwinger). -/
theorem trace_raise {ι : Type*} [Fintype ι] [DecidableEq ι] {H X : Matrix ι ι ℂ} (hH : H.IsHermitian) {ε : ℝ}
    (hX : H * X = X * H + (ε : ℂ) • X) (T : ℝ) (A : Matrix ι ι ℂ) :
    trace (boltzOp H T * (X * A)) = (occupancy T ε : ℂ) * trace (boltzOp H T * (X * A + A * X)) := by
  have h1 : trace (boltzOp H T * (X * A)) = (Real.exp (-ε / T) : ℂ) * trace (boltzOp H T * (A * X)) := by
    rw [← Matrix.mul_assoc, boltzOp_raise hH hX, Matrix.smul_mul, trace_smul, smul_eq_mul, Matrix.mul_assoc,
      trace_mul_comm, Matrix.mul_assoc]
  rw [Matrix.mul_add, trace_add, h1]
  have hpos := Real.exp_pos (ε / T)
  have he : (occupancy T ε : ℂ) * (Real.exp (-ε / T) + 1) = Real.exp (-ε / T) := by
    rw [← Complex.ofReal_one, ← Complex.ofReal_add, ← Complex.ofReal_mul]
    congr 1
    unfold occupancy
    rw [neg_div, Real.exp_neg]
    field_simp
    ring
  linear_combination (-trace (boltzOp H T * (A * X))) * he

/-- The one-particle matrix `f(h)` of the Fermi function, from an orthonormal basis of eigenstates. -/
noncomputable def fermiMat (U : Matrix (Fin N) κ ℂ) (ε : κ → ℝ) (T : ℝ) : Matrix (Fin N) (Fin N) ℂ :=
  U * diagonal (fun k => (occupancy T (ε k) : ℂ)) * Uᴴ

/-- Moving a creation operator around the trace. -/
theorem trace_create {h : Matrix (Fin N) (Fin N) ℂ} (hh : h.IsHermitian) {U : Matrix (Fin N) κ ℂ} {ε : κ → ℝ}
    (hU : U * Uᴴ = 1) (he : h * U = U * diagonal fun k => (ε k : ℂ)) (T : ℝ) (p : Fin N) (A : Op N 2) :
    trace (boltzOp (secondQuant h) T * (create p * A)) =
      ∑ l, fermiMat U ε T l p * trace (boltzOp (secondQuant h) T * (create l * A + A * create l)) := by
  set B := boltzOp (secondQuant h) T
  have hd : ∀ k, secondQuant h * (∑ p, U p k • create p) =
      (∑ p, U p k • create p) * secondQuant h + (ε k : ℂ) • (∑ p, U p k • create p) := by
    intro k
    simp only [Finset.mul_sum, Finset.sum_mul, mul_smul_comm, smul_mul_assoc, secondQuant_create, smul_add,
      Finset.sum_add_distrib]
    congr 1
    simp only [Finset.smul_sum, smul_smul]
    rw [Finset.sum_comm]
    refine Finset.sum_congr rfl fun p _ => ?_
    rw [← Finset.sum_smul]
    congr 1
    have := congrFun (congrFun he p) k
    rw [mul_diagonal, mul_apply] at this
    rw [mul_comm (ε k : ℂ), ← this]
    exact Finset.sum_congr rfl fun q _ => mul_comm _ _
  have hc : create p = ∑ k, star (U p k) • ∑ l, U l k • create l := by
    simp only [Finset.smul_sum, smul_smul]
    rw [Finset.sum_comm]
    simp only [← Finset.sum_smul]
    have : ∀ l, (∑ k, star (U p k) * U l k) = if l = p then 1 else 0 := by
      intro l
      have := congrFun (congrFun hU l) p
      rw [mul_apply, one_apply] at this
      rw [← this]
      exact Finset.sum_congr rfl fun k _ => by rw [conjTranspose_apply, mul_comm]
    simp only [this, ite_smul, one_smul, zero_smul, Finset.sum_ite_eq', Finset.mem_univ, if_true]
  have hk : ∀ k, trace (B * ((∑ l, U l k • create l) * A)) = (occupancy T (ε k) : ℂ) *
      ∑ l, U l k * trace (B * (create l * A + A * create l)) := by
    intro k
    rw [trace_raise (secondQuant_star hh) (hd k)]
    congr 1
    simp only [Finset.sum_mul, Finset.mul_sum, smul_mul_assoc, mul_smul_comm, ← Finset.sum_add_distrib, ← smul_add,
      trace_sum, trace_smul, smul_eq_mul]
    rfl
  have e1 : trace (B * (create p * A)) = ∑ k, star (U p k) * trace (B * ((∑ l, U l k • create l) * A)) := by
    conv_lhs => rw [hc]
    rw [Finset.sum_mul, Finset.mul_sum, trace_sum]
    refine Finset.sum_congr rfl fun k _ => ?_
    rw [smul_mul_assoc, mul_smul_comm, trace_smul, smul_eq_mul]
  rw [e1]
  simp only [hk, Finset.mul_sum]
  rw [Finset.sum_comm]
  refine Finset.sum_congr rfl fun l _ => ?_
  unfold fermiMat
  rw [mul_apply, Finset.sum_mul]
  refine Finset.sum_congr rfl fun k _ => ?_
  rw [mul_diagonal, conjTranspose_apply]
  ring

/-- One pair of operators, beside an operator `Y` of modes that are not connected. -/
theorem trace_wick2 {h : Matrix (Fin N) (Fin N) ℂ} (hh : h.IsHermitian) {U : Matrix (Fin N) κ ℂ} {ε : κ → ℝ}
    (hU : U * Uᴴ = 1) (he : h * U = U * diagonal fun k => (ε k : ℂ)) (T : ℝ) (p q : Fin N) (Y : Op N 2)
    (hY : ∀ l, fermiMat U ε T l p ≠ 0 → Y * create l = create l * Y) :
    trace (boltzOp (secondQuant h) T * (create p * annih q * Y)) =
      fermiMat U ε T q p * trace (boltzOp (secondQuant h) T * Y) := by
  rw [Matrix.mul_assoc (create p), trace_create hh hU he, Finset.sum_eq_single q]
  · by_cases h0 : fermiMat U ε T q p = 0
    · rw [h0, zero_mul, zero_mul]
    congr 3
    rw [Matrix.mul_assoc, hY q h0, ← Matrix.mul_assoc, ← Matrix.mul_assoc, ← Matrix.add_mul, add_comm, car1,
      if_pos rfl, Matrix.one_mul]
  · intro l _ hl
    by_cases h0 : fermiMat U ε T l p = 0
    · rw [h0, zero_mul]
    rw [Matrix.mul_assoc, hY l h0, ← Matrix.mul_assoc, ← Matrix.mul_assoc, ← Matrix.add_mul, add_comm, car1,
      if_neg hl.symm, Matrix.zero_mul, Matrix.mul_zero, trace_zero, mul_zero]
  · simp

/-- Two pairs of operators, beside an operator `Y` of modes that are not connected (Wick's theorem). -/
theorem trace_wick4 {h : Matrix (Fin N) (Fin N) ℂ} (hh : h.IsHermitian) {U : Matrix (Fin N) κ ℂ} {ε : κ → ℝ}
    (hU : U * Uᴴ = 1) (he : h * U = U * diagonal fun k => (ε k : ℂ)) (T : ℝ) (p q r s : Fin N) (Y : Op N 2)
    (hYp : ∀ l, fermiMat U ε T l p ≠ 0 → Y * create l = create l * Y)
    (hYr : ∀ l, fermiMat U ε T l r ≠ 0 → Y * create l = create l * Y) :
    trace (boltzOp (secondQuant h) T * (create p * annih q * (create r * annih s) * Y)) =
      (fermiMat U ε T q p * fermiMat U ε T s r +
        fermiMat U ε T s p * ((if q = r then 1 else 0) - fermiMat U ε T q r)) *
      trace (boltzOp (secondQuant h) T * Y) := by
  have key : ∀ l, create l * (annih q * (create r * annih s)) + annih q * (create r * annih s) * create l =
      (if q = l then 1 else 0 : ℂ) • (create r * annih s) + (if s = l then 1 else 0 : ℂ) • (annih q * create r) := by
    intro l
    have a1 : create l * annih q = (if q = l then 1 else 0) - annih q * create l := eq_sub_of_add_eq' (car1 q l)
    have a2 : create l * create r = -(create r * create l) := by
      rw [eq_neg_iff_add_eq_zero]; exact car2 l r
    have a3 : create l * annih s = (if s = l then 1 else 0) - annih s * create l := eq_sub_of_add_eq' (car1 s l)
    have b1 : create l * (annih q * (create r * annih s)) = (if q = l then 1 else 0 : ℂ) • (create r * annih s) -
        annih q * (create l * (create r * annih s)) := by
      rw [← Matrix.mul_assoc, a1, Matrix.sub_mul, Matrix.mul_assoc]
      split_ifs <;> simp
    have b2 : create l * (create r * annih s) = create r * annih s * create l -
        (if s = l then 1 else 0 : ℂ) • create r := by
      rw [← Matrix.mul_assoc, a2, Matrix.neg_mul, Matrix.mul_assoc, a3, Matrix.mul_sub, Matrix.mul_assoc]
      split_ifs <;> simp
    rw [b1, b2, Matrix.mul_sub, Matrix.mul_smul, Matrix.mul_assoc (annih q)]
    abel
  have hA : ∀ l, fermiMat U ε T l p ≠ 0 → create l * (annih q * (create r * annih s) * Y) +
      annih q * (create r * annih s) * Y * create l =
      (if q = l then 1 else 0 : ℂ) • (create r * annih s * Y) +
        (if s = l then 1 else 0 : ℂ) • ((if q = r then 1 else 0 : ℂ) • Y - create r * annih q * Y) := by
    intro l h0
    have e : annih q * create r = (if q = r then 1 else 0) - create r * annih q := eq_sub_of_add_eq (car1 q r)
    rw [Matrix.mul_assoc _ Y, hYp l h0, ← Matrix.mul_assoc, ← Matrix.mul_assoc _ (create l) Y, ← Matrix.add_mul, key,
      Matrix.add_mul, Matrix.smul_mul, Matrix.smul_mul, e, Matrix.sub_mul]
    congr 3
    split_ifs <;> simp
  rw [Matrix.mul_assoc (create p), Matrix.mul_assoc (create p), trace_create hh hU he]
  have e1 : ∀ l, fermiMat U ε T l p * trace (boltzOp (secondQuant h) T *
      (create l * (annih q * (create r * annih s) * Y) + annih q * (create r * annih s) * Y * create l)) =
      (if q = l then fermiMat U ε T l p * trace (boltzOp (secondQuant h) T * (create r * annih s * Y)) else 0) +
      (if s = l then fermiMat U ε T l p * ((if q = r then 1 else 0) * trace (boltzOp (secondQuant h) T * Y) -
        trace (boltzOp (secondQuant h) T * (create r * annih q * Y))) else 0) := by
    intro l
    by_cases h0 : fermiMat U ε T l p = 0
    · simp [h0]
    rw [hA l h0, Matrix.mul_add, trace_add, Matrix.mul_smul, Matrix.mul_smul, Matrix.mul_sub, Matrix.mul_smul, trace_smul,
      trace_smul, trace_sub, trace_smul]
    simp only [smul_eq_mul]
    split_ifs <;> ring
  simp only [e1, Finset.sum_add_distrib, Finset.sum_ite_eq, Finset.mem_univ, if_true]
  rw [trace_wick2 hh hU he T r s Y hYr, trace_wick2 hh hU he T r q Y hYr]
  ring

end ED
