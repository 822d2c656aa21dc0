import Verif.Lemmas.SpinSites
import Verif.Lemmas.NumberSectors

/-! # Helper lemmas: the levels of groups of spins -/

namespace ED

open scoped BigOperators
open Matrix

/-- The norms of the states of a multiplet. -/
noncomputable def normD (d : ℕ) : ℕ → ℝ
  | 0 => 1
  | j + 1 => normD d j * Real.sqrt ((j + 1) * (d - j))

theorem normD_ne (d : ℕ) {j : ℕ} (hj : j ≤ d) : normD d j ≠ 0 := by
  induction j with
  | zero => exact one_ne_zero
  | succ j ih =>
    refine mul_ne_zero (ih (by omega)) (Real.sqrt_ne_zero'.2 (mul_pos (by positivity) ?_))
    have : (j : ℝ) + 1 ≤ d := by exact_mod_cast hj
    linarith

/-- The spin matrices of the code in the basis without square roots. -/
theorem spin_std (d : ℕ) : ∃ D D' : Matrix (Fin (d + 1)) (Fin (d + 1)) ℂ, D * D' = 1 ∧ D' * D = 1 ∧ smM d * D = D * stdE d ∧
    spM d * D = D * stdF d ∧ (2 : ℂ) • szM d * D = D * stdH d := by
  have hne : ∀ j : Fin (d + 1), ((normD d j : ℝ) : ℂ) ≠ 0 := fun j => Complex.ofReal_ne_zero.2 (normD_ne d (by omega))
  refine ⟨diagonal fun j => ((normD d j : ℝ) : ℂ), diagonal fun j => ((normD d j : ℝ) : ℂ)⁻¹, ?_, ?_, ?_, ?_, ?_⟩
  · rw [diagonal_mul_diagonal, ← diagonal_one]
    congr 1; funext j; exact mul_inv_cancel₀ (hne j)
  · rw [diagonal_mul_diagonal, ← diagonal_one]
    congr 1; funext j; exact inv_mul_cancel₀ (hne j)
  · ext i j
    rw [mul_diagonal, diagonal_mul, smM, stdE, of_apply, of_apply]
    split_ifs with h
    · have hn : (0 : ℝ) ≤ ((i : ℕ) + 1) * (d - (i : ℕ)) := by
        refine mul_nonneg (by positivity) ?_
        have : ((i : ℕ) : ℝ) ≤ d := by exact_mod_cast (by omega : (i : ℕ) ≤ d)
        linarith
      rw [h, normD, Complex.ofReal_mul, mul_left_comm, sqrt_sq_c hn]
      push_cast
      ring
    · rw [zero_mul, mul_zero]
  · ext i j
    rw [mul_diagonal, diagonal_mul, spM, stdF, of_apply, of_apply]
    split_ifs with h
    · rw [h, normD, Complex.ofReal_mul, mul_comm, mul_one]
    · rw [zero_mul, mul_zero]
  · rw [szM, stdH, ← diagonal_smul, diagonal_mul_diagonal, diagonal_mul_diagonal]
    congr 1; funext j
    rw [Pi.smul_apply, smul_eq_mul]
    push_cast
    ring

variable {n : ℕ}

theorem siteOp_add' {b : ℕ} (A B : Matrix (Fin b) (Fin b) ℂ) (i : Fin n) : siteOp (A + B) i = siteOp A i + siteOp B i := by
  ext s t
  rw [Matrix.add_apply, siteOp, siteOp, siteOp, of_apply, of_apply, of_apply]
  split_ifs <;> simp

theorem siteOp_sub' {b : ℕ} (A B : Matrix (Fin b) (Fin b) ℂ) (i : Fin n) : siteOp (A - B) i = siteOp A i - siteOp B i := by
  ext s t
  rw [Matrix.sub_apply, siteOp, siteOp, siteOp, of_apply, of_apply, of_apply]
  split_ifs <;> simp

/-- The scalar product of two spins. -/
theorem twoDot_spin (d : ℕ) (i j : Fin n) :
    twoDot (smM d) (spM d) ((2 : ℂ) • szM d) i j = (2 : ℂ) • (siteOp (sxM d) i * siteOp (sxM d) j) +
      (2 : ℂ) • (siteOp (syM d) i * siteOp (syM d) j) + (2 : ℂ) • (siteOp (szM d) i * siteOp (szM d) j) := by
  have hI : (1 / Complex.I) * (1 / 2) * ((1 / Complex.I) * (1 / 2)) = -(1 / 4 : ℂ) := by
    have : Complex.I * Complex.I = -1 := Complex.I_mul_I
    field_simp
    rw [pow_two, this]
    norm_num
  rw [twoDot, sxM, syM]
  simp only [siteOp_smul, siteOp_add', siteOp_sub', smul_mul_assoc, mul_smul_comm, smul_smul]
  rw [show (2 : ℂ) * (1 / Complex.I * (1 / 2) * (1 / Complex.I * (1 / 2))) = -(1 / 2) by rw [hI]; norm_num]
  simp only [add_mul, mul_add, sub_mul, mul_sub]
  module

/-- A sum over pairs, every pair counted once or twice. -/
theorem sum_half_pairs {M : Type} [AddCommGroup M] [Module ℂ M] (W : Fin n → Fin n → M) (hW : ∀ i j, i ≠ j → W i j = W j i) :
    (∑ i, ∑ j, if j < i then W i j else 0) = (1 / 2 : ℂ) • ∑ i, ∑ j, if i = j then 0 else W i j := by
  have h1 : (∑ i, ∑ j, if i = j then 0 else W i j) = (∑ i, ∑ j, if j < i then W i j else 0) + ∑ i, ∑ j, if i < j then W i j else 0 := by
    rw [← Finset.sum_add_distrib]
    refine Finset.sum_congr rfl fun i _ => ?_
    rw [← Finset.sum_add_distrib]
    refine Finset.sum_congr rfl fun j _ => ?_
    rcases lt_trichotomy i j with h | h | h
    · rw [if_neg h.ne, if_neg h.asymm, if_pos h, zero_add]
    · rw [if_pos h, if_neg h.not_gt, if_neg h.not_lt, zero_add]
    · rw [if_neg h.ne', if_pos h, if_neg h.asymm, add_zero]
  have h2 : (∑ i, ∑ j, if i < j then W i j else 0) = ∑ i, ∑ j, if j < i then W i j else 0 := by
    rw [Finset.sum_comm]
    refine Finset.sum_congr rfl fun i _ => Finset.sum_congr rfl fun j _ => ?_
    split_ifs with h
    · exact hW _ _ h.ne
    · rfl
  rw [h1, h2]
  module

/-- The isotropic Hamiltonian. -/
theorem heis_pairs (d : ℕ) (J : Fin n → Fin n → ℝ) (hJ : ∀ i j, J i j = J j i) (jx jy jz : Fin n → Fin n → ℂ)
    (h : ℝ) (hx : ∀ i j, j < i → jx i j = J i j) (hy : ∀ i j, j < i → jy i j = J i j) (hz : ∀ i j, j < i → jz i j = J i j) :
    heis (sxM d) (syM d) (szM d) jx jy jz (fun _ => 0) (fun _ => 0) (fun _ => (h : ℂ)) =
      pairs n J (smM d) (spM d) ((2 : ℂ) • szM d) - (h / 2 : ℂ) • total n ((2 : ℂ) • szM d) := by
  rw [heis, pairs]
  congr 1
  · rw [← sum_half_pairs]
    · refine Finset.sum_congr rfl fun i _ => Finset.sum_congr rfl fun j _ => ?_
      split_ifs with hij
      · rw [hx i j hij, hy i j hij, hz i j hij, twoDot_spin]
        module
      · rfl
    · intro i j hij
      rw [hJ, twoDot_symm _ _ _ hij]
  · rw [total, Finset.smul_sum]
    refine Finset.sum_congr rfl fun i _ => ?_
    rw [siteOp_smul]
    module

/-- Renumbering of the sites. -/
def permConf {b : ℕ} (σ : Equiv.Perm (Fin n)) : Conf n b ≃ Conf n b where
  toFun t := fun i => t (σ i)
  invFun t := fun i => t (σ.symm i)
  left_inv t := by funext i; simp
  right_inv t := by funext i; simp

theorem siteOp_perm {b : ℕ} (σ : Equiv.Perm (Fin n)) (A : Matrix (Fin b) (Fin b) ℂ) (i : Fin n) :
    (siteOp A i : Op n b).submatrix (permConf σ) (permConf σ) = siteOp A (σ i) := by
  ext s t
  rw [submatrix_apply, siteOp, siteOp, of_apply, of_apply]
  refine if_congr ⟨fun h j hj => ?_, fun h j hj => h (σ j) fun e => hj (σ.injective e)⟩ rfl rfl
  have := h (σ.symm j) fun e => hj (by rw [← e, Equiv.apply_symm_apply])
  simpa [permConf] using this

theorem total_perm {b : ℕ} (σ : Equiv.Perm (Fin n)) (A : Matrix (Fin b) (Fin b) ℂ) :
    (total n A).submatrix (permConf σ) (permConf σ) = total n A := by
  rw [total, submatrix_sum]
  simp only [siteOp_perm]
  exact Equiv.sum_comp σ fun i => (siteOp A i : Op n b)

theorem pairs_perm {b : ℕ} (σ : Equiv.Perm (Fin n)) (J : Fin n → Fin n → ℝ) (e f h : Matrix (Fin b) (Fin b) ℂ) :
    (pairs n (fun i j => J (σ i) (σ j)) e f h).submatrix (permConf σ) (permConf σ) = pairs n J e f h := by
  have hif : ∀ (p : Prop) [Decidable p] (A : Op n b), (if p then 0 else A).submatrix (permConf σ) (permConf σ) =
      if p then 0 else A.submatrix (permConf σ) (permConf σ) := by
    intro p _ A
    split_ifs <;> rfl
  have hm : ∀ A B : Op n b, (A * B).submatrix (permConf σ) (permConf σ) =
      A.submatrix (permConf σ) (permConf σ) * B.submatrix (permConf σ) (permConf σ) := fun A B => (submatrix_mul_equiv A B _ _ _).symm
  rw [pairs, submatrix_smul, Pi.smul_apply, Pi.smul_apply, submatrix_sum, pairs]
  simp only [submatrix_sum, hif, submatrix_smul, Pi.smul_apply, twoDot, submatrix_add, Pi.add_apply, hm, siteOp_perm]
  congr 1
  refine Eq.trans ?_ (Equiv.sum_comp σ _)
  refine Finset.sum_congr rfl fun i _ => ?_
  refine Eq.trans ?_ (Equiv.sum_comp σ _)
  refine Finset.sum_congr rfl fun j _ => ?_
  simp only [σ.injective.eq_iff]

/-- The eigenvalues of a matrix, from any basis of eigenvectors. -/
theorem roots_of_basis {ι κ : Type} [Fintype ι] [DecidableEq ι] [Fintype κ] [DecidableEq κ] {H : Matrix ι ι ℂ} {U : Matrix ι κ ℂ} {V : Matrix κ ι ℂ}
    {E : κ → ℝ} (h1 : U * V = 1) (h2 : V * U = 1) (h3 : H * U = U * diagonal fun k => (E k : ℂ)) :
    H.charpoly.roots = Finset.univ.val.map fun k => (E k : ℂ) := by
  have hH : H = U * diagonal (fun k => (E k : ℂ)) * V := by
    rw [← h3, Matrix.mul_assoc, h1, Matrix.mul_one]
  have hcard : Fintype.card ι = Fintype.card κ := by
    have := Matrix.trace_mul_comm V U
    rw [h1, h2, trace_one, trace_one] at this
    exact_mod_cast this.symm
  have hc : H.charpoly = (diagonal fun k => (E k : ℂ)).charpoly := by
    have := Matrix.charpoly_mul_comm' (U * diagonal (fun k => (E k : ℂ))) V
    rw [← hH, ← Matrix.mul_assoc, h2, Matrix.one_mul, hcard] at this
    exact mul_left_cancel₀ (pow_ne_zero _ Polynomial.X_ne_zero) this
  rw [hc, charpoly_diagonal]
  have := Polynomial.roots_multiset_prod_X_sub_C (Finset.univ.val.map fun k => (E k : ℂ))
  rwa [Multiset.map_map] at this

/-- The eigenvalues of a group of spins in a field. -/
theorem group_roots (d : ℕ) (T : Group) (σ : Equiv.Perm (Fin T.size)) (h : ℝ) (jx jy jz : Fin T.size → Fin T.size → ℂ)
    (hx : ∀ i j, j < i → jx i j = (T.coupling (σ i) (σ j) : ℝ)) (hy : ∀ i j, j < i → jy i j = (T.coupling (σ i) (σ j) : ℝ))
    (hz : ∀ i j, j < i → jz i j = (T.coupling (σ i) (σ j) : ℝ)) :
    (heis (sxM d) (syM d) (szM d) jx jy jz (fun _ => 0) (fun _ => 0) (fun _ => (h : ℂ))).charpoly.roots =
      ((levels h (T.multiplets d)).map fun x : ℝ => (x : ℂ) : List ℂ) := by
  obtain ⟨D, D', h1, h2, he, hf, hh⟩ := spin_std d
  have hd := group_dec d h1 h2 he hf hh T
  have hd' : Dec (total T.size (smM d)) (total T.size (spM d)) (total T.size ((2 : ℂ) • szM d))
      (pairs T.size (fun i j => T.coupling (σ i) (σ j)) (smM d) (spM d) ((2 : ℂ) • szM d)) (T.multiplets d : List (ℕ × ℝ)) := by
    refine Dec.reindex (permConf σ) ?_
    have := pairs_perm σ (fun i j => T.coupling i j) (smM d) (spM d) ((2 : ℂ) • szM d)
    rw [total_perm, total_perm, total_perm, this]
    exact hd
  obtain ⟨κ, _, _, U, V, E, Z, k1, k2, k3, k4, k5⟩ := hd'.diag
  rw [heis_pairs d (fun i j => T.coupling (σ i) (σ j)) (fun i j => coupling_symm T _ _) jx jy jz h hx hy hz]
  rw [roots_of_basis (E := fun k => E k - h * Z k) k1 k2]
  · have := congrArg (Multiset.map fun p : ℝ × ℝ => ((p.1 - h * p.2 : ℝ) : ℂ)) k5
    rw [Multiset.map_map] at this
    refine Eq.trans this ?_
    rw [levels, ← Multiset.map_coe, ← Multiset.coe_bind, Multiset.map_bind, Multiset.map_bind]
    congr 1
    funext p
    rw [Multiset.map_map, ← Multiset.map_coe, Multiset.map_map]
    rfl
  · rw [Matrix.sub_mul, k3, Matrix.smul_mul, k4, ← Matrix.mul_smul, ← Matrix.mul_sub, ← diagonal_smul, diagonal_sub]
    congr 2
    funext k
    rw [Pi.smul_apply, smul_eq_mul]
    push_cast
    ring

end ED
