import Verif.Spec.SpinCluster
import Verif.Lemmas.Gibbs
import Verif.Lemmas.SpinAlg

/-! # Lemmas: the spin model on isomorphic sets of sites -/

namespace ED

open Matrix

section

variable {ι κ : Type*} [Fintype ι] [DecidableEq ι] [Fintype κ] [DecidableEq κ]

/-- Every Hermitian matrix has a basis of eigenvectors. -/
theorem exists_eig {H : Matrix ι ι ℂ} (hH : H.IsHermitian) : ∃ (V : Matrix ι ι ℂ) (w : ι → ℝ),
    Vᴴ * V = 1 ∧ V * Vᴴ = 1 ∧ H * V = V * diagonal fun i => (w i : ℂ) := by
  refine ⟨hH.eigenvectorUnitary, hH.eigenvalues, ?_, ?_, ?_⟩
  · exact Unitary.star_mul_self_of_mem hH.eigenvectorUnitary.2
  · exact Unitary.mul_star_self_of_mem hH.eigenvectorUnitary.2
  · have h := hH.spectral_theorem
    rw [Unitary.conjStarAlgAut_apply] at h
    have e := congrArg (fun A => A * (hH.eigenvectorUnitary : Matrix ι ι ℂ)) h
    refine e.trans ?_
    rw [Matrix.mul_assoc, Unitary.star_mul_self_of_mem hH.eigenvectorUnitary.2, Matrix.mul_one]
    rfl

theorem vonNeumann_hermitian [Nonempty ι] {H : Matrix ι ι ℂ} (hH : H.IsHermitian) (T : ℝ) :
    vonNeumann (gibbs H T) = Real.log (partitionFn H T) + thermalAvg H H T / T := by
  obtain ⟨V, w, h1, h2, h3⟩ := exists_eig hH
  have hZ := partitionFn_eig h1 h2 h3 T
  refine vonNeumann_gibbs hH ?_ ?_
  · rw [hZ]
    exact Finset.sum_pos (fun k _ => Real.exp_pos _) Finset.univ_nonempty
  · rw [boltzOp_eig h1 h2 h3, Matrix.mul_assoc, trace_mul_comm, Matrix.mul_assoc, h1, Matrix.mul_one, trace_diagonal,
      hZ, Complex.ofReal_sum]

theorem smul_submatrix' (c : ℂ) (f : κ → ι) (H : Matrix ι ι ℂ) : c • H.submatrix f f = (c • H).submatrix f f := rfl

theorem boltzOp_submatrix (f : κ ≃ ι) (H : Matrix ι ι ℂ) (T : ℝ) :
    boltzOp (H.submatrix f f) T = (boltzOp H T).submatrix f f := by
  unfold boltzOp
  rw [smul_submatrix']
  generalize -(1 / T : ℂ) • H = A
  let g : Matrix ι ι ℂ →+* Matrix κ κ ℂ :=
    { toFun := fun D => D.submatrix f f
      map_one' := submatrix_one_equiv f
      map_zero' := rfl
      map_add' := fun A B => rfl
      map_mul' := fun A B => (submatrix_mul_equiv A B f f f).symm }
  have hg : Continuous g := by
    change Continuous fun D : Matrix ι ι ℂ => D.submatrix f f
    fun_prop
  open scoped Matrix.Norms.Operator in
  exact (NormedSpace.map_exp g hg A).symm

theorem trace_submatrix_equiv (f : κ ≃ ι) (A : Matrix ι ι ℂ) : trace (A.submatrix f f) = trace A := by
  unfold trace
  exact Equiv.sum_comp f fun i => A i i

theorem partitionFn_submatrix (f : κ ≃ ι) (H : Matrix ι ι ℂ) (T : ℝ) :
    partitionFn (H.submatrix f f) T = partitionFn H T := by
  unfold partitionFn
  rw [boltzOp_submatrix, trace_submatrix_equiv]

theorem thermalAvg_submatrix (f : κ ≃ ι) (H O : Matrix ι ι ℂ) (T : ℝ) :
    thermalAvg (H.submatrix f f) (O.submatrix f f) T = thermalAvg H O T := by
  unfold thermalAvg gibbs
  rw [partitionFn_submatrix, boltzOp_submatrix, smul_submatrix', submatrix_mul_equiv, trace_submatrix_equiv]

theorem boltzOp_transpose (H : Matrix ι ι ℂ) (T : ℝ) : boltzOp Hᵀ T = (boltzOp H T)ᵀ := by
  unfold boltzOp
  rw [← transpose_smul, Matrix.exp_transpose]

theorem partitionFn_transpose (H : Matrix ι ι ℂ) (T : ℝ) : partitionFn Hᵀ T = partitionFn H T := by
  unfold partitionFn
  rw [boltzOp_transpose, trace_transpose]

theorem thermalAvg_transpose (H O : Matrix ι ι ℂ) (T : ℝ) : thermalAvg Hᵀ Oᵀ T = thermalAvg H O T := by
  unfold thermalAvg gibbs
  rw [partitionFn_transpose, boltzOp_transpose, ← transpose_smul, ← transpose_mul, trace_transpose, trace_mul_comm]

end

section

variable {σ τ : Type*} [Fintype σ] [DecidableEq σ] [Fintype τ] [DecidableEq τ]

/-- Moving spins to other sites. -/
def moveSpins (e : σ ≃ τ) : (σ → Fin 2) ≃ (τ → Fin 2) := Equiv.arrowCongr e (Equiv.refl _)

theorem spinAt_apply (A : Matrix (Fin 2) (Fin 2) ℂ) (i : σ) (s t : σ → Fin 2) :
    spinAt A i s t = if ∀ j, j ≠ i → s j = t j then A (s i) (t i) else 0 := rfl

theorem spinAt_move (e : σ ≃ τ) (A : Matrix (Fin 2) (Fin 2) ℂ) (i : σ) :
    (spinAt A (e i)).submatrix (moveSpins e) (moveSpins e) = spinAt A i := by
  ext s t
  rw [submatrix_apply]
  unfold spinAt moveSpins
  simp only [of_apply, Equiv.arrowCongr_apply, Equiv.coe_refl, Function.comp_apply, id, Equiv.symm_apply_apply]
  congr 1
  rw [eq_iff_iff]
  constructor
  · intro h j hj
    simpa using h (e j) (by simpa using hj)
  · intro h j hj
    exact h _ (by rintro rfl; simp at hj)

theorem submatrix_ite' {ι κ : Type*} (c : Prop) [Decidable c] (A : Matrix ι ι ℂ) (f : κ → ι) :
    (if c then A else 0).submatrix f f = if c then A.submatrix f f else 0 := by
  split_ifs <;> rfl

theorem submatrix_sum' {ι κ α : Type*} (s : Finset α) (A : α → Matrix ι ι ℂ) (f : κ → ι) :
    (∑ a ∈ s, A a).submatrix f f = ∑ a ∈ s, (A a).submatrix f f := by
  ext i j
  simp [Matrix.sum_apply]

theorem spinAt_mul_move (e : σ ≃ τ) (A B : Matrix (Fin 2) (Fin 2) ℂ) (i k : σ) :
    (spinAt A (e i) * spinAt B (e k)).submatrix (moveSpins e) (moveSpins e) = spinAt A i * spinAt B k := by
  rw [← submatrix_mul_equiv _ _ _ (moveSpins e), spinAt_move, spinAt_move]

theorem spinHOn_move (e : σ ≃ τ) {adj : σ → σ → Prop} {adj' : τ → τ → Prop} (h : ∀ i k, adj i k ↔ adj' (e i) (e k))
    (jx jy jz hx hy hz : ℂ) :
    (spinHOn adj' jx jy jz hx hy hz).submatrix (moveSpins e) (moveSpins e) = spinHOn adj jx jy jz hx hy hz := by
  classical
  unfold spinHOn
  rw [← Equiv.sum_comp e, ← Equiv.sum_comp e (fun i => hx • spinAt sigmaX i + hy • spinAt sigmaY i + hz • spinAt sigmaZ i)]
  simp only [← Equiv.sum_comp e (fun k => if adj' _ k then _ else _)]
  rw [submatrix_sub, Pi.sub_apply, Pi.sub_apply, submatrix_smul, Pi.smul_apply, Pi.smul_apply, submatrix_smul,
    Pi.smul_apply, Pi.smul_apply, submatrix_sum', submatrix_sum']
  congr 2
  · refine Finset.sum_congr rfl fun i _ => ?_
    rw [submatrix_sum']
    refine Finset.sum_congr rfl fun k _ => ?_
    simp only [h i k]
    rw [submatrix_ite']
    simp only [submatrix_add, submatrix_smul, Pi.add_apply, Pi.smul_apply, spinAt_mul_move]
  · refine Finset.sum_congr rfl fun i _ => ?_
    simp only [submatrix_add, submatrix_smul, Pi.add_apply, Pi.smul_apply, spinAt_move]

theorem szszOn_move (e : σ ≃ τ) : (szszOn τ).submatrix (moveSpins e) (moveSpins e) = szszOn σ := by
  unfold szszOn
  rw [← Equiv.sum_comp e]
  simp only [← Equiv.sum_comp e (fun k => if _ ≠ k then _ else _)]
  rw [submatrix_smul, Pi.smul_apply, Pi.smul_apply, submatrix_sum']
  congr 1
  refine Finset.sum_congr rfl fun i _ => ?_
  rw [submatrix_sum']
  refine Finset.sum_congr rfl fun k _ => ?_
  rw [submatrix_ite']
  simp only [spinAt_mul_move, ne_eq, e.injective.eq_iff]

theorem spinAt_fin {n : ℕ} (A : Matrix (Fin 2) (Fin 2) ℂ) (i : Fin n) : spinAt A i = (siteOp A i : Op n 2) := by
  ext s t
  unfold spinAt siteOp AgreeOff
  rw [of_apply, of_apply]
  congr

theorem spinAt_comm {i k : σ} (h : i ≠ k) (A B : Matrix (Fin 2) (Fin 2) ℂ) :
    spinAt A i * spinAt B k = spinAt B k * spinAt A i := by
  have e := Fintype.equivFin σ
  rw [← spinAt_mul_move e, ← spinAt_mul_move e, spinAt_fin, spinAt_fin, siteOp_comm (fun h' => h (e.injective h'))]

theorem spinAt_conj (A : Matrix (Fin 2) (Fin 2) ℂ) (i : σ) : (spinAt A i)ᴴ = spinAt Aᴴ i := by
  ext s t
  simp only [spinAt, conjTranspose_apply, of_apply, @eq_comm _ (t _) (s _)]
  split_ifs <;> simp

theorem spinAt_transpose (A : Matrix (Fin 2) (Fin 2) ℂ) (i : σ) : (spinAt A i)ᵀ = spinAt Aᵀ i := by
  ext s t
  simp only [spinAt, transpose_apply, of_apply, @eq_comm _ (t _) (s _)]

theorem spinAt_neg (A : Matrix (Fin 2) (Fin 2) ℂ) (i : σ) : spinAt (-A) i = -spinAt A i := by
  ext s t
  rw [neg_apply, spinAt_apply, spinAt_apply]
  split_ifs
  · rfl
  · rw [neg_zero]

theorem sigma_conj : sigmaXᴴ = sigmaX ∧ sigmaYᴴ = sigmaY ∧ sigmaZᴴ = sigmaZ := by
  refine ⟨?_, ?_, ?_⟩ <;> ext i j <;> fin_cases i <;> fin_cases j <;> simp [sigmaX, sigmaY, sigmaZ]

theorem sigma_transpose : sigmaXᵀ = sigmaX ∧ sigmaYᵀ = -sigmaY ∧ sigmaZᵀ = sigmaZ := by
  refine ⟨?_, ?_, ?_⟩ <;> ext i j <;> fin_cases i <;> fin_cases j <;> simp [sigmaX, sigmaY, sigmaZ]

theorem spinHOn_conj {adj : σ → σ → Prop} (h : ∀ i, ¬ adj i i) (jx jy jz hx hy hz : ℝ) :
    (spinHOn adj jx jy jz hx hy hz).IsHermitian := by
  classical
  obtain ⟨e1, e2, e3⟩ := sigma_conj
  unfold Matrix.IsHermitian spinHOn
  simp only [conjTranspose_sub, conjTranspose_smul, conjTranspose_sum, conjTranspose_add, spinAt_conj, e1, e2, e3]
  congr 1
  · congr 1
    · simp
    refine Finset.sum_congr rfl fun i _ => Finset.sum_congr rfl fun k _ => ?_
    split_ifs with hik
    · have hne : i ≠ k := fun e => h i (by rw [← e] at hik; exact hik)
      simp only [conjTranspose_add, conjTranspose_smul, conjTranspose_mul, spinAt_conj, e1, e2, e3,
        spinAt_comm hne]
      simp
    · simp
  · congr 1
    · simp
    simp

theorem spinHOn_transpose {adj : σ → σ → Prop} (h : ∀ i, ¬ adj i i) (jx jy jz hx hy hz : ℂ) :
    (spinHOn adj jx jy jz hx hy hz)ᵀ = spinHOn adj jx jy jz hx (-hy) hz := by
  classical
  obtain ⟨e1, e2, e3⟩ := sigma_transpose
  unfold spinHOn
  simp only [transpose_sub, transpose_smul, transpose_sum, transpose_add, spinAt_transpose, e1, e2, e3, spinAt_neg]
  congr 1
  · congr 1
    refine Finset.sum_congr rfl fun i _ => Finset.sum_congr rfl fun k _ => ?_
    split_ifs with hik
    · have hne : i ≠ k := fun e => h i (by rw [← e] at hik; exact hik)
      simp only [transpose_add, transpose_smul, transpose_mul, spinAt_transpose, e1, e2, e3, spinAt_neg, neg_mul_neg,
        spinAt_comm hne]
    · simp
  · simp

theorem szszOn_transpose : (szszOn σ)ᵀ = szszOn σ := by
  obtain ⟨-, -, e3⟩ := sigma_transpose
  unfold szszOn
  simp only [transpose_smul, transpose_sum]
  congr 1
  refine Finset.sum_congr rfl fun i _ => Finset.sum_congr rfl fun k _ => ?_
  split_ifs with hik
  · simp only [transpose_mul, spinAt_transpose, e3, spinAt_comm hik]
  · simp

/-- Sums over pairs. -/
theorem sum_pairs {M : Type*} [AddCommGroup M] [Module ℂ M] {n : ℕ} (f : Fin n → Fin n → M) (hs : ∀ i k, f i k = f k i)
    (h0 : ∀ i, f i i = 0) : (1 / 2 : ℂ) • ∑ i, ∑ k, f i k = ∑ i, ∑ k, if k < i then f i k else 0 := by
  have h1 : ∑ i, ∑ k, f i k = (∑ i, ∑ k, if k < i then f i k else 0) + ∑ i, ∑ k, if i < k then f i k else 0 := by
    rw [← Finset.sum_add_distrib]
    refine Finset.sum_congr rfl fun i _ => ?_
    rw [← Finset.sum_add_distrib]
    refine Finset.sum_congr rfl fun k _ => ?_
    rcases lt_trichotomy i k with h | h | h
    · simp [h, h.le, not_lt.2 h.le]
    · subst h
      simp [h0]
    · simp [h, not_lt.2 h.le]
  have h2 : (∑ i, ∑ k, if i < k then f i k else 0) = ∑ i, ∑ k, if k < i then f i k else 0 := by
    rw [Finset.sum_comm]
    refine Finset.sum_congr rfl fun i _ => Finset.sum_congr rfl fun k _ => ?_
    rw [hs]
  rw [h1, h2, ← two_smul ℂ, smul_smul]
  norm_num

/-- The Hamiltonian of the class documentation with couplings between neighbours. -/
theorem spinH_eq {n : ℕ} {adj : Fin n → Fin n → Prop} (h : ∀ i, ¬ adj i i) (hs : ∀ i k, adj i k ↔ adj k i)
    {a : Fin n → Fin n → ℂ} (h1 : ∀ i k, adj i k → a i k = 1) (h0 : ∀ i k, ¬ adj i k → a i k = 0)
    (jx jy jz hx hy hz : ℂ) :
    (spinH (fun i k => jx * a i k) (fun i k => jy * a i k) (fun i k => jz * a i k) (fun _ => hx) (fun _ => hy)
      (fun _ => hz) : Op n 2) = spinHOn adj jx jy jz hx hy hz := by
  classical
  let G : Fin n → Fin n → Op n 2 := fun i k => if adj i k then (1 / 2 : ℂ) • (jx • (siteOp sigmaX i * siteOp sigmaX k) +
      jy • (siteOp sigmaY i * siteOp sigmaY k) + jz • (siteOp sigmaZ i * siteOp sigmaZ k)) else 0
  have hG := sum_pairs G (fun i k => by
    by_cases hik : adj i k
    · have hne : i ≠ k := fun e => h i (by rw [← e] at hik; exact hik)
      simp only [G, if_pos hik, if_pos ((hs i k).1 hik), siteOp_comm hne]
    · simp only [G, if_neg hik, if_neg (fun h => hik ((hs i k).2 h))]) (fun i => if_neg (h i))
  unfold spinH spinHOn
  simp only [spinAt_fin]
  congr 1
  · have e1 : (1 / 4 : ℂ) • (∑ i, ∑ k, if adj i k then jx • (siteOp sigmaX i * siteOp sigmaX k) +
        jy • (siteOp sigmaY i * siteOp sigmaY k) + jz • (siteOp sigmaZ i * siteOp sigmaZ k) else (0 : Op n 2)) =
        (1 / 2 : ℂ) • ∑ i, ∑ k, G i k := by
      have : (1 / 4 : ℂ) = 1 / 2 * (1 / 2) := by norm_num
      rw [this, mul_smul]
      congr 1
      simp only [Finset.smul_sum]
      refine Finset.sum_congr rfl fun i _ => Finset.sum_congr rfl fun k _ => ?_
      simp only [G, smul_ite, smul_zero]
    rw [e1, hG]
    refine Finset.sum_congr rfl fun i _ => Finset.sum_congr rfl fun k _ => ?_
    simp only [G]
    by_cases hik : adj i k
    · simp only [h1 i k hik, if_pos hik, mul_one]
    · simp only [h0 i k hik, if_neg hik, mul_zero, zero_smul, add_zero, smul_zero]
  · rw [Finset.smul_sum]

end

end ED
