import Verif.Spec.Atomic
import Verif.Lemmas.Gibbs
import Verif.Lemmas.FreeModes

/-! # Lemmas: independent sites in the canonical ensemble -/

namespace ED

open Matrix

section

variable {ι : Type*} [Fintype ι] [DecidableEq ι] {κ : ι → Type*} [∀ i, Fintype (κ i)] [∀ i, Nonempty (κ i)]

theorem levelsZ_pos {κ : Type*} [Fintype κ] [Nonempty κ] (T : ℝ) (E : κ → ℝ) : 0 < levelsZ T E :=
  Finset.sum_pos (fun _ _ => Real.exp_pos _) Finset.univ_nonempty

/-- The partition function of independent parts is the product of theirs. -/
theorem levelsZ_pi (T : ℝ) (E : ∀ i, κ i → ℝ) :
    levelsZ T (fun n : ∀ i, κ i => ∑ i, E i (n i)) = ∏ i, levelsZ T (E i) := by
  unfold levelsZ
  rw [Finset.prod_univ_sum, Fintype.piFinset_univ]
  refine Finset.sum_congr rfl fun n _ => ?_
  rw [← Real.exp_sum, ← Finset.sum_neg_distrib, Finset.sum_div]

/-- The average of a product over independent parts is the product of the averages. -/
theorem canonical_pi {T : ℝ} (hT : T ≠ 0) (E f : ∀ i, κ i → ℝ) :
    canonical T (fun n : ∀ i, κ i => ∑ i, E i (n i)) (fun n => ∏ i, f i (n i)) = ∏ i, canonical T (E i) (f i) := by
  simp only [canonical_ne hT]
  rw [Finset.prod_div_distrib, Finset.prod_univ_sum, Fintype.piFinset_univ]
  congr 1
  · refine Finset.sum_congr rfl fun n _ => ?_
    rw [Finset.prod_mul_distrib, ← Real.exp_sum, ← Finset.sum_neg_distrib, Finset.sum_div]
  · exact levelsZ_pi T E

theorem canonical_const {κ : Type*} [Fintype κ] [Nonempty κ] {T : ℝ} (hT : T ≠ 0) (E : κ → ℝ) (c : ℝ) :
    canonical T E (fun _ => c) = c := by
  rw [canonical_ne hT, ← Finset.sum_mul, mul_comm]
  exact mul_div_cancel_right₀ _ (levelsZ_pos T E).ne'

theorem canonical_sum {κ α : Type*} [Fintype κ] (T : ℝ) (E : κ → ℝ) (s : Finset α) (f : α → κ → ℝ) :
    canonical T E (fun k => ∑ a ∈ s, f a k) = ∑ a ∈ s, canonical T E (f a) := by
  unfold canonical
  rw [← Finset.sum_div, Finset.sum_comm]
  simp only [Finset.mul_sum]

/-- The average of a function of one part. -/
theorem canonical_one {T : ℝ} (hT : T ≠ 0) (E : ∀ i, κ i → ℝ) (i : ι) (f : κ i → ℝ) :
    canonical T (fun n : ∀ i, κ i => ∑ i, E i (n i)) (fun n => f (n i)) = canonical T (E i) f := by
  have h := canonical_pi hT E fun j x => if h : j = i then f (h ▸ x) else 1
  rw [Fintype.prod_eq_single i] at h
  · simp only [dif_pos] at h
    rw [← h]
    congr 1
    funext n
    rw [Fintype.prod_eq_single i]
    · simp
    · intro j hj
      simp [hj]
  · intro j hj
    simp only [dif_neg hj]
    exact canonical_const hT _ 1

/-- The average of a product of functions of two parts. -/
theorem canonical_two {T : ℝ} (hT : T ≠ 0) (E : ∀ i, κ i → ℝ) {i j : ι} (hij : i ≠ j) (f : κ i → ℝ) (g : κ j → ℝ) :
    canonical T (fun n : ∀ i, κ i => ∑ i, E i (n i)) (fun n => f (n i) * g (n j)) =
      canonical T (E i) f * canonical T (E j) g := by
  have h := canonical_pi hT E fun k x => if h : k = i then f (h ▸ x) else if h : k = j then g (h ▸ x) else 1
  rw [Finset.prod_eq_mul i j hij] at h
  · simp only [dif_pos, dif_neg hij.symm] at h
    rw [← h]
    congr 1
    funext n
    rw [Finset.prod_eq_mul i j hij]
    · simp [hij.symm]
    · rintro k - ⟨h1, h2⟩
      simp [h1, h2]
    · simp
    · simp
  · rintro k - ⟨h1, h2⟩
    simp only [dif_neg h1, dif_neg h2]
    exact canonical_const hT _ 1
  · simp
  · simp

theorem energy_pi {T : ℝ} (hT : T ≠ 0) (E : ∀ i, κ i → ℝ) :
    canonical T (fun n : ∀ i, κ i => ∑ i, E i (n i)) (fun n => ∑ i, E i (n i)) = ∑ i, canonical T (E i) (E i) := by
  rw [canonical_sum]
  exact Finset.sum_congr rfl fun i _ => canonical_one hT E i (E i)

theorem levelsEntropy_eq {κ : Type*} [Fintype κ] [Nonempty κ] {T : ℝ} (hT : T ≠ 0) (E : κ → ℝ) :
    levelsEntropy T E = Real.log (levelsZ T E) + canonical T E E / T := by
  have hZ := levelsZ_pos T E
  have h1 : ∀ k, Real.negMulLog (Real.exp (-E k / T) / levelsZ T E) =
      Real.log (levelsZ T E) * (Real.exp (-E k / T) / levelsZ T E) + (Real.exp (-E k / T) * E k) / levelsZ T E / T :=
    fun k => by
      rw [Real.negMulLog, Real.log_div (Real.exp_pos _).ne' hZ.ne', Real.log_exp]
      field_simp
      ring
  unfold levelsEntropy
  rw [Finset.sum_congr rfl fun k _ => h1 k, Finset.sum_add_distrib, ← Finset.mul_sum, ← Finset.sum_div, ← Finset.sum_div,
    ← Finset.sum_div, canonical_ne hT]
  have : (∑ k, Real.exp (-E k / T)) / levelsZ T E = 1 := div_self hZ.ne'
  rw [this, mul_one]
  rfl

theorem levelsEntropy_pi {T : ℝ} (hT : T ≠ 0) (E : ∀ i, κ i → ℝ) :
    levelsEntropy T (fun n : ∀ i, κ i => ∑ i, E i (n i)) = ∑ i, levelsEntropy T (E i) := by
  rw [levelsEntropy_eq hT, levelsZ_pi, energy_pi hT, Real.log_prod fun i _ => (levelsZ_pos T _).ne', Finset.sum_div,
    ← Finset.sum_add_distrib]
  exact Finset.sum_congr rfl fun i _ => (levelsEntropy_eq hT (E i)).symm

theorem levelsHeat_pi {T : ℝ} (hT : T ≠ 0) (E : ∀ i, κ i → ℝ) :
    levelsHeat T (fun n : ∀ i, κ i => ∑ i, E i (n i)) = ∑ i, levelsHeat T (E i) := by
  have h1 := hasDerivAt_energy (fun n : ∀ i, κ i => ∑ i, E i (n i)) hT
  have h2 : HasDerivAt (fun T => ∑ i, canonical T (E i) (E i)) (∑ i, levelsHeat T (E i)) T :=
    HasDerivAt.fun_sum fun i _ => hasDerivAt_energy (E i) hT
  refine h1.unique (h2.congr_of_eventuallyEq ?_)
  filter_upwards [isOpen_ne.mem_nhds hT] with T hT
  exact energy_pi hT E

end

section

variable {ι κ : Type*} [Fintype ι] [DecidableEq ι] [Fintype κ]

theorem canonical_relabel (e : ι ≃ κ) {T : ℝ} (hT : T ≠ 0) (E v : κ → ℝ) :
    canonical T (fun i => E (e i)) (fun i => v (e i)) = canonical T E v := by
  rw [canonical_ne hT, canonical_ne hT]
  congr 1
  · exact e.sum_comp fun k => Real.exp (-E k / T) * v k
  · exact e.sum_comp fun k => Real.exp (-E k / T)

theorem levelsZ_equiv (e : ι ≃ κ) (T : ℝ) (E : κ → ℝ) : levelsZ T (fun i => E (e i)) = levelsZ T E :=
  e.sum_comp fun k => Real.exp (-E k / T)

/-- The average of a diagonal operator in the ensemble of a diagonal Hamiltonian. -/
theorem thermalAvg_diagonal (E f : ι → ℝ) {T : ℝ} (hT : T ≠ 0) :
    thermalAvg (diagonal fun i => (E i : ℂ)) (diagonal fun i => (f i : ℂ)) T = canonical T E f := by
  rw [thermalAvg_eig (V := (1 : Matrix ι ι ℂ)) (w := E) (by simp) (by simp) (by simp) _ hT]
  congr 1
  funext k
  have : colOf (1 : Matrix ι ι ℂ) k = Pi.single k 1 := by
    funext i
    rw [colOf, Matrix.one_apply, Pi.single_apply]
  unfold expect
  rw [this, mulVec_single_one, ← Pi.single_star]
  simp

theorem partitionFn_diagonal (E : ι → ℝ) (T : ℝ) :
    partitionFn (diagonal fun i => (E i : ℂ)) T = levelsZ T E :=
  partitionFn_eig (V := (1 : Matrix ι ι ℂ)) (w := E) (by simp) (by simp) (by simp) T

end

/-- The configuration of a site. -/
def atSite {a b : ℕ} (n : Conf (a * b) 2) (i : Fin a) : Fin b → Fin 2 := fun s => n (mode i s)

/-- Configurations as families of configurations of the sites. -/
noncomputable def sitesEquiv (a b : ℕ) : Conf (a * b) 2 ≃ (Fin a → Fin b → Fin 2) where
  toFun n := atSite n
  invFun c k := c ((modeEquiv a b).symm k).2 ((modeEquiv a b).symm k).1
  left_inv n := by
    funext k
    obtain ⟨p, rfl⟩ := (modeEquiv a b).surjective k
    simp only [Equiv.symm_apply_apply]
    rfl
  right_inv c := by
    funext i s
    simp only [atSite, modeEquiv_symm]

end ED
