import Verif.Lemmas.FreeFermions
import Verif.Lemmas.Xform

/-! # Lemmas: fermions of several species without interactions -/

namespace ED

open Matrix

variable {a b : ℕ} {κ : Type*} [Fintype κ] [DecidableEq κ]

/-- The one-particle Hamiltonian on modes. -/
noncomputable def modeMat (h : Fin b → Matrix (Fin a) (Fin a) ℂ) : Matrix (Fin (a * b)) (Fin (a * b)) ℂ :=
  (blockDiagonal h).submatrix (fun p => ((modeEquiv a b).symm p).swap) (fun p => ((modeEquiv a b).symm p).swap)

theorem modeEquiv_symm (i : Fin a) (s : Fin b) : (modeEquiv a b).symm (mode i s) = (s, i) := by
  rw [Equiv.symm_apply_eq]; rfl

theorem modeMat_mode (h : Fin b → Matrix (Fin a) (Fin a) ℂ) (i j : Fin a) (s s' : Fin b) :
    modeMat h (mode i s) (mode j s') = if s = s' then h s i j else 0 := by
  unfold modeMat
  rw [submatrix_apply, modeEquiv_symm, modeEquiv_symm]
  simp only [Prod.swap_prod_mk, blockDiagonal_apply]

theorem sum_modes {M : Type*} [AddCommMonoid M] (f : Fin (a * b) → M) :
    ∑ p, f p = ∑ s, ∑ i, f (mode i s) := by
  rw [← Fintype.sum_equiv (modeEquiv a b) (fun x => f (mode x.2 x.1)) f fun x => rfl, Fintype.sum_prod_type]

theorem secondQuant_modeMat (h : Fin b → Matrix (Fin a) (Fin a) ℂ) :
    secondQuant (modeMat h) = ∑ s, ∑ i, ∑ j, h s i j • (create (mode i s) * annih (mode j s)) := by
  unfold secondQuant
  rw [sum_modes]
  refine Finset.sum_congr rfl fun s _ => Finset.sum_congr rfl fun i _ => ?_
  rw [sum_modes, Finset.sum_eq_single s]
  · refine Finset.sum_congr rfl fun j _ => ?_
    rw [modeMat_mode, if_pos rfl]
  · intro s' _ hs
    refine Finset.sum_eq_zero fun j _ => ?_
    rw [modeMat_mode, if_neg hs.symm, zero_smul]
  · simp

theorem modeMat_star {h : Fin b → Matrix (Fin a) (Fin a) ℂ} (hh : ∀ s, (h s).IsHermitian) :
    (modeMat h).IsHermitian := by
  unfold modeMat
  refine IsHermitian.submatrix ?_ _
  change (blockDiagonal h)ᴴ = _
  rw [blockDiagonal_conjTranspose]
  congr 1
  funext s
  exact hh s

/-- The hopping and potential terms of the Hubbard Hamiltonian. -/
theorem hub_free (t : Fin a → Fin a → Fin b → ℝ) (v : Fin a → Fin b → ℝ) (ht : ∀ i j s, t i j s = t j i s) :
    (hubHop (fun i j s => (t i j s : ℂ)) + hubPot fun i s => (v i s : ℂ) : Op (a * b) 2) =
      secondQuant (modeMat fun s => oneParticle (fun i j => t i j s) fun i => v i s) := by
  rw [secondQuant_modeMat]
  have e : ∀ (s : Fin b) (i j : Fin a), oneParticle (fun i j => t i j s) (fun i => v i s) i j •
      (create (mode i s) * annih (mode j s)) =
      (if j < i then -((t i j s : ℂ) • (create (mode i s) * annih (mode j s))) else 0) +
      (if i < j then -((t j i s : ℂ) • (create (mode i s) * annih (mode j s))) else 0) +
      if i = j then (v i s : ℂ) • number (mode i s) else 0 := by
    intro s i j
    unfold oneParticle
    rw [of_apply]
    rcases lt_trichotomy i j with h | h | h
    · rw [if_neg h.ne, if_neg (not_lt.2 h.le), if_pos h, if_neg h.ne, zero_add, add_zero, neg_smul, ht]
    · subst h
      simp [create_annih]
    · rw [if_neg h.ne', if_pos h, if_neg (not_lt.2 h.le), if_neg h.ne', add_zero, add_zero, neg_smul]
  simp only [e, Finset.sum_add_distrib]
  congr 1
  · unfold hubHop
    have e1 : ∀ (i j : Fin a) (s : Fin b), (if j < i then -((t i j s : ℂ) •
        (create (mode i s) * annih (mode j s) + create (mode j s) * annih (mode i s))) else 0) =
        (if j < i then -((t i j s : ℂ) • (create (mode i s) * annih (mode j s))) else 0) +
        (if j < i then -((t i j s : ℂ) • (create (mode j s) * annih (mode i s))) else 0) := by
      intro i j s
      split_ifs
      · rw [smul_add, neg_add]
      · simp
    simp only [e1, Finset.sum_add_distrib]
    congr 1
    · conv_rhs => rw [Finset.sum_comm]
      refine Finset.sum_congr rfl fun i _ => ?_
      rw [Finset.sum_comm]
    · conv_rhs =>
        enter [2, s]
        rw [Finset.sum_comm]
      conv_rhs => rw [Finset.sum_comm]
      refine Finset.sum_congr rfl fun i _ => ?_
      rw [Finset.sum_comm]
  · unfold hubPot
    rw [Finset.sum_comm]
    refine Finset.sum_congr rfl fun s _ => Finset.sum_congr rfl fun i _ => ?_
    simp

/-- The eigenstates on modes. -/
noncomputable def modeStates (φ : Fin b → Matrix (Fin a) κ ℂ) : Matrix (Fin (a * b)) (κ × Fin b) ℂ :=
  (blockDiagonal φ).submatrix (fun p => ((modeEquiv a b).symm p).swap) id

theorem modeStates_complete {φ : Fin b → Matrix (Fin a) κ ℂ} (h : ∀ s, φ s * (φ s)ᴴ = 1) :
    modeStates φ * (modeStates φ)ᴴ = 1 := by
  unfold modeStates
  rw [conjTranspose_submatrix, ← submatrix_mul (e₂ := id) _ _ _ _ Function.bijective_id, blockDiagonal_conjTranspose,
    ← blockDiagonal_mul]
  simp only [h]
  rw [show (fun _ : Fin b => (1 : Matrix (Fin a) (Fin a) ℂ)) = 1 from rfl, blockDiagonal_one]
  exact submatrix_one _ (Prod.swap_injective.comp (modeEquiv a b).symm.injective)

theorem modeStates_eigen {h : Fin b → Matrix (Fin a) (Fin a) ℂ} {φ : Fin b → Matrix (Fin a) κ ℂ} {ε : Fin b → κ → ℝ}
    (he : ∀ s, h s * φ s = φ s * diagonal fun k => (ε s k : ℂ)) :
    modeMat h * modeStates φ = modeStates φ * diagonal fun p : κ × Fin b => (ε p.2 p.1 : ℂ) := by
  unfold modeMat modeStates
  rw [← submatrix_mul (e₂ := fun p => ((modeEquiv a b).symm p).swap) _ _ _ _
    (Prod.swap_bijective.comp (modeEquiv a b).symm.bijective), ← blockDiagonal_mul]
  simp only [he]
  rw [blockDiagonal_mul, blockDiagonal_diagonal]
  exact submatrix_mul _ _ _ id _ Function.bijective_id

theorem fermiMat_mode (φ : Fin b → Matrix (Fin a) κ ℂ) (ε : Fin b → κ → ℝ) (T : ℝ) (i j : Fin a) (s s' : Fin b) :
    fermiMat (modeStates φ) (fun p : κ × Fin b => ε p.2 p.1) T (mode i s) (mode j s') =
      if s = s' then oneDensity (φ s) (ε s) T i j else 0 := by
  unfold fermiMat modeStates
  rw [mul_apply]
  simp only [mul_diagonal, conjTranspose_apply, submatrix_apply, modeEquiv_symm, Prod.swap_prod_mk, id,
    blockDiagonal_apply]
  rw [Fintype.sum_prod_type]
  simp only
  split_ifs with h
  · subst h
    unfold oneDensity
    refine Finset.sum_congr rfl fun k _ => ?_
    rw [Finset.sum_eq_single s]
    · simp
    · intro s' _ hs
      rw [if_neg hs.symm]; simp
    · simp
  · refine Finset.sum_eq_zero fun k _ => Finset.sum_eq_zero fun s'' _ => ?_
    by_cases h1 : s = s''
    · have : ¬ s' = s'' := fun h2 => h (h1.trans h2.symm)
      rw [if_neg this]; simp
    · rw [if_neg h1]; simp

end ED
