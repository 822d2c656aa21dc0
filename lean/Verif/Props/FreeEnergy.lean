import Verif.Lemmas.ParamDeriv
import Verif.Props.Stability
import Verif.Props.Correlators

/-! # Properties C134 and C135: derivatives of the free energy; fluctuations and response -/

namespace ED.Props

open Matrix

section

variable {ι : Type} [Fintype ι] [DecidableEq ι]

theorem thermalAvg_sum (H : Matrix ι ι ℂ) {α : Type} (s : Finset α) (O : α → Matrix ι ι ℂ) (T : ℝ) :
    thermalAvg H (∑ i ∈ s, O i) T = ∑ i ∈ s, thermalAvg H (O i) T := by
  unfold thermalAvg
  rw [Finset.mul_sum, trace_sum, Complex.re_sum]

variable [Basis ι] [Nonempty ι]

/-- The partition function from the trace of the exponential. -/
theorem partition_trace {A : Mat} {H : Matrix ι ι ℂ} (hA : A.Is H) (hH : H.IsHermitian) {T : ℝ} (hT : T ≠ 0) :
    partitionFnHamiltonian A (1 / T) = partitionFn H T := by
  let e := numEquiv (ι := ι) (n := Fintype.card ι) rfl
  have hA' : A.Is (H.submatrix e.symm e.symm) := by
    refine ⟨by rw [hA.1, Fintype.card_fin], by rw [hA.2.1, Fintype.card_fin], fun i j => ?_⟩
    rw [submatrix_apply, ← hA.2.2, num_numEquiv_symm, num_numEquiv_symm]
    rfl
  obtain ⟨V, E, h1, h2, h3⟩ := eig_exists (hH.submatrix e.symm)
  rw [C79_partition hA' E h2 h3]
  have k1 : (V.submatrix e id)ᴴ * V.submatrix e id = 1 := by
    rw [conjTranspose_submatrix, submatrix_mul_equiv, h1, submatrix_id_id]
  have k2 : (V.submatrix e id) * (V.submatrix e id)ᴴ = 1 := by
    have : (V.submatrix e id) * (V.submatrix e id)ᴴ = (V * Vᴴ).submatrix e e := by
      rw [conjTranspose_submatrix]
      exact submatrix_mul_equiv V Vᴴ e (Equiv.refl _) e
    rw [this, h2, submatrix_one_equiv]
  have k3 : H * V.submatrix e id = V.submatrix e id * diagonal (fun k => (E k : ℂ)) := by
    have e1 : H = (H.submatrix e.symm e.symm).submatrix e e := by ext i j; simp
    have e2 : H * V.submatrix e id = (H.submatrix e.symm e.symm * V).submatrix e id := by
      conv_lhs => rw [e1]
      exact submatrix_mul_equiv _ V e e id
    rw [e2, h3]
    exact (submatrix_mul_equiv V _ e (Equiv.refl _) id).symm
  rw [partitionFn_eig k1 k2 k3]
  refine Finset.sum_congr rfl fun k _ => ?_
  congr 1
  ring

theorem free_deriv {A : ℝ → Mat} {H B : Matrix ι ι ℂ} (hA : ∀ x : ℝ, (A x).Is (H + (x : ℂ) • B)) (hH : H.IsHermitian) (hB : B.IsHermitian)
    {T : ℝ} (hT : 0 < T) (x : ℝ) :
    HasDerivAt (fun x => -T * Real.log (partitionFnHamiltonian (A x) (1 / T))) (thermalAvg (H + (x : ℂ) • B) B T) x := by
  have e : (fun x => -T * Real.log (partitionFnHamiltonian (A x) (1 / T))) = fun x : ℝ => freeEnergy (H + (x : ℂ) • B) T := by
    funext y
    rw [partition_trace (hA y) (param_hermitian hH hB y) hT.ne', freeEnergy]
  rw [e]
  exact hasDerivAt_freeEnergy hH hB hT x

/-- C134: if a Hamiltonian depends linearly on a parameter, the derivative of the free energy `-T log Z` with respect to the parameter
is the thermal average of the operator it multiplies. -/
theorem C134_free_energy (S : EigSolvers) (hS : EigContract S) (A : ℝ → Mat) (D : Mat) (H B : Matrix ι ι ℂ)
    (hA : ∀ x : ℝ, (A x).Is (H + (x : ℂ) • B)) (hD : D.Is B) (hH : H.IsHermitian) (hB : B.IsHermitian) (x : ℝ) :
    ∃ w M, diagList S (A x) = .ok (w, M) ∧ ∀ T, 0 < T → ∃ b, expValsThermal M D w T = .ok b ∧
      HasDerivAt (fun x => -T * Real.log (partitionFnHamiltonian (A x) (1 / T))) b x := by
  obtain ⟨m, E, M, V, h1, h2, h3, h4, h5, -⟩ := diagList_ok S hS (hA x) (param_hermitian hH hB x)
  refine ⟨_, M, h1, fun T hT => ⟨_, C19_canonical h2 hD E T (Or.inl hT.ne'), ?_⟩⟩
  rw [← thermalAvg_eig h3 h4 h5 B hT.ne']
  exact free_deriv hA hH hB hT x

end

/-! ## Fermions -/

/-- The model with another chemical potential of one species. -/
noncomputable def withMu (F : Fermions) (s : ℕ) (μ : ℝ) : Fermions := { F with mus := Function.update F.mus s (μ : ℂ) }

/-- The Hamiltonian, as a matrix. -/
noncomputable def freeHub (F : Fermions) : Op (F.nsites * F.nspecies) 2 := hubInter (fun i : Fin F.nsites => F.us i) + hubRest F

noncomputable def hubMu (F : Fermions) (s : Fin F.nspecies) (μ : ℝ) : Op (F.nsites * F.nspecies) 2 := freeHub (withMu F s μ)

theorem withMu_real {F : Fermions} (hr : RealParams F) (s : Fin F.nspecies) (μ : ℝ) : RealParams (withMu F s μ) :=
  ⟨hr.ts, hr.us, hr.same, fun s' => by
    change star (Function.update F.mus s (μ : ℂ) s') = Function.update F.mus s (μ : ℂ) s'
    by_cases h : (s' : ℕ) = s
    · rw [h, Function.update_self]
      exact Complex.conj_ofReal _
    · rw [Function.update_of_ne h]
      exact hr.mus s', hr.pots⟩

theorem withMu_eq (F : Fermions) (s : Fin F.nspecies) (μ : ℝ) :
    hubMu F s μ = hubMu F s 0 - (μ : ℂ) • speciesNumber F.nsites s := by
  have e : ∀ μ : ℝ, hubMu F s μ = hubInter (fun i : Fin F.nsites => F.us i) + (hubSame (fun (i j : Fin F.nsites) (s : Fin F.nspecies) => F.usSame i j s) +
      hubHop (fun (i j : Fin F.nsites) (s : Fin F.nspecies) => F.ts i j s * hopWeight F i j) +
      hubPot (fun (i : Fin F.nsites) (s' : Fin F.nspecies) => F.pots i s' - Function.update F.mus s (μ : ℂ) s')) := fun μ => rfl
  have hp : hubPot (fun (i : Fin F.nsites) (s' : Fin F.nspecies) => F.pots i s' - Function.update F.mus s (μ : ℂ) s') =
      hubPot (fun (i : Fin F.nsites) (s' : Fin F.nspecies) => F.pots i s' - Function.update F.mus s ((0 : ℝ) : ℂ) s') -
        (μ : ℂ) • speciesNumber F.nsites s := by
    unfold hubPot speciesNumber
    rw [Finset.smul_sum, ← Finset.sum_sub_distrib]
    refine Finset.sum_congr rfl fun i _ => ?_
    have : (μ : ℂ) • number (mode i s) = ∑ s', if s' = s then (μ : ℂ) • number (mode i s') else 0 := by simp
    rw [this, ← Finset.sum_sub_distrib]
    refine Finset.sum_congr rfl fun s' _ => ?_
    beta_reduce
    by_cases h : s' = s
    · subst h
      rw [if_pos rfl, Function.update_self, Function.update_self, ← sub_smul]
      congr 1
      push_cast
      ring
    · have hne : (s' : ℕ) ≠ s := fun h' => h (Fin.ext h')
      rw [if_neg h, sub_zero, Function.update_of_ne hne, Function.update_of_ne hne]
  rw [e, e, hp]
  abel

theorem species_hermitian (a : ℕ) {b : ℕ} (s : Fin b) : (speciesNumber a s).IsHermitian := by
  unfold speciesNumber IsHermitian
  rw [conjTranspose_sum]
  exact Finset.sum_congr rfl fun i _ => number_star _

theorem species_commute (F : Fermions) (s : Fin F.nspecies) : Commute (freeHub F) (speciesNumber F.nsites s) := by
  unfold freeHub hubRest
  exact ((speciesNumber_inter _ _).add_right (((speciesNumber_same _ _).add_right
      (speciesNumber_hubHop _ _)).add_right (speciesNumber_pot _ _))).symm

/-- What the correlation of the densities of two sites is. -/
theorem density_corr (F : Fermions) {m : ℕ} {E : Fin (m + 1) → ℝ} {M : Mat} {V : Matrix (Conf (F.nsites * F.nspecies) 2) (Fin (m + 1)) ℂ}
    (hM : M.Is V) {T : ℝ} (hT : T ≠ 0 ∨ (Monotone E ∧ Gapped E)) (j i : Fin F.nsites) (s s' : Fin F.nspecies) :
    thermalCorrSites F.sys M (List.ofFn E) s s' nOp nOp [T] (some [((j : ℕ), (i : ℕ))]) none "boson" =
      .ok ([[canonical T E fun k => (expect (number (mode j s) * number (mode i s')) (colOf V k)).re]], [((j : ℕ), (i : ℕ))]) := by
  unfold thermalCorrSites
  simp only [Option.getD_none, Option.getD_some]
  obtain ⟨X, hX, hXi⟩ := F_two F j i s s'
  have hP : (Mat.eye M.rows).Is (1 : Op (F.nsites * F.nspecies) 2) := Mat.is_eye (by rw [hM.1])
  obtain ⟨Y, hY, hYi⟩ := sandwich_gives hP hXi 1
  rw [one_smul, Matrix.one_mul, conjTranspose_one, Matrix.mul_one] at hYi
  rw [List.mapM_cons, hX]
  change ((sandwich 1 _ X >>= fun full => expValsThermalList M full (List.ofFn E) [T]) >>= _) >>= _ = _
  rw [hY]
  change (expValsThermalList M Y (List.ofFn E) [T] >>= _) >>= _ = _
  unfold expValsThermalList
  rw [List.mapM_cons, C19_canonical hM hYi E T hT]
  rfl

/-- C134, number of particles: the derivative of `T log Z` with respect to the chemical potential of a species is its number of
particles. -/
theorem C134_number (S : EigSolvers) (hS : EigContract S) (F : Fermions) (hI : InterOk F) (hr : RealParams F) (s : Fin F.nspecies) :
    ∃ A : ℝ → Mat, (∀ μ, (withMu F s μ).createH none = .ok (A μ)) ∧ ∀ μ, ∃ w M, diagList S (A μ) = .ok (w, M) ∧ ∀ T, 0 < T →
      ∃ n : Fin F.nsites → ℝ, thermalExpSites F.sys M w nOp s [T] none none "boson" = .ok (List.ofFn fun i => [n i], List.range F.nsites) ∧
        HasDerivAt (fun μ => T * Real.log (partitionFnHamiltonian (A μ) (1 / T))) (∑ i, n i) μ := by
  choose A hA hAi using fun μ => C27_hamiltonian (withMu F s μ) hI
  refine ⟨A, hA, fun μ => ?_⟩
  have hAi' : ∀ μ : ℝ, (A μ).Is (hubMu F s 0 + (μ : ℂ) • (-speciesNumber F.nsites s) : Op (F.nsites * F.nspecies) 2) := fun μ => by
    rw [smul_neg, ← sub_eq_add_neg, ← withMu_eq]
    exact hAi μ
  have h0 : (hubMu F s 0).IsHermitian := F_hermitian (F := withMu F s 0) hI (withMu_real hr s 0)
  have hN := (species_hermitian F.nsites s).neg
  obtain ⟨m, E, M, V, a1, a2, a3, a4, a5, a6⟩ := diagList_ok S hS (hAi' μ) (param_hermitian h0 hN μ)
  refine ⟨_, M, a1, fun T hT => ⟨_, site_averages F.sys nOp s (fun i => F_single F i s) a2 (Or.inl hT.ne'), ?_⟩⟩
  have hd := (free_deriv hAi' h0 hN hT μ).const_mul (-1)
  simp only [neg_mul, neg_neg, one_mul] at hd
  refine hd.congr_deriv ?_
  have : (-speciesNumber F.nsites s : Op (F.nsites * F.nspecies) 2) = ((-1 : ℝ) : ℂ) • speciesNumber F.nsites s := by simp
  rw [this, thermalAvg_smul, ← this, speciesNumber, thermalAvg_sum]
  simp only [neg_mul, one_mul, neg_neg]
  refine Finset.sum_congr rfl fun i _ => ?_
  exact thermalAvg_eig a3 a4 a5 _ hT.ne'

/-- The model with the interaction `u` on all sites. -/
noncomputable def withU (F : Fermions) (u : ℝ) : Fermions := { F with us := fun _ => (u : ℂ) }

noncomputable def hubU (F : Fermions) (u : ℝ) : Op (F.nsites * F.nspecies) 2 := freeHub (withU F u)

theorem withU_eq (F : Fermions) (h2 : 2 ≤ F.nspecies) (u : ℝ) :
    hubU F u = hubU F 0 + (u : ℂ) • ∑ i : Fin F.nsites, number (mode i (⟨0, by omega⟩ : Fin F.nspecies)) * number (mode i ⟨1, by omega⟩) := by
  have e : ∀ u : ℝ, hubU F u = hubInter (fun _ : Fin F.nsites => (u : ℂ)) + hubRest F := fun u => rfl
  rw [e, e]
  unfold hubInter
  rw [dif_pos h2, dif_pos h2, Finset.smul_sum]
  simp only [Complex.ofReal_zero, zero_smul, Finset.sum_const_zero, zero_add]
  rw [add_comm]

/-- C134, interaction: the derivative of `-T log Z` with respect to the interaction is the number of doubly occupied sites. -/
theorem C134_interaction (S : EigSolvers) (hS : EigContract S) (F : Fermions) (h2 : 2 ≤ F.nspecies) (hr : RealParams F) :
    ∃ A : ℝ → Mat, (∀ u, (withU F u).createH none = .ok (A u)) ∧ ∀ u, ∃ w M, diagList S (A u) = .ok (w, M) ∧ ∀ T, 0 < T →
      ∃ d : Fin F.nsites → ℝ, (∀ i : Fin F.nsites, thermalCorrSites F.sys M w 0 1 nOp nOp [T] (some [((i : ℕ), (i : ℕ))]) none "boson" =
          .ok ([[d i]], [((i : ℕ), (i : ℕ))])) ∧
        HasDerivAt (fun u => -T * Real.log (partitionFnHamiltonian (A u) (1 / T))) (∑ i, d i) u := by
  have hI : InterOk (withU F 0) := Or.inl h2
  choose A hA hAi using fun u => C27_hamiltonian (withU F u) (Or.inl h2)
  refine ⟨A, hA, fun u => ?_⟩
  set D : Op (F.nsites * F.nspecies) 2 :=
    ∑ i : Fin F.nsites, number (mode i (⟨0, by omega⟩ : Fin F.nspecies)) * number (mode i ⟨1, by omega⟩) with hD
  have hAi' : ∀ u : ℝ, (A u).Is (hubU F 0 + (u : ℂ) • D : Op (F.nsites * F.nspecies) 2) := fun u => by
    rw [← withU_eq F h2]
    exact hAi u
  have h0 : (hubU F 0).IsHermitian :=
    F_hermitian (F := withU F 0) hI ⟨hr.ts, fun _ => Complex.conj_ofReal _, hr.same, hr.mus, hr.pots⟩
  have hB : D.IsHermitian := by
    unfold IsHermitian
    rw [hD, conjTranspose_sum]
    refine Finset.sum_congr rfl fun i _ => ?_
    rw [conjTranspose_mul, number_star, number_star, number_comm]
  obtain ⟨m, E, M, V, a1, a2, a3, a4, a5, a6⟩ := diagList_ok S hS (hAi' u) (param_hermitian h0 hB u)
  refine ⟨_, M, a1, fun T hT => ⟨_, fun i => density_corr F a2 (Or.inl hT.ne') i i ⟨0, by omega⟩ ⟨1, by omega⟩, ?_⟩⟩
  refine (free_deriv hAi' h0 hB hT u).congr_deriv ?_
  conv_lhs => arg 2; rw [hD]
  rw [thermalAvg_sum]
  exact Finset.sum_congr rfl fun i _ => thermalAvg_eig a3 a4 a5 _ hT.ne'

/-- C135, compressibility: the derivative of the density of a site with respect to a chemical potential is the sum of the connected
correlations of the densities over the temperature. -/
theorem C135_compressibility (S : EigSolvers) (hS : EigContract S) (F : Fermions) (hI : InterOk F) (hr : RealParams F) (s s' : Fin F.nspecies) :
    ∃ (A : ℝ → Mat) (w : ℝ → List ℝ) (M : ℝ → Mat), (∀ μ, (withMu F s μ).createH none = .ok (A μ)) ∧ (∀ μ, diagList S (A μ) = .ok (w μ, M μ)) ∧
      ∀ T, 0 < T → ∃ (n n' : ℝ → Fin F.nsites → ℝ) (g : ℝ → Fin F.nsites → Fin F.nsites → ℝ),
        (∀ μ, thermalExpSites F.sys (M μ) (w μ) nOp s [T] none none "boson" = .ok (List.ofFn fun i => [n μ i], List.range F.nsites)) ∧
        (∀ μ, thermalExpSites F.sys (M μ) (w μ) nOp s' [T] none none "boson" = .ok (List.ofFn fun i => [n' μ i], List.range F.nsites)) ∧
        (∀ μ (j i : Fin F.nsites), thermalCorrSites F.sys (M μ) (w μ) s s' nOp nOp [T] (some [((j : ℕ), (i : ℕ))]) none "boson" =
          .ok ([[g μ j i]], [((j : ℕ), (i : ℕ))])) ∧
        ∀ μ i, HasDerivAt (fun μ => n' μ i) ((∑ j, (g μ j i - n μ j * n' μ i)) / T) μ := by
  choose A hA hAi using fun μ => C27_hamiltonian (withMu F s μ) hI
  have hAi' : ∀ μ : ℝ, (A μ).Is (hubMu F s 0 - (μ : ℂ) • speciesNumber F.nsites s : Op (F.nsites * F.nspecies) 2) := fun μ => by
    rw [← withMu_eq]
    exact hAi μ
  have h0 : (hubMu F s 0).IsHermitian := F_hermitian (F := withMu F s 0) hI (withMu_real hr s 0)
  have hN := species_hermitian F.nsites s
  have hH : ∀ μ : ℝ, (hubMu F s 0 - (μ : ℂ) • speciesNumber F.nsites s : Op (F.nsites * F.nspecies) 2).IsHermitian := fun μ => by
    rw [← withMu_eq]
    exact F_hermitian (F := withMu F s μ) hI (withMu_real hr s μ)
  choose m E M V a1 a2 a3 a4 a5 a6 using fun μ => diagList_ok S hS (hAi' μ) (hH μ)
  refine ⟨A, _, M, hA, a1, fun T hT => ⟨_, _, _, fun μ => site_averages F.sys nOp s (fun i => F_single F i s) (a2 μ) (Or.inl hT.ne'),
    fun μ => site_averages F.sys nOp s' (fun i => F_single F i s') (a2 μ) (Or.inl hT.ne'),
    fun μ j i => density_corr F (a2 μ) (Or.inl hT.ne') j i s s', fun μ i => ?_⟩⟩
  have ev := fun (μ : ℝ) (O : Op (F.nsites * F.nspecies) 2) => (thermalAvg_eig (a3 μ) (a4 μ) (a5 μ) O hT.ne').symm
  have hcm : Commute (hubMu F s 0) (speciesNumber F.nsites s) := species_commute (withMu F s 0) s
  have hd := hasDerivAt_conserved h0 hN hcm (number (mode i s')) hT.ne' μ
  refine (hd.congr_of_eventuallyEq (Filter.Eventually.of_forall fun μ => ev μ _)).congr_deriv ?_
  rw [Finset.sum_sub_distrib, ← Finset.sum_mul]
  congr 1
  congr 1
  · rw [speciesNumber, Matrix.sum_mul, thermalAvg_sum]
    exact Finset.sum_congr rfl fun j _ => (ev μ _).symm
  · rw [speciesNumber, thermalAvg_sum]
    congr 1
    · exact Finset.sum_congr rfl fun j _ => (ev μ _).symm
    · exact (ev μ _).symm

/-! ## Spins -/

/-- The fields with another uniform field along one direction. -/
def setField (h : Fin 3 → ℕ → ℝ) (a : Fin 3) (x : ℝ) : Fin 3 → ℕ → ℝ := fun b i => if b = a then x else h b i

/-- The Hamiltonian of the code with fields `h`. -/
noncomputable def fieldH (F : Spins) (h : Fin 3 → ℕ → ℝ) : Op F.nsites 2 :=
  spinH (fun i j => F.jx i j) (fun i j => F.jy i j) (fun i j => F.jz i j) (fun i => (h 0 i : ℂ)) (fun i => -(h 1 i : ℂ)) (fun i => (h 2 i : ℂ))

/-- The operator that a uniform field multiplies in the code. -/
noncomputable def fieldOp (n : ℕ) (a : Fin 3) : Op n 2 :=
  ∑ i, ((![1 / 2, -1 / 2, 1 / 2] a : ℝ) : ℂ) • siteOp (![sigmaX, sigmaY, sigmaZ] a) i

theorem fieldH_eq (F : Spins) (h : Fin 3 → ℕ → ℝ) (a : Fin 3) (x : ℝ) :
    fieldH F (setField h a x) = fieldH F (setField h a 0) - (x : ℂ) • fieldOp F.nsites a := by
  unfold fieldH spinH fieldOp
  rw [sub_sub, Finset.smul_sum, ← Finset.sum_add_distrib]
  congr 1
  refine Finset.sum_congr rfl fun i _ => ?_
  fin_cases a <;> simp [setField] <;> module

theorem field_hermitian (F : Spins) (hF : RealSpins F) (h : Fin 3 → ℕ → ℝ) : (fieldH F h).IsHermitian := by
  obtain ⟨n, d, jx, jy, jz, fx, fy, fz⟩ := F
  obtain rfl : d = 1 := hF.half
  obtain ⟨⟨A, hA, hAi⟩, -⟩ := C75_hamiltonian_partial ⟨n, 1, jx, jy, jz, fun i => (h 0 i : ℂ), fun i => (h 1 i : ℂ), fun i => (h 2 i : ℂ)⟩ rfl
  obtain ⟨⟨H, g, hh⟩, -⟩ := C33_hermitian_partial ⟨n, 1, jx, jy, jz, fun i => (h 0 i : ℂ), fun i => (h 1 i : ℂ), fun i => (h 2 i : ℂ)⟩
    (Or.inl rfl) hF.jx hF.jy hF.jz (fun _ => Complex.conj_ofReal _) (fun _ => Complex.conj_ofReal _) (fun _ => Complex.conj_ofReal _)
  have hu := gives_unique ⟨A, hA, hAi⟩ g
  rw [← hu] at hh
  exact hh

theorem fieldOp_hermitian (F : Spins) (hF : RealSpins F) (a : Fin 3) : (fieldOp F.nsites a).IsHermitian := by
  have e : fieldOp F.nsites a = fieldH F (setField (fun _ _ => 0) a 0) - fieldH F (setField (fun _ _ => 0) a 1) := by
    rw [fieldH_eq F _ a 1, sub_sub_cancel, Complex.ofReal_one, one_smul]
  rw [e]
  exact (field_hermitian F hF _).sub (field_hermitian F hF _)

/-- C134, fields, as the code is: the derivative of `T log Z` with respect to a uniform field along x or z is half the sum of the
averages of the Pauli operators; along y it is minus half the sum. -/
theorem C134_fields_y_reversed (S : EigSolvers) (hS : EigContract S) (F : Spins) (hF : RealSpins F) (h : Fin 3 → ℕ → ℝ) (a : Fin 3) :
    ∃ A : ℝ → Mat, (∀ x, (withFields F (setField h a x)).createH none = .ok (A x)) ∧ ∀ x, ∃ w M, diagList S (A x) = .ok (w, M) ∧ ∀ T, 0 < T →
      ∃ s : Fin F.nsites → ℝ, thermalExpSites F.sys M w (![pauliX, pauliY, pauliZ] a) 0 [T] none none "boson" =
          .ok (List.ofFn fun i => [s i], List.range F.nsites) ∧
        HasDerivAt (fun x => T * Real.log (partitionFnHamiltonian (A x) (1 / T))) (![1 / 2, -1 / 2, 1 / 2] a * ∑ i, s i) x := by
  have hsys : F.sys = ⟨F.nsites, 1, 2⟩ := by unfold Spins.sys; rw [hF.half]
  have hg : ∀ x, Gives ((withFields F (setField h a x)).createH none) (fieldH F (setField h a x)) := fun x =>
    (C75_hamiltonian_partial (withFields F (setField h a x)) hF.half).1
  choose A hA hAi using hg
  refine ⟨A, hA, fun x => ?_⟩
  have hAi' : ∀ x : ℝ, (A x).Is (fieldH F (setField h a 0) + (x : ℂ) • (-fieldOp F.nsites a) : Op F.nsites 2) := fun x => by
    rw [smul_neg, ← sub_eq_add_neg, ← fieldH_eq]
    exact hAi x
  have h0 := field_hermitian F hF (setField h a 0)
  have hN := (fieldOp_hermitian F hF a).neg
  obtain ⟨m, E, M, V, a1, a2, a3, a4, a5, a6⟩ := diagList_ok S hS (hAi' x) (param_hermitian h0 hN x)
  have hO : ∀ i : Fin F.nsites, Gives (getSingleSiteOp ⟨F.nsites, 1, 2⟩ i 0 (![pauliX, pauliY, pauliZ] a) "boson")
      (siteOp (![sigmaX, sigmaY, sigmaZ] a) i : Op F.nsites 2) := by
    intro i
    obtain ⟨px, py, pz⟩ := pauli_site i
    fin_cases a
    · exact px
    · exact py
    · exact pz
  refine ⟨_, M, a1, fun T hT => ⟨_, by rw [hsys]; exact site_averages ⟨F.nsites, 1, 2⟩ _ 0 hO a2 (Or.inl hT.ne'), ?_⟩⟩
  have hd := (free_deriv hAi' h0 hN hT x).const_mul (-1)
  simp only [neg_mul, neg_neg, one_mul] at hd
  refine hd.congr_deriv ?_
  have : (-fieldOp F.nsites a : Op F.nsites 2) = ((-1 : ℝ) : ℂ) • fieldOp F.nsites a := by simp
  rw [this, thermalAvg_smul, ← this, fieldOp, thermalAvg_sum]
  simp only [thermalAvg_smul, neg_mul, one_mul, neg_neg]
  rw [Finset.mul_sum]
  refine Finset.sum_congr rfl fun i _ => ?_
  congr 1
  exact thermalAvg_eig a3 a4 a5 _ hT.ne'

/-- C134, fields (what holds): the derivative of `T log Z` with respect to a uniform field along x or z is half the sum of the averages of
the Pauli operators. The full claim includes fields along y; it fails, see `C134_field_y_violated`. -/
theorem C134_fields_partial (S : EigSolvers) (hS : EigContract S) (F : Spins) (hF : RealSpins F) (h : Fin 3 → ℕ → ℝ) (a : Fin 3) (ha : a ≠ 1) :
    ∃ A : ℝ → Mat, (∀ x, (withFields F (setField h a x)).createH none = .ok (A x)) ∧ ∀ x, ∃ w M, diagList S (A x) = .ok (w, M) ∧ ∀ T, 0 < T →
      ∃ s : Fin F.nsites → ℝ, thermalExpSites F.sys M w (![pauliX, pauliY, pauliZ] a) 0 [T] none none "boson" =
          .ok (List.ofFn fun i => [s i], List.range F.nsites) ∧
        HasDerivAt (fun x => T * Real.log (partitionFnHamiltonian (A x) (1 / T))) ((∑ i, s i) / 2) x := by
  obtain ⟨A, h1, h2⟩ := C134_fields_y_reversed S hS F hF h a
  refine ⟨A, h1, fun x => ?_⟩
  obtain ⟨w, M, h3, h4⟩ := h2 x
  refine ⟨w, M, h3, fun T hT => ?_⟩
  obtain ⟨s, h5, h6⟩ := h4 T hT
  refine ⟨s, h5, h6.congr_deriv ?_⟩
  have e : (![1 / 2, -1 / 2, 1 / 2] a : ℝ) = 1 / 2 := by
    fin_cases a
    · rfl
    · exact absurd rfl ha
    · rfl
  rw [e]
  ring

/-- C134 (violation): a single spin in the unit field along y. The derivative of `T log Z` with respect to the field is minus half the
average of `pauli_y`, which is not zero. -/
theorem C134_field_y_violated (S : EigSolvers) (hS : EigContract S) (T : ℝ) (hT : 0 < T) :
    ∃ (A : ℝ → Mat) (w : List ℝ) (M : Mat) (y : ℝ),
      (∀ x : ℝ, Spins.createH ⟨1, 1, fun _ _ => 0, fun _ _ => 0, fun _ _ => 0, fun _ => 0, fun _ => (x : ℂ), fun _ => 0⟩ none = .ok (A x)) ∧
      diagList S (A 1) = .ok (w, M) ∧ thermalExpSites ⟨1, 1, 2⟩ M w pauliY 0 [T] none none "boson" = .ok ([[y]], [0]) ∧ y < 0 ∧
      HasDerivAt (fun x => T * Real.log (partitionFnHamiltonian (A x) (1 / T))) (-(y / 2)) 1 := by
  obtain ⟨-, -, -, A', w', M', y, -, -, c1, c2, -, c3, c4⟩ := C132_field_y_violated S hS T hT
  obtain ⟨A, h1, h2⟩ := C134_fields_y_reversed S hS ⟨1, 1, fun _ _ => 0, fun _ _ => 0, fun _ _ => 0, fun _ => 0, fun _ => 0, fun _ => 0⟩
    ⟨rfl, fun _ _ => star_zero _, fun _ _ => star_zero _, fun _ _ => star_zero _⟩ (fun _ _ => 0) 1
  have hA : ∀ x : ℝ, Spins.createH ⟨1, 1, fun _ _ => 0, fun _ _ => 0, fun _ _ => 0, fun _ => 0, fun _ => (x : ℂ), fun _ => 0⟩ none = .ok (A x) := by
    intro x
    rw [← h1 x]
    simp [withFields, setField]
  obtain ⟨w, M, h3, h4⟩ := h2 1
  obtain ⟨s, h5, h6⟩ := h4 T hT
  have hA1 := hA 1
  rw [Complex.ofReal_one, c1] at hA1
  injection hA1 with hA1
  rw [hA1, h3] at c2
  injection c2 with c2
  injection c2 with e1 e2
  subst e1 e2
  have h5' : thermalExpSites ⟨1, 1, 2⟩ M w pauliY 0 [T] none none "boson" = .ok ([[s 0]], [0]) := h5
  rw [c3] at h5'
  injection h5' with h5'
  injection h5' with h5' _
  injection h5' with h5' _
  injection h5' with h5' _
  refine ⟨A, w, M, y, hA, h3, c3, c4, h6.congr_deriv ?_⟩
  have es : ∑ i : Fin 1, s i = y := by rw [h5']; simp
  change (-1 / 2 : ℝ) * ∑ i : Fin 1, s i = _
  rw [es]
  ring

/-- The operator for the z components of two sites, which may be the same. -/
theorem zz_gives {n : ℕ} (j i : Fin n) : Gives (getTwoSiteOp ⟨n, 1, 2⟩ j 0 i 0 pauliZ pauliZ "boson") (siteOp sigmaZ j * siteOp sigmaZ i : Op n 2) := by
  have hZ : pauliZ.Is sigmaZ := ⟨rfl, rfl, fun i j => by fin_cases i <;> fin_cases j <;> simp [sigmaZ, pauliZ, Mat.lit2, Basis.num]⟩
  by_cases hij : j = i
  · subst hij
    obtain ⟨X, hX, hXi⟩ := hZ.mul hZ
    have := spin_single j hXi
    unfold getTwoSiteOp
    rw [if_pos rfl, hX, siteOp_eq_bop, bop_mul, ← siteOp_eq_bop]
    exact this
  · exact spin_two hij hZ hZ

/-- What the correlation of the z components of two sites is. -/
theorem zz_corr {n : ℕ} {m : ℕ} {E : Fin (m + 1) → ℝ} {M : Mat} {V : Matrix (Conf n 2) (Fin (m + 1)) ℂ} (hM : M.Is V) {T : ℝ}
    (hT : T ≠ 0 ∨ (Monotone E ∧ Gapped E)) (j i : Fin n) :
    thermalCorrSites ⟨n, 1, 2⟩ M (List.ofFn E) 0 0 pauliZ pauliZ [T] (some [((j : ℕ), (i : ℕ))]) none "boson" =
      .ok ([[canonical T E fun k => (expect (siteOp sigmaZ j * siteOp sigmaZ i) (colOf V k)).re]], [((j : ℕ), (i : ℕ))]) := by
  unfold thermalCorrSites
  simp only [Option.getD_none, Option.getD_some]
  obtain ⟨X, hX, hXi⟩ := zz_gives j i
  have hP : (Mat.eye M.rows).Is (1 : Op n 2) := Mat.is_eye (by rw [hM.1])
  obtain ⟨Y, hY, hYi⟩ := sandwich_gives hP hXi 1
  rw [one_smul, Matrix.one_mul, conjTranspose_one, Matrix.mul_one] at hYi
  rw [List.mapM_cons, hX]
  change ((sandwich 1 _ X >>= fun full => expValsThermalList M full (List.ofFn E) [T]) >>= _) >>= _ = _
  rw [hY]
  change (expValsThermalList M Y (List.ofFn E) [T] >>= _) >>= _ = _
  unfold expValsThermalList
  rw [List.mapM_cons, C19_canonical hM hYi E T hT]
  rfl

/-- C135, susceptibility: for couplings that are the same along x and y and fields along z, the derivative of the average of a spin with
respect to a uniform field along z is half the sum of the connected correlations over the temperature. -/
theorem C135_susceptibility (S : EigSolvers) (hS : EigContract S) (F : Spins) (hF : RealSpins F) (hn : 0 < F.nsites)
    (hj : ∀ i < F.nsites, ∀ j < i, F.jx i j = F.jy i j) :
    ∃ (A : ℝ → Mat) (w : ℝ → List ℝ) (M : ℝ → Mat), (∀ x, (withFields F (setField (fun _ _ => 0) 2 x)).createH none = .ok (A x)) ∧
      (∀ x, diagList S (A x) = .ok (w x, M x)) ∧
      ∀ T, 0 < T → ∃ (s : ℝ → Fin F.nsites → ℝ) (g : ℝ → Fin F.nsites → Fin F.nsites → ℝ),
        (∀ x, thermalExpSites F.sys (M x) (w x) pauliZ 0 [T] none none "boson" = .ok (List.ofFn fun i => [s x i], List.range F.nsites)) ∧
        (∀ x (j i : Fin F.nsites), thermalCorrSites F.sys (M x) (w x) 0 0 pauliZ pauliZ [T] (some [((j : ℕ), (i : ℕ))]) none "boson" =
          .ok ([[g x j i]], [((j : ℕ), (i : ℕ))])) ∧
        ∀ x i, HasDerivAt (fun x => s x i) ((∑ j, (g x j i - s x j * s x i)) / (2 * T)) x := by
  have hsys : F.sys = ⟨F.nsites, 1, 2⟩ := by unfold Spins.sys; rw [hF.half]
  have hg : ∀ x, Gives ((withFields F (setField (fun _ _ => 0) 2 x)).createH none) (fieldH F (setField (fun _ _ => 0) 2 x)) := fun x =>
    (C75_hamiltonian_partial (withFields F (setField (fun _ _ => 0) 2 x)) hF.half).1
  have hcm : Commute (fieldH F (setField (fun _ _ => 0) 2 0)) (∑ i, siteOp sigmaZ i) := by
    obtain ⟨H, Z, c1, c2, c3⟩ := C99_axial (withFields F (setField (fun _ _ => 0) 2 0)) hF.half hn hj
      (fun i _ => by constructor <;> simp [withFields, setField])
    have e1 : fieldH F (setField (fun _ _ => 0) 2 0) = H := gives_unique (hg 0) c1
    have hs' : (withFields F (setField (fun _ _ => 0) 2 0)).sys = ⟨F.nsites, 1, 2⟩ := hsys
    rw [hs'] at c2
    have e2 : (∑ i, siteOp sigmaZ i : Op F.nsites 2) = Z := gives_unique (pauli_sums hn).2.2 c2
    rw [e1, e2]
    exact c3
  choose A hA hAi using hg
  have hop : fieldOp F.nsites 2 = ((1 / 2 : ℝ) : ℂ) • ∑ i, siteOp sigmaZ i := by
    unfold fieldOp
    rw [← Finset.smul_sum]
    rfl
  have hAi' : ∀ x : ℝ, (A x).Is (fieldH F (setField (fun _ _ => 0) 2 0) - (x : ℂ) • fieldOp F.nsites 2 : Op F.nsites 2) := fun x => by
    rw [← fieldH_eq]
    exact hAi x
  have h0 := field_hermitian F hF (setField (fun _ _ => 0) 2 0)
  have hN := fieldOp_hermitian F hF 2
  have hH : ∀ x : ℝ, (fieldH F (setField (fun _ _ => 0) 2 0) - (x : ℂ) • fieldOp F.nsites 2 : Op F.nsites 2).IsHermitian := fun x => by
    rw [← fieldH_eq]
    exact field_hermitian F hF _
  choose m E M V a1 a2 a3 a4 a5 a6 using fun x => diagList_ok S hS (hAi' x) (hH x)
  rw [hsys]
  refine ⟨A, _, M, hA, a1, fun T hT => ⟨_, _, fun x => site_averages ⟨F.nsites, 1, 2⟩ pauliZ 0 (fun i => (pauli_site i).2.2) (a2 x) (Or.inl hT.ne'),
    fun x j i => zz_corr (a2 x) (Or.inl hT.ne') j i, fun x i => ?_⟩⟩
  have ev := fun (x : ℝ) (O : Op F.nsites 2) => (thermalAvg_eig (a3 x) (a4 x) (a5 x) O hT.ne').symm
  have hd := hasDerivAt_conserved h0 hN (by rw [hop]; exact hcm.smul_right _) (siteOp sigmaZ i) hT.ne' x
  refine (hd.congr_of_eventuallyEq (Filter.Eventually.of_forall fun x => ev x _)).congr_deriv ?_
  have k1 : ∑ j, canonical T (E x) (fun k => (expect (siteOp sigmaZ j * siteOp sigmaZ i) (colOf (V x) k)).re) =
      2 * thermalAvg (fieldH F (setField (fun _ _ => 0) 2 0) - (x : ℂ) • fieldOp F.nsites 2) (fieldOp F.nsites 2 * siteOp sigmaZ i) T := by
    simp only [ev]
    rw [← thermalAvg_sum, ← Matrix.sum_mul]
    conv_rhs => rw [hop, Matrix.smul_mul, thermalAvg_smul, ← hop]
    ring
  have k2 : ∑ j, canonical T (E x) (fun k => (expect (siteOp sigmaZ j) (colOf (V x) k)).re) =
      2 * thermalAvg (fieldH F (setField (fun _ _ => 0) 2 0) - (x : ℂ) • fieldOp F.nsites 2) (fieldOp F.nsites 2) T := by
    simp only [ev]
    rw [← thermalAvg_sum]
    conv_rhs => arg 2; arg 2; rw [hop]
    rw [thermalAvg_smul]
    ring
  rw [Finset.sum_sub_distrib, ← Finset.sum_mul, k1, k2]
  beta_reduce
  rw [ev x]
  field_simp

/-! ## Cases -/

example : InterOk ⟨2, 2, fun _ _ _ => 1, fun _ => 4, fun _ _ _ => 0, fun _ => 0, fun _ _ => 0, fun _ _ => 1, fun _ _ => 0⟩ ∧
    RealParams ⟨2, 2, fun _ _ _ => 1, fun _ => 4, fun _ _ _ => 0, fun _ => 0, fun _ _ => 0, fun _ _ => 1, fun _ _ => 0⟩ :=
  ⟨Or.inl le_rfl, fun _ _ _ => star_one _, fun _ => Complex.conj_ofReal 4, fun _ _ _ => star_zero _, fun _ => star_zero _, fun _ _ => star_zero _⟩

example : ∃ F : Spins, RealSpins F ∧ 0 < F.nsites ∧ (∀ i < F.nsites, ∀ j < i, F.jx i j = F.jy i j) ∧ F.jz 1 0 = 2 :=
  ⟨⟨3, 1, fun _ _ => 1, fun _ _ => 1, fun _ _ => 2, fun _ => 0, fun _ => 0, fun _ => 0⟩,
    ⟨rfl, fun _ _ => star_one _, fun _ _ => star_one _, fun _ _ => Complex.conj_ofReal 2⟩, by decide, fun _ _ _ _ => rfl, rfl⟩

end ED.Props
