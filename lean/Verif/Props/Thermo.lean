import Verif.Lemmas.Gibbs
import Verif.Model.Thermo
import Verif.Props.Thermal
import Verif.Props.Diag
import Verif.Props.Pipeline

/-! # Property C109: thermodynamics from the eigenvalues and eigenvectors -/

namespace ED.Props

open Matrix

section

variable {ι : Type} [Fintype ι] [Basis ι] [DecidableEq ι]

/-- The numbering of a basis. -/
noncomputable def numEquiv {n : ℕ} (h : Fintype.card ι = n) : ι ≃ Fin n :=
  Equiv.ofBijective (fun i => (⟨Basis.num i, h ▸ Basis.lt i⟩ : Fin n)) ((Fintype.bijective_iff_injective_and_card _).2
    ⟨fun i j hij => Basis.inj (Fin.mk.inj hij), by simp [h]⟩)

theorem numEquiv_val {n : ℕ} (h : Fintype.card ι = n) (i : ι) : (numEquiv h i : ℕ) = Basis.num i := rfl

theorem num_numEquiv_symm {n : ℕ} (h : Fintype.card ι = n) (k : Fin n) : Basis.num ((numEquiv h).symm k) = k := by
  rw [← numEquiv_val h, Equiv.apply_symm_apply]

/-- The dense diagonalization of a Hermitian operator. -/
theorem diagList_ok (S : EigSolvers) (hS : EigContract S) [Nonempty ι] {A : Mat} {H : Matrix ι ι ℂ} (hA : A.Is H)
    (hH : H.IsHermitian) : ∃ (m : ℕ) (E : Fin (m + 1) → ℝ) (M : Mat) (V : Matrix ι (Fin (m + 1)) ℂ),
      diagList S A = .ok (List.ofFn E, M) ∧ M.Is V ∧ Vᴴ * V = 1 ∧ V * Vᴴ = 1 ∧
      H * V = V * diagonal (fun k => (E k : ℂ)) ∧ Monotone E := by
  obtain ⟨m, hm⟩ : ∃ m, Fintype.card ι = m + 1 := ⟨Fintype.card ι - 1, by have := Fintype.card_pos (α := ι); omega⟩
  set e := numEquiv hm with he
  have hA' : A.Is (H.submatrix e.symm e.symm) := by
    refine ⟨by rw [hA.1, hm, Fintype.card_fin], by rw [hA.2.1, hm, Fintype.card_fin], fun i j => ?_⟩
    rw [submatrix_apply, ← hA.2.2, he, num_numEquiv_symm, num_numEquiv_symm]
    rfl
  obtain ⟨w, M, V, h1, h2, h3, h4, h5, h6⟩ := C101_dense S hS A _ hA' (hH.submatrix _) 200
  refine ⟨m, fun k => w k, M, V.submatrix e id, ?_, ?_, ?_, ?_, ?_, fun i j hij => h6 i j hij⟩
  · unfold diagList
    rw [h1]
    simp only [bind, Except.bind, pure, Except.pure]
    rw [list_range_map]
  · refine ⟨by rw [h2.1, hm, Fintype.card_fin], h2.2.1, fun i j => ?_⟩
    rw [submatrix_apply, ← h2.2.2]
    rfl
  · rw [conjTranspose_submatrix, submatrix_mul_equiv, h3, submatrix_id_id]
  · have : (V.submatrix e id) * (V.submatrix e id)ᴴ = (V * Vᴴ).submatrix e e := by
      rw [conjTranspose_submatrix]
      exact submatrix_mul_equiv V Vᴴ e (Equiv.refl _) e
    rw [this, h4, submatrix_one_equiv]
  · have e1 : H = (H.submatrix e.symm e.symm).submatrix e e := by ext i j; simp
    have e2 : H * V.submatrix e id = (H.submatrix e.symm e.symm * V).submatrix e id := by
      conv_lhs => rw [e1]
      exact submatrix_mul_equiv _ V e e id
    rw [e2, h5]
    exact (submatrix_mul_equiv V _ e (Equiv.refl _) id).symm

/-- C109, averages: with all eigenvectors and eigenvalues from the dense solver, the thermal expectation value of any
operator is the trace with the density matrix `e^{-H/T} / Z`, at every temperature other than zero. -/
theorem C109_average (S : EigSolvers) (hS : EigContract S) [Nonempty ι] (A : Mat) (H : Matrix ι ι ℂ) (hA : A.Is H)
    (hH : H.IsHermitian) : ∃ w M, diagList S A = .ok (w, M) ∧ ∀ (B : Mat) (O : Matrix ι ι ℂ), B.Is O → ∀ T : ℝ, T ≠ 0 →
      expValsThermal M B w T = .ok (thermalAvg H O T) := by
  obtain ⟨m, E, M, V, h1, h2, h3, h4, h5, -⟩ := diagList_ok S hS hA hH
  refine ⟨_, M, h1, fun B O hB T hT => ?_⟩
  rw [C19_canonical h2 hB E T (Or.inl hT), thermalAvg_eig h3 h4 h5 O hT]

/-- C109: energy, entropy and specific heat of the scripts. The energy is the trace of the Hamiltonian with the density
matrix; the entropy is von Neumann's entropy of the density matrix, and minus the derivative of the free energy; the
specific heat is the derivative of the energy, all for positive temperature. -/
theorem C109_thermodynamics (S : EigSolvers) (hS : EigContract S) [Nonempty ι] (A : Mat) (H : Matrix ι ι ℂ)
    (hA : A.Is H) (hH : H.IsHermitian) :
    ∃ w M, diagList S A = .ok (w, M) ∧ ∀ T : ℝ, 0 < T → ∃ e s c, thermoAt M A w T = .ok (e, s, c) ∧
      e = thermalAvg H H T ∧ s = vonNeumann (gibbs H T) ∧ HasDerivAt (freeEnergy H) (-s) T ∧
      HasDerivAt (thermalAvg H H) c T := by
  obtain ⟨m, E, M, V, h1, h2, h3, h4, h5, -⟩ := diagList_ok S hS hA hH
  refine ⟨_, M, h1, fun T hT => ?_⟩
  obtain ⟨B, hB, hB'⟩ := hA.mul hA
  have ha : ∀ T ≠ 0, thermalAvg H H T = canonical T E E := by
    intro T hT
    rw [thermalAvg_eig h3 h4 h5 H hT]
    congr 1
    funext k
    rw [expect_eig h3 h5, Complex.ofReal_re]
  have ha2 : ∀ T ≠ 0, thermalAvg H (H * H) T = canonical T E fun k => E k ^ 2 := by
    intro T hT
    rw [thermalAvg_eig h3 h4 h5 _ hT]
    congr 1
    funext k
    rw [expect_eig_sq h3 h5, Complex.ofReal_re]
  have hZ : ∀ T, partitionFn H T = ∑ k, Real.exp (-E k / T) := partitionFn_eig h3 h4 h5
  have hpos : 0 < partitionFn H T := by
    rw [hZ]
    exact Finset.sum_pos (fun k _ => Real.exp_pos _) Finset.univ_nonempty
  have hreal : trace (boltzOp H T) = partitionFn H T := by
    have := trace_boltzOp h3 h4 h5 T 1
    rw [Matrix.mul_one] at this
    rw [this, hZ, Complex.ofReal_sum]
    refine Finset.sum_congr rfl fun k _ => ?_
    have hn : expect (1 : Matrix ι ι ℂ) (colOf V k) = 1 := by
      have := congrFun (congrFun h3 k) k
      rw [Matrix.mul_apply, one_apply_eq] at this
      unfold expect
      rw [one_mulVec]
      simpa [dotProduct, colOf, conjTranspose_apply] using this
    rw [hn, mul_one]
  refine ⟨thermalAvg H H T, vonNeumann (gibbs H T), 1 / T ^ 2 * (thermalAvg H (H * H) T - thermalAvg H H T ^ 2),
    ?_, rfl, rfl, ?_, ?_⟩
  · unfold thermoAt
    have q1 : expValsThermal M A (List.ofFn E) T = .ok (thermalAvg H H T) := by
      rw [C19_canonical h2 hA E T (Or.inl hT.ne'), thermalAvg_eig h3 h4 h5 H hT.ne']
    have q2 : expValsThermal M B (List.ofFn E) T = .ok (thermalAvg H (H * H) T) := by
      rw [C19_canonical h2 hB' E T (Or.inl hT.ne'), thermalAvg_eig h3 h4 h5 _ hT.ne']
    have q3 : ((List.ofFn E).map fun e => Real.exp (-e / T)).sum = partitionFn H T := by
      rw [hZ, List.map_ofFn, List.sum_ofFn]
      rfl
    simp only [q1, hB, q2, q3, bind, Except.bind, pure, Except.pure]
    rw [vonNeumann_gibbs hH hpos hreal]
  · rw [vonNeumann_gibbs hH hpos hreal, ha T hT.ne', hZ]
    have := hasDerivAt_free E hT.ne'
    unfold freeEnergy
    simp only [hZ]
    exact this
  · rw [ha T hT.ne', ha2 T hT.ne']
    refine (hasDerivAt_energy E hT.ne').congr_of_eventuallyEq ?_
    filter_upwards [isOpen_ne.mem_nhds hT.ne'] with T hT
    exact ha T hT

/-- Two coupled states: some solver satisfies the contract, and the matrix is Hermitian. -/
example : ∃ S : EigSolvers, EigContract S ∧ ∃ A : Mat, A.Is !![(1 : ℂ), Complex.I; -Complex.I, 2] ∧
    !![(1 : ℂ), Complex.I; -Complex.I, 2].IsHermitian := by
  obtain ⟨S, hS⟩ := C101_contract_satisfiable
  refine ⟨S, hS, ⟨2, 2, fun i j => if i = 0 then (if j = 0 then 1 else Complex.I) else if j = 0 then -Complex.I else 2⟩,
    ⟨rfl, rfl, fun i j => ?_⟩, ?_⟩
  · fin_cases i <;> fin_cases j <;> rfl
  · ext i j
    fin_cases i <;> fin_cases j <;> simp

end

/-- C109: the script which is run for each cluster stops with an error for every cluster of two or more sites, whatever
the solver, as soon as there is a temperature: the method it uses for the correlations does not exist. -/
theorem C109_cluster_script_violated (S : EigSolvers) (g : Geometry) (hg : 2 ≤ g.nsites) (T : ℝ) (temps : List ℝ) :
    ∃ e, diagCluster S g (T :: temps) = .error e := by
  unfold diagCluster
  refine bind_error _ _ fun F => bind_error _ _ fun H => bind_error _ _ fun r => ?_
  obtain ⟨w, V⟩ := r
  dsimp only
  rw [List.mapM_cons]
  have key : ∀ (x : Res (ℝ × ℝ × ℝ × ℝ)) (k : ℝ × ℝ × ℝ × ℝ → Res (List (ℝ × ℝ × ℝ × ℝ))), (∃ e, x = .error e) →
      ∃ e, (x >>= k) = .error e := by
    rintro x k ⟨e, rfl⟩
    exact ⟨e, rfl⟩
  refine key _ _ (bind_error _ _ fun x => ?_)
  rw [if_pos (by omega)]
  exact ⟨_, rfl⟩

end ED.Props
