import Verif.Props.FreeFermions
import Verif.Props.Larmor

/-!
# Property C150: without interactions particles evolve independently

After a quench of a model without interactions the averages of products of a creation and an annihilation operator follow from
the evolution of a single particle.
-/

namespace ED.Props

open Matrix

variable {κ : Type} [Fintype κ] [DecidableEq κ]

/-! ## Specification -/

/-- The amplitude for one particle to move from the second site to the first one within the time, in terms of one-particle states and energies. -/
noncomputable def propagator {n : ℕ} (φ : Matrix (Fin n) κ ℂ) (ε : κ → ℝ) (t : ℝ) : Matrix (Fin n) (Fin n) ℂ :=
  Matrix.of fun i k => ∑ μ, φ i μ * Complex.exp (-(Complex.I * (ε μ * t : ℝ))) * star (φ k μ)

/-- The averages of `c†_i c_j` in the states of the array: their real parts and, from the operators times `-i`, their imaginary parts. -/
def GreenAre (F : Fermions) (states : Mat) (times : List ℝ) (s : Fin F.nspecies) (G : ℝ → Matrix (Fin F.nsites) (Fin F.nsites) ℂ) : Prop :=
  ∀ i j : Fin F.nsites, ∃ X, getTwoSiteOp F.sys i s j s cdagOp cOp "fermion" = .ok X ∧
    getExpVals states X = .ok (times.map fun t => (G t i j).re) ∧ getExpVals states (X.smul (-Complex.I)) = .ok (times.map fun t => (G t i j).im)

/-! ## Proofs -/

/-- C150: the propagator is the evolution operator of one particle, whatever eigenbasis is chosen. -/
theorem C150_propagator {n : ℕ} {h : Matrix (Fin n) (Fin n) ℂ} {φ : Matrix (Fin n) κ ℂ} {ε : κ → ℝ} (hφ : IsEigenbasis h φ ε) (t : ℝ) :
    propagator φ ε t = NormedSpace.exp ((-(Complex.I * t)) • h) := by
  have e : h = φ * diagonal (fun μ => (ε μ : ℂ)) * φᴴ := by
    rw [← hφ.eigen, Matrix.mul_assoc, hφ.complete, Matrix.mul_one]
  rw [e, ← Matrix.smul_mul, ← Matrix.mul_smul, exp_unitary hφ.ortho hφ.complete, ← diagonal_smul, Matrix.exp_diagonal]
  ext i k
  rw [propagator, of_apply, mul_apply]
  refine Finset.sum_congr rfl fun μ _ => ?_
  rw [mul_diagonal, Pi.coe_exp, conjTranspose_apply, ← Complex.exp_eq_exp_ℂ]
  congr 3
  simp
  ring

section

variable {ι : Type} [Fintype ι] [DecidableEq ι] {H : Matrix ι ι ℂ} {n : ℕ} {h : Matrix (Fin n) (Fin n) ℂ} {φ : Matrix (Fin n) κ ℂ} {ε : κ → ℝ}

theorem phase_solution {f : ℝ → ℂ} {ω : ℝ} (hf : ∀ t, HasDerivAt f (Complex.I * (ω * f t)) t) (t : ℝ) : f t = Complex.exp (Complex.I * (ω * t : ℝ)) * f 0 := by
  have he : ∀ t : ℝ, HasDerivAt (fun s : ℝ => Complex.exp (-(Complex.I * (ω * s : ℝ)))) (Complex.exp (-(Complex.I * (ω * t : ℝ))) * -(Complex.I * ω)) t := fun t => by
    have h1 : HasDerivAt (fun s : ℝ => -(Complex.I * ((ω * s : ℝ) : ℂ))) (-(Complex.I * ω)) t := by
      have := ((hasDerivAt_id t).const_mul ω).ofReal_comp
      have h2 := (this.const_mul Complex.I).neg
      rw [mul_one] at h2
      exact h2
    exact h1.cexp
  have hz : ∀ t : ℝ, HasDerivAt (fun s : ℝ => Complex.exp (-(Complex.I * (ω * s : ℝ))) * f s) 0 t := fun t =>
    ((he t).mul (hf t)).congr_deriv (by ring)
  have := is_const_of_deriv_eq_zero (fun t => (hz t).differentiableAt) (fun t => (hz t).deriv) t 0
  simp only [mul_zero, Complex.ofReal_zero, neg_zero, Complex.exp_zero, one_mul] at this
  rw [← this, ← mul_assoc, ← Complex.exp_add, add_neg_cancel, Complex.exp_zero, one_mul]

/-- Operators that the Hamiltonian maps to linear combinations of each other. -/
theorem free_evolution (hH : H.IsHermitian) (hφ : IsEigenbasis h φ ε) {A : Fin n → Matrix ι ι ℂ} (hA : ∀ l, H * A l = A l * H + ∑ k, h k l • A k)
    {f : ℝ → ι → ℂ} (hf : ∀ t i, HasDerivAt (fun s => f s i) (-Complex.I * (H *ᵥ f t) i) t) (t : ℝ) (p q : Fin n) :
    expect (A p * (A q)ᴴ) (f t) = ∑ k, ∑ l, star (propagator φ ε t p k) * propagator φ ε t q l * expect (A k * (A l)ᴴ) (f 0) := by
  set B : κ → Matrix ι ι ℂ := fun μ => ∑ k, φ k μ • A k with hB
  have hBH : ∀ μ, H * B μ - B μ * H = (ε μ : ℂ) • B μ := fun μ => by
    simp only [hB]
    rw [Finset.mul_sum, Finset.sum_mul, ← Finset.sum_sub_distrib]
    have e : ∀ l, H * (φ l μ • A l) - φ l μ • A l * H = ∑ k, (h k l * φ l μ) • A k := fun l => by
      rw [Matrix.mul_smul, Matrix.smul_mul, ← smul_sub, hA, add_sub_cancel_left, Finset.smul_sum]
      exact Finset.sum_congr rfl fun k _ => by rw [smul_smul, mul_comm]
    rw [Finset.sum_congr rfl fun l _ => e l, Finset.sum_comm, Finset.smul_sum]
    refine Finset.sum_congr rfl fun k _ => ?_
    rw [← Finset.sum_smul, smul_smul]
    congr 1
    have := congrFun (congrFun hφ.eigen k) μ
    rw [mul_diagonal, mul_apply] at this
    rw [this, mul_comm]
  have hAB : ∀ p, A p = ∑ μ, star (φ p μ) • B μ := fun p => by
    simp only [hB, Finset.smul_sum, smul_smul]
    rw [Finset.sum_comm]
    have e : ∀ k, ∑ μ, (star (φ p μ) * φ k μ) • A k = (if k = p then 1 else 0 : ℂ) • A k := fun k => by
      rw [← Finset.sum_smul]
      congr 1
      have := congrFun (congrFun hφ.complete k) p
      rw [mul_apply, one_apply] at this
      rw [← this]
      exact Finset.sum_congr rfl fun μ _ => by rw [conjTranspose_apply, mul_comm]
    rw [Finset.sum_congr rfl fun k _ => e k]
    simp
  have hcomm : ∀ μ ν, H * (B μ * (B ν)ᴴ) - B μ * (B ν)ᴴ * H = ((ε μ - ε ν : ℝ) : ℂ) • (B μ * (B ν)ᴴ) := fun μ ν => by
    have h1 : H * B μ = B μ * H + (ε μ : ℂ) • B μ := by rw [← hBH]; abel
    have h2 : (B ν)ᴴ * H = H * (B ν)ᴴ + (ε ν : ℂ) • (B ν)ᴴ := by
      have := congrArg conjTranspose (hBH ν)
      rw [conjTranspose_sub, conjTranspose_mul, conjTranspose_mul, hH.eq, conjTranspose_smul, Complex.star_def, Complex.conj_ofReal] at this
      rw [← this]
      abel
    rw [← Matrix.mul_assoc, h1, Matrix.mul_assoc (B μ) _ H, h2, add_mul, mul_add, Matrix.mul_assoc, Matrix.smul_mul, Matrix.mul_smul]
    push_cast
    rw [sub_smul]
    abel
  have hsm : ∀ (z : ℂ) (O : Matrix ι ι ℂ) (ψ : ι → ℂ), expect (z • O) ψ = z * expect O ψ := fun z O ψ => by
    unfold expect
    rw [Matrix.smul_mulVec, dotProduct_smul, smul_eq_mul]
  have hsum : ∀ {α : Type} [Fintype α] (g : α → Matrix ι ι ℂ) (ψ : ι → ℂ), expect (∑ a, g a) ψ = ∑ a, expect (g a) ψ := fun g ψ => by
    unfold expect
    rw [Matrix.sum_mulVec, dotProduct_sum]
  have hsol : ∀ μ ν, expect (B μ * (B ν)ᴴ) (f t) = Complex.exp (Complex.I * ((ε μ - ε ν) * t : ℝ)) * expect (B μ * (B ν)ᴴ) (f 0) := fun μ ν => by
    refine phase_solution (f := fun t => expect (B μ * (B ν)ᴴ) (f t)) (fun t => ?_) t
    refine (expect_deriv hH hf t).congr_deriv ?_
    rw [hcomm, hsm]
  have hprod : ∀ t, ∀ p q, expect (A p * (A q)ᴴ) (f t) = ∑ μ, ∑ ν, star (φ p μ) * φ q ν * expect (B μ * (B ν)ᴴ) (f t) := fun t p q => by
    rw [hAB p, hAB q, conjTranspose_sum, Finset.sum_mul, hsum]
    refine Finset.sum_congr rfl fun μ _ => ?_
    rw [Finset.mul_sum, hsum]
    refine Finset.sum_congr rfl fun ν _ => ?_
    rw [conjTranspose_smul, star_star, Matrix.smul_mul, Matrix.mul_smul, smul_smul, hsm]
  have hback : ∀ μ ν, expect (B μ * (B ν)ᴴ) (f 0) = ∑ k, ∑ l, φ k μ * star (φ l ν) * expect (A k * (A l)ᴴ) (f 0) := fun μ ν => by
    simp only [hB]
    rw [conjTranspose_sum, Finset.sum_mul, hsum]
    refine Finset.sum_congr rfl fun k _ => ?_
    rw [Finset.mul_sum, hsum]
    refine Finset.sum_congr rfl fun l _ => ?_
    rw [conjTranspose_smul, Matrix.smul_mul, Matrix.mul_smul, smul_smul, hsm]
  have hst : ∀ (p k : Fin n), star (propagator φ ε t p k) = ∑ μ, star (φ p μ) * Complex.exp (Complex.I * (ε μ * t : ℝ)) * φ k μ := fun p k => by
    rw [propagator, of_apply, star_sum]
    refine Finset.sum_congr rfl fun μ _ => ?_
    rw [star_mul', star_mul', star_star, Complex.star_def, ← Complex.exp_conj, map_neg, map_mul, Complex.conj_I, Complex.conj_ofReal, neg_mul, neg_neg]
  rw [hprod t p q]
  simp only [hsol, hback]
  have lhs : ∀ μ ν, star (φ p μ) * φ q ν * (Complex.exp (Complex.I * ((ε μ - ε ν) * t : ℝ)) * ∑ k, ∑ l, φ k μ * star (φ l ν) * expect (A k * (A l)ᴴ) (f 0)) =
      ∑ k, ∑ l, (star (φ p μ) * Complex.exp (Complex.I * (ε μ * t : ℝ)) * φ k μ) * (φ q ν * Complex.exp (-(Complex.I * (ε ν * t : ℝ))) * star (φ l ν)) *
        expect (A k * (A l)ᴴ) (f 0) := fun μ ν => by
    have e : Complex.exp (Complex.I * ((ε μ - ε ν) * t : ℝ)) = Complex.exp (Complex.I * (ε μ * t : ℝ)) * Complex.exp (-(Complex.I * (ε ν * t : ℝ))) := by
      rw [← Complex.exp_add]
      congr 1
      push_cast
      ring
    rw [e, Finset.mul_sum, Finset.mul_sum]
    refine Finset.sum_congr rfl fun k _ => ?_
    rw [Finset.mul_sum, Finset.mul_sum]
    exact Finset.sum_congr rfl fun l _ => by ring
  simp only [lhs]
  have rhs : ∀ k l, star (propagator φ ε t p k) * propagator φ ε t q l * expect (A k * (A l)ᴴ) (f 0) =
      ∑ μ, ∑ ν, (star (φ p μ) * Complex.exp (Complex.I * (ε μ * t : ℝ)) * φ k μ) * (φ q ν * Complex.exp (-(Complex.I * (ε ν * t : ℝ))) * star (φ l ν)) *
        expect (A k * (A l)ᴴ) (f 0) := fun k l => by
    rw [hst, propagator, of_apply, Finset.sum_mul_sum, Finset.sum_mul]
    exact Finset.sum_congr rfl fun μ _ => by rw [Finset.sum_mul]
  simp only [rhs]
  rw [Finset.sum_congr rfl fun μ _ => Finset.sum_comm, Finset.sum_comm]
  refine Finset.sum_congr rfl fun k _ => ?_
  rw [Finset.sum_congr rfl fun μ _ => Finset.sum_comm, Finset.sum_comm]

end

variable {F : Fermions} {t : Fin F.nsites → Fin F.nsites → Fin F.nspecies → ℝ} {v : Fin F.nsites → Fin F.nspecies → ℝ}

/-- C150: for every model without interactions and every initial state, also one with many particles and with correlations, the averages of
`c†_i c_j` in the states returned by the time evolution are those that one-particle evolution gives from their initial values. -/
theorem C150_free (S : EigSolvers) (hS : EigContract S) (hF : NonInteracting F t v) (hn : 0 < F.nsites) (hs : 0 < F.nspecies)
    {φ : Fin F.nspecies → Matrix (Fin F.nsites) κ ℂ} {ε : Fin F.nspecies → κ → ℝ} (hφ : ∀ s, IsEigenbasis (bands t v s) (φ s) (ε s)) :
    ∃ A w M, F.createH none = .ok A ∧ diagList S A = .ok (w, M) ∧
      ∀ (init : Mat) (ψ : Conf (F.nsites * F.nspecies) 2 → ℂ), init.Is (Matrix.of fun i (_ : Fin 1) => ψ i) → ∀ s : Fin F.nspecies,
        ∃ G, GreenAre F init [0] s G ∧ (∀ times : List ℝ, ∃ ev, quenchTimeEvolve init M w times = .ok ev ∧ GreenAre F ev.asMat times s G) ∧
          ∀ (τ : ℝ) (i j : Fin F.nsites), G τ i j = ∑ k, ∑ l, star (propagator (φ s) (ε s) τ i k) * propagator (φ s) (ε s) τ j l * G 0 k l := by
  obtain ⟨A, hA, hAi⟩ := hF.gives
  have hH := secondQuant_star (modeMat_star (h := bands t v) fun s => oneParticle_star fun i j => hF.symm i j s)
  have hd : 2 ≤ Fintype.card (Conf (F.nsites * F.nspecies) 2) := by
    rw [Fintype.card_fun, Fintype.card_fin, Fintype.card_fin]
    exact Nat.le_self_pow (Nat.mul_pos hn hs).ne' 2
  obtain ⟨m, E, M, V, d1, d2, d3, d4, d5, -⟩ := diagList_ok S hS hAi hH
  obtain ⟨ev, v1, v2, -, -, -, v6⟩ := C22_evolution_partial E hd d2 d3 d4 d5
  refine ⟨A, List.ofFn E, M, hA, d1, fun init ψ hi s => ?_⟩
  have him : ∀ (O : Op (F.nsites * F.nspecies) 2) (φ : Conf (F.nsites * F.nspecies) 2 → ℂ), (expect ((-Complex.I) • O) φ).re = (expect O φ).im := fun O φ => by
    unfold expect
    rw [Matrix.smul_mulVec, dotProduct_smul, smul_eq_mul]
    simp
  refine ⟨fun τ => Matrix.of fun i j => expect (create (mode i s) * annih (mode j s)) (ev τ ψ), fun i j => ?_, fun times => ?_, fun τ i j => ?_⟩
  · obtain ⟨X, hX, hXi⟩ := F_hop F i j s s
    refine ⟨X, hX, ?_, ?_⟩
    · rw [getExpVals_is hi hXi, List.map_singleton]
      simp only [v2, of_apply]
      rfl
    · rw [getExpVals_is hi (hXi.smul _), List.map_singleton]
      simp only [v2, of_apply, him]
      rfl
  · obtain ⟨a, a1, a2, a3⟩ := v1 init ψ times hi
    refine ⟨a, a1, fun i j => ?_⟩
    obtain ⟨X, hX, hXi⟩ := F_hop F i j s s
    refine ⟨X, hX, ?_, ?_⟩
    · exact expVals_states (f := fun t => ev t ψ) a2 a3 hXi
    · rw [expVals_states (f := fun t => ev t ψ) a2 a3 (hXi.smul (-Complex.I))]
      simp only [of_apply, him]
  · have hcr : ∀ l : Fin F.nsites, secondQuant (modeMat (bands t v)) * create (mode l s) =
        create (mode l s) * secondQuant (modeMat (bands t v)) + ∑ k, bands t v s k l • create (mode k s) := fun l => by
      rw [secondQuant_create, sum_modes, Finset.sum_eq_single s]
      · congr 1
        refine Finset.sum_congr rfl fun k _ => ?_
        rw [modeMat_mode, if_pos rfl]
      · intro σ _ hσ
        refine Finset.sum_eq_zero fun k _ => ?_
        rw [modeMat_mode, if_neg hσ, zero_smul]
      · simp
    have := free_evolution hH (hφ s) (A := fun k => create (mode k s)) hcr (f := fun t => ev t ψ) (fun t i => v6 t ψ i) τ i j
    simp only [create_star] at this
    exact this

/-! ## Example -/

/-- Two sites with one hopping. -/
def twoWells : Fermions where
  nsites := 2
  nspecies := 1
  us _ := 0
  usSame _ _ _ := 0
  ts _ _ _ := 1
  xdist i j := (i : ℝ) - j
  ydist _ _ := 0
  pots _ _ := 0
  mus _ := 0

theorem twoWells_free : NonInteracting twoWells (fun _ _ _ => 1) (fun _ _ => 0) where
  us _ := rfl
  same _ _ _ := rfl
  hop i j s h := by
    have hi : ((i : Fin 2) : ℕ) = 1 := by have := i.2; have h' : (j : ℕ) < i := h; simp only [twoWells] at this; omega
    have hj : ((j : Fin 2) : ℕ) = 0 := by have h' : (j : ℕ) < i := h; omega
    simp [twoWells, hi, hj]
  symm _ _ _ := rfl
  pot _ _ := by simp [twoWells]

/-- The symmetric and the antisymmetric state. -/
noncomputable def wellStates : Matrix (Fin 2) (Fin 2) ℂ := ((1 / Real.sqrt 2 : ℝ) : ℂ) • !![1, 1; 1, -1]

theorem wells_basis : IsEigenbasis (ι := Fin 2) (bands (F := twoWells) (fun _ _ _ => 1) (fun _ _ => 0) (0 : Fin 1)) wellStates ![-1, 1] := by
  have h2 : ((1 / Real.sqrt 2 : ℝ) : ℂ) * ((1 / Real.sqrt 2 : ℝ) : ℂ) = 1 / 2 := by
    rw [← Complex.ofReal_mul, div_mul_div_comm, Real.mul_self_sqrt (by norm_num)]
    norm_num
  have hst : wellStatesᴴ = wellStates := by
    ext i j
    fin_cases i <;> fin_cases j <;> simp [wellStates]
  have hsq : wellStates * wellStates = 1 := by
    rw [wellStates, Matrix.smul_mul, Matrix.mul_smul, smul_smul, h2]
    ext i j
    fin_cases i <;> fin_cases j <;> simp [Matrix.mul_apply, Fin.sum_univ_two] <;> norm_num
  refine ⟨by rw [hst, hsq], by rw [hst, hsq], ?_⟩
  have hb : (bands (F := twoWells) (fun _ _ _ => 1) (fun _ _ => 0) (0 : Fin 1) : Matrix (Fin 2) (Fin 2) ℂ) = !![0, -1; -1, 0] := by
    change oneParticle (n := 2) (fun _ _ => 1) (fun _ => 0) = _
    ext i j
    fin_cases i <;> fin_cases j <;> simp [oneParticle]
  rw [hb, wellStates]
  ext i j
  fin_cases i <;> fin_cases j <;> simp [Matrix.mul_apply, Fin.sum_univ_two]

theorem wells_propagator (t : ℝ) : propagator wellStates ![-1, 1] t = !![(Real.cos t : ℂ), Complex.I * Real.sin t; Complex.I * Real.sin t, (Real.cos t : ℂ)] := by
  have h2 : ((Real.sqrt 2 : ℝ) : ℂ) * ((Real.sqrt 2 : ℝ) : ℂ) = 2 := by
    rw [← Complex.ofReal_mul, Real.mul_self_sqrt (by norm_num)]
    norm_num
  have h0 : ((Real.sqrt 2 : ℝ) : ℂ) ≠ 0 := fun h => by rw [h] at h2; norm_num at h2
  have e1 : Complex.exp (Complex.I * t) = Complex.cos t + Complex.sin t * Complex.I := by rw [mul_comm, Complex.exp_mul_I]
  have e2 : Complex.exp (-(Complex.I * t)) = Complex.cos t - Complex.sin t * Complex.I := by
    rw [← mul_neg, mul_comm, Complex.exp_mul_I, Complex.cos_neg, Complex.sin_neg]
    ring
  have h3 : ((Real.sqrt 2 : ℝ) : ℂ)⁻¹ * ((Real.sqrt 2 : ℝ) : ℂ)⁻¹ = 1 / 2 := by
    rw [← mul_inv, h2]
    norm_num
  ext i j
  fin_cases i <;> fin_cases j <;> simp [propagator, wellStates, Fin.sum_univ_two, e1, e2] <;>
    first
    | linear_combination (2 * Complex.cos t) * h3
    | linear_combination (2 * Complex.I * Complex.sin t) * h3

/-- Without coherence between the sites at the beginning, particles swing between two wells. -/
example (S : EigSolvers) (hS : EigContract S) : ∃ A w M, twoWells.createH none = .ok A ∧ diagList S A = .ok (w, M) ∧
    ∀ (init : Mat) (ψ : Conf (2 * 1) 2 → ℂ), init.Is (Matrix.of fun i (_ : Fin 1) => ψ i) →
      ∃ G : ℝ → Matrix (Fin 2) (Fin 2) ℂ, GreenAre twoWells init [0] (0 : Fin 1) G ∧
        (∀ times : List ℝ, ∃ ev, quenchTimeEvolve init M w times = .ok ev ∧ GreenAre twoWells ev.asMat times (0 : Fin 1) G) ∧
        (G 0 0 1 = 0 → G 0 1 0 = 0 → ∀ τ, G τ 0 0 = Real.cos τ ^ 2 * G 0 0 0 + Real.sin τ ^ 2 * G 0 1 1) := by
  obtain ⟨A, w, M, h1, h2, h3⟩ := C150_free S hS twoWells_free (by decide) (by decide) (φ := fun _ => wellStates) (ε := fun _ => ![-1, 1])
    (fun s => by rw [show s = (0 : Fin 1) from Subsingleton.elim (α := Fin 1) _ _]; exact wells_basis)
  refine ⟨A, w, M, h1, h2, fun init ψ hi => ?_⟩
  obtain ⟨G, g1, g2, g3⟩ := h3 init ψ hi (0 : Fin 1)
  refine ⟨G, g1, g2, fun a b τ => ?_⟩
  have this : G τ (0 : Fin 2) (0 : Fin 2) = ∑ k : Fin 2, ∑ l : Fin 2,
    star (propagator (n := 2) wellStates ![-1, 1] τ 0 k) * propagator (n := 2) wellStates ![-1, 1] τ 0 l * G 0 k l := g3 τ (0 : Fin 2) (0 : Fin 2)
  rw [wells_propagator] at this
  refine this.trans ?_
  simp only [Fin.sum_univ_two]
  rw [a, b]
  simp [← Complex.ofReal_cos, ← Complex.ofReal_sin, -Complex.ofReal_cos, -Complex.ofReal_sin]
  linear_combination (-(Real.sin τ : ℂ) ^ 2 * G 0 (1 : Fin 2) (1 : Fin 2)) * Complex.I_sq

end ED.Props
