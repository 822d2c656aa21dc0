import Verif.Props.Conserved
import Verif.Props.FreeEnergy

/-!
# Property C156: chemical potentials do not change the evolution

The chemical potentials multiply conserved numbers, so they only change phases between states with different numbers of particles.
-/

namespace ED.Props

open Matrix Spec

/-! ## Specification -/

/-- The model with other chemical potentials. -/
def withMus (F : Fermions) (μ : ℕ → ℝ) : Fermions := { F with mus := fun s => (μ s : ℂ) }

/-- The operator does not change the numbers of particles of the species. -/
def KeepsNumbers {a b : ℕ} (O : Op (a * b) 2) : Prop := ∀ t t', O t t' ≠ 0 → ∀ s : Fin b, speciesCount t s = speciesCount t' s

/-! ## Proofs -/

section Generic

variable {ι : Type} [Fintype ι] [DecidableEq ι] [Basis ι]

theorem evolve_frame (S : EigSolvers) (hS : EigContract S) (hd : 2 ≤ Fintype.card ι) {A A' : Mat} {H H' : Matrix ι ι ℂ} (hA : A.Is H) (hA' : A'.Is H')
    (hH : H.IsHermitian) (hH' : H'.IsHermitian) (d : ι → ℝ) (he : H' = H - diagonal fun i => (d i : ℂ)) (hc : ∀ i j, H i j ≠ 0 → d i = d j) :
    ∃ w M w' M', diagList S A = .ok (w, M) ∧ diagList S A' = .ok (w', M') ∧
      ∀ (init : Mat) (ψ : ι → ℂ), init.Is (Matrix.of fun i (_ : Fin 1) => ψ i) → ∀ times : List ℝ,
        ∃ ev ev', quenchTimeEvolve init M w times = .ok ev ∧ quenchTimeEvolve init M' w' times = .ok ev' ∧
          ∀ (X : Mat) (O : Matrix ι ι ℂ), X.Is O → (∀ i j, O i j ≠ 0 → d i = d j) → ∃ x, getExpVals ev.asMat X = .ok x ∧ getExpVals ev'.asMat X = .ok x := by
  haveI : Nonempty ι := Fintype.card_pos_iff.1 (by omega)
  obtain ⟨m, E, M, V, d1, d2, d3, d4, d5, -⟩ := diagList_ok S hS hA hH
  obtain ⟨m', E', M', V', d1', d2', d3', d4', d5', -⟩ := diagList_ok S hS hA' hH'
  obtain ⟨ev, v1, v2, -, -, -, v6⟩ := C22_evolution_partial E hd d2 d3 d4 d5
  obtain ⟨ev', v1', v2', -, -, -, v6'⟩ := C22_evolution_partial E' hd d2' d3' d4' d5'
  refine ⟨_, M, _, M', d1, d1', fun init ψ hi times => ?_⟩
  obtain ⟨a, a1, a2, a3⟩ := v1 init ψ times hi
  obtain ⟨a', a1', a2', a3'⟩ := v1' init ψ times hi
  refine ⟨a, a', a1, a1', fun X O hX hO => ⟨_, expVals_states (f := fun t => ev t ψ) a2 a3 hX, (expVals_states (f := fun t => ev' t ψ) a2' a3' hX).trans ?_⟩⟩
  let u : ℝ → ι → ℂ := fun t i => Complex.exp (Complex.I * (t * d i : ℝ))
  have hu : ∀ t i, star (u t i) * u t i = 1 := fun t i => by
    simp only [u]
    rw [Complex.star_def, ← Complex.exp_conj, ← Complex.exp_add]
    simp
  have hmv : ∀ (K : Matrix ι ι ℂ), (∀ i j, K i j ≠ 0 → d i = d j) → ∀ (t : ℝ) (φ : ι → ℂ) i, (K *ᵥ fun j => u t j * φ j) i = u t i * (K *ᵥ φ) i := fun K hK t φ i => by
    unfold Matrix.mulVec dotProduct
    rw [Finset.mul_sum]
    refine Finset.sum_congr rfl fun j _ => ?_
    beta_reduce
    by_cases h : K i j = 0
    · rw [h, zero_mul, zero_mul, mul_zero]
    · simp only [u]
      rw [hK i j h]
      ring
  have key : ∀ t, ev' t ψ = fun i => u t i * ev t ψ i := fun t => by
    refine schroedinger_unique hH' (f := fun t => ev' t ψ) (g := fun t i => u t i * ev t ψ i) (fun t i => v6' t ψ i) (fun t i => ?_) ?_ t
    · have h1 : HasDerivAt (fun s : ℝ => Complex.I * ((s * d i : ℝ) : ℂ)) (Complex.I * d i) t := by
        have := ((hasDerivAt_id t).mul_const (d i)).ofReal_comp.const_mul Complex.I
        rw [one_mul] at this
        exact this
      refine ((h1.cexp).mul (v6 t ψ i)).congr_deriv ?_
      rw [he, sub_mulVec, Pi.sub_apply, hmv H hc, mulVec_diagonal]
      simp only [u]
      ring
    · funext i
      simp [u, v2, v2']
  refine congrArg Except.ok (List.map_congr_left fun t _ => congrArg Complex.re ?_)
  rw [key]
  unfold expect dotProduct
  refine Finset.sum_congr rfl fun i _ => ?_
  rw [hmv O hO, Pi.star_apply, Pi.star_apply, star_mul']
  linear_combination (star (ev t ψ i) * (O *ᵥ ev t ψ) i) * hu t i

end Generic

theorem species_diag {a b : ℕ} (s : Fin b) : (speciesNumber a s : Op (a * b) 2) = diagonal fun t => (speciesCount t s : ℂ) := by
  ext t t'
  rw [speciesNumber, Matrix.sum_apply, diagonal_apply]
  simp only [number_diag]
  by_cases h : t = t'
  · simp [h, speciesCount]
  · simp [h]

theorem hubPot_shift {a b : ℕ} (P : Fin a → Fin b → ℂ) (m μ : Fin b → ℂ) :
    hubPot (fun i s => P i s - μ s) = hubPot (fun i s => P i s - m s) - diagonal fun t : Conf (a * b) 2 => ∑ s, (μ s - m s) * (speciesCount t s : ℂ) := by
  have h : (diagonal fun t : Conf (a * b) 2 => ∑ s, (μ s - m s) * (speciesCount t s : ℂ)) = ∑ s, (μ s - m s) • (speciesNumber a s : Op (a * b) 2) := by
    ext t t'
    rw [Matrix.sum_apply, diagonal_apply]
    simp only [species_diag, Matrix.smul_apply, diagonal_apply, smul_eq_mul]
    split_ifs <;> simp
  rw [h]
  unfold hubPot speciesNumber
  simp only [Finset.smul_sum]
  rw [Finset.sum_comm (s := (Finset.univ : Finset (Fin b))), ← Finset.sum_sub_distrib]
  refine Finset.sum_congr rfl fun i _ => ?_
  rw [← Finset.sum_sub_distrib]
  refine Finset.sum_congr rfl fun s _ => ?_
  rw [← sub_smul]
  congr 1
  ring

theorem keeps_numbers {F : Fermions} (hI : InterOk F) (hn : 0 < F.nsites) {A : Mat} {H : Op (F.nsites * F.nspecies) 2} (hA : F.createH none = .ok A) (hAi : A.Is H) :
    KeepsNumbers H := fun t t' h s => by
  obtain ⟨H', hH', hc⟩ := C26_number_conservation F hI
  obtain rfl : H = H' := gives_unique ⟨A, hA, hAi⟩ hH'
  by_contra hne
  exact h ((hc s hn).choose_spec.2.2 t t' hne)

/-- C156: after a quench from any initial state, averages of operators that do not change the numbers of particles do not depend on the chemical potentials. -/
theorem C156_chemical_potentials (S : EigSolvers) (hS : EigContract S) (F : Fermions) (hI : InterOk F) (hr : RealParams F) (hn : 0 < F.nsites) (hs : 0 < F.nspecies)
    (μ : ℕ → ℝ) :
    ∃ A w M A' w' M', F.createH none = .ok A ∧ (withMus F μ).createH none = .ok A' ∧ diagList S A = .ok (w, M) ∧ diagList S A' = .ok (w', M') ∧
      ∀ (init : Mat) (ψ : Conf (F.nsites * F.nspecies) 2 → ℂ), init.Is (Matrix.of fun i (_ : Fin 1) => ψ i) → ∀ times : List ℝ,
        ∃ ev ev', quenchTimeEvolve init M w times = .ok ev ∧ quenchTimeEvolve init M' w' times = .ok ev' ∧
          ∀ (X : Mat) (O : Op (F.nsites * F.nspecies) 2), X.Is O → KeepsNumbers O → ∃ x, getExpVals ev.asMat X = .ok x ∧ getExpVals ev'.asMat X = .ok x := by
  have hI' : InterOk (withMus F μ) := hI
  have hr' : RealParams (withMus F μ) := ⟨hr.ts, hr.us, hr.same, fun _ => Complex.conj_ofReal _, hr.pots⟩
  obtain ⟨A, hA, hAi⟩ := createH_gives (F := F) hI
  obtain ⟨A', hA', hAi'⟩ := createH_gives (F := withMus F μ) hI'
  have hd : 2 ≤ Fintype.card (Conf (F.nsites * F.nspecies) 2) := by
    rw [Fintype.card_fun, Fintype.card_fin, Fintype.card_fin]
    exact Nat.le_self_pow (Nat.mul_pos hn hs).ne' 2
  have hm : ∀ s : Fin F.nspecies, F.mus s = ((F.mus s).re : ℂ) := fun s => (Complex.conj_eq_iff_re.1 (hr.mus s)).symm
  let d : Conf (F.nsites * F.nspecies) 2 → ℝ := fun t => ∑ s : Fin F.nspecies, (μ s - (F.mus s).re) * (speciesCount t s : ℝ)
  have hdd : (fun t => (d t : ℂ)) = fun t => ∑ s : Fin F.nspecies, ((μ s : ℂ) - F.mus s) * (speciesCount t s : ℂ) := by
    funext t
    simp only [d]
    push_cast
    exact Finset.sum_congr rfl fun s _ => by rw [← hm]
  have hK : ∀ O : Op (F.nsites * F.nspecies) 2, KeepsNumbers O → ∀ t t', O t t' ≠ 0 → d t = d t' := fun O hO t t' h =>
    Finset.sum_congr rfl fun s _ => by rw [hO t t' h s]
  have he : (hubInter (fun i : Fin F.nsites => F.us i) + hubRest (withMus F μ) : Op (F.nsites * F.nspecies) 2) =
      hubInter (fun i : Fin F.nsites => F.us i) + hubRest F - diagonal fun t => (d t : ℂ) := by
    have := hubPot_shift (fun (i : Fin F.nsites) (s : Fin F.nspecies) => F.pots i s) (fun s => F.mus s) (fun s => (μ s : ℂ))
    rw [hdd]
    change _ + (_ + _ + hubPot (fun (i : Fin F.nsites) (s : Fin F.nspecies) => F.pots i s - (μ s : ℂ))) = _
    rw [this]
    have core : ∀ a b c e f : Op (F.nsites * F.nspecies) 2, a + (b + c + (e - f)) = a + (b + c + e) - f := fun a b c e f => by abel
    exact core _ _ _ _ _
  obtain ⟨w, M, w', M', h1, h2, h3⟩ := evolve_frame S hS hd hAi hAi' (F_hermitian hI hr) (F_hermitian hI' hr') d he (hK _ (keeps_numbers hI hn hA hAi))
  refine ⟨A, w, M, A', w', M', hA, hA', h1, h2, fun init ψ hi times => ?_⟩
  obtain ⟨ev, ev', e1, e2, e3⟩ := h3 init ψ hi times
  exact ⟨ev, ev', e1, e2, fun X O hX hO => e3 X O hX (hK O hO)⟩

/-- C156 (densities): densities and products of densities do not depend on the chemical potentials. -/
theorem C156_densities (S : EigSolvers) (hS : EigContract S) (F : Fermions) (hI : InterOk F) (hr : RealParams F) (hn : 0 < F.nsites) (hs : 0 < F.nspecies)
    (μ : ℕ → ℝ) :
    ∃ A w M A' w' M', F.createH none = .ok A ∧ (withMus F μ).createH none = .ok A' ∧ diagList S A = .ok (w, M) ∧ diagList S A' = .ok (w', M') ∧
      ∀ (init : Mat) (ψ : Conf (F.nsites * F.nspecies) 2 → ℂ), init.Is (Matrix.of fun i (_ : Fin 1) => ψ i) → ∀ times : List ℝ,
        ∃ ev ev', quenchTimeEvolve init M w times = .ok ev ∧ quenchTimeEvolve init M' w' times = .ok ev' ∧ SameDensities F ev.asMat ev'.asMat := by
  obtain ⟨A, w, M, A', w', M', h1, h2, h3, h4, h5⟩ := C156_chemical_potentials S hS F hI hr hn hs μ
  have hk : ∀ d : Conf (F.nsites * F.nspecies) 2 → ℂ, KeepsNumbers (diagonal d) := fun d t t' h s => by
    rw [diagonal_apply] at h
    split_ifs at h with h'
    · rw [h']
    · exact absurd rfl h
  refine ⟨A, w, M, A', w', M', h1, h2, h3, h4, fun init ψ hi times => ?_⟩
  obtain ⟨ev, ev', e1, e2, e3⟩ := h5 init ψ hi times
  refine ⟨ev, ev', e1, e2, fun i s => ?_, fun i j s s' => ?_⟩
  · obtain ⟨X, hX, hXi⟩ := F_single F i s
    obtain ⟨x, x1, x2⟩ := e3 X _ hXi (hk _)
    exact ⟨X, x, hX, x1, x2⟩
  · obtain ⟨X, hX, hXi⟩ := F_two F i j s s'
    obtain ⟨x, x1, x2⟩ := e3 X _ hXi (by
      unfold number
      rw [diagonal_mul_diagonal]
      exact hk _)
    exact ⟨X, x, hX, x1, x2⟩

/-! ## Examples -/

/-- The energy without chemical potentials of the Hubbard dimer does not change when it evolves with other chemical potentials. -/
example (S : EigSolvers) (hS : EigContract S) (t u v : ℝ) (init : Mat) (ψ : Conf (2 * 2) 2 → ℂ) (hi : init.Is (Matrix.of fun i (_ : Fin 1) => ψ i)) (times : List ℝ)
    (μ : ℕ → ℝ) : ∃ A w M A' w' M' ev ev' x, (dimer t u 0 v).createH none = .ok A ∧ (withMus (dimer t u 0 v) μ).createH none = .ok A' ∧ diagList S A = .ok (w, M) ∧
      diagList S A' = .ok (w', M') ∧ quenchTimeEvolve init M w times = .ok ev ∧ quenchTimeEvolve init M' w' times = .ok ev' ∧
      getExpVals ev.asMat A = .ok x ∧ getExpVals ev'.asMat A = .ok x := by
  obtain ⟨A, w, M, A', w', M', h1, h2, h3, h4, h5⟩ := C156_chemical_potentials S hS (dimer t u 0 v) (.inl (le_refl 2)) (dimer_real t u 0 v) (by simp [dimer]) (by simp [dimer]) μ
  obtain ⟨ev, ev', e1, e2, e3⟩ := h5 init ψ hi times
  obtain ⟨A₀, hA, hAi⟩ := createH_gives (F := dimer t u 0 v) (.inl (le_refl 2))
  obtain rfl : A₀ = A := Except.ok.inj (hA.symm.trans h1)
  obtain ⟨x, x1, x2⟩ := e3 A₀ _ hAi (keeps_numbers (.inl (le_refl 2)) (by simp [dimer]) h1 hAi)
  exact ⟨A₀, w, M, A', w', M', ev, ev', x, h1, h2, h3, h4, e1, e2, x1, x2⟩

/-- The densities of the Hubbard dimer in a magnetic field, which shifts the chemical potentials of the species in opposite directions. -/
example (S : EigSolvers) (hS : EigContract S) (t u mu v h : ℝ) (init : Mat) (ψ : Conf (2 * 2) 2 → ℂ) (hi : init.Is (Matrix.of fun i (_ : Fin 1) => ψ i)) :
    ∃ A w M A' w' M' ev ev', (dimer t u mu v).createH none = .ok A ∧ (withMus (dimer t u mu v) fun s => if s = 0 then mu + h else mu - h).createH none = .ok A' ∧
      diagList S A = .ok (w, M) ∧ diagList S A' = .ok (w', M') ∧ quenchTimeEvolve init M w [1, 2, 3] = .ok ev ∧ quenchTimeEvolve init M' w' [1, 2, 3] = .ok ev' ∧
      SameDensities (dimer t u mu v) ev.asMat ev'.asMat := by
  obtain ⟨A, w, M, A', w', M', h1, h2, h3, h4, h5⟩ := C156_densities S hS (dimer t u mu v) (.inl (le_refl 2)) (dimer_real t u mu v) (by simp [dimer]) (by simp [dimer])
    fun s => if s = 0 then mu + h else mu - h
  obtain ⟨ev, ev', e1, e2, e3⟩ := h5 init ψ hi [1, 2, 3]
  exact ⟨A, w, M, A', w', M', ev, ev', h1, h2, h3, h4, e1, e2, e3⟩

end ED.Props
