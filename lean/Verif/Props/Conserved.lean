import Verif.Props.Covariance
import Verif.Props.Heisenberg

/-!
# Property C155: conserved quantities and stationary states

After a quench, averages of operators that commute with the Hamiltonian do not change, and eigenstates keep the averages of all operators.
-/

namespace ED.Props

open Matrix Spec

/-! ## Specification -/

/-- The average of `X` is the same in all states of the list, and the same as in the initial state. -/
def KeepsAverage (init states X : Mat) (n : ℕ) : Prop := ∃ x, getExpVals init X = .ok [x] ∧ getExpVals states X = .ok (List.replicate n x)

/-- The evolution with the energies `w` and states `M` keeps all averages that the Hamiltonian `H` conserves. -/
def Conserves {ι : Type} [Fintype ι] [Basis ι] (H : Matrix ι ι ℂ) (w : List ℝ) (M : Mat) : Prop :=
  ∀ (init : Mat) (ψ : ι → ℂ), init.Is (Matrix.of fun i (_ : Fin 1) => ψ i) → ∀ times : List ℝ, ∃ ev, quenchTimeEvolve init M w times = .ok ev ∧
    ∀ (X : Mat) (O : Matrix ι ι ℂ), X.Is O → (H * O = O * H ∨ ∃ E : ℝ, H *ᵥ ψ = (E : ℂ) • ψ) → KeepsAverage init ev.asMat X times.length

/-! ## Proofs -/

section Generic

variable {ι : Type} [Fintype ι] [DecidableEq ι] [Basis ι]

theorem conserves (S : EigSolvers) (hS : EigContract S) (hd : 2 ≤ Fintype.card ι) {A : Mat} {H : Matrix ι ι ℂ} (hA : A.Is H) (hH : H.IsHermitian) :
    ∃ w M, diagList S A = .ok (w, M) ∧ Conserves H w M := by
  haveI : Nonempty ι := Fintype.card_pos_iff.1 (by omega)
  obtain ⟨m, E, M, V, d1, d2, d3, d4, d5, -⟩ := diagList_ok S hS hA hH
  obtain ⟨ev, v1, v2, -, -, -, v6⟩ := C22_evolution_partial E hd d2 d3 d4 d5
  refine ⟨_, M, d1, fun init ψ hi times => ?_⟩
  obtain ⟨a, a1, a2, a3⟩ := v1 init ψ times hi
  refine ⟨a, a1, fun X O hX hc => ⟨(expect O ψ).re, ?_, (expVals_states (f := fun t => ev t ψ) a2 a3 hX).trans ?_⟩⟩
  · rw [getExpVals_is hi hX]
    rfl
  · rw [← List.map_const']
    refine congrArg Except.ok (List.map_congr_left fun t _ => congrArg Complex.re ?_)
    rcases hc with hc | ⟨x, hx⟩
    · have hz : ∀ t, HasDerivAt (fun s => expect O (ev s ψ)) 0 t := fun t => by
        refine (expect_deriv (O := O) hH (f := fun s => ev s ψ) (fun t i => v6 t ψ i) t).congr_deriv ?_
        rw [hc, sub_self]
        simp [expect]
      have := is_const_of_deriv_eq_zero (fun t => (hz t).differentiableAt) (fun t => (hz t).deriv) t 0
      rw [this, v2]
    · have key : ev t ψ = Complex.exp (-Complex.I * (t * x : ℝ)) • ψ := by
        refine schroedinger_unique hH (f := fun t => ev t ψ) (g := fun t : ℝ => Complex.exp (-Complex.I * (t * x : ℝ)) • ψ) (fun t i => v6 t ψ i) (fun t i => ?_) ?_ t
        · have h1 : HasDerivAt (fun s : ℝ => -Complex.I * ((s * x : ℝ) : ℂ)) (-Complex.I * x) t := by
            have := ((hasDerivAt_id t).mul_const x).ofReal_comp.const_mul (-Complex.I)
            rw [one_mul] at this
            exact this
          refine ((h1.cexp).mul_const (ψ i)).congr_deriv ?_
          rw [mulVec_smul, hx, Pi.smul_apply, Pi.smul_apply, smul_eq_mul, smul_eq_mul]
          ring
        · simp [v2]
      rw [key]
      have := expect_moved (U := 1) (O := O) (O' := O) (by simp) (by simp) (e := Complex.exp (-Complex.I * (t * x : ℝ))) (by
        rw [Complex.star_def, ← Complex.exp_conj, ← Complex.exp_add]
        simp) ψ
      rw [one_mulVec] at this
      exact this

theorem KeepsAverage.of {H : Matrix ι ι ℂ} {w : List ℝ} {M : Mat} (h : Conserves H w M) (f : Mat → Mat → ℕ → Prop)
    (hf : ∀ init states n, (∀ (X : Mat) (O : Matrix ι ι ℂ), X.Is O → H * O = O * H → KeepsAverage init states X n) → f init states n)
    (init : Mat) (ψ : ι → ℂ) (hi : init.Is (Matrix.of fun i (_ : Fin 1) => ψ i)) (times : List ℝ) :
    ∃ ev, quenchTimeEvolve init M w times = .ok ev ∧ f init ev.asMat times.length := by
  obtain ⟨ev, h1, h2⟩ := h init ψ hi times
  exact ⟨ev, h1, hf _ _ _ fun X O hX hc => h2 X O hX (.inl hc)⟩

end Generic

/-- C155 (fermions): operators that commute with the Hamiltonian keep their averages; eigenstates keep all averages. -/
theorem C155_fermions (S : EigSolvers) (hS : EigContract S) (F : Fermions) (hI : InterOk F) (hr : RealParams F) (hn : 0 < F.nsites) (hs : 0 < F.nspecies) :
    ∃ A w M, ∃ H : Op (F.nsites * F.nspecies) 2, F.createH none = .ok A ∧ A.Is H ∧ diagList S A = .ok (w, M) ∧ Conserves H w M := by
  obtain ⟨A, hA, hAi⟩ := createH_gives (F := F) hI
  have hd : 2 ≤ Fintype.card (Conf (F.nsites * F.nspecies) 2) := by
    rw [Fintype.card_fun, Fintype.card_fin, Fintype.card_fin]
    exact Nat.le_self_pow (Nat.mul_pos hn hs).ne' 2
  obtain ⟨w, M, h1, h2⟩ := conserves S hS hd hAi (F_hermitian hI hr)
  exact ⟨A, w, M, _, hA, hAi, h1, h2⟩

/-- C155 (particle numbers): the energy, its square, the numbers of particles and their products, thus also the fluctuations, do not change after a quench. -/
theorem C155_numbers (S : EigSolvers) (hS : EigContract S) (F : Fermions) (hI : InterOk F) (hr : RealParams F) (hn : 0 < F.nsites) (hs : 0 < F.nspecies) :
    ∃ A AA w M, ∃ (N : Fin F.nspecies → Mat) (NN : Fin F.nspecies → Fin F.nspecies → Mat), F.createH none = .ok A ∧ A.mul A = .ok AA ∧ diagList S A = .ok (w, M) ∧
      (∀ s : Fin F.nspecies, getSumOp F.sys nOp s "boson" = .ok (N s)) ∧ (∀ s s', (N s).mul (N s') = .ok (NN s s')) ∧
      ∀ (init : Mat) (ψ : Conf (F.nsites * F.nspecies) 2 → ℂ), init.Is (Matrix.of fun i (_ : Fin 1) => ψ i) → ∀ times : List ℝ,
        ∃ ev, quenchTimeEvolve init M w times = .ok ev ∧ KeepsAverage init ev.asMat A times.length ∧ KeepsAverage init ev.asMat AA times.length ∧
          ∀ s, KeepsAverage init ev.asMat (N s) times.length ∧ ∀ s', KeepsAverage init ev.asMat (NN s s') times.length := by
  obtain ⟨A, w, M, H, hA, hAi, h1, h2⟩ := C155_fermions S hS F hI hr hn hs
  obtain ⟨H', hH', hc⟩ := C26_number_conservation F hI
  obtain rfl : H = H' := gives_unique ⟨A, hA, hAi⟩ hH'
  choose Nm hNg hNc hN0 using fun s => hc s hn
  choose N hN hNi using hNg
  choose NN hNN hNNi using fun s s' => (hNi s).mul (hNi s')
  obtain ⟨AA, hAA, hAAi⟩ := hAi.mul hAi
  refine ⟨A, AA, w, M, N, NN, hA, hAA, h1, hN, hNN, KeepsAverage.of h2
    (fun init states n => KeepsAverage init states A n ∧ KeepsAverage init states AA n ∧ ∀ s, KeepsAverage init states (N s) n ∧ ∀ s', KeepsAverage init states (NN s s') n)
    fun init states n h => ⟨h _ _ hAi rfl, h _ _ hAAi (Matrix.mul_assoc _ _ _).symm, fun s => ⟨h _ _ (hNi s) (hNc s), fun s' => h _ _ (hNNi s s') ?_⟩⟩⟩
  rw [← Matrix.mul_assoc, hNc, Matrix.mul_assoc, hNc, Matrix.mul_assoc]

/-- C155 (spins of any size): operators that commute with the Hamiltonian keep their averages; eigenstates keep all averages. -/
theorem C155_spins (S : EigSolvers) (hS : EigContract S) (F : Spins) (hF : F.Ok) (hr : RealCouplings F) (hn : 0 < F.nsites) (h0 : 0 < F.twoS) :
    ∃ A w M, ∃ H : Op F.nsites (F.twoS + 1), F.createH none = .ok A ∧ A.Is H ∧ diagList S A = .ok (w, M) ∧ Conserves H w M := by
  obtain ⟨A, hA, hAi⟩ := spin_createH F hF
  have hd : 2 ≤ Fintype.card (Conf F.nsites (F.twoS + 1)) := by
    rw [Fintype.card_fun, Fintype.card_fin, Fintype.card_fin]
    exact le_trans (by omega : 2 ≤ F.twoS + 1) (Nat.le_self_pow hn.ne' _)
  obtain ⟨w, M, h1, h2⟩ := conserves S hS hd hAi (spins_hermitian hr)
  exact ⟨A, w, M, _, hA, hAi, h1, h2⟩

/-- C155 (magnetization): with couplings that are equal along x and y, the total spin along z and its square keep their averages. -/
theorem C155_magnetization (S : EigSolvers) (hS : EigContract S) (F : Spins) (hF : AxialBonds F) (hr : RealCouplings F) (hn : 0 < F.nsites) :
    ∃ A Z ZZ w M, F.createH none = .ok A ∧ getSumOp F.sys (getSz 1) 0 "boson" = .ok Z ∧ Z.mul Z = .ok ZZ ∧ diagList S A = .ok (w, M) ∧
      ∀ (init : Mat) (ψ : Conf F.nsites 2 → ℂ), init.Is (Matrix.of fun i (_ : Fin 1) => ψ i) → ∀ times : List ℝ,
        ∃ ev, quenchTimeEvolve init M w times = .ok ev ∧ KeepsAverage init ev.asMat Z times.length ∧ KeepsAverage init ev.asMat ZZ times.length := by
  obtain ⟨n, b, jx, jy, jz, hx, hy, hz⟩ := F
  have h1 := hF.half
  simp only at h1
  subst h1
  set F : Spins := ⟨n, 1, jx, jy, jz, hx, hy, hz⟩ with hFd
  obtain ⟨A, w, M, H, hA, hAi, h1, h2⟩ := C155_spins S hS F (.inl rfl) hr hn one_pos
  obtain ⟨Z, hZ, hZi⟩ := total_spin hn
  obtain ⟨ZZ, hZZ, hZZi⟩ := hZi.mul hZi
  have hk : ∀ d : ℂ → ℂ, H * (diagonal fun t : Conf n 2 => d (magnetization t)) = (diagonal fun t : Conf n 2 => d (magnetization t)) * H := fun d => by
    ext s t
    rw [mul_diagonal, diagonal_mul]
    by_cases h : magnetization s = magnetization t
    · rw [h, mul_comm]
    · rw [keeps_magnetization hF hn hA hAi s t h, mul_zero, zero_mul]
  refine ⟨A, Z, ZZ, w, M, hA, hZ, hZZ, h1, KeepsAverage.of h2 (fun init states n => KeepsAverage init states Z n ∧ KeepsAverage init states ZZ n)
    fun init states n h => ⟨h _ _ hZi (hk id), h _ _ hZZi ?_⟩⟩
  rw [diagonal_mul_diagonal]
  exact hk fun z => z * z

/-! ## Examples -/

theorem dimer_real (t u mu v : ℝ) : RealParams (dimer t u mu v) :=
  ⟨fun i j s => by simp only [dimer]; split_ifs <;> simp, fun _ => Complex.conj_ofReal _, fun _ _ _ => by simp [dimer], fun _ => Complex.conj_ofReal _,
    fun _ _ => Complex.conj_ofReal _⟩

/-- From every initial state of the Hubbard dimer, the energy is conserved; the initial state need not be normalized. -/
example (S : EigSolvers) (hS : EigContract S) (t u mu v : ℝ) (init : Mat) (ψ : Conf (2 * 2) 2 → ℂ) (hi : init.Is (Matrix.of fun i (_ : Fin 1) => ψ i)) :
    ∃ A w M ev, (dimer t u mu v).createH none = .ok A ∧ diagList S A = .ok (w, M) ∧ quenchTimeEvolve init M w [0, 1, 7] = .ok ev ∧
      KeepsAverage init ev.asMat A 3 := by
  obtain ⟨A, w, M, H, h1, h2, h3, h4⟩ := C155_fermions S hS (dimer t u mu v) (.inl (le_refl 2)) (dimer_real t u mu v) (by simp [dimer]) (by simp [dimer])
  obtain ⟨ev, e1, e2⟩ := h4 init ψ hi [0, 1, 7]
  exact ⟨A, w, M, ev, h1, h3, e1, e2 A H h2 (.inl rfl)⟩

/-- The numbers of particles in the Hubbard dimer. -/
example (S : EigSolvers) (hS : EigContract S) (t u mu v : ℝ) (init : Mat) (ψ : Conf (2 * 2) 2 → ℂ) (hi : init.Is (Matrix.of fun i (_ : Fin 1) => ψ i))
    (times : List ℝ) : ∃ A w M N ev, (dimer t u mu v).createH none = .ok A ∧ diagList S A = .ok (w, M) ∧ getSumOp (dimer t u mu v).sys nOp 1 "boson" = .ok N ∧
      quenchTimeEvolve init M w times = .ok ev ∧ KeepsAverage init ev.asMat N times.length := by
  obtain ⟨A, AA, w, M, N, NN, h1, h2, h3, h4, h5, h6⟩ := C155_numbers S hS (dimer t u mu v) (.inl (le_refl 2)) (dimer_real t u mu v) (by simp [dimer]) (by simp [dimer])
  obtain ⟨ev, e1, -, -, e2⟩ := h6 init ψ hi times
  exact ⟨A, w, M, N (1 : Fin 2), ev, h1, h3, h4 (1 : Fin 2), e1, (e2 (1 : Fin 2)).1⟩

/-- A single spin one half with a field along x. -/
example (S : EigSolvers) (hS : EigContract S) (h : ℝ) (init : Mat) (ψ : Conf 1 2 → ℂ) (hi : init.Is (Matrix.of fun i (_ : Fin 1) => ψ i)) (times : List ℝ) :
    ∃ A w M ev, Spins.createH ⟨1, 1, fun _ _ => 0, fun _ _ => 0, fun _ _ => 0, fun _ => h, fun _ => 0, fun _ => 0⟩ none = .ok A ∧ diagList S A = .ok (w, M) ∧
      quenchTimeEvolve init M w times = .ok ev ∧ KeepsAverage init ev.asMat A times.length := by
  obtain ⟨A, w, M, H, h1, h2, h3, h4⟩ := C155_spins S hS ⟨1, 1, fun _ _ => 0, fun _ _ => 0, fun _ _ => 0, fun _ => h, fun _ => 0, fun _ => 0⟩ (.inl rfl)
    (by constructor <;> intros <;> simp) one_pos one_pos
  obtain ⟨ev, e1, e2⟩ := h4 init ψ hi times
  exact ⟨A, w, M, ev, h1, h3, e1, e2 A H h2 (.inl rfl)⟩

/-- The magnetization of three spins with different couplings along z. -/
example (S : EigSolvers) (hS : EigContract S) (j d : ℝ) (init : Mat) (ψ : Conf 3 2 → ℂ) (hi : init.Is (Matrix.of fun i (_ : Fin 1) => ψ i)) (times : List ℝ) :
    ∃ A Z w M ev, Spins.createH ⟨3, 1, fun _ _ => j, fun _ _ => j, fun _ _ => d, fun _ => 0, fun _ => 0, fun _ => 0⟩ none = .ok A ∧
      getSumOp ⟨3, 1, 2⟩ (getSz 1) 0 "boson" = .ok Z ∧ diagList S A = .ok (w, M) ∧ quenchTimeEvolve init M w times = .ok ev ∧
      KeepsAverage init ev.asMat Z times.length := by
  obtain ⟨A, Z, ZZ, w, M, h1, h2, h3, h4, h5⟩ := C155_magnetization S hS ⟨3, 1, fun _ _ => j, fun _ _ => j, fun _ _ => d, fun _ => 0, fun _ => 0, fun _ => 0⟩
    ⟨rfl, fun _ => ⟨rfl, rfl, rfl⟩, fun _ _ => rfl, fun _ _ => ⟨Complex.conj_ofReal _, Complex.conj_ofReal _⟩, fun _ _ => ⟨rfl, rfl⟩⟩
    (by constructor <;> intros <;> simp) (by norm_num)
  obtain ⟨ev, e1, e2, -⟩ := h5 init ψ hi times
  exact ⟨A, Z, w, M, ev, h1, h2, h4, e1, e2⟩

end ED.Props
