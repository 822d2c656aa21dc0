import Verif.Props.Repulsion
import Verif.Props.EquivalentSites
import Verif.Props.Independent
import Verif.Lemmas.XformGroup

/-!
# Property C154: moved initial states evolve into moved states

If permuting the sites does not change the parameters, then starting from the permuted initial state gives the permuted averages at all times.
-/

namespace ED.Props

open Matrix Spec ED.Geometry

/-! ## Specification -/

/-- Averages of the numbers of particles, and of their products, at permuted sites in the second list of states are those at the sites in the first list. -/
def MovedDensities (F : Fermions) (π : Equiv.Perm (Fin F.nsites)) (states states' : Mat) : Prop :=
  (∀ (i : Fin F.nsites) (s : Fin F.nspecies), ∃ X X' d, getSingleSiteOp F.sys i s nOp "boson" = .ok X ∧
    getSingleSiteOp F.sys (π i) s nOp "boson" = .ok X' ∧ getExpVals states X = .ok d ∧ getExpVals states' X' = .ok d) ∧
  ∀ (i j : Fin F.nsites) (s s' : Fin F.nspecies), ∃ X X' d, getTwoSiteOp F.sys i s j s' nOp nOp "boson" = .ok X ∧
    getTwoSiteOp F.sys (π i) s (π j) s' nOp nOp "boson" = .ok X' ∧ getExpVals states X = .ok d ∧ getExpVals states' X' = .ok d

/-- Averages of any operator of a spin one half, and of products of any two such operators, at permuted sites in the second list of states are those at the sites in
the first list. -/
def MovedSpins (F : Spins) (π : Equiv.Perm (Fin F.nsites)) (states states' : Mat) : Prop :=
  ∀ (o o' : Mat) (Y Y' : Matrix (Fin 2) (Fin 2) ℂ), o.Is Y → o'.Is Y' →
    (∀ i : Fin F.nsites, ∃ X X' d, getSingleSiteOp F.sys i 0 o "boson" = .ok X ∧ getSingleSiteOp F.sys (π i) 0 o "boson" = .ok X' ∧
      getExpVals states X = .ok d ∧ getExpVals states' X' = .ok d) ∧
    ∀ i j : Fin F.nsites, i ≠ j → ∃ X X' d, getTwoSiteOp F.sys i 0 j 0 o o' "boson" = .ok X ∧ getTwoSiteOp F.sys (π i) 0 (π j) 0 o o' "boson" = .ok X' ∧
      getExpVals states X = .ok d ∧ getExpVals states' X' = .ok d

/-! ## Proofs -/

section Generic

variable {ι : Type} [Fintype ι] [DecidableEq ι] [Basis ι]

theorem expect_moved {U O O' : Matrix ι ι ℂ} (hU : Uᴴ * U = 1) (hO : U * O * Uᴴ = O') {e : ℂ} (he : star e * e = 1) (φ : ι → ℂ) :
    expect O' (e • (U *ᵥ φ)) = expect O φ := by
  have h1 : O' * U = U * O := by rw [← hO, Matrix.mul_assoc _ Uᴴ, hU, Matrix.mul_one]
  unfold expect
  rw [mulVec_smul, star_smul, smul_dotProduct, dotProduct_smul, smul_smul, he, one_smul, mulVec_mulVec, h1, star_mulVec, ← dotProduct_mulVec, mulVec_mulVec,
    ← Matrix.mul_assoc, hU, Matrix.one_mul]

/-- Two evolutions whose initial states are related by a symmetry. -/
theorem evolve_moved (S : EigSolvers) (hS : EigContract S) (hd : 2 ≤ Fintype.card ι) {A : Mat} {H : Matrix ι ι ℂ} (hA : A.Is H) (hH : H.IsHermitian) :
    ∃ w M, diagList S A = .ok (w, M) ∧ ∀ U : Matrix ι ι ℂ, Uᴴ * U = 1 → U * H = H * U → ∀ (init init' : Mat) (ψ ψ' : ι → ℂ),
      init.Is (Matrix.of fun i (_ : Fin 1) => ψ i) → init'.Is (Matrix.of fun i (_ : Fin 1) => ψ' i) → ∀ e : ℂ, star e * e = 1 → ψ' = e • (U *ᵥ ψ) →
        ∀ times : List ℝ, ∃ ev ev' : ND ℂ, quenchTimeEvolve init M w times = .ok ev ∧ quenchTimeEvolve init' M w times = .ok ev' ∧
          ∀ (X X' : Mat) (O O' : Matrix ι ι ℂ), X.Is O → X'.Is O' → U * O * Uᴴ = O' → ∃ d, getExpVals ev.asMat X = .ok d ∧ getExpVals ev'.asMat X' = .ok d := by
  haveI : Nonempty ι := Fintype.card_pos_iff.1 (by omega)
  obtain ⟨m, E, M, V, d1, d2, d3, d4, d5, -⟩ := diagList_ok S hS hA hH
  obtain ⟨ev, v1, v2, -, -, -, v6⟩ := C22_evolution_partial E hd d2 d3 d4 d5
  refine ⟨_, M, d1, fun U hU hc init init' ψ ψ' hi hi' e he hψ times => ?_⟩
  obtain ⟨a, a1, a2, a3⟩ := v1 init ψ times hi
  obtain ⟨a', a1', a2', a3'⟩ := v1 init' ψ' times hi'
  have key : ∀ t, ev t ψ' = e • (U *ᵥ ev t ψ) := fun t => by
    refine schroedinger_unique hH (f := fun t => ev t ψ') (g := fun t => e • (U *ᵥ ev t ψ)) (fun t i => v6 t ψ' i) (fun t i => ?_) ?_ t
    · have h2 : HasDerivAt (fun s => (U *ᵥ ev s ψ) i) (∑ j, U i j * (-Complex.I * (H *ᵥ ev t ψ) j)) t :=
        HasDerivAt.fun_sum fun j _ => (v6 t ψ j).const_mul _
      refine (h2.const_mul e).congr_deriv ?_
      rw [mulVec_smul, mulVec_mulVec, ← hc, ← mulVec_mulVec, Pi.smul_apply, smul_eq_mul]
      change _ = -Complex.I * (e * ∑ j, U i j * (H *ᵥ ev t ψ) j)
      rw [Finset.mul_sum, Finset.mul_sum, Finset.mul_sum]
      exact Finset.sum_congr rfl fun j _ => by ring
    · simp only [v2]
      exact hψ
  refine ⟨a, a', a1, a1', fun X X' O O' hX hX' hO => ⟨_, expVals_states (f := fun t => ev t ψ) a2 a3 hX, (expVals_states (f := fun t => ev t ψ') a2' a3' hX').trans ?_⟩⟩
  refine congrArg Except.ok (List.map_congr_left fun t _ => ?_)
  rw [key, expect_moved hU hO he]

end Generic

/-- C154 (fermions): if a permutation of the sites does not change the parameters of the model, then from the permuted configuration the densities and
products of densities at the permuted sites evolve as those at the sites from the configuration. -/
theorem C154_fermions (S : EigSolvers) (hS : EigContract S) (F : Fermions) (hI : InterOk F) (hr : RealParams F) (hb : FermionBonds F) (hn : 0 < F.nsites)
    (hs : 0 < F.nspecies) : ∃ A w M, F.createH none = .ok A ∧ diagList S A = .ok (w, M) ∧ ∀ π, FermionInvariant F π →
      ∀ conf conf' : Conf (F.nsites * F.nspecies) 2, (∀ (i : Fin F.nsites) (s : Fin F.nspecies), conf' (mode (π i) s) = conf (mode i s)) → ∀ init init' : Mat,
        init.Is (Matrix.of fun t (_ : Fin 1) => ket conf t) → init'.Is (Matrix.of fun t (_ : Fin 1) => ket conf' t) → ∀ times : List ℝ,
          ∃ ev ev', quenchTimeEvolve init M w times = .ok ev ∧ quenchTimeEvolve init' M w times = .ok ev' ∧ MovedDensities F π ev.asMat ev'.asMat := by
  obtain ⟨A, hA, hAi⟩ := createH_gives (F := F) hI
  have hd : 2 ≤ Fintype.card (Conf (F.nsites * F.nspecies) 2) := by
    rw [Fintype.card_fun, Fintype.card_fin, Fintype.card_fin]
    exact Nat.le_self_pow (Nat.mul_pos hn hs).ne' 2
  obtain ⟨w, M, h1, h2⟩ := evolve_moved S hS hd hAi (F_hermitian hI hr)
  refine ⟨A, w, M, hA, h1, fun π hπ conf conf' hconf init init' hi hi' times => ?_⟩
  obtain ⟨v, U, -, -, hU, hc⟩ := xform_commutes F hI hb (permCycles_cyclesOf π) hπ hA hAi
  obtain ⟨e, he, hUk⟩ := hU.signed conf
  have hee : star e * e = 1 := by rcases he with rfl | rfl <;> simp
  have hee' : e * e = 1 := by rcases he with rfl | rfl <;> simp
  have hcc : (fun m => conf ((modePerm fun _ : Fin F.nspecies => π).symm m)) = conf' := by
    funext m
    obtain ⟨i, s, rfl⟩ := mode_surj m
    have h3 : (modePerm fun _ : Fin F.nspecies => π).symm (mode i s) = mode (π.symm i) s := by
      rw [Equiv.symm_apply_eq, modePerm_mode, Equiv.apply_symm_apply]
    rw [h3, ← hconf, Equiv.apply_symm_apply]
  obtain ⟨ev, ev', e1, e2, e3⟩ := h2 U hU.left_inv hc init init' (ket conf) (ket conf') hi hi' e hee (by
    rw [hUk, hcc, smul_smul, hee', one_smul]) times
  refine ⟨ev, ev', e1, e2, fun i s => ?_, fun i j s s' => ?_⟩
  · obtain ⟨X, x1, x2⟩ := F_single F i s
    obtain ⟨X', y1, y2⟩ := F_single F (π i) s
    obtain ⟨d, z1, z2⟩ := e3 X X' _ _ x2 y2 (moves_number hU s i)
    exact ⟨X, X', d, x1, y1, z1, z2⟩
  · obtain ⟨X, x1, x2⟩ := F_two F i j s s'
    obtain ⟨X', y1, y2⟩ := F_two F (π i) (π j) s s'
    obtain ⟨d, z1, z2⟩ := e3 X X' _ _ x2 y2 (by rw [conj_mul' hU, moves_number hU, moves_number hU])
    exact ⟨X, X', d, x1, y1, z1, z2⟩

/-- C154 (spins one half): the same for the averages of all operators of one and of two spins, and for every initial state. -/
theorem C154_spins (S : EigSolvers) (hS : EigContract S) (F : Spins) (h1 : F.twoS = 1) (hr : RealCouplings F) (hb : SpinBonds F) (hn : 0 < F.nsites) :
    ∃ A w M, F.createH none = .ok A ∧ diagList S A = .ok (w, M) ∧ ∀ π, Spec.SpinInvariant F π → ∀ ψ ψ' : Conf F.nsites 2 → ℂ,
      (∀ t, ψ' t = ψ fun i => t (π i)) → ∀ init init' : Mat, init.Is (Matrix.of fun t (_ : Fin 1) => ψ t) → init'.Is (Matrix.of fun t (_ : Fin 1) => ψ' t) →
        ∀ times : List ℝ, ∃ ev ev', quenchTimeEvolve init M w times = .ok ev ∧ quenchTimeEvolve init' M w times = .ok ev' ∧
          MovedSpins F π ev.asMat ev'.asMat := by
  obtain ⟨n, b, jx, jy, jz, hx, hy, hz⟩ := F
  simp only at h1
  subst h1
  set F : Spins := ⟨n, 1, jx, jy, jz, hx, hy, hz⟩ with hF
  obtain ⟨A, hA, hAi⟩ := spin_createH F (.inl rfl)
  have hd : 2 ≤ Fintype.card (Conf n 2) := by
    rw [Fintype.card_fun, Fintype.card_fin, Fintype.card_fin]
    exact Nat.le_self_pow hn.ne' 2
  obtain ⟨w, M, h1, h2⟩ := evolve_moved S hS hd hAi (spins_hermitian hr)
  refine ⟨A, w, M, hA, h1, fun π hπ ψ ψ' hψ init init' hi hi' times => ?_⟩
  have hu := relMat_unitary (confPerm (n := n) (b := 2) π)
  have hh := conj_heis hu.1 (conj_siteOp π (sxM 1)) (conj_siteOp π (syM 1)) (conj_siteOp π (szM 1))
    (jx := fun i j => jx i j) (jy := fun i j => jy i j) (jz := fun i j => jz i j)
    (hx := fun i => hx i) (hy := fun i => hy i) (hz := fun i => hz i)
    hb.x hb.y hb.z hπ.jx hπ.jy hπ.jz hπ.hx hπ.hy hπ.hz
  have hc := commute_of_conj hu.1 hh
  obtain ⟨ev, ev', e1, e2, e3⟩ := h2 _ hu.1 hc init init' ψ ψ' hi hi' 1 (by simp) (by
    rw [one_smul]
    funext t
    rw [mulVec, dotProduct, Finset.sum_eq_single ((confPerm π).symm t)]
    · rw [relMat, of_apply, Equiv.apply_symm_apply, if_pos rfl, one_mul, hψ]
      rfl
    · intro t' _ hne
      rw [relMat, of_apply, if_neg (fun h => hne (by rw [h, Equiv.symm_apply_apply])), zero_mul]
    · simp) times
  refine ⟨ev, ev', e1, e2, fun o o' Y Y' ho ho' => ⟨fun i => ?_, fun i j hij => ?_⟩⟩
  · obtain ⟨X, x1, x2⟩ := spin_single_half F rfl ho i
    obtain ⟨X', y1, y2⟩ := spin_single_half F rfl ho (π i)
    obtain ⟨d, z1, z2⟩ := e3 X X' _ _ x2 y2 (conj_siteOp π Y i)
    exact ⟨X, X', d, x1, y1, z1, z2⟩
  · obtain ⟨X, x1, x2⟩ := spin_two (n := n) hij ho ho'
    obtain ⟨X', y1, y2⟩ := spin_two (n := n) (π.injective.ne hij) ho ho'
    obtain ⟨d, z1, z2⟩ := e3 X X' _ _ x2 y2 (by
      rw [← conj_siteOp π Y i, ← conj_siteOp π Y' j]
      calc _ = relMat (confPerm π) * siteOp Y i * (1 * (siteOp Y' j * (relMat (confPerm π))ᴴ)) := by simp only [Matrix.mul_assoc, Matrix.one_mul]
        _ = _ := by rw [← hu.1]; simp only [Matrix.mul_assoc])
    exact ⟨X, X', d, x1, y1, z1, z2⟩

/-! ## Examples -/

/-- Particles with an interaction on a ring of four sites. -/
noncomputable def ring4 (u : ℝ) : Fermions :=
  ⟨4, 2, fun i j _ => if i + 1 = j ∨ j + 1 = i ∨ i + 3 = j ∨ j + 3 = i then 1 else 0, fun _ => u, fun _ _ _ => 0, fun _ => 0, fun _ _ => 0, fun _ _ => 1, fun _ _ => 0⟩

/-- From two particles at the first site the densities spread as from two particles at the second site, one site further. -/
example (S : EigSolvers) (hS : EigContract S) (u : ℝ) (init init' : Mat)
    (hi : init.Is (Matrix.of fun t (_ : Fin 1) => ket (![1, 0, 0, 0, 1, 0, 0, 0] : Conf (4 * 2) 2) t))
    (hi' : init'.Is (Matrix.of fun t (_ : Fin 1) => ket (![0, 1, 0, 0, 0, 1, 0, 0] : Conf (4 * 2) 2) t)) (times : List ℝ) :
    ∃ A w M ev ev', (ring4 u).createH none = .ok A ∧ diagList S A = .ok (w, M) ∧ quenchTimeEvolve init M w times = .ok ev ∧
      quenchTimeEvolve init' M w times = .ok ev' ∧ MovedDensities (ring4 u) (finRotate 4) ev.asMat ev'.asMat := by
  obtain ⟨A, w, M, h1, h2, h3⟩ := C154_fermions S hS (ring4 u) (.inl (le_refl 2))
    (by constructor <;> intros <;> simp only [ring4] <;> (try split_ifs) <;> simp) ⟨fun (i j : Fin 4) s => by
      simp only [ring4]
      fin_cases i <;> fin_cases j <;> simp, fun _ _ _ => rfl⟩ (by simp [ring4]) (by simp [ring4])
  have hrot : ∀ i j : Fin 4, ((finRotate 4 i : ℕ) + 1 = finRotate 4 j ∨ (finRotate 4 j : ℕ) + 1 = finRotate 4 i ∨ (finRotate 4 i : ℕ) + 3 = finRotate 4 j ∨
      (finRotate 4 j : ℕ) + 3 = finRotate 4 i) ↔ ((i : ℕ) + 1 = j ∨ (j : ℕ) + 1 = i ∨ (i : ℕ) + 3 = j ∨ (j : ℕ) + 3 = i) := by decide
  obtain ⟨ev, ev', e1, e2, e3⟩ := h3 (finRotate 4) ⟨fun (i j : Fin 4) s => congrArg (· * (((|1| + |0| : ℝ)) : ℂ)) (if_congr (hrot i j) rfl rfl), fun _ _ _ => rfl, fun _ => rfl, fun _ _ => rfl⟩ (![1, 0, 0, 0, 1, 0, 0, 0] : Conf (4 * 2) 2)
    (![0, 1, 0, 0, 0, 1, 0, 0] : Conf (4 * 2) 2) (by
      have : ∀ (i : Fin 4) (s : Fin 2), (![0, 1, 0, 0, 0, 1, 0, 0] : Conf (4 * 2) 2) (mode (finRotate 4 i) s) = (![1, 0, 0, 0, 1, 0, 0, 0] : Conf (4 * 2) 2) (mode i s) := by decide
      exact this) init init' hi hi' times
  exact ⟨A, w, M, ev, ev', h1, h2, e1, e2, e3⟩

/-- Three spins with the same couplings and fields; the permutation exchanges the first two. -/
example (S : EigSolvers) (hS : EigContract S) (ψ : Conf 3 2 → ℂ) (init init' : Mat) (hi : init.Is (Matrix.of fun t (_ : Fin 1) => ψ t))
    (hi' : init'.Is (Matrix.of fun (t : Conf 3 2) (_ : Fin 1) => ψ fun i => t (Equiv.swap 0 1 i))) (times : List ℝ) :
    ∃ A w M ev ev', Spins.createH ⟨3, 1, fun _ _ => 1, fun _ _ => 1, fun _ _ => -2, fun _ => 0, fun _ => 0, fun _ => 5⟩ none = .ok A ∧ diagList S A = .ok (w, M) ∧
      quenchTimeEvolve init M w times = .ok ev ∧ quenchTimeEvolve init' M w times = .ok ev' ∧
      MovedSpins ⟨3, 1, fun _ _ => 1, fun _ _ => 1, fun _ _ => -2, fun _ => 0, fun _ => 0, fun _ => 5⟩ (Equiv.swap (0 : Fin 3) 1) ev.asMat ev'.asMat := by
  obtain ⟨A, w, M, h1, h2, h3⟩ := C154_spins S hS ⟨3, 1, fun _ _ => 1, fun _ _ => 1, fun _ _ => -2, fun _ => 0, fun _ => 0, fun _ => 5⟩ rfl
    (by constructor <;> intros <;> simp) ⟨fun _ _ => rfl, fun _ _ => rfl, fun _ _ => rfl⟩ (by norm_num)
  obtain ⟨ev, ev', e1, e2, e3⟩ := h3 (Equiv.swap (0 : Fin 3) 1) ⟨fun _ _ => rfl, fun _ _ => rfl, fun _ _ => rfl, fun _ => rfl, fun _ => rfl, fun _ => rfl⟩ ψ
    (fun t => ψ fun i => t (Equiv.swap 0 1 i)) (fun _ => rfl) init init' hi hi' times
  exact ⟨A, w, M, ev, ev', h1, h2, e1, e2, e3⟩

end ED.Props
