import Verif.Lemmas.FreeThermo
import Verif.Lemmas.Measure
import Verif.Props.Thermo
import Verif.Props.Correlators
import Verif.Props.Fermions

/-! # Property C112: fermions without interactions -/

namespace ED.Props

open Matrix

variable {κ : Type} [Fintype κ] [DecidableEq κ]

/-- A fermion model without interactions: `t` is the hopping amplitude that the Hamiltonian uses and `v` the potential
minus the chemical potential. -/
structure NonInteracting (F : Fermions) (t : Fin F.nsites → Fin F.nsites → Fin F.nspecies → ℝ)
    (v : Fin F.nsites → Fin F.nspecies → ℝ) : Prop where
  us : ∀ i : Fin F.nsites, F.us i = 0
  same : ∀ (i j : Fin F.nsites) (s : Fin F.nspecies), F.usSame i j s = 0
  hop : ∀ (i j : Fin F.nsites) (s : Fin F.nspecies), j < i →
    F.ts i j s * ((|F.xdist i j| + |F.ydist i j| : ℝ) : ℂ) = t i j s
  symm : ∀ i j s, t i j s = t j i s
  pot : ∀ (i : Fin F.nsites) (s : Fin F.nspecies), F.pots i s - F.mus s = v i s

variable {F : Fermions} {t : Fin F.nsites → Fin F.nsites → Fin F.nspecies → ℝ}
  {v : Fin F.nsites → Fin F.nspecies → ℝ}

/-- The one-particle Hamiltonians of the species. -/
noncomputable abbrev bands (t : Fin F.nsites → Fin F.nsites → Fin F.nspecies → ℝ)
    (v : Fin F.nsites → Fin F.nspecies → ℝ) (s : Fin F.nspecies) : Matrix (Fin F.nsites) (Fin F.nsites) ℂ :=
  oneParticle (fun i j => t i j s) fun i => v i s

theorem oneParticle_star {n : ℕ} {t : Fin n → Fin n → ℝ} {v : Fin n → ℝ} (ht : ∀ i j, t i j = t j i) :
    (oneParticle t v).IsHermitian := by
  ext i j
  rw [conjTranspose_apply]
  unfold oneParticle
  simp only [of_apply]
  by_cases h : i = j
  · subst h
    simp
  · rw [if_neg h, if_neg (Ne.symm h), ht]
    simp

theorem NonInteracting.data (hF : NonInteracting F t v) {φ : Fin F.nspecies → Matrix (Fin F.nsites) κ ℂ}
    {ε : Fin F.nspecies → κ → ℝ} (hφ : ∀ s, IsEigenbasis (bands t v s) (φ s) (ε s)) : FreeData (bands t v) φ ε :=
  ⟨fun s => oneParticle_star fun i j => hF.symm i j s, hφ⟩

/-- The Hamiltonian of a model without interactions. -/
theorem NonInteracting.gives (hF : NonInteracting F t v) :
    Gives (F.createH none) (secondQuant (modeMat (bands t v)) : Op (F.nsites * F.nspecies) 2) := by
  refine (C27_hamiltonian F (Or.inr hF.us)).of_eq ?_
  rw [← hub_free t v hF.symm]
  have e1 : (hubInter (fun i => F.us i) : Op (F.nsites * F.nspecies) 2) = 0 := by
    unfold hubInter
    simp [hF.us]
  have e2 : (hubSame (fun i j s => F.usSame i j s) : Op (F.nsites * F.nspecies) 2) = 0 := by
    unfold hubSame
    simp [hF.same]
  rw [e1, e2, zero_add, zero_add, hubHop_congr hF.hop]
  congr 2
  funext i s
  exact hF.pot i s

/-- The eigenstates used in the proofs. -/
theorem NonInteracting.diag (hF : NonInteracting F t v) (S : EigSolvers) (hS : EigContract S) :
    ∃ (A : Mat) (w : List ℝ) (M : Mat), F.createH none = .ok A ∧ diagList S A = .ok (w, M) ∧
      M.rows = F.sys.nstates ∧ A.Is (secondQuant (modeMat (bands t v)) : Op (F.nsites * F.nspecies) 2) ∧
      ∀ (B : Mat) (O : Op (F.nsites * F.nspecies) 2), B.Is O → ∀ T : ℝ, T ≠ 0 →
        expValsThermal M B w T = .ok (thermalAvg (secondQuant (modeMat (bands t v))) O T) := by
  obtain ⟨A, hA, hAi⟩ := hF.gives
  have hH := secondQuant_star (modeMat_star (h := bands t v) fun s => oneParticle_star fun i j => hF.symm i j s)
  obtain ⟨m, E, M, V, h1, h2, h3, h4, h5, -⟩ := diagList_ok S hS hAi hH
  refine ⟨A, _, M, hA, h1, ?_, hAi, fun B O hB T hT => ?_⟩
  · rw [h2.1]
    simp [Sys.nstates]
  · rw [C19_canonical h2 hB E T (Or.inl hT), thermalAvg_eig h3 h4 h5 O hT]

/-- C112, densities: the thermal occupation of a site, as computed by diagonalizing the Hamiltonian on the full space,
is the sum over the states of a single particle of the probability to be at the site times the Fermi function. -/
theorem C112_densities (S : EigSolvers) (hS : EigContract S) (hF : NonInteracting F t v)
    {φ : Fin F.nspecies → Matrix (Fin F.nsites) κ ℂ} {ε : Fin F.nspecies → κ → ℝ}
    (hφ : ∀ s, IsEigenbasis (bands t v s) (φ s) (ε s)) :
    ∃ A w M, F.createH none = .ok A ∧ diagList S A = .ok (w, M) ∧
      ∀ (s : Fin F.nspecies) (temps : List ℝ), (∀ T ∈ temps, T ≠ 0) →
        thermalExpSites F.sys M w nOp s temps none none "boson" =
          .ok (List.ofFn fun i => temps.map fun T => siteDensity (φ s) (ε s) T i, List.range F.nsites) := by
  obtain ⟨A, w, M, h1, h2, h3, -, h4⟩ := hF.diag S hS
  refine ⟨A, w, M, h1, h2, fun s temps hT => ?_⟩
  have D := hF.data hφ
  have hH := secondQuant_star (modeMat_star D.herm)
  unfold thermalExpSites
  simp only [Option.getD_none]
  have hr : List.range F.nsites = List.ofFn fun i : Fin F.nsites => (i : ℕ) := by
    simpa using list_range_map F.nsites id
  rw [hr, mapM_ofFn _ _ (fun i => temps.map fun T => siteDensity (φ s) (ε s) T i)]
  · rfl
  · intro i
    obtain ⟨X, hX, hXi⟩ := F_single F i s
    rw [hX]
    change (sandwich 1 _ X >>= _) = _
    have hP : (Mat.eye M.rows).Is (1 : Op (F.nsites * F.nspecies) 2) := Mat.is_eye (by rw [h3]; simp [Sys.nstates])
    obtain ⟨Y, hY, hYi⟩ := sandwich_gives hP hXi 1
    rw [hY]
    change expValsThermalList M Y w temps = _
    unfold expValsThermalList
    refine mapM_ok _ _ _ fun T hTm => ?_
    rw [h4 Y _ hYi T (hT T hTm), thermalAvg_re, one_smul, Matrix.one_mul, conjTranspose_one]
    rw [D.one T i s 1 fun l => by rw [Matrix.one_mul, Matrix.mul_one], cAvg_one hH, mul_one, Complex.ofReal_re]

/-- C112, correlations: the thermal correlations of two densities. Different species are independent; densities of the
same species are anticorrelated by the square of the one-particle density matrix. -/
theorem C112_correlations (S : EigSolvers) (hS : EigContract S) (hF : NonInteracting F t v)
    {φ : Fin F.nspecies → Matrix (Fin F.nsites) κ ℂ} {ε : Fin F.nspecies → κ → ℝ}
    (hφ : ∀ s, IsEigenbasis (bands t v s) (φ s) (ε s)) :
    ∃ A w M, F.createH none = .ok A ∧ diagList S A = .ok (w, M) ∧
      ∀ (s s' : Fin F.nspecies) (temps : List ℝ), (∀ T ∈ temps, T ≠ 0) → ∃ vals pairs,
        thermalCorrSites F.sys M w s s' nOp nOp temps none none "boson" = .ok (vals, pairs) ∧
        pairs.Nodup ∧ (∀ i j, (i, j) ∈ pairs ↔ j ≤ i ∧ i < F.nsites) ∧ vals.length = pairs.length ∧
        ∀ (r : ℕ) (i j : Fin F.nsites), pairs[r]? = some ((i : ℕ), (j : ℕ)) →
          vals[r]? = some (temps.map fun T =>
            siteDensity (φ s) (ε s) T i * siteDensity (φ s') (ε s') T j +
              if s = s' then (if i = j then siteDensity (φ s) (ε s) T i else 0) -
                ‖oneDensity (φ s) (ε s) T i j‖ ^ 2 else 0) := by
  obtain ⟨A, w, M, h1, h2, h3, -, h4⟩ := hF.diag S hS
  refine ⟨A, w, M, h1, h2, fun s s' temps hT => ?_⟩
  have D := hF.data hφ
  have hH := secondQuant_star (modeMat_star D.herm)
  set val : ℕ × ℕ → List ℝ := fun p =>
    if hp : p.1 < F.nsites ∧ p.2 < F.nsites then
      temps.map fun T => siteDensity (φ s) (ε s) T ⟨p.1, hp.1⟩ * siteDensity (φ s') (ε s') T ⟨p.2, hp.2⟩ +
              if s = s' then (if (⟨p.1, hp.1⟩ : Fin F.nsites) = ⟨p.2, hp.2⟩ then
                siteDensity (φ s) (ε s) T ⟨p.1, hp.1⟩ else 0) -
                ‖oneDensity (φ s) (ε s) T ⟨p.1, hp.1⟩ ⟨p.2, hp.2⟩‖ ^ 2 else 0
    else [] with hval
  refine ⟨(defaultPairs F.nsites).map val, defaultPairs F.nsites, ?_,
    nodup_defaultPairs _, mem_defaultPairs _, by simp, fun r i j hr => ?_⟩
  · unfold thermalCorrSites
    simp only [Option.getD_none]
    rw [mapM_ok _ _ val]
    · rfl
    · rintro ⟨i, j⟩ hp
      obtain ⟨hj, hi⟩ := (mem_defaultPairs _ _ _).1 hp
      have hj' : j < F.nsites := lt_of_le_of_lt hj hi
      obtain ⟨X, hX, hXi⟩ := F_two F ⟨i, hi⟩ ⟨j, hj'⟩ s s'
      simp only at hX
      rw [hX]
      change (sandwich 1 _ X >>= _) = _
      have hP : (Mat.eye M.rows).Is (1 : Op (F.nsites * F.nspecies) 2) := Mat.is_eye (by rw [h3]; simp [Sys.nstates])
      obtain ⟨Y, hY, hYi⟩ := sandwich_gives hP hXi 1
      rw [hY]
      change expValsThermalList M Y w temps = _
      unfold expValsThermalList
      simp only [hval, hi, hj', and_self, dif_pos]
      refine mapM_ok _ _ _ fun T hTm => ?_
      rw [h4 Y _ hYi T (hT T hTm), thermalAvg_re, one_smul, Matrix.one_mul, conjTranspose_one, Matrix.mul_one]
      have hone : ∀ s'' l, (1 : Op (F.nsites * F.nspecies) 2) * create (mode l s'') = create (mode l s'') * 1 := fun _ _ => by
        rw [Matrix.one_mul, Matrix.mul_one]
      by_cases hs : s = s'
      · subst hs
        have := D.two T ⟨i, hi⟩ ⟨j, hj'⟩ s 1 (hone s)
        rw [Matrix.mul_one] at this
        rw [this, cAvg_one hH, mul_one, Complex.ofReal_re, if_pos rfl]
      · rw [D.one T ⟨i, hi⟩ s _ fun l => number_create_comm fun h => hs (mode_eq_iff.1 h).2.symm]
        have := D.one T ⟨j, hj'⟩ s' 1 (hone s')
        rw [Matrix.mul_one, cAvg_one hH, mul_one] at this
        rw [this, if_neg hs, add_zero, ← Complex.ofReal_mul, Complex.ofReal_re]
  · rw [List.getElem?_map, hr]
    simp [hval, Fin.ext_iff]

/-- C112, two species: the observables that `measure_hubbard.py` builds from densities at two sites. The species are
independent of each other; `c` and `e` are the covariances of the densities of one species. -/
theorem C112_observables (S : EigSolvers) (hS : EigContract S) (hF : NonInteracting F t v)
    {φ : Fin F.nspecies → Matrix (Fin F.nsites) κ ℂ} {ε : Fin F.nspecies → κ → ℝ}
    (hφ : ∀ s, IsEigenbasis (bands t v s) (φ s) (ε s)) (u d : Fin F.nspecies) (hu : (u : ℕ) = 0) (hd : (d : ℕ) = 1) :
    ∃ A w M, F.createH none = .ok A ∧ diagList S A = .ok (w, M) ∧
      ∀ i j : Fin F.nsites, ∃ ops, hubbardOps F.sys i j = .ok ops ∧ ∀ T : ℝ, T ≠ 0 →
        ∀ n n' m m' c e : ℝ, n = siteDensity (φ u) (ε u) T i → n' = siteDensity (φ u) (ε u) T j →
          m = siteDensity (φ d) (ε d) T i → m' = siteDensity (φ d) (ε d) T j →
          c = (if i = j then siteDensity (φ u) (ε u) T i else 0) - ‖oneDensity (φ u) (ε u) T i j‖ ^ 2 →
          e = (if i = j then siteDensity (φ d) (ε d) T i else 0) - ‖oneDensity (φ d) (ε d) T i j‖ ^ 2 →
        expValsThermal M ops.nup1 w T = .ok n ∧ expValsThermal M ops.nup2 w T = .ok n' ∧
        expValsThermal M ops.ndn1 w T = .ok m ∧ expValsThermal M ops.ndn2 w T = .ok m' ∧
        expValsThermal M ops.nupNup w T = .ok (n * n' + c) ∧ expValsThermal M ops.ndnNdn w T = .ok (m * m' + e) ∧
        expValsThermal M ops.nupNdn w T = .ok (n * m') ∧
        expValsThermal M ops.d1 w T = .ok (n * m) ∧ expValsThermal M ops.d2 w T = .ok (n' * m') ∧
        expValsThermal M ops.sz1 w T = .ok (n - m) ∧ expValsThermal M ops.sz2 w T = .ok (n' - m') ∧
        expValsThermal M ops.ns1 w T = .ok (n + m - 2 * n * m) ∧ expValsThermal M ops.ns2 w T = .ok (n' + m' - 2 * n' * m') ∧
        expValsThermal M ops.szSz w T = .ok ((n - m) * (n' - m') + c + e) ∧
        expValsThermal M ops.dd w T = .ok ((n * n' + c) * (m * m' + e)) ∧
        expValsThermal M ops.nsNs w T = .ok ((n + m - 2 * n * m) * (n' + m' - 2 * n' * m') + c * (1 - 2 * m) * (1 - 2 * m') +
          e * (1 - 2 * n) * (1 - 2 * n') + 4 * c * e) := by
  obtain ⟨A, w, M, h1, h2, -, -, h4⟩ := hF.diag S hS
  have D := hF.data hφ
  refine ⟨A, w, M, h1, h2, fun i j => ?_⟩
  obtain ⟨ops, ho, hI⟩ := hubbardOps_is F i j u d hu hd
  refine ⟨ops, ho, fun T hT n n' m m' c e hn hn' hm hm' hc he => ?_⟩
  obtain ⟨μ, hμ, hadd, hsub, hsmul, hall⟩ := D.occupations T i j u d fun h => by rw [h, hd] at hu; omega
  generalize nfun (mode i u) = x at hI hall
  generalize nfun (mode j u) = x' at hI hall
  generalize nfun (mode i d) = y at hI hall
  generalize nfun (mode j d) = y' at hI hall
  obtain ⟨i1, i2, i3, i4, i5, i6, i7, i8, i9, i10, i11, i12, i13, i14, i15, i16⟩ := hI _ _ _ _ rfl rfl rfl rfl
  obtain ⟨m1, m2, m3, m4, m5, m6, m7, m8, m9, m10, m11, m12, m13, m14, m15⟩ := hall n n' m m' c e
    (congrArg _ hn) (congrArg _ hn') (congrArg _ hm) (congrArg _ hm') (congrArg _ hc) (congrArg _ he) x x' y y' rfl rfl rfl rfl
  have key : ∀ (B : Mat) (f : Conf (F.nsites * F.nspecies) 2 → ℂ) (r : ℝ), B.Is (diagonal f) →
      μ f = r → expValsThermal M B w T = .ok r := fun B f r hB hr => by
    have h5 := h4 B _ hB T hT
    rwa [thermalAvg_re, hμ, hr, Complex.ofReal_re] at h5
  refine ⟨key _ _ _ i1 m1, key _ _ _ i2 m2, key _ _ _ i3 m3, key _ _ _ i4 m4, key _ _ _ i5 ?_, key _ _ _ i6 ?_,
    key _ _ _ i7 ?_, key _ _ _ i8 ?_, key _ _ _ i9 ?_, key _ _ _ i10 ?_, key _ _ _ i11 ?_, key _ _ _ i12 ?_,
    key _ _ _ i13 ?_, key _ _ _ i14 ?_, key _ _ _ i15 ?_, key _ _ _ i16 ?_⟩
  · rw [m5]; push_cast; ring
  · rw [m6]; push_cast; ring
  · rw [m8]; push_cast; ring
  · rw [m7]; push_cast; ring
  · rw [m10]; push_cast; ring
  · rw [hsub, m1, m3]; push_cast; ring
  · rw [hsub, m2, m4]; push_cast; ring
  · rw [hsub, hadd, hsmul, m1, m3, m7]; push_cast; ring
  · rw [hsub, hadd, hsmul, m2, m4, m10]; push_cast; ring
  · rw [show (x - y) * (x' - y') = x * x' + y * y' - x * y' - x' * y by ring, hsub, hsub, hadd, m5, m6, m8, m9]
    push_cast; ring
  · rw [show x * y * (x' * y') = x * x' * (y * y') by ring, m15]
    push_cast; ring
  · have : (x + y - (2 : ℂ) • (x * y)) * (x' + y' - (2 : ℂ) • (x' * y')) =
        x * x' + x * y' + x' * y + y * y' - (2 : ℂ) • (x * x' * y') - (2 : ℂ) • (x' * (y * y')) -
          (2 : ℂ) • (x * x' * y) - (2 : ℂ) • (x * (y * y')) + (4 : ℂ) • (x * x' * (y * y')) := by
      funext q
      simp only [Pi.add_apply, Pi.sub_apply, Pi.mul_apply, Pi.smul_apply, smul_eq_mul]
      ring
    rw [this]
    simp only [hadd, hsub, hsmul, m5, m6, m8, m9, m11, m12, m13, m14, m15]
    push_cast; ring

/-- C112, thermodynamics: energy, entropy and specific heat, as computed by the example scripts from all eigenvalues of
the Hamiltonian on the full space, are sums over the states of a single particle. -/
theorem C112_thermodynamics (S : EigSolvers) (hS : EigContract S) (hF : NonInteracting F t v)
    {φ : Fin F.nspecies → Matrix (Fin F.nsites) κ ℂ} {ε : Fin F.nspecies → κ → ℝ}
    (hφ : ∀ s, IsEigenbasis (bands t v s) (φ s) (ε s)) :
    ∃ A w M, F.createH none = .ok A ∧ diagList S A = .ok (w, M) ∧ ∀ T : ℝ, 0 < T →
      thermoAt M A w T = .ok
        (∑ s, ∑ k, ε s k * occupancy T (ε s k),
         ∑ s, ∑ k, Real.binEntropy (occupancy T (ε s k)),
         ∑ s, ∑ k, ε s k ^ 2 / T ^ 2 * (occupancy T (ε s k) * (1 - occupancy T (ε s k)))) := by
  have D := hF.data hφ
  have hH := secondQuant_star (modeMat_star D.herm)
  obtain ⟨A, hA, hAi⟩ := hF.gives
  obtain ⟨w, M, h1, h2⟩ := C109_thermodynamics S hS A _ hAi hH
  refine ⟨A, w, M, hA, h1, fun T hT => ?_⟩
  obtain ⟨e, s, c, h3, h4, h5, -, h7⟩ := h2 T hT
  have hE : ∀ T, thermalAvg (secondQuant (modeMat (bands t v))) (secondQuant (modeMat (bands t v))) T =
      ∑ s, ∑ k, ε s k * occupancy T (ε s k) := fun T => by
    rw [thermalAvg_re, D.energy, Complex.ofReal_re]
  have hone := cAvg_one hH T
  have hZ : partitionFn (secondQuant (modeMat (bands t v))) T ≠ 0 := by
    intro h0
    rw [cAvg_eq, h0] at hone
    simp at hone
  have hreal : trace (boltzOp (secondQuant (modeMat (bands t v))) T) =
      partitionFn (secondQuant (modeMat (bands t v))) T := by
    rw [cAvg_eq, Matrix.mul_one] at hone
    have hZ' : (partitionFn (secondQuant (modeMat (bands t v))) T : ℂ) ≠ 0 := by exact_mod_cast hZ
    field_simp at hone
    exact hone
  have hZpos : 0 < partitionFn (secondQuant (modeMat (bands t v))) T := by
    obtain ⟨m, E, M', V, -, -, q3, q4, q5, -⟩ := diagList_ok S hS hAi hH
    rw [partitionFn_eig q3 q4 q5]
    exact Finset.sum_pos (fun k _ => Real.exp_pos _) Finset.univ_nonempty
  have hs : s = ∑ s, ∑ k, Real.binEntropy (occupancy T (ε s k)) := by
    rw [h5, vonNeumann_gibbs hH hZpos hreal, D.log_partition, hE]
    simp only [entropy_state, Finset.sum_add_distrib, Finset.sum_div]
  have hc : c = ∑ s, ∑ k, ε s k ^ 2 / T ^ 2 * (occupancy T (ε s k) * (1 - occupancy T (ε s k))) := by
    have hd : HasDerivAt (fun T => ∑ s, ∑ k, ε s k * occupancy T (ε s k))
        (∑ s, ∑ k, ε s k ^ 2 / T ^ 2 * (occupancy T (ε s k) * (1 - occupancy T (ε s k)))) T :=
      HasDerivAt.fun_sum fun s _ => HasDerivAt.fun_sum fun k _ => hasDerivAt_occupancy (ε s k) hT.ne'
    have h8 : HasDerivAt (fun T => ∑ s, ∑ k, ε s k * occupancy T (ε s k)) c T := by
      refine h7.congr_of_eventuallyEq (Filter.Eventually.of_forall fun T => ?_)
      exact (hE T).symm
    exact h8.unique hd
  rw [h3, h4, hE, hs, hc]

/-- Twice the `x` component of the spin at site `i` for species `u` and `d`. -/
def flip {a b : ℕ} (u d : Fin b) (i : Fin a) : Op (a * b) 2 :=
  create (mode i u) * annih (mode i d) + create (mode i d) * annih (mode i u)

/-- C112, transverse spin: the thermal average of the product of the operators that exchange two species at two sites. -/
theorem C112_transverse (S : EigSolvers) (hS : EigContract S) (hF : NonInteracting F t v)
    {φ : Fin F.nspecies → Matrix (Fin F.nsites) κ ℂ} {ε : Fin F.nspecies → κ → ℝ}
    (hφ : ∀ s, IsEigenbasis (bands t v s) (φ s) (ε s)) {u d : Fin F.nspecies} (hud : u ≠ d) :
    ∃ A w M, F.createH none = .ok A ∧ diagList S A = .ok (w, M) ∧
      ∀ (i j : Fin F.nsites) (B : Mat), B.Is (flip u d i * flip u d j) → ∀ T : ℝ, T ≠ 0 →
        expValsThermal M B w T = .ok ((if i = j then siteDensity (φ u) (ε u) T i + siteDensity (φ d) (ε d) T i else 0) -
          2 * (oneDensity (φ u) (ε u) T i j * star (oneDensity (φ d) (ε d) T i j)).re) := by
  obtain ⟨A, w, M, h1, h2, -, -, h4⟩ := hF.diag S hS
  have D := hF.data hφ
  have hH := secondQuant_star (modeMat_star D.herm)
  refine ⟨A, w, M, h1, h2, fun i j B hB T hT => ?_⟩
  have hone : ∀ s l, (1 : Op (F.nsites * F.nspecies) 2) * create (mode l s) = create (mode l s) * 1 := fun _ _ => by
    rw [Matrix.one_mul, Matrix.mul_one]
  have w4 : ∀ s s1 s2 s3, cAvg (secondQuant (modeMat (bands t v))) T
      (create (mode i s) * annih (mode i s1) * (create (mode j s2) * annih (mode j s3))) =
      (if s1 = s then oneDensity (φ s1) (ε s1) T i i else 0) * (if s3 = s2 then oneDensity (φ s3) (ε s3) T j j else 0) +
        (if s3 = s then oneDensity (φ s3) (ε s3) T j i else 0) *
        ((if i = j ∧ s1 = s2 then 1 else 0) - if s1 = s2 then oneDensity (φ s1) (ε s1) T i j else 0) := fun s s1 s2 s3 => by
    have := D.wick4 T i i j j s s1 s2 s3 1 (hone s) (hone s2)
    rw [Matrix.mul_one, cAvg_one hH, mul_one] at this
    exact this
  rw [h4 B _ hB T hT, thermalAvg_re]
  unfold flip
  rw [Matrix.add_mul, Matrix.mul_add, Matrix.mul_add, cAvg_add, cAvg_add, cAvg_add, w4, w4, w4, w4]
  simp only [hud, hud.symm, if_false, and_false, if_true, and_true, zero_mul, mul_zero, zero_add, add_zero, sub_zero]
  rw [oneDensity_star (φ u) (ε u) T i j, oneDensity_star (φ d) (ε d) T i j]
  congr 1
  by_cases hij : i = j
  · subst hij
    rw [if_pos rfl, if_pos rfl, oneDensity_self, oneDensity_self, Complex.star_def, Complex.conj_ofReal,
      Complex.conj_ofReal]
    simp only [← Complex.ofReal_mul, ← Complex.ofReal_sub, ← Complex.ofReal_one, ← Complex.ofReal_add, Complex.ofReal_re]
    ring
  · rw [if_neg hij, if_neg hij]
    simp only [zero_sub, Complex.star_def, Complex.add_re, Complex.mul_re, Complex.neg_re, Complex.neg_im, Complex.conj_re,
      Complex.conj_im]
    ring

/-- There is always such a basis. -/
theorem exists_eigenbasis {n : ℕ} {h : Matrix (Fin n) (Fin n) ℂ} (hh : h.IsHermitian) :
    ∃ (φ : Matrix (Fin n) (Fin n) ℂ) (ε : Fin n → ℝ), IsEigenbasis h φ ε := by
  refine ⟨(hh.eigenvectorUnitary : Matrix (Fin n) (Fin n) ℂ), hh.eigenvalues,
    Matrix.mem_unitaryGroup_iff'.1 hh.eigenvectorUnitary.2, Matrix.mem_unitaryGroup_iff.1 hh.eigenvectorUnitary.2, ?_⟩
  have := hh.spectral_theorem
  rw [Unitary.conjStarAlgAut_apply] at this
  have h := congrArg (fun A => A * (hh.eigenvectorUnitary : Matrix (Fin n) (Fin n) ℂ)) this
  have e : star (hh.eigenvectorUnitary : Matrix (Fin n) (Fin n) ℂ) * (hh.eigenvectorUnitary : Matrix (Fin n) (Fin n) ℂ) = 1 :=
    Matrix.mem_unitaryGroup_iff'.1 hh.eigenvectorUnitary.2
  rw [Matrix.mul_assoc _ _ (hh.eigenvectorUnitary : Matrix (Fin n) (Fin n) ℂ), e, Matrix.mul_one] at h
  exact h

/-- The hypotheses hold for three sites in a row with two species and a potential on one site. -/
example : ∃ (F : Fermions) (t : Fin F.nsites → Fin F.nsites → Fin F.nspecies → ℝ)
    (v : Fin F.nsites → Fin F.nspecies → ℝ) (φ : Fin F.nspecies → Matrix (Fin F.nsites) (Fin 3) ℂ)
    (ε : Fin F.nspecies → Fin 3 → ℝ), F.nsites = 3 ∧ F.nspecies = 2 ∧ F.ts 1 0 1 = 2 ∧ F.pots 2 0 = 5 ∧
      NonInteracting F t v ∧ ∀ s, IsEigenbasis (bands t v s) (φ s) (ε s) := by
  set F : Fermions := ⟨3, 2, fun i j s => if i = j + 1 ∨ j = i + 1 then (s : ℂ) + 1 else 0, fun _ => 0, fun _ _ _ => 0,
    fun s => s, fun i _ => if i = 2 then 5 else 0, fun i j => (i : ℝ) - j, fun _ _ => 0⟩ with hF
  set t : Fin 3 → Fin 3 → Fin 2 → ℝ := fun i j s =>
    if (i : ℕ) = j + 1 ∨ (j : ℕ) = i + 1 then (s : ℝ) + 1 else 0 with ht
  set v : Fin 3 → Fin 2 → ℝ := fun i s => (if (i : ℕ) = 2 then 5 else 0) - (s : ℝ) with hv
  have hsym : ∀ i j s, t i j s = t j i s := fun i j s => by
    simp only [ht, or_comm]
  have hb : ∀ s, ∃ (φ : Matrix (Fin 3) (Fin 3) ℂ) (ε : Fin 3 → ℝ),
      IsEigenbasis (oneParticle (fun i j => t i j s) fun i => v i s) φ ε := fun s =>
    exists_eigenbasis (oneParticle_star fun i j => hsym i j s)
  choose φ ε hφ using hb
  refine ⟨F, t, v, φ, ε, rfl, rfl, ?_, ?_, ⟨fun i => rfl, fun i j s => rfl, ?_, hsym, ?_⟩, hφ⟩
  · simp [hF]; norm_num
  · simp [hF]
  · intro i j s hij
    fin_cases i <;> fin_cases j <;> simp [hF, ht] at hij ⊢ <;> norm_num
  · intro i s
    simp only [hF, hv]
    push_cast
    split_ifs <;> simp

end ED.Props
