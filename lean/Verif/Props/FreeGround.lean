import Verif.Props.FreeFermions
import Verif.Lemmas.ZeroTemp

/-! # Property C114: fermions without interactions at zero temperature -/

namespace ED.Props

open ED Matrix Filter Topology
open scoped BigOperators

variable {κ : Type} [Fintype κ] [DecidableEq κ]
variable {F : Fermions} {t : Fin F.nsites → Fin F.nsites → Fin F.nspecies → ℝ}
  {v : Fin F.nsites → Fin F.nspecies → ℝ}

/-- Averages at zero temperature are limits. -/
theorem NonInteracting.ground (hF : NonInteracting F t v) (S : EigSolvers) (hS : EigContract S)
    {φ : Fin F.nspecies → Matrix (Fin F.nsites) κ ℂ} {ε : Fin F.nspecies → κ → ℝ}
    (hφ : ∀ s, IsEigenbasis (bands t v s) (φ s) (ε s)) (hε : ∀ s, ResolvedLevels (ε s)) :
    ∃ (A : Mat) (w : List ℝ) (M : Mat), F.createH none = .ok A ∧ diagList S A = .ok (w, M) ∧
      M.rows = F.sys.nstates ∧
      ∀ (B : Mat) (O : Op (F.nsites * F.nspecies) 2) (r : ℝ), B.Is O →
        Tendsto (fun T => (cAvg (secondQuant (modeMat (bands t v))) T O).re) (𝓝[>] 0) (𝓝 r) →
        expValsThermal M B w 0 = .ok r := by
  obtain ⟨A, hA, hAi⟩ := hF.gives
  have D := hF.data hφ
  have hH := secondQuant_star (modeMat_star D.herm)
  obtain ⟨m, E, M, V, h1, h2, h3, h4, h5, h6⟩ := diagList_ok S hS hAi hH
  refine ⟨A, _, M, hA, h1, ?_, fun B O r hB hr => ?_⟩
  · rw [h2.1]
    simp [Sys.nstates]
  · have hgap := ground_gap (m := m) (E := E) h6 (ε := fun p : Fin F.nspecies × κ => ε p.1 p.2)
      (δ := 1 / 2 * (1 / 10 ^ 13)) (by norm_num) (fun p => hε p.1 p.2) fun T hT => by
        have hZ := D.log_partition T
        rw [partitionFn_eig h3 h4 h5] at hZ
        have hpos : 0 < ∑ k, Real.exp (-E k / T) := Finset.sum_pos (fun k _ => Real.exp_pos _) Finset.univ_nonempty
        rw [← Real.exp_log hpos, hZ, Real.exp_sum, Fintype.prod_prod_type]
        refine Finset.prod_congr rfl fun s _ => ?_
        rw [Real.exp_sum]
        exact Finset.prod_congr rfl fun k _ => Real.exp_log (by positivity)
    obtain ⟨f, hf, hlim⟩ := C20_limit_ground h2 hB E h6 hgap
    rw [hf 0]
    congr 1
    refine tendsto_nhds_unique hlim (hr.congr' ?_)
    filter_upwards [self_mem_nhdsWithin] with T hT
    have hT0 : T ≠ 0 := (Set.mem_Ioi.1 hT).ne'
    have e := hf T
    rw [C19_canonical h2 hB E T (Or.inl hT0), ← thermalAvg_eig h3 h4 h5 O hT0, thermalAvg_re] at e
    exact Except.ok.inj e

/-- C114, densities. -/
theorem C114_densities (S : EigSolvers) (hS : EigContract S) (hF : NonInteracting F t v)
    {φ : Fin F.nspecies → Matrix (Fin F.nsites) κ ℂ} {ε : Fin F.nspecies → κ → ℝ}
    (hφ : ∀ s, IsEigenbasis (bands t v s) (φ s) (ε s)) (hε : ∀ s, ResolvedLevels (ε s)) :
    ∃ A w M, F.createH none = .ok A ∧ diagList S A = .ok (w, M) ∧
      ∀ s : Fin F.nspecies, thermalExpSites F.sys M w nOp s [0] none none "boson" =
          .ok (List.ofFn fun i => [groundDensity (φ s) (ε s) i], List.range F.nsites) := by
  obtain ⟨A, w, M, h1, h2, h3, h4⟩ := hF.ground S hS hφ hε
  refine ⟨A, w, M, h1, h2, fun s => ?_⟩
  have D := hF.data hφ
  have hH := secondQuant_star (modeMat_star D.herm)
  unfold thermalExpSites
  simp only [Option.getD_none]
  have hr : List.range F.nsites = List.ofFn fun i : Fin F.nsites => (i : ℕ) := by
    simpa using list_range_map F.nsites id
  rw [hr, mapM_ofFn _ _ (fun i => [groundDensity (φ s) (ε s) i])]
  · rfl
  · intro i
    obtain ⟨X, hX, hXi⟩ := F_single F i s
    rw [hX]
    change (sandwich 1 _ X >>= _) = _
    have hP : (Mat.eye M.rows).Is (1 : Op (F.nsites * F.nspecies) 2) := Mat.is_eye (by rw [h3]; simp [Sys.nstates])
    obtain ⟨Y, hY, hYi⟩ := sandwich_gives hP hXi 1
    rw [hY]
    change expValsThermalList M Y w [0] = _
    unfold expValsThermalList
    refine mapM_ok [(0 : ℝ)] _ (fun _ => groundDensity (φ s) (ε s) i) fun T hTm => ?_
    rw [List.mem_singleton.1 hTm]
    refine h4 Y _ _ hYi ((siteDensity_limit (φ s) (ε s) i).congr fun T => ?_)
    rw [one_smul, Matrix.one_mul, conjTranspose_one]
    rw [D.one T i s 1 fun l => by rw [Matrix.one_mul, Matrix.mul_one], cAvg_one hH, mul_one, Complex.ofReal_re]

/-- C114, correlations. -/
theorem C114_correlations (S : EigSolvers) (hS : EigContract S) (hF : NonInteracting F t v)
    {φ : Fin F.nspecies → Matrix (Fin F.nsites) κ ℂ} {ε : Fin F.nspecies → κ → ℝ}
    (hφ : ∀ s, IsEigenbasis (bands t v s) (φ s) (ε s)) (hε : ∀ s, ResolvedLevels (ε s)) :
    ∃ A w M, F.createH none = .ok A ∧ diagList S A = .ok (w, M) ∧
      ∀ s s' : Fin F.nspecies, ∃ vals pairs,
        thermalCorrSites F.sys M w s s' nOp nOp [0] none none "boson" = .ok (vals, pairs) ∧
        pairs.Nodup ∧ (∀ i j, (i, j) ∈ pairs ↔ j ≤ i ∧ i < F.nsites) ∧ vals.length = pairs.length ∧
        ∀ (r : ℕ) (i j : Fin F.nsites), pairs[r]? = some ((i : ℕ), (j : ℕ)) →
          vals[r]? = some [groundDensity (φ s) (ε s) i * groundDensity (φ s') (ε s') j +
              if s = s' then (if i = j then groundDensity (φ s) (ε s) i else 0) -
                ‖groundMatrix (φ s) (ε s) i j‖ ^ 2 else 0] := by
  obtain ⟨A, w, M, h1, h2, h3, h4⟩ := hF.ground S hS hφ hε
  refine ⟨A, w, M, h1, h2, fun s s' => ?_⟩
  have D := hF.data hφ
  have hH := secondQuant_star (modeMat_star D.herm)
  set val : ℕ × ℕ → List ℝ := fun p =>
    if hp : p.1 < F.nsites ∧ p.2 < F.nsites then
      [groundDensity (φ s) (ε s) ⟨p.1, hp.1⟩ * groundDensity (φ s') (ε s') ⟨p.2, hp.2⟩ +
              if s = s' then (if (⟨p.1, hp.1⟩ : Fin F.nsites) = ⟨p.2, hp.2⟩ then
                groundDensity (φ s) (ε s) ⟨p.1, hp.1⟩ else 0) -
                ‖groundMatrix (φ s) (ε s) ⟨p.1, hp.1⟩ ⟨p.2, hp.2⟩‖ ^ 2 else 0]
    else [] with hval
  refine ⟨(defaultPairs F.nsites).map val, defaultPairs F.nsites, ?_,
    nodup_defaultPairs _, mem_defaultPairs _, by simp, fun r i j hr => ?_⟩
  · unfold thermalCorrSites
    simp only [Option.getD_none]
    rw [mapM_ok _ _ val]
    · rfl
    · rintro ⟨i, j⟩ hp
      obtain ⟨hj, hi⟩ := (mem_defaultPairs _ _ _).1 hp
      have hj' : j < F.nsites := lt_of_le_of_lt hj hi
      obtain ⟨X, hX, hXi⟩ := F_two F ⟨i, hi⟩ ⟨j, hj'⟩ s s'
      simp only at hX
      rw [hX]
      change (sandwich 1 _ X >>= _) = _
      have hP : (Mat.eye M.rows).Is (1 : Op (F.nsites * F.nspecies) 2) := Mat.is_eye (by rw [h3]; simp [Sys.nstates])
      obtain ⟨Y, hY, hYi⟩ := sandwich_gives hP hXi 1
      rw [hY]
      change expValsThermalList M Y w [0] = _
      unfold expValsThermalList
      simp only [hval, hi, hj', and_self, dif_pos]
      refine mapM_ok [(0 : ℝ)] _ (fun _ => _) fun T hTm => ?_
      rw [List.mem_singleton.1 hTm]
      have hone : ∀ s'' l, (1 : Op (F.nsites * F.nspecies) 2) * create (mode l s'') = create (mode l s'') * 1 := fun _ _ => by
        rw [Matrix.one_mul, Matrix.mul_one]
      have l1 := siteDensity_limit (φ s) (ε s) ⟨i, hi⟩
      have l2 := siteDensity_limit (φ s') (ε s') ⟨j, hj'⟩
      by_cases hs : s = s'
      · subst hs
        rw [if_pos rfl]
        refine h4 Y _ _ hYi (((l1.mul l2).add (covar_limit (φ s) (ε s) ⟨i, hi⟩ ⟨j, hj'⟩)).congr fun T => ?_)
        rw [one_smul, Matrix.one_mul, conjTranspose_one, Matrix.mul_one]
        have := D.two T ⟨i, hi⟩ ⟨j, hj'⟩ s 1 (hone s)
        rw [Matrix.mul_one] at this
        rw [this, cAvg_one hH, mul_one, Complex.ofReal_re]
      · rw [if_neg hs, add_zero]
        refine h4 Y _ _ hYi ((l1.mul l2).congr fun T => ?_)
        rw [one_smul, Matrix.one_mul, conjTranspose_one, Matrix.mul_one]
        rw [D.one T ⟨i, hi⟩ s _ fun l => number_create_comm fun h => hs (mode_eq_iff.1 h).2.symm]
        have := D.one T ⟨j, hj'⟩ s' 1 (hone s')
        rw [Matrix.mul_one, cAvg_one hH, mul_one] at this
        rw [this, ← Complex.ofReal_mul, Complex.ofReal_re]
  · rw [List.getElem?_map, hr]
    simp [hval, Fin.ext_iff]

/-- C114, two species: the observables of `measure_hubbard.py`. -/
theorem C114_observables (S : EigSolvers) (hS : EigContract S) (hF : NonInteracting F t v)
    {φ : Fin F.nspecies → Matrix (Fin F.nsites) κ ℂ} {ε : Fin F.nspecies → κ → ℝ}
    (hφ : ∀ s, IsEigenbasis (bands t v s) (φ s) (ε s)) (hε : ∀ s, ResolvedLevels (ε s)) (u d : Fin F.nspecies)
    (hu : (u : ℕ) = 0) (hd : (d : ℕ) = 1) :
    ∃ A w M, F.createH none = .ok A ∧ diagList S A = .ok (w, M) ∧
      ∀ i j : Fin F.nsites, ∃ ops, hubbardOps F.sys i j = .ok ops ∧
        ∀ n n' m m' c e : ℝ, n = groundDensity (φ u) (ε u) i → n' = groundDensity (φ u) (ε u) j →
          m = groundDensity (φ d) (ε d) i → m' = groundDensity (φ d) (ε d) j →
          c = (if i = j then groundDensity (φ u) (ε u) i else 0) - ‖groundMatrix (φ u) (ε u) i j‖ ^ 2 →
          e = (if i = j then groundDensity (φ d) (ε d) i else 0) - ‖groundMatrix (φ d) (ε d) i j‖ ^ 2 →
        expValsThermal M ops.nup1 w 0 = .ok n ∧ expValsThermal M ops.nup2 w 0 = .ok n' ∧
        expValsThermal M ops.ndn1 w 0 = .ok m ∧ expValsThermal M ops.ndn2 w 0 = .ok m' ∧
        expValsThermal M ops.nupNup w 0 = .ok (n * n' + c) ∧ expValsThermal M ops.ndnNdn w 0 = .ok (m * m' + e) ∧
        expValsThermal M ops.nupNdn w 0 = .ok (n * m') ∧
        expValsThermal M ops.d1 w 0 = .ok (n * m) ∧ expValsThermal M ops.d2 w 0 = .ok (n' * m') ∧
        expValsThermal M ops.sz1 w 0 = .ok (n - m) ∧ expValsThermal M ops.sz2 w 0 = .ok (n' - m') ∧
        expValsThermal M ops.ns1 w 0 = .ok (n + m - 2 * n * m) ∧ expValsThermal M ops.ns2 w 0 = .ok (n' + m' - 2 * n' * m') ∧
        expValsThermal M ops.szSz w 0 = .ok ((n - m) * (n' - m') + c + e) ∧
        expValsThermal M ops.dd w 0 = .ok ((n * n' + c) * (m * m' + e)) ∧
        expValsThermal M ops.nsNs w 0 = .ok ((n + m - 2 * n * m) * (n' + m' - 2 * n' * m') + c * (1 - 2 * m) * (1 - 2 * m') +
          e * (1 - 2 * n) * (1 - 2 * n') + 4 * c * e) := by
  obtain ⟨A, w, M, h1, h2, h3⟩ := C112_observables S hS hF hφ u d hu hd
  obtain ⟨A', w', M', g1, g2, -, g3⟩ := hF.ground S hS hφ hε
  obtain ⟨A'', w'', M'', f1, f2, -, -, f3⟩ := hF.diag S hS
  obtain rfl : A = A' := Except.ok.inj (h1.symm.trans g1)
  obtain rfl : A = A'' := Except.ok.inj (h1.symm.trans f1)
  obtain ⟨rfl, rfl⟩ := Prod.mk.inj (Except.ok.inj (h2.symm.trans g2))
  obtain ⟨rfl, rfl⟩ := Prod.mk.inj (Except.ok.inj (h2.symm.trans f2))
  refine ⟨A, w, M, h1, h2, fun i j => ?_⟩
  obtain ⟨ops, ho, h4⟩ := h3 i j
  refine ⟨ops, ho, fun n n' m m' c e hn hn' hm hm' hc he => ?_⟩
  obtain ⟨ops', ho', hI⟩ := hubbardOps_is F i j u d hu hd
  obtain rfl : ops = ops' := Except.ok.inj (ho.symm.trans ho')
  obtain ⟨i1, i2, i3, i4, i5, i6, i7, i8, i9, i10, i11, i12, i13, i14, i15, i16⟩ := hI _ _ _ _ rfl rfl rfl rfl
  have hx : Tendsto (fun T : ℝ => ((siteDensity (φ u) (ε u) T i, siteDensity (φ u) (ε u) T j),
      (siteDensity (φ d) (ε d) T i, siteDensity (φ d) (ε d) T j),
      ((if i = j then siteDensity (φ u) (ε u) T i else 0) - ‖oneDensity (φ u) (ε u) T i j‖ ^ 2,
        (if i = j then siteDensity (φ d) (ε d) T i else 0) - ‖oneDensity (φ d) (ε d) T i j‖ ^ 2))) (𝓝[>] 0)
      (𝓝 ((n, n'), (m, m'), (c, e))) := by
    rw [hn, hn', hm, hm', hc, he]
    exact ((siteDensity_limit _ _ i).prodMk_nhds (siteDensity_limit _ _ j)).prodMk_nhds
      (((siteDensity_limit _ _ i).prodMk_nhds (siteDensity_limit _ _ j)).prodMk_nhds
        ((covar_limit _ _ i j).prodMk_nhds (covar_limit _ _ i j)))
  have key : ∀ (B : Mat) (f : Conf (F.nsites * F.nspecies) 2 → ℂ) (P : (ℝ × ℝ) × (ℝ × ℝ) × (ℝ × ℝ) → ℝ), Continuous P →
      B.Is (diagonal f) →
      (∀ T : ℝ, T ≠ 0 → expValsThermal M B w T = .ok (P ((siteDensity (φ u) (ε u) T i, siteDensity (φ u) (ε u) T j),
      (siteDensity (φ d) (ε d) T i, siteDensity (φ d) (ε d) T j),
      ((if i = j then siteDensity (φ u) (ε u) T i else 0) - ‖oneDensity (φ u) (ε u) T i j‖ ^ 2,
        (if i = j then siteDensity (φ d) (ε d) T i else 0) - ‖oneDensity (φ d) (ε d) T i j‖ ^ 2)))) →
      expValsThermal M B w 0 = .ok (P ((n, n'), (m, m'), (c, e))) := fun B f P hP hB hT => by
    refine g3 B _ _ hB ((hP.tendsto _ |>.comp hx).congr' ?_)
    filter_upwards [self_mem_nhdsWithin] with T hT'
    have hT0 : T ≠ 0 := (Set.mem_Ioi.1 hT').ne'
    have e := hT T hT0
    rw [f3 B _ hB T hT0, thermalAvg_re] at e
    exact (Except.ok.inj e).symm
  have h5 := fun T hT => h4 T hT _ _ _ _ _ _ rfl rfl rfl rfl rfl rfl
  refine ⟨?_, ?_, ?_, ?_, ?_, ?_, ?_, ?_, ?_, ?_, ?_, ?_, ?_, ?_, ?_, ?_⟩
  · exact key _ _ (fun x => x.1.1) (by fun_prop) i1 fun T hT => (h5 T hT).1
  · exact key _ _ (fun x => x.1.2) (by fun_prop) i2 fun T hT => (h5 T hT).2.1
  · exact key _ _ (fun x => x.2.1.1) (by fun_prop) i3 fun T hT => (h5 T hT).2.2.1
  · exact key _ _ (fun x => x.2.1.2) (by fun_prop) i4 fun T hT => (h5 T hT).2.2.2.1
  · exact key _ _ (fun x => x.1.1 * x.1.2 + x.2.2.1) (by fun_prop) i5 fun T hT => (h5 T hT).2.2.2.2.1
  · exact key _ _ (fun x => x.2.1.1 * x.2.1.2 + x.2.2.2) (by fun_prop) i6 fun T hT => (h5 T hT).2.2.2.2.2.1
  · exact key _ _ (fun x => x.1.1 * x.2.1.2) (by fun_prop) i7 fun T hT => (h5 T hT).2.2.2.2.2.2.1
  · exact key _ _ (fun x => x.1.1 * x.2.1.1) (by fun_prop) i8 fun T hT => (h5 T hT).2.2.2.2.2.2.2.1
  · exact key _ _ (fun x => x.1.2 * x.2.1.2) (by fun_prop) i9 fun T hT => (h5 T hT).2.2.2.2.2.2.2.2.1
  · exact key _ _ (fun x => x.1.1 - x.2.1.1) (by fun_prop) i10 fun T hT => (h5 T hT).2.2.2.2.2.2.2.2.2.1
  · exact key _ _ (fun x => x.1.2 - x.2.1.2) (by fun_prop) i11 fun T hT => (h5 T hT).2.2.2.2.2.2.2.2.2.2.1
  · exact key _ _ (fun x => x.1.1 + x.2.1.1 - 2 * x.1.1 * x.2.1.1) (by fun_prop) i12 fun T hT =>
      (h5 T hT).2.2.2.2.2.2.2.2.2.2.2.1
  · exact key _ _ (fun x => x.1.2 + x.2.1.2 - 2 * x.1.2 * x.2.1.2) (by fun_prop) i13 fun T hT =>
      (h5 T hT).2.2.2.2.2.2.2.2.2.2.2.2.1
  · exact key _ _ (fun x => (x.1.1 - x.2.1.1) * (x.1.2 - x.2.1.2) + x.2.2.1 + x.2.2.2) (by fun_prop) i14 fun T hT =>
      (h5 T hT).2.2.2.2.2.2.2.2.2.2.2.2.2.1
  · exact key _ _ (fun x => (x.1.1 * x.1.2 + x.2.2.1) * (x.2.1.1 * x.2.1.2 + x.2.2.2)) (by fun_prop) i15 fun T hT =>
      (h5 T hT).2.2.2.2.2.2.2.2.2.2.2.2.2.2.1
  · exact key _ _ (fun x => (x.1.1 + x.2.1.1 - 2 * x.1.1 * x.2.1.1) * (x.1.2 + x.2.1.2 - 2 * x.1.2 * x.2.1.2) +
      x.2.2.1 * (1 - 2 * x.2.1.1) * (1 - 2 * x.2.1.2) + x.2.2.2 * (1 - 2 * x.1.1) * (1 - 2 * x.1.2) +
      4 * x.2.2.1 * x.2.2.2) (by fun_prop) i16 fun T hT => (h5 T hT).2.2.2.2.2.2.2.2.2.2.2.2.2.2.2

/-- The hypotheses hold for two sites, one of them with a potential. -/
example : ∃ (F : Fermions) (t : Fin F.nsites → Fin F.nsites → Fin F.nspecies → ℝ)
    (v : Fin F.nsites → Fin F.nspecies → ℝ) (φ : Fin F.nspecies → Matrix (Fin F.nsites) (Fin 2) ℂ)
    (ε : Fin F.nspecies → Fin 2 → ℝ), F.nsites = 2 ∧ F.nspecies = 2 ∧ F.pots 1 0 = -3 ∧
      NonInteracting F t v ∧ (∀ s, IsEigenbasis (bands t v s) (φ s) (ε s)) ∧ ∀ s, ResolvedLevels (ε s) := by
  set F : Fermions := ⟨2, 2, fun _ _ _ => 0, fun _ => 0, fun _ _ _ => 0,
    fun _ => 0, fun i _ => if i = 1 then -3 else 0, fun i j => (i : ℝ) - j, fun _ _ => 0⟩ with hF
  refine ⟨F, fun _ _ _ => 0, fun i _ => if (i : ℕ) = 1 then -3 else 0, fun _ => (1 : Matrix (Fin 2) (Fin 2) ℂ),
    fun _ k => if (k : ℕ) = 1 then -3 else 0, rfl, rfl, ?_,
    ⟨fun i => rfl, fun i j s => rfl, ?_, fun _ _ _ => rfl, ?_⟩, fun s => ⟨?_, ?_, ?_⟩, fun s k => ?_⟩
  · simp [hF]
  · intro i j s hij
    simp [hF]
  · intro i s
    simp only [hF]
    push_cast
    split_ifs <;> simp
  · simp
  · simp
  · change oneParticle (n := 2) _ _ * 1 = 1 * _
    rw [Matrix.mul_one, Matrix.one_mul]
    ext i j
    unfold oneParticle
    rw [of_apply, diagonal_apply]
    split_ifs <;> simp
  · by_cases h : (k : ℕ) = 1
    · right
      simp only [if_pos h]
      norm_num
    · left
      simp only [if_neg h]

end ED.Props
