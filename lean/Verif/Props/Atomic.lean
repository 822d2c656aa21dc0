import Verif.Lemmas.Atomic
import Verif.Lemmas.Measure
import Verif.Lemmas.NumberSectors
import Verif.Lemmas.SquareModel
import Verif.Props.Thermo
import Verif.Props.Correlators
import Verif.Props.Fermions
import Verif.Props.OneSpecies

/-! # Property C120: fermions without hopping -/

namespace ED.Props

open Matrix ED.Geometry

/-- A fermion model without hopping and without interactions of one species: `U` is the interaction of the first two species
at a site and `v` the potential minus the chemical potential. -/
structure Atomic (F : Fermions) (U : Fin F.nsites → ℝ) (v : Fin F.nsites → Fin F.nspecies → ℝ) : Prop where
  hop : ∀ (i j : Fin F.nsites) (s : Fin F.nspecies), F.ts i j s = 0
  us : ∀ i : Fin F.nsites, F.us i = U i
  same : ∀ (i j : Fin F.nsites) (s : Fin F.nspecies), F.usSame i j s = 0
  pot : ∀ (i : Fin F.nsites) (s : Fin F.nspecies), F.pots i s - F.mus s = v i s

variable {F : Fermions} {U : Fin F.nsites → ℝ} {v : Fin F.nsites → Fin F.nspecies → ℝ}

theorem is_diagonal {ι : Type} [Fintype ι] [DecidableEq ι] [Basis ι] {B : Mat} {f g : ι → ℂ} (h : B.Is (diagonal f))
    (e : ∀ n, f n = g n) : B.Is (diagonal g) := by
  rwa [← funext e]

/-- The levels of all sites. -/
noncomputable abbrev atoms (U : Fin F.nsites → ℝ) (v : Fin F.nsites → Fin F.nspecies → ℝ)
    (c : Fin F.nsites → Fin F.nspecies → Fin 2) : ℝ := ∑ i, atomEnergy (U i) (v i) (c i)

theorem Atomic.gives (hF : Atomic F U v) (h2 : InterOk F) :
    Gives (F.createH none) (diagonal fun n : Conf (F.nsites * F.nspecies) 2 => ((atoms U v (sitesEquiv _ _ n) : ℝ) : ℂ)) := by
  by_cases h : 2 ≤ F.nspecies
  · refine (C28_classical F h hF.hop).of_eq ?_
    congr 1
    funext n
    simp only [hF.us, hF.same, hF.pot, zero_mul, ite_self, Finset.sum_const_zero, add_zero]
    rw [← Finset.sum_add_distrib]
    unfold atoms atomEnergy
    simp only [dif_pos h]
    push_cast
    rfl
  · refine (C28_one_species F (by omega) (h2.resolve_left h) hF.hop).of_eq ?_
    congr 1
    funext n
    simp only [hF.same, hF.pot, zero_mul, ite_self, Finset.sum_const_zero, zero_add]
    unfold atoms atomEnergy
    simp only [dif_neg h, zero_add]
    push_cast
    rfl

theorem Atomic.diag (hF : Atomic F U v) (h2 : InterOk F) (S : EigSolvers) (hS : EigContract S) :
    ∃ (A : Mat) (w : List ℝ) (M : Mat), F.createH none = .ok A ∧ diagList S A = .ok (w, M) ∧ M.rows = F.sys.nstates ∧
      ∀ (B : Mat) (f : (Fin F.nsites → Fin F.nspecies → Fin 2) → ℝ),
        B.Is (diagonal fun n : Conf (F.nsites * F.nspecies) 2 => (f (sitesEquiv _ _ n) : ℂ)) → ∀ T : ℝ, T ≠ 0 →
        expValsThermal M B w T = .ok (canonical T (atoms U v) f) := by
  obtain ⟨A, hA, hAi⟩ := hF.gives h2
  obtain ⟨m, E, M, V, h1, q2, h3, h4, h5, -⟩ := diagList_ok S hS hAi (by
    rw [Matrix.IsHermitian, diagonal_conjTranspose]
    congr 1
    funext n
    simp)
  refine ⟨A, _, M, hA, h1, ?_, fun B f hB T hT => ?_⟩
  · rw [q2.1]
    simp [Sys.nstates]
  · rw [C19_canonical q2 hB E T (Or.inl hT), ← thermalAvg_eig h3 h4 h5 _ hT, thermalAvg_diagonal _ _ hT,
      canonical_relabel (sitesEquiv _ _) hT]

/-- C120, energies: without hopping the energies are the sums of the energies of the sites, one for every choice of the numbers of
particles at all sites. -/
theorem C120_energies (S : EigSolvers) (hS : EigContract S) (h2 : InterOk F) (hF : Atomic F U v) :
    ∃ A w M, F.createH none = .ok A ∧ diagList S A = .ok (w, M) ∧
      (w : Multiset ℝ) = Finset.univ.val.map fun c : Fin F.nsites → Fin F.nspecies → Fin 2 =>
        ∑ i, atomEnergy (U i) (v i) (c i) := by
  obtain ⟨A, hA, hAi⟩ := hF.gives h2
  obtain ⟨m, E, M, V, h1, q2, h3, h4, h5, -⟩ := diagList_ok S hS hAi (by
    rw [Matrix.IsHermitian, diagonal_conjTranspose]
    congr 1
    funext n
    simp)
  refine ⟨A, _, M, hA, h1, ?_⟩
  have e1 := roots_of_eig h3 h4 h5
  have e2 := roots_of_eig (V := (1 : Matrix (Conf (F.nsites * F.nspecies) 2) (Conf (F.nsites * F.nspecies) 2) ℂ))
    (E := fun n => atoms U v (sitesEquiv _ _ n)) (by simp) (by simp)
    (H := diagonal fun n : Conf (F.nsites * F.nspecies) 2 => ((atoms U v (sitesEquiv _ _ n) : ℝ) : ℂ)) (by simp)
  rw [e1] at e2
  have e3 := congrArg (Multiset.map Complex.re) e2
  simp only [Multiset.map_map, Function.comp_def, Complex.ofReal_re] at e3
  have e4 : ((List.ofFn E : List ℝ) : Multiset ℝ) = Finset.univ.val.map E := by
    simp [List.ofFn_eq_map]
  rw [e4, e3]
  have e5 : (Finset.univ : Finset (Fin F.nsites → Fin F.nspecies → Fin 2)).val =
      Finset.univ.val.map (sitesEquiv F.nsites F.nspecies) := by
    rw [← Finset.map_univ_equiv (sitesEquiv F.nsites F.nspecies)]
    rfl
  rw [e5, Multiset.map_map]
  rfl

/-- C120, thermodynamics: the partition function is the product of those of the sites; energy, entropy and specific heat are the
sums. -/
theorem C120_thermodynamics (S : EigSolvers) (hS : EigContract S) (h2 : InterOk F) (hF : Atomic F U v) :
    ∃ A w M, F.createH none = .ok A ∧ diagList S A = .ok (w, M) ∧ ∀ T : ℝ, 0 < T →
      (w.map fun e => Real.exp (-e / T)).sum = ∏ i, levelsZ T (atomEnergy (U i) (v i)) ∧
      thermoAt M A w T = .ok
        (∑ i, canonical T (atomEnergy (U i) (v i)) (atomEnergy (U i) (v i)),
         ∑ i, levelsEntropy T (atomEnergy (U i) (v i)), ∑ i, levelsHeat T (atomEnergy (U i) (v i))) := by
  obtain ⟨A, w, M, hA, h1, -, h4⟩ := hF.diag h2 S hS
  obtain ⟨A', w', M', hA', h1', hw⟩ := C120_energies S hS h2 hF
  obtain rfl := Except.ok.inj (hA.symm.trans hA')
  obtain ⟨rfl, rfl⟩ := Prod.mk.inj (Except.ok.inj (h1.symm.trans h1'))
  refine ⟨A, w, M, hA, h1, fun T hT => ?_⟩
  have hZ : (w.map fun e => Real.exp (-e / T)).sum = ∏ i, levelsZ T (atomEnergy (U i) (v i)) := by
    rw [← levelsZ_pi T fun i => atomEnergy (U i) (v i), levelsZ]
    have := congrArg (fun s : Multiset ℝ => (s.map fun e => Real.exp (-e / T)).sum) hw
    simp only [Multiset.map_coe, Multiset.sum_coe, Multiset.map_map, Function.comp_def] at this
    exact this
  refine ⟨hZ, ?_⟩
  obtain ⟨A'', hA'', hAi⟩ := hF.gives h2
  obtain rfl := Except.ok.inj (hA.symm.trans hA'')
  obtain ⟨B, hB, hBi⟩ := hAi.mul hAi
  have e1 := h4 A (atoms U v) hAi T hT.ne'
  have e2 := h4 B (fun c => atoms U v c ^ 2) (by
    rw [diagonal_mul_diagonal] at hBi
    refine is_diagonal hBi fun n => ?_
    push_cast
    ring) T hT.ne'
  have hE := energy_pi hT.ne' fun i => atomEnergy (U i) (v i)
  have hC := levelsHeat_pi hT.ne' fun i => atomEnergy (U i) (v i)
  have hS' := levelsEntropy_pi hT.ne' fun i => atomEnergy (U i) (v i)
  rw [levelsEntropy_eq hT.ne', levelsZ_pi] at hS'
  unfold thermoAt
  simp only [e1, hB, e2, hZ, bind, Except.bind, pure, Except.pure]
  rw [← hS', ← hE, ← hC]
  rfl

/-- C120, densities: the occupation of a site is the average over the levels of that site. -/
theorem C120_densities (S : EigSolvers) (hS : EigContract S) (h2 : InterOk F) (hF : Atomic F U v) :
    ∃ A w M, F.createH none = .ok A ∧ diagList S A = .ok (w, M) ∧
      ∀ (s : Fin F.nspecies) (temps : List ℝ), (∀ T ∈ temps, T ≠ 0) →
        thermalExpSites F.sys M w nOp s temps none none "boson" =
          .ok (List.ofFn fun i => temps.map fun T => canonical T (atomEnergy (U i) (v i)) fun c => ((c s : ℕ) : ℝ),
            List.range F.nsites) := by
  obtain ⟨A, w, M, h1, q2, h3, h4⟩ := hF.diag h2 S hS
  refine ⟨A, w, M, h1, q2, fun s temps hT => ?_⟩
  unfold thermalExpSites
  simp only [Option.getD_none]
  have hr : List.range F.nsites = List.ofFn fun i : Fin F.nsites => (i : ℕ) := by
    simpa using list_range_map F.nsites id
  rw [hr, mapM_ofFn _ _ (fun i => temps.map fun T => canonical T (atomEnergy (U i) (v i)) fun c => ((c s : ℕ) : ℝ))]
  · rfl
  · intro i
    obtain ⟨X, hX, hXi⟩ := F_single F i s
    rw [hX]
    change (sandwich 1 _ X >>= _) = _
    have hP : (Mat.eye M.rows).Is (1 : Op (F.nsites * F.nspecies) 2) := Mat.is_eye (by rw [h3]; simp [Sys.nstates])
    obtain ⟨Y, hY, hYi⟩ := sandwich_gives hP hXi 1
    rw [hY]
    change expValsThermalList M Y w temps = _
    unfold expValsThermalList
    refine mapM_ok _ _ _ fun T hTm => ?_
    rw [h4 Y (fun c => ((c i s : ℕ) : ℝ)) ?_ T (hT T hTm)]
    · rw [← canonical_one (hT T hTm) (fun i => atomEnergy (U i) (v i)) i]
    · rw [one_smul, Matrix.one_mul, conjTranspose_one, Matrix.mul_one, number_eq] at hYi
      refine is_diagonal hYi fun n => ?_
      symm
      change (((n (mode i s) : ℕ) : ℝ) : ℂ) = if n (mode i s) = 1 then 1 else 0
      generalize n (mode i s) = x
      fin_cases x <;> simp

/-- C120, correlations: different sites are independent; at one site the average of the product is that over the levels of the
site. -/
theorem C120_correlations (S : EigSolvers) (hS : EigContract S) (h2 : InterOk F) (hF : Atomic F U v) :
    ∃ A w M, F.createH none = .ok A ∧ diagList S A = .ok (w, M) ∧
      ∀ (s s' : Fin F.nspecies) (temps : List ℝ), (∀ T ∈ temps, T ≠ 0) → ∃ vals pairs,
        thermalCorrSites F.sys M w s s' nOp nOp temps none none "boson" = .ok (vals, pairs) ∧
        pairs.Nodup ∧ (∀ i j, (i, j) ∈ pairs ↔ j ≤ i ∧ i < F.nsites) ∧ vals.length = pairs.length ∧
        ∀ (r : ℕ) (i j : Fin F.nsites), pairs[r]? = some ((i : ℕ), (j : ℕ)) →
          vals[r]? = some (temps.map fun T =>
            if i = j then canonical T (atomEnergy (U i) (v i)) fun c => (c s : ℕ) * (c s' : ℕ)
            else (canonical T (atomEnergy (U i) (v i)) fun c => (c s : ℕ)) *
              canonical T (atomEnergy (U j) (v j)) fun c => (c s' : ℕ)) := by
  obtain ⟨A, w, M, h1, q2, h3, h4⟩ := hF.diag h2 S hS
  refine ⟨A, w, M, h1, q2, fun s s' temps hT => ?_⟩
  have hn : ∀ (i : Fin F.nsites) (s : Fin F.nspecies) (n : Conf (F.nsites * F.nspecies) 2), nfun (mode i s) n =
      ((n (mode i s) : ℕ) : ℂ) := fun i s n => by
    unfold nfun
    generalize n (mode i s) = x
    fin_cases x <;> simp
  set pv : Fin F.nsites → Fin F.nsites → List ℝ := fun i j => temps.map fun T =>
            if i = j then canonical T (atomEnergy (U i) (v i)) fun c => (c s : ℕ) * (c s' : ℕ)
            else (canonical T (atomEnergy (U i) (v i)) fun c => (c s : ℕ)) *
              canonical T (atomEnergy (U j) (v j)) fun c => (c s' : ℕ) with hpv
  set val : ℕ × ℕ → List ℝ := fun p =>
    if hp : p.1 < F.nsites ∧ p.2 < F.nsites then pv ⟨p.1, hp.1⟩ ⟨p.2, hp.2⟩ else [] with hval
  refine ⟨(defaultPairs F.nsites).map val, defaultPairs F.nsites, ?_,
    nodup_defaultPairs _, mem_defaultPairs _, by simp, fun r i j hr => ?_⟩
  · unfold thermalCorrSites
    simp only [Option.getD_none]
    rw [mapM_ok _ _ val]
    · rfl
    · rintro ⟨i, j⟩ hp
      obtain ⟨hj, hi⟩ := (mem_defaultPairs _ _ _).1 hp
      have hj' : j < F.nsites := lt_of_le_of_lt hj hi
      obtain ⟨X, hX, hXi⟩ := F_two F ⟨i, hi⟩ ⟨j, hj'⟩ s s'
      simp only at hX
      rw [hX]
      change (sandwich 1 _ X >>= _) = _
      have hP : (Mat.eye M.rows).Is (1 : Op (F.nsites * F.nspecies) 2) := Mat.is_eye (by rw [h3]; simp [Sys.nstates])
      obtain ⟨Y, hY, hYi⟩ := sandwich_gives hP hXi 1
      rw [hY]
      change expValsThermalList M Y w temps = _
      unfold expValsThermalList
      simp only [hval, hi, hj', and_self, dif_pos]
      refine mapM_ok _ _ _ fun T hTm => ?_
      rw [h4 Y (fun c => (c ⟨i, hi⟩ s : ℕ) * (c ⟨j, hj'⟩ s' : ℕ)) ?_ T (hT T hTm)]
      · congr 1
        split_ifs with hij
        · rw [Fin.mk.injEq] at hij
          subst hij
          exact canonical_one (hT T hTm) (fun i => atomEnergy (U i) (v i)) ⟨i, hi⟩ fun c => ((c s : ℕ) : ℝ) * (c s' : ℕ)
        · exact canonical_two (hT T hTm) (fun i => atomEnergy (U i) (v i)) hij (fun c => ((c s : ℕ) : ℝ))
            fun c => ((c s' : ℕ) : ℝ)
      · rw [one_smul, Matrix.one_mul, conjTranspose_one, Matrix.mul_one, number_eq, number_eq, diagonal_mul_diagonal] at hYi
        refine is_diagonal hYi fun n => ?_
        rw [hn, hn]
        push_cast
        rfl
  · rw [List.getElem?_map, hr]
    simp [hval, hpv, Fin.ext_iff]

/-- The levels of a site with two species. -/
theorem sum_levels (f : (Fin 2 → Fin 2) → ℝ) : ∑ c, f c = f ![0, 0] + f ![0, 1] + f ![1, 0] + f ![1, 1] := by
  rw [← (finTwoArrowEquiv (Fin 2)).symm.sum_comp, Fintype.sum_prod_type, Fin.sum_univ_two, Fin.sum_univ_two,
    Fin.sum_univ_two]
  simp only [finTwoArrowEquiv_symm_apply]
  ring

/-- C120, one site with two species: partition function, energy, occupations and double occupancy. -/
theorem C120_atom (U : ℝ) (v : Fin 2 → ℝ) {T : ℝ} (hT : T ≠ 0) :
    levelsZ T (atomEnergy U v) =
      1 + Real.exp (-v 0 / T) + Real.exp (-v 1 / T) + Real.exp (-(U + v 0 + v 1) / T) ∧
    canonical T (atomEnergy U v) (atomEnergy U v) =
      (v 0 * Real.exp (-v 0 / T) + v 1 * Real.exp (-v 1 / T) + (U + v 0 + v 1) * Real.exp (-(U + v 0 + v 1) / T)) /
        (1 + Real.exp (-v 0 / T) + Real.exp (-v 1 / T) + Real.exp (-(U + v 0 + v 1) / T)) ∧
    (canonical T (atomEnergy U v) fun c => ((c 0 : ℕ) : ℝ)) =
      (Real.exp (-v 0 / T) + Real.exp (-(U + v 0 + v 1) / T)) /
        (1 + Real.exp (-v 0 / T) + Real.exp (-v 1 / T) + Real.exp (-(U + v 0 + v 1) / T)) ∧
    (canonical T (atomEnergy U v) fun c => ((c 1 : ℕ) : ℝ)) =
      (Real.exp (-v 1 / T) + Real.exp (-(U + v 0 + v 1) / T)) /
        (1 + Real.exp (-v 0 / T) + Real.exp (-v 1 / T) + Real.exp (-(U + v 0 + v 1) / T)) ∧
    (canonical T (atomEnergy U v) fun c => (c 0 : ℕ) * (c 1 : ℕ)) =
      Real.exp (-(U + v 0 + v 1) / T) /
        (1 + Real.exp (-v 0 / T) + Real.exp (-v 1 / T) + Real.exp (-(U + v 0 + v 1) / T)) := by
  have e00 : atomEnergy U v ![0, 0] = 0 := by simp [atomEnergy]
  have e01 : atomEnergy U v ![0, 1] = v 1 := by simp [atomEnergy]
  have e10 : atomEnergy U v ![1, 0] = v 0 := by simp [atomEnergy]
  have e11 : atomEnergy U v ![1, 1] = U + v 0 + v 1 := by simp [atomEnergy]; ring
  have hZ : ∑ c, Real.exp (-atomEnergy U v c / T) =
      1 + Real.exp (-v 0 / T) + Real.exp (-v 1 / T) + Real.exp (-(U + v 0 + v 1) / T) := by
    rw [sum_levels, e00, e01, e10, e11]
    simp
    ring
  simp only [canonical_ne hT, levelsZ, hZ, true_and]
  refine ⟨?_, ?_, ?_, ?_⟩ <;> congr 1 <;> rw [sum_levels] <;> simp only [e00, e01, e10, e11] <;> simp <;> ring

theorem thermoAt_energy {V A : Mat} {w : List ℝ} {T e s c : ℝ} (h : thermoAt V A w T = .ok (e, s, c)) :
    expValsThermal V A w T = .ok e := by
  unfold thermoAt at h
  cases h1 : expValsThermal V A w T with
  | error x => rw [h1] at h; simp [bind, Except.bind] at h
  | ok x =>
    rw [h1] at h
    cases h2 : A.mul A with
    | error y => simp [h2, bind, Except.bind] at h
    | ok B =>
      cases h3 : expValsThermal V B w T with
      | error y => simp [h2, h3, bind, Except.bind] at h
      | ok y =>
        simp only [h2, h3, bind, Except.bind, pure, Except.pure, Except.ok.injEq, Prod.mk.injEq] at h
        rw [h.1]

theorem list_const {α : Type} (n : ℕ) (x : α) : (List.ofFn fun _ : Fin n => x) = List.replicate n x := by
  simp

/-- C120 from the constructor: the Hubbard model without hopping on any rectangle of sites, open or periodic. -/
theorem C120_lattice (S : EigSolvers) (hS : EigContract S) {nx ny : ℕ} (hx : 0 < nx) (hy : 0 < ny) (harea : nx * ny < 10 ^ 14)
    {o1 o2 : Bool} (h1 : nx = 1 → o1 = true) (h2 : ny = 1 → o2 = true) (u : ℝ) (mu : ℕ → ℝ) :
    ∃ g F A w M, createSquare nx ny 0 0 o1 o2 = .ok g ∧
      fermionModel g ⟨[], fun _ => u⟩ ⟨[], fun _ => 0⟩ ⟨[2], fun idx => mu (idx.getD 0 0)⟩
        ⟨[], fun _ => 0⟩ ⟨[], fun _ => 0⟩ 2 = .ok F ∧ F.createH none = .ok A ∧ diagList S A = .ok (w, M) ∧
      ∀ T : ℝ, 0 < T → ∀ a b d z, a = Real.exp (mu 0 / T) → b = Real.exp (mu 1 / T) →
        d = Real.exp (-(u - mu 0 - mu 1) / T) → z = 1 + a + b + d →
        (w.map fun e => Real.exp (-e / T)).sum = z ^ (nx * ny) ∧
        expValsThermal M A w T = .ok ((nx * ny : ℕ) * (((u - mu 0 - mu 1) * d - mu 0 * a - mu 1 * b) / z)) ∧
        thermalExpSites F.sys M w nOp 0 [T] none none "boson" =
          .ok (List.replicate (nx * ny) [(a + d) / z], List.range (nx * ny)) ∧
        thermalExpSites F.sys M w nOp 1 [T] none none "boson" =
          .ok (List.replicate (nx * ny) [(b + d) / z], List.range (nx * ny)) := by
  obtain ⟨g, hg, hN, -⟩ := C50_square nx ny hx hy 0 0 o1 o2 h1 h2
  obtain ⟨p, hp, hus, hall⟩ := fermionModel_square hx hy harea h1 h2 hg 2 u 0 0 0 mu
  have hN' : g.nsites = nx * ny := hN
  have hF : Atomic (p.model g 2) (fun _ => u) fun _ s => -mu s := by
    refine ⟨fun i j s => ?_, fun i => hus i i.2, fun i j s => ?_, fun i s => ?_⟩
    · rw [((hall i i.2 s s.2).2.2 j j.2).1]
      simp
    · rw [((hall i i.2 s s.2).2.2 j j.2).2.1]
      simp
    · rw [(hall i i.2 s s.2).1, (hall i i.2 s s.2).2.1]
      simp
  obtain ⟨A, w, M, a1, a2, a3⟩ := C120_thermodynamics S hS (F := p.model g 2) (.inl le_rfl) hF
  obtain ⟨A', w', M', b1, b2, b3⟩ := C120_densities S hS (F := p.model g 2) (.inl le_rfl) hF
  obtain rfl := Except.ok.inj (a1.symm.trans b1)
  obtain ⟨rfl, rfl⟩ := Prod.mk.inj (Except.ok.inj (a2.symm.trans b2))
  refine ⟨g, _, A, w, M, hg, ?_, a1, a2, fun T hT a b d z ha hb hd hz => ?_⟩
  · rw [← hp]
    simp
  · obtain ⟨c1, c2⟩ := a3 T hT
    obtain ⟨d1, d2, d3, d4, -⟩ := C120_atom u (fun s => -mu s) hT.ne'
    simp only [neg_neg, Fin.val_zero, Fin.val_one] at d1 d2 d3 d4
    rw [show -(u + -mu 0 + -mu 1) = -(u - mu 0 - mu 1) by ring] at d1 d2 d3 d4
    rw [← ha, ← hb, ← hd, ← hz] at d1 d2 d3 d4
    have r1 := b3 (0 : Fin 2) [T] (by simpa using hT.ne')
    have r2 := b3 (1 : Fin 2) [T] (by simpa using hT.ne')
    have hcard : (Finset.univ : Finset (Fin (p.model g 2).nsites)).card = nx * ny := by
      rw [Finset.card_univ, Fintype.card_fin, ← hN']
      rfl
    refine ⟨?_, ?_, ?_, ?_⟩
    · rw [c1]
      exact (Finset.prod_const _).trans (by rw [hcard]; exact congrArg (· ^ (nx * ny)) d1)
    · rw [thermoAt_energy c2]
      refine congrArg Except.ok ((Finset.sum_const _).trans ?_)
      rw [hcard, nsmul_eq_mul]
      refine congrArg (((nx * ny : ℕ) : ℝ) * ·) (d2.trans ?_)
      congr 1
      ring
    · refine r1.trans ?_
      rw [show (p.model g 2).nsites = nx * ny from hN', list_const]
      exact congrArg (fun x => Except.ok (List.replicate (nx * ny) [x], List.range (nx * ny))) d3
    · refine r2.trans ?_
      rw [show (p.model g 2).nsites = nx * ny from hN', list_const]
      exact congrArg (fun x => Except.ok (List.replicate (nx * ny) [x], List.range (nx * ny))) d4

/-- Two sites of a model with one species. -/
example : ∃ (F : Fermions) (U : Fin F.nsites → ℝ) (v : Fin F.nsites → Fin F.nspecies → ℝ), F.nsites = 2 ∧ F.nspecies = 1 ∧
    InterOk F ∧ Atomic F U v ∧ F.pots 1 0 = 1 :=
  ⟨⟨2, 1, fun _ _ _ => 0, fun _ => 0, fun _ _ _ => 0, fun _ => 0, fun i _ => i, fun i j => i - j, fun _ _ => 0⟩,
    fun _ => 0, fun i _ => i, rfl, rfl, .inr fun _ => rfl, ⟨fun _ _ _ => rfl, fun _ => by simp, fun _ _ _ => rfl, fun i s => by
      simp⟩, by norm_num⟩

/-- Three sites with different interactions and potentials. -/
example : ∃ (F : Fermions) (U : Fin F.nsites → ℝ) (v : Fin F.nsites → Fin F.nspecies → ℝ), F.nsites = 3 ∧ 2 ≤ F.nspecies ∧
    Atomic F U v ∧ F.us 2 = 3 ∧ F.pots 1 1 = 2 :=
  ⟨⟨3, 2, fun _ _ _ => 0, fun i => i + 1, fun _ _ _ => 0, fun s => s, fun i s => i + s, fun i j => i - j, fun _ _ => 0⟩,
    fun i => i + 1, fun i _ => i, rfl, le_rfl, ⟨fun _ _ _ => rfl, fun _ => by push_cast; rfl, fun _ _ _ => rfl, fun i s => by
      simp⟩, by norm_num, by norm_num⟩

/-- The single site of the test with `U = 8`: the energy is `U e^{-U/T} / (3 + e^{-U/T})`. -/
example (S : EigSolvers) (hS : EigContract S) : ∃ g F A w M, createSquare 1 1 0 0 true true = .ok g ∧
    fermionModel g ⟨[], fun _ => ((8 : ℝ) : ℂ)⟩ ⟨[], fun _ => 0⟩ ⟨[2], fun _ => ((0 : ℝ) : ℂ)⟩ ⟨[], fun _ => 0⟩
      ⟨[], fun _ => 0⟩ 2 = .ok F ∧ F.createH none = .ok A ∧ diagList S A = .ok (w, M) ∧ ∀ T : ℝ, 0 < T →
      expValsThermal M A w T = .ok (8 * (Real.exp (-8 / T) / (3 + Real.exp (-8 / T)))) := by
  obtain ⟨g, F, A, w, M, h1, h2, h3, h4, h5⟩ := C120_lattice S hS (nx := 1) (ny := 1) (by norm_num) (by norm_num)
    (by norm_num) (o1 := true) (o2 := true) (by simp) (by simp) 8 fun _ => 0
  refine ⟨g, F, A, w, M, h1, h2, h3, h4, fun T hT => ?_⟩
  rw [(h5 T hT _ _ _ _ rfl rfl rfl rfl).2.1]
  simp only [mul_one, Nat.cast_one, one_mul, sub_zero, zero_mul, zero_div, Real.exp_zero]
  congr 1
  ring

end ED.Props
