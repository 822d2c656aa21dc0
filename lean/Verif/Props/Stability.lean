import Verif.Lemmas.GibbsIneq
import Verif.Props.Pauli
import Verif.Props.ParticleHole

/-! # Property C132: averages follow the parameters that couple to them -/

namespace ED.Props

open Matrix Filter Topology

section ensembles

variable {ι κ κ' : Type} [Fintype ι] [DecidableEq ι] [Fintype κ] [DecidableEq κ] [Nonempty κ] [Fintype κ'] [DecidableEq κ'] [Nonempty κ']
variable {H H' : Matrix ι ι ℂ} {V : Matrix ι κ ℂ} {W : Matrix ι κ' ℂ} {E : κ → ℝ} {E' : κ' → ℝ}

theorem hermitian_eig (h2 : V * Vᴴ = 1) (h3 : H * V = V * diagonal fun k => (E k : ℂ)) : H.IsHermitian := by
  have e : H = V * diagonal (fun k => (E k : ℂ)) * Vᴴ := by rw [← h3, Matrix.mul_assoc, h2, Matrix.mul_one]
  unfold IsHermitian
  rw [e, conjTranspose_mul, conjTranspose_mul, conjTranspose_conjTranspose, diagonal_conjTranspose, Matrix.mul_assoc]
  congr 3
  funext k
  exact Complex.conj_ofReal _

/-- The averages of the difference of two Hamiltonians, at positive temperatures and in the ground states. -/
theorem canonical_mono (h1 : Vᴴ * V = 1) (h2 : V * Vᴴ = 1) (h3 : H * V = V * diagonal fun k => (E k : ℂ)) (k1 : Wᴴ * W = 1)
    (k2 : W * Wᴴ = 1) (k3 : H' * W = W * diagonal fun k => (E' k : ℂ)) {T : ℝ} (hT : 0 ≤ T) :
    canonical T E' (fun k => (expect (H' - H) (colOf W k)).re) ≤ canonical T E fun k => (expect (H' - H) (colOf V k)).re := by
  have : Nonempty ι := by
    by_contra hι
    rw [not_nonempty_iff] at hι
    obtain ⟨k⟩ := ‹Nonempty κ›
    have := congrFun (congrFun h1 k) k
    simp [Matrix.mul_apply] at this
  have pos : ∀ T : ℝ, 0 < T → canonical T E' (fun k => (expect (H' - H) (colOf W k)).re) ≤
      canonical T E fun k => (expect (H' - H) (colOf V k)).re := fun T hT => by
    rw [← thermalAvg_eig h1 h2 h3 _ hT.ne', ← thermalAvg_eig k1 k2 k3 _ hT.ne']
    exact thermalAvg_mono (hermitian_eig h2 h3) (hermitian_eig k2 k3) hT
  rcases hT.eq_or_lt with h | h
  · subst h
    refine le_of_tendsto_of_tendsto (canonical_limit E' _) (canonical_limit E _) ?_
    filter_upwards [self_mem_nhdsWithin] with T hT
    exact pos T hT
  · exact pos T h

omit [DecidableEq κ] [Nonempty κ] in
theorem canonical_sum {α : Type} (s : Finset α) (c : α → ℝ) (v : α → κ → ℝ) (T : ℝ) :
    canonical T E (fun k => ∑ a ∈ s, c a * v a k) = ∑ a ∈ s, c a * canonical T E (v a) := by
  unfold canonical
  simp only [Finset.mul_sum]
  rw [Finset.sum_comm, Finset.sum_div]
  refine Finset.sum_congr rfl fun a _ => ?_
  rw [mul_div_assoc', Finset.mul_sum]
  congr 1
  exact Finset.sum_congr rfl fun k _ => by ring

omit [DecidableEq ι] in
theorem expect_sum_re {α : Type} (s : Finset α) (c : α → ℝ) (O : α → Matrix ι ι ℂ) (ψ : ι → ℂ) :
    (expect (∑ a ∈ s, (c a : ℂ) • O a) ψ).re = ∑ a ∈ s, c a * (expect (O a) ψ).re := by
  have : expect (∑ a ∈ s, (c a : ℂ) • O a) ψ = ∑ a ∈ s, (c a : ℂ) * expect (O a) ψ := by
    unfold expect
    rw [Matrix.sum_mulVec, dotProduct_sum]
    refine Finset.sum_congr rfl fun a _ => ?_
    rw [Matrix.smul_mulVec, dotProduct_smul, smul_eq_mul]
  rw [this, Complex.re_sum]
  exact Finset.sum_congr rfl fun a _ => Complex.re_ofReal_mul _ _

/-- If the Hamiltonians differ by `Σ c O`, then the averages of the operators `O` cannot all follow the changes `c`. -/
theorem averages_oppose (h1 : Vᴴ * V = 1) (h2 : V * Vᴴ = 1) (h3 : H * V = V * diagonal fun k => (E k : ℂ)) (k1 : Wᴴ * W = 1)
    (k2 : W * Wᴴ = 1) (k3 : H' * W = W * diagonal fun k => (E' k : ℂ)) {T : ℝ} (hT : 0 ≤ T) {α : Type} (s : Finset α) (c : α → ℝ)
    (O : α → Matrix ι ι ℂ) (hd : H' - H = ∑ a ∈ s, (c a : ℂ) • O a) :
    ∑ a ∈ s, c a * (canonical T E' (fun k => (expect (O a) (colOf W k)).re) - canonical T E fun k => (expect (O a) (colOf V k)).re) ≤ 0 := by
  have := canonical_mono h1 h2 h3 k1 k2 k3 hT
  simp only [hd, expect_sum_re] at this
  rw [canonical_sum, canonical_sum] at this
  simp only [mul_sub, Finset.sum_sub_distrib]
  linarith

end ensembles

/-- Temperatures at which the library averages with the canonical ensemble of both spectra: the positive ones, and zero if different
energies differ by more than the rounding. -/
def Averages (w w' : List ℝ) (T : ℝ) : Prop := 0 < T ∨ T = 0 ∧ GappedList w ∧ GappedList w'

theorem Averages.nonneg {w w' : List ℝ} {T : ℝ} (h : Averages w w' T) : 0 ≤ T := h.elim le_of_lt fun h => h.1.ge

theorem Averages.left {m : ℕ} {E : Fin (m + 1) → ℝ} {w' : List ℝ} {T : ℝ} (h : Averages (List.ofFn E) w' T) (hE : Monotone E) :
    T ≠ 0 ∨ (Monotone E ∧ Gapped E) :=
  h.imp ne_of_gt fun h => ⟨hE, fun k l => h.2.1 _ (List.mem_ofFn.2 ⟨k, rfl⟩) _ (List.mem_ofFn.2 ⟨l, rfl⟩)⟩

theorem Averages.right {m : ℕ} {E : Fin (m + 1) → ℝ} {w : List ℝ} {T : ℝ} (h : Averages w (List.ofFn E) T) (hE : Monotone E) :
    T ≠ 0 ∨ (Monotone E ∧ Gapped E) :=
  h.imp ne_of_gt fun h => ⟨hE, fun k l => h.2.2 _ (List.mem_ofFn.2 ⟨k, rfl⟩) _ (List.mem_ofFn.2 ⟨l, rfl⟩)⟩

/-- C132: for two Hamiltonians the average of their difference is at most as large in the ensemble of the one from which the other is
subtracted as in the ensemble of the other. -/
theorem C132_difference (S : EigSolvers) (hS : EigContract S) {ι : Type} [Fintype ι] [DecidableEq ι] [Basis ι] [Nonempty ι]
    {A A' B : Mat} {H H' : Matrix ι ι ℂ} (hA : A.Is H) (hH : H.IsHermitian) (hA' : A'.Is H') (hH' : H'.IsHermitian) (hB : B.Is (H' - H)) :
    ∃ w M w' M', diagList S A = .ok (w, M) ∧ diagList S A' = .ok (w', M') ∧ ∀ T, Averages w w' T →
      ∃ x x', expValsThermal M B w T = .ok x ∧ expValsThermal M' B w' T = .ok x' ∧ x' ≤ x := by
  obtain ⟨m, E, M, V, d1, d2, d3, d4, d5, d6⟩ := diagList_ok S hS hA hH
  obtain ⟨m', E', M', V', e1, e2, e3, e4, e5, e6⟩ := diagList_ok S hS hA' hH'
  refine ⟨_, M, _, M', d1, e1, fun T hT => ⟨_, _, C19_canonical d2 hB E T (hT.left d6), C19_canonical e2 hB E' T (hT.right e6),
    canonical_mono d3 d4 d5 e3 e4 e5 hT.nonneg⟩⟩

/-- What the averages at all sites are. -/
theorem site_averages (S : Sys) (op : Mat) (sp : ℕ) {N : ℕ} {O : Fin S.nsites → Op N S.nbasis}
    (hO : ∀ i : Fin S.nsites, Gives (getSingleSiteOp S i sp op "boson") (O i)) {m : ℕ} {E : Fin (m + 1) → ℝ} {M : Mat}
    {V : Matrix (Conf N S.nbasis) (Fin (m + 1)) ℂ} (hM : M.Is V) {T : ℝ} (hT : T ≠ 0 ∨ (Monotone E ∧ Gapped E)) :
    thermalExpSites S M (List.ofFn E) op sp [T] none none "boson" =
      .ok (List.ofFn fun i : Fin S.nsites => [canonical T E fun k => (expect (O i) (colOf V k)).re], List.range S.nsites) := by
  unfold thermalExpSites
  simp only [Option.getD_none]
  have hr : List.range S.nsites = List.ofFn fun i : Fin S.nsites => (i : ℕ) := by
    simpa using list_range_map S.nsites id
  rw [hr, mapM_ofFn _ _ (fun i => [canonical T E fun k => (expect (O i) (colOf V k)).re])]
  · rfl
  · intro i
    obtain ⟨X, hX, hXi⟩ := hO i
    rw [hX]
    change (sandwich 1 _ X >>= _) = _
    have hP : (Mat.eye M.rows).Is (1 : Op N S.nbasis) := Mat.is_eye (by rw [hM.1])
    obtain ⟨Y, hY, hYi⟩ := sandwich_gives hP hXi 1
    rw [hY]
    change expValsThermalList M Y _ [T] = _
    rw [one_smul, Matrix.one_mul, conjTranspose_one, Matrix.mul_one] at hYi
    unfold expValsThermalList
    rw [List.mapM_cons, C19_canonical hM hYi E T hT]
    rfl

theorem F_hermitian {F : Fermions} (hI : InterOk F) (hr : RealParams F) : (hubInter (fun i : Fin F.nsites => F.us i) + hubRest F).IsHermitian := by
  obtain ⟨H, hH', hiff⟩ := C25_hermitian_iff F hI hr.us hr.same hr.mus hr.pots
  have hu : hubInter (fun i : Fin F.nsites => F.us i) + hubRest F = H := gives_unique (C27_hamiltonian F hI) hH'
  rw [hu]
  exact hiff.2 fun i j s _ => Or.inl (hr.ts i j s)

/-- C132, densities: if the chemical potentials and local potentials of a fermion model are changed, the densities do not follow the
changes of the potential energies: the products of both changes add up to at most zero. -/
theorem C132_potentials (S : EigSolvers) (hS : EigContract S) (F : Fermions) (hI : InterOk F) (hr : RealParams F) (mus' : ℕ → ℝ)
    (pots' : ℕ → ℕ → ℝ) :
    ∃ A w M A' w' M', F.createH none = .ok A ∧ diagList S A = .ok (w, M) ∧
      ({ F with mus := fun s => mus' s, pots := fun i s => pots' i s } : Fermions).createH none = .ok A' ∧
      diagList S A' = .ok (w', M') ∧ ∀ T, Averages w w' T → ∃ n n' : Fin F.nspecies → Fin F.nsites → ℝ,
        (∀ s : Fin F.nspecies, thermalExpSites F.sys M w nOp s [T] none none "boson" = .ok (List.ofFn fun i => [n s i], List.range F.nsites)) ∧
        (∀ s : Fin F.nspecies, thermalExpSites F.sys M' w' nOp s [T] none none "boson" = .ok (List.ofFn fun i => [n' s i], List.range F.nsites)) ∧
        ∑ i : Fin F.nsites, ∑ s : Fin F.nspecies, ((pots' i s - mus' s) - ((F.pots i s).re - (F.mus s).re)) * (n' s i - n s i) ≤ 0 := by
  have hr' : RealParams { F with mus := fun s => (mus' s : ℂ), pots := fun i s => (pots' i s : ℂ) } :=
    ⟨hr.ts, hr.us, hr.same, fun s => Complex.conj_ofReal _, fun i s => Complex.conj_ofReal _⟩
  obtain ⟨A, hA, hAi⟩ := C27_hamiltonian F hI
  obtain ⟨A', hA', hAi'⟩ := C27_hamiltonian { F with mus := fun s => (mus' s : ℂ), pots := fun i s => (pots' i s : ℂ) } hI
  have hH := F_hermitian hI hr
  have hH' := F_hermitian (F := { F with mus := fun s => (mus' s : ℂ), pots := fun i s => (pots' i s : ℂ) }) hI hr'
  obtain ⟨m, E, M, V, a1, a2, a3, a4, a5, a6⟩ := diagList_ok S hS hAi hH
  obtain ⟨m', E', M', V', b1, b2, b3, b4, b5, b6⟩ := diagList_ok S hS hAi' hH'
  refine ⟨A, _, M, A', _, M', hA, a1, hA', b1, fun T hT => ⟨fun s i => canonical T E fun k => (expect (number (mode i s)) (colOf V k)).re,
    fun s i => canonical T E' fun k => (expect (number (mode i s)) (colOf V' k)).re, fun s => ?_, fun s => ?_, ?_⟩⟩
  · exact site_averages F.sys nOp s (fun i => F_single F i s) a2 (hT.left a6)
  · exact site_averages F.sys nOp s (fun i => F_single F i s) b2 (hT.right b6)
  · have := averages_oppose a3 a4 a5 b3 b4 b5 hT.nonneg (Finset.univ : Finset (Fin F.nsites × Fin F.nspecies))
      (fun p => (pots' p.1 p.2 - mus' p.2) - ((F.pots p.1 p.2).re - (F.mus p.2).re)) (fun p => number (mode p.1 p.2)) ?_
    · rw [Fintype.sum_prod_type] at this
      exact this
    · rw [Fintype.sum_prod_type]
      have k3 : ∀ s : Fin F.nspecies, ((F.mus s).re : ℂ) = F.mus s := fun s => Complex.conj_eq_iff_re.1 (hr.mus s)
      have k4 : ∀ (i : Fin F.nsites) (s : Fin F.nspecies), ((F.pots i s).re : ℂ) = F.pots i s := fun i s => Complex.conj_eq_iff_re.1 (hr.pots i s)
      change (hubInter _ + (hubSame _ + hubHop _ + hubPot _)) - (hubInter _ + (hubSame _ + hubHop _ + hubPot _)) = _
      rw [add_sub_add_left_eq_sub, add_sub_add_left_eq_sub]
      unfold hubPot
      simp only [← Finset.sum_sub_distrib, ← sub_smul]
      refine Finset.sum_congr rfl fun i _ => Finset.sum_congr rfl fun s _ => ?_
      push_cast
      rw [k3, k4]

/-- C132, chemical potential: raising the chemical potential of one species never lowers its number of particles. -/
theorem C132_chemical_potential (S : EigSolvers) (hS : EigContract S) (F : Fermions) (hI : InterOk F) (hr : RealParams F)
    (s : Fin F.nspecies) (μ : ℝ) (hμ : (F.mus s).re < μ) :
    ∃ A w M A' w' M', F.createH none = .ok A ∧ diagList S A = .ok (w, M) ∧
      ({ F with mus := Function.update F.mus s μ } : Fermions).createH none = .ok A' ∧
      diagList S A' = .ok (w', M') ∧ ∀ T, Averages w w' T → ∃ n n' : Fin F.nsites → ℝ,
        thermalExpSites F.sys M w nOp s [T] none none "boson" = .ok (List.ofFn fun i => [n i], List.range F.nsites) ∧
        thermalExpSites F.sys M' w' nOp s [T] none none "boson" = .ok (List.ofFn fun i => [n' i], List.range F.nsites) ∧
        ∑ i, n i ≤ ∑ i, n' i := by
  have hr' : RealParams { F with mus := Function.update F.mus s (μ : ℂ) } :=
    ⟨hr.ts, hr.us, hr.same, fun s' => by
      change star (Function.update F.mus s (μ : ℂ) s') = Function.update F.mus s (μ : ℂ) s'
      by_cases h : (s' : ℕ) = s
      · rw [h, Function.update_self]
        exact Complex.conj_ofReal _
      · rw [Function.update_of_ne h]
        exact hr.mus s', hr.pots⟩
  obtain ⟨A, hA, hAi⟩ := C27_hamiltonian F hI
  obtain ⟨A', hA', hAi'⟩ := C27_hamiltonian { F with mus := Function.update F.mus s (μ : ℂ) } hI
  obtain ⟨m, E, M, V, a1, a2, a3, a4, a5, a6⟩ := diagList_ok S hS hAi (F_hermitian hI hr)
  obtain ⟨m', E', M', V', b1, b2, b3, b4, b5, b6⟩ := diagList_ok S hS hAi'
    (F_hermitian (F := { F with mus := Function.update F.mus s (μ : ℂ) }) hI hr')
  refine ⟨A, _, M, A', _, M', hA, a1, hA', b1, fun T hT => ⟨fun i => canonical T E fun k => (expect (number (mode i s)) (colOf V k)).re,
    fun i => canonical T E' fun k => (expect (number (mode i s)) (colOf V' k)).re, ?_, ?_, ?_⟩⟩
  · exact site_averages F.sys nOp s (fun i => F_single F i s) a2 (hT.left a6)
  · exact site_averages F.sys nOp s (fun i => F_single F i s) b2 (hT.right b6)
  · have := averages_oppose a3 a4 a5 b3 b4 b5 hT.nonneg (Finset.univ : Finset (Fin F.nsites))
      (fun _ => (F.mus s).re - μ) (fun i => number (mode i s)) ?_
    · rw [← Finset.mul_sum, Finset.sum_sub_distrib] at this
      nlinarith
    · have k3 : ((F.mus s).re : ℂ) = F.mus s := Complex.conj_eq_iff_re.1 (hr.mus s)
      change (hubInter _ + (hubSame _ + hubHop _ + hubPot _)) - (hubInter _ + (hubSame _ + hubHop _ + hubPot _)) = _
      rw [add_sub_add_left_eq_sub, add_sub_add_left_eq_sub]
      unfold hubPot
      simp only [← Finset.sum_sub_distrib, ← sub_smul]
      refine Finset.sum_congr rfl fun i _ => ?_
      rw [Finset.sum_eq_single s]
      · rw [Function.update_self]
        push_cast
        rw [k3]
        congr 1
        ring
      · intro s' _ h
        rw [Function.update_of_ne fun h' => h (Fin.ext h'), sub_self, zero_smul]
      · exact fun h => absurd (Finset.mem_univ s) h

/-- C132, local potential: raising the potential of one species at one site never raises the density there. -/
theorem C132_local_potential (S : EigSolvers) (hS : EigContract S) (F : Fermions) (hI : InterOk F) (hr : RealParams F)
    (i : Fin F.nsites) (s : Fin F.nspecies) (v : ℝ) (hv : (F.pots i s).re < v) :
    ∃ A w M A' w' M', F.createH none = .ok A ∧ diagList S A = .ok (w, M) ∧
      ({ F with pots := Function.update F.pots i (Function.update (F.pots i) s v) } : Fermions).createH none = .ok A' ∧
      diagList S A' = .ok (w', M') ∧ ∀ T, Averages w w' T → ∃ n n' : Fin F.nsites → ℝ,
        thermalExpSites F.sys M w nOp s [T] none none "boson" = .ok (List.ofFn fun i => [n i], List.range F.nsites) ∧
        thermalExpSites F.sys M' w' nOp s [T] none none "boson" = .ok (List.ofFn fun i => [n' i], List.range F.nsites) ∧
        n' i ≤ n i := by
  set p := Function.update F.pots i (Function.update (F.pots i) s (v : ℂ)) with hp
  have p0 : p i s = v := by rw [hp, Function.update_self, Function.update_self]
  have p1 : ∀ i' s' : ℕ, ¬(i' = i ∧ s' = s) → p i' s' = F.pots i' s' := fun i' s' h => by
    rw [hp]
    by_cases hi : i' = i
    · subst hi
      rw [Function.update_self, Function.update_of_ne fun hs => h ⟨rfl, hs⟩]
    · rw [Function.update_of_ne hi]
  have hr' : RealParams { F with pots := p } :=
    ⟨hr.ts, hr.us, hr.same, hr.mus, fun i' s' => by
      change star (p i' s') = p i' s'
      by_cases h : (i' : ℕ) = i ∧ (s' : ℕ) = s
      · rw [h.1, h.2, p0]
        exact Complex.conj_ofReal _
      · rw [p1 _ _ h]
        exact hr.pots i' s'⟩
  obtain ⟨A, hA, hAi⟩ := C27_hamiltonian F hI
  obtain ⟨A', hA', hAi'⟩ := C27_hamiltonian { F with pots := p } hI
  obtain ⟨m, E, M, V, a1, a2, a3, a4, a5, a6⟩ := diagList_ok S hS hAi (F_hermitian hI hr)
  obtain ⟨m', E', M', V', b1, b2, b3, b4, b5, b6⟩ := diagList_ok S hS hAi' (F_hermitian (F := { F with pots := p }) hI hr')
  refine ⟨A, _, M, A', _, M', hA, a1, hA', b1, fun T hT => ⟨fun i => canonical T E fun k => (expect (number (mode i s)) (colOf V k)).re,
    fun i => canonical T E' fun k => (expect (number (mode i s)) (colOf V' k)).re, ?_, ?_, ?_⟩⟩
  · exact site_averages F.sys nOp s (fun i => F_single F i s) a2 (hT.left a6)
  · exact site_averages F.sys nOp s (fun i => F_single F i s) b2 (hT.right b6)
  · have := averages_oppose a3 a4 a5 b3 b4 b5 hT.nonneg ({i} : Finset (Fin F.nsites))
      (fun _ => v - (F.pots i s).re) (fun i => number (mode i s)) ?_
    · rw [Finset.sum_singleton] at this
      nlinarith
    · have k3 : ((F.pots i s).re : ℂ) = F.pots i s := Complex.conj_eq_iff_re.1 (hr.pots i s)
      change (hubInter _ + (hubSame _ + hubHop _ + hubPot _)) - (hubInter _ + (hubSame _ + hubHop _ + hubPot _)) = _
      rw [add_sub_add_left_eq_sub, add_sub_add_left_eq_sub, Finset.sum_singleton]
      unfold hubPot
      simp only [← Finset.sum_sub_distrib, ← sub_smul]
      rw [Finset.sum_eq_single i, Finset.sum_eq_single s]
      · rw [p0]
        push_cast
        rw [k3]
        congr 1
        ring
      · intro s' _ h
        rw [p1 _ _ fun h' => h (Fin.ext h'.2), sub_self, zero_smul]
      · exact fun h => absurd (Finset.mem_univ s) h
      · intro i' _ h
        refine Finset.sum_eq_zero fun s' _ => ?_
        rw [p1 _ _ fun h' => h (Fin.ext h'.1), sub_self, zero_smul]
      · exact fun h => absurd (Finset.mem_univ i) h

/-- C132, interaction: with more repulsion between two species, the numbers of doubly occupied sites do not follow. -/
theorem C132_interaction (S : EigSolvers) (hS : EigContract S) (F : Fermions) (hr : RealParams F) (u d : Fin F.nspecies) (hu : (u : ℕ) = 0)
    (hd : (d : ℕ) = 1) (us' : ℕ → ℝ) :
    ∃ A w M A' w' M', F.createH none = .ok A ∧ diagList S A = .ok (w, M) ∧
      ({ F with us := fun i => us' i } : Fermions).createH none = .ok A' ∧
      diagList S A' = .ok (w', M') ∧ ∀ T, Averages w w' T → ∃ D D' : Fin F.nsites → ℝ,
        (∀ i : Fin F.nsites, thermalCorrSites F.sys M w 0 1 nOp nOp [T] (some [((i : ℕ), (i : ℕ))]) none "boson" = .ok ([[D i]], [((i : ℕ), (i : ℕ))])) ∧
        (∀ i : Fin F.nsites, thermalCorrSites F.sys M' w' 0 1 nOp nOp [T] (some [((i : ℕ), (i : ℕ))]) none "boson" = .ok ([[D' i]], [((i : ℕ), (i : ℕ))])) ∧
        ∑ i : Fin F.nsites, (us' i - (F.us i).re) * (D' i - D i) ≤ 0 := by
  have h2 : 2 ≤ F.nspecies := by have := d.2; omega
  have hI : InterOk F := Or.inl h2
  have hI' : InterOk { F with us := fun i => (us' i : ℂ) } := Or.inl h2
  have hr' : RealParams { F with us := fun i => (us' i : ℂ) } :=
    ⟨hr.ts, fun i => Complex.conj_ofReal _, hr.same, hr.mus, hr.pots⟩
  obtain ⟨A, hA, hAi⟩ := C27_hamiltonian F hI
  obtain ⟨A', hA', hAi'⟩ := C27_hamiltonian { F with us := fun i => (us' i : ℂ) } hI'
  obtain ⟨m, E, M, V, a1, a2, a3, a4, a5, a6⟩ := diagList_ok S hS hAi (F_hermitian hI hr)
  obtain ⟨m', E', M', V', b1, b2, b3, b4, b5, b6⟩ := diagList_ok S hS hAi' (F_hermitian (F := { F with us := fun i => (us' i : ℂ) }) hI' hr')
  have corr : ∀ {m : ℕ} {E : Fin (m + 1) → ℝ} {M : Mat} {V : Matrix (Conf (F.nsites * F.nspecies) 2) (Fin (m + 1)) ℂ}, M.Is V → ∀ T : ℝ,
      (T ≠ 0 ∨ (Monotone E ∧ Gapped E)) → ∀ i : Fin F.nsites,
      thermalCorrSites F.sys M (List.ofFn E) 0 1 nOp nOp [T] (some [((i : ℕ), (i : ℕ))]) none "boson" =
        .ok ([[canonical T E fun k => (expect (number (mode i u) * number (mode i d)) (colOf V k)).re]], [((i : ℕ), (i : ℕ))]) := by
    intro m E M V hM T hT i
    unfold thermalCorrSites
    simp only [Option.getD_none, Option.getD_some]
    obtain ⟨X, hX, hXi⟩ := F_two F i i u d
    rw [hu, hd] at hX
    have hP : (Mat.eye M.rows).Is (1 : Op (F.nsites * F.nspecies) 2) := Mat.is_eye (by rw [hM.1])
    obtain ⟨Y, hY, hYi⟩ := sandwich_gives hP hXi 1
    rw [one_smul, Matrix.one_mul, conjTranspose_one, Matrix.mul_one] at hYi
    rw [List.mapM_cons, hX]
    change ((sandwich 1 _ X >>= fun full => expValsThermalList M full (List.ofFn E) [T]) >>= _) >>= _ = _
    rw [hY]
    change (expValsThermalList M Y (List.ofFn E) [T] >>= _) >>= _ = _
    unfold expValsThermalList
    rw [List.mapM_cons, C19_canonical hM hYi E T hT]
    rfl
  refine ⟨A, _, M, A', _, M', hA, a1, hA', b1, fun T hT => ⟨_, _, corr a2 T (hT.left a6), corr b2 T (hT.right b6), ?_⟩⟩
  have := averages_oppose a3 a4 a5 b3 b4 b5 hT.nonneg (Finset.univ : Finset (Fin F.nsites))
    (fun i => us' i - (F.us i).re) (fun i => number (mode i u) * number (mode i d)) ?_
  · exact this
  · have k : ∀ i : Fin F.nsites, ((F.us i).re : ℂ) = F.us i := fun i => Complex.conj_eq_iff_re.1 (hr.us i)
    have eu : (⟨0, by omega⟩ : Fin F.nspecies) = u := Fin.ext hu.symm
    have ed : (⟨1, by omega⟩ : Fin F.nspecies) = d := Fin.ext hd.symm
    change (hubInter _ + (hubSame _ + hubHop _ + hubPot _)) - (hubInter _ + (hubSame _ + hubHop _ + hubPot _)) = _
    rw [add_sub_add_right_eq_sub]
    unfold hubInter
    rw [dif_pos h2, dif_pos h2, ← Finset.sum_sub_distrib]
    refine Finset.sum_congr rfl fun i _ => ?_
    rw [← sub_smul, eu, ed]
    push_cast
    rw [k]

/-! ## Spins -/

/-- Real couplings and fields. -/
structure RealSpins (F : Spins) : Prop where
  half : F.twoS = 1
  jx : ∀ i j : Fin F.nsites, star (F.jx i j) = F.jx i j
  jy : ∀ i j : Fin F.nsites, star (F.jy i j) = F.jy i j
  jz : ∀ i j : Fin F.nsites, star (F.jz i j) = F.jz i j

/-- The model with other fields. -/
def withFields (F : Spins) (h : Fin 3 → ℕ → ℝ) : Spins :=
  { F with hx := fun i => (h 0 i : ℂ), hy := fun i => (h 1 i : ℂ), hz := fun i => (h 2 i : ℂ) }

theorem fields_diag (S : EigSolvers) (hS : EigContract S) {n : ℕ} (jx jy jz : ℕ → ℕ → ℂ) (hx : ∀ i j : Fin n, star (jx i j) = jx i j)
    (hy : ∀ i j : Fin n, star (jy i j) = jy i j) (hz : ∀ i j : Fin n, star (jz i j) = jz i j) (h : Fin 3 → ℕ → ℝ) :
    ∃ (A M : Mat) (m : ℕ) (E : Fin (m + 1) → ℝ) (V : Matrix (Conf n 2) (Fin (m + 1)) ℂ),
      Spins.createH ⟨n, 1, jx, jy, jz, fun i => (h 0 i : ℂ), fun i => (h 1 i : ℂ), fun i => (h 2 i : ℂ)⟩ none = .ok A ∧
      diagList S A = .ok (List.ofFn E, M) ∧ M.Is V ∧ Vᴴ * V = 1 ∧ V * Vᴴ = 1 ∧
      (spinH (fun i j => jx i j) (fun i j => jy i j) (fun i j => jz i j) (fun i => (h 0 i : ℂ)) (fun i => -(h 1 i : ℂ))
        (fun i => (h 2 i : ℂ)) : Op n 2) * V = V * diagonal (fun k => (E k : ℂ)) ∧ Monotone E := by
  obtain ⟨⟨A, hA, hAi⟩, -⟩ := C75_hamiltonian_partial ⟨n, 1, jx, jy, jz, fun i => (h 0 i : ℂ), fun i => (h 1 i : ℂ), fun i => (h 2 i : ℂ)⟩ rfl
  obtain ⟨⟨H, g, hh⟩, -⟩ := C33_hermitian_partial ⟨n, 1, jx, jy, jz, fun i => (h 0 i : ℂ), fun i => (h 1 i : ℂ), fun i => (h 2 i : ℂ)⟩
    (Or.inl rfl) hx hy hz (fun _ => Complex.conj_ofReal _) (fun _ => Complex.conj_ofReal _) (fun _ => Complex.conj_ofReal _)
  have hu := gives_unique ⟨A, hA, hAi⟩ g
  rw [← hu] at hh
  obtain ⟨m, E, M, V, a1, a2, a3, a4, a5, a6⟩ := diagList_ok S hS hAi hh
  exact ⟨A, M, m, E, V, hA, a1, a2, a3, a4, a5, a6⟩

/-- C132, fields, as the code is: for spins 1/2, fields along x and z draw the spins towards them and fields along y push them away. -/
theorem C132_fields_y_reversed (S : EigSolvers) (hS : EigContract S) (F : Spins) (hF : RealSpins F) (h h' : Fin 3 → ℕ → ℝ) :
    ∃ A w M A' w' M', (withFields F h).createH none = .ok A ∧ diagList S A = .ok (w, M) ∧
      (withFields F h').createH none = .ok A' ∧ diagList S A' = .ok (w', M') ∧ ∀ T, Averages w w' T →
      ∃ s s' : Fin 3 → Fin F.nsites → ℝ,
        (∀ a, thermalExpSites F.sys M w (![pauliX, pauliY, pauliZ] a) 0 [T] none none "boson" =
          .ok (List.ofFn fun i => [s a i], List.range F.nsites)) ∧
        (∀ a, thermalExpSites F.sys M' w' (![pauliX, pauliY, pauliZ] a) 0 [T] none none "boson" =
          .ok (List.ofFn fun i => [s' a i], List.range F.nsites)) ∧
        0 ≤ ∑ i : Fin F.nsites, ((h' 0 i - h 0 i) * (s' 0 i - s 0 i) - (h' 1 i - h 1 i) * (s' 1 i - s 1 i) +
          (h' 2 i - h 2 i) * (s' 2 i - s 2 i)) := by
  obtain ⟨n, d, jx, jy, jz, fx, fy, fz⟩ := F
  obtain rfl : d = 1 := hF.half
  obtain ⟨A, M, m, E, V, c1, a1, a2, a3, a4, a5, a6⟩ := fields_diag S hS jx jy jz hF.jx hF.jy hF.jz h
  obtain ⟨A', M', m', E', V', c2, b1, b2, b3, b4, b5, b6⟩ := fields_diag S hS jx jy jz hF.jx hF.jy hF.jz h'
  let O : Fin n → Fin 3 → Op n 2 := fun i a => siteOp (![sigmaX, sigmaY, sigmaZ] a) i
  have hO : ∀ (a : Fin 3) (i : Fin n), Gives (getSingleSiteOp ⟨n, 1, 2⟩ i 0 (![pauliX, pauliY, pauliZ] a) "boson") (O i a) := by
    intro a i
    obtain ⟨px, py, pz⟩ := pauli_site i
    fin_cases a
    · exact px
    · exact py
    · exact pz
  refine ⟨A, _, M, A', _, M', c1, a1, c2, b1, fun T hT => ⟨fun a i => canonical T E fun k => (expect (O i a) (colOf V k)).re,
    fun a i => canonical T E' fun k => (expect (O i a) (colOf V' k)).re, fun a => ?_, fun a => ?_, ?_⟩⟩
  · exact site_averages ⟨n, 1, 2⟩ _ 0 (hO a) a2 (hT.left a6)
  · exact site_averages ⟨n, 1, 2⟩ _ 0 (hO a) b2 (hT.right b6)
  · have := averages_oppose a3 a4 a5 b3 b4 b5 hT.nonneg (Finset.univ : Finset (Fin n × Fin 3))
      (fun p => ![-(h' 0 p.1 - h 0 p.1) / 2, (h' 1 p.1 - h 1 p.1) / 2, -(h' 2 p.1 - h 2 p.1) / 2] p.2) (fun p => O p.1 p.2) ?_
    · rw [Fintype.sum_prod_type] at this
      simp only [Fin.sum_univ_three, Matrix.cons_val_zero, Matrix.cons_val_one, Matrix.cons_val] at this
      rw [← neg_nonneg, ← Finset.sum_neg_distrib] at this
      have := mul_nonneg zero_le_two this
      rw [Finset.mul_sum] at this
      refine this.trans_eq (Finset.sum_congr rfl fun i _ => ?_)
      ring
    · rw [Fintype.sum_prod_type]
      simp only [Fin.sum_univ_three, Matrix.cons_val_zero, Matrix.cons_val_one, Matrix.cons_val, O]
      unfold spinH
      rw [sub_sub_sub_cancel_left, ← Finset.sum_sub_distrib]
      refine Finset.sum_congr rfl fun i _ => ?_
      push_cast
      module

/-- C132, fields (what holds): if the fields along x and z are changed, the averages of the spins follow the changes: the products of both
changes add up to at least zero. The full claim includes fields along y; it fails, see `C132_field_y_violated`. -/
theorem C132_fields_partial (S : EigSolvers) (hS : EigContract S) (F : Spins) (hF : RealSpins F) (h h' : Fin 3 → ℕ → ℝ) (hy : h 1 = h' 1) :
    ∃ A w M A' w' M', (withFields F h).createH none = .ok A ∧ diagList S A = .ok (w, M) ∧
      (withFields F h').createH none = .ok A' ∧ diagList S A' = .ok (w', M') ∧ ∀ T, Averages w w' T →
      ∃ s s' : Fin 3 → Fin F.nsites → ℝ,
        (∀ a, thermalExpSites F.sys M w (![pauliX, pauliY, pauliZ] a) 0 [T] none none "boson" =
          .ok (List.ofFn fun i => [s a i], List.range F.nsites)) ∧
        (∀ a, thermalExpSites F.sys M' w' (![pauliX, pauliY, pauliZ] a) 0 [T] none none "boson" =
          .ok (List.ofFn fun i => [s' a i], List.range F.nsites)) ∧
        0 ≤ ∑ i : Fin F.nsites, ∑ a, (h' a i - h a i) * (s' a i - s a i) := by
  obtain ⟨A, w, M, A', w', M', c1, c2, c3, c4, c5⟩ := C132_fields_y_reversed S hS F hF h h'
  refine ⟨A, w, M, A', w', M', c1, c2, c3, c4, fun T hT => ?_⟩
  obtain ⟨s, s', e1, e2, e3⟩ := c5 T hT
  refine ⟨s, s', e1, e2, e3.trans_eq (Finset.sum_congr rfl fun i _ => ?_)⟩
  rw [Fin.sum_univ_three, hy]
  ring

/-- The thermal average of a Hamiltonian with trace zero is negative, unless the Hamiltonian is zero. -/
theorem thermalAvg_traceless {ι : Type} [Fintype ι] [DecidableEq ι] {H : Matrix ι ι ℂ} (hH : H.IsHermitian) (h0 : H ≠ 0)
    (ht : trace H = 0) {T : ℝ} (hT : 0 < T) : thermalAvg H H T < 0 := by
  obtain ⟨V, E, h1, h2, h3⟩ := eig_exists hH
  have hD : H = V * diagonal (fun k => (E k : ℂ)) * Vᴴ := by rw [← h3, Matrix.mul_assoc, h2, Matrix.mul_one]
  have hs : ∑ k, E k = 0 := by
    rw [hD, Matrix.mul_assoc, trace_mul_comm, Matrix.mul_assoc, h1, Matrix.mul_one, trace_diagonal, ← Complex.ofReal_sum] at ht
    exact_mod_cast ht
  obtain ⟨k0, hk0⟩ : ∃ k, E k ≠ 0 := by
    by_contra hc
    push Not at hc
    refine h0 ?_
    rw [hD]
    simp [hc]
  have : Nonempty ι := ⟨k0⟩
  rw [thermalAvg_eig h1 h2 h3 H hT.ne', canonical_ne hT.ne']
  simp only [expect_eig h1 h3, Complex.ofReal_re]
  refine div_neg_of_neg_of_pos ?_ (Finset.sum_pos (fun k _ => Real.exp_pos _) Finset.univ_nonempty)
  have e : ∑ k, Real.exp (-E k / T) * E k = ∑ k, (Real.exp (-E k / T) - 1) * E k := by
    simp only [sub_mul, one_mul, Finset.sum_sub_distrib, hs, sub_zero]
  rw [e]
  have hle : ∀ x : ℝ, x ≠ 0 → (Real.exp (-x / T) - 1) * x < 0 := by
    intro x hx
    rcases lt_or_gt_of_ne hx with h | h
    · have : 1 < Real.exp (-x / T) := Real.one_lt_exp_iff.2 (div_pos (neg_pos.2 h) hT)
      exact mul_neg_of_pos_of_neg (by linarith) h
    · have : Real.exp (-x / T) < 1 := by
        rw [← Real.exp_zero]
        exact Real.exp_lt_exp.2 (div_neg_of_neg_of_pos (neg_neg_of_pos h) hT)
      exact mul_neg_of_neg_of_pos (by linarith) h
  refine Finset.sum_neg' (fun k _ => ?_) ⟨k0, Finset.mem_univ _, hle _ hk0⟩
  by_cases hk : E k = 0
  · rw [hk, mul_zero]
  · exact (hle _ hk).le

/-- C132 (violation): a single spin without field has no average along y. In the unit field along y the average is negative, at every
positive temperature. -/
theorem C132_field_y_violated (S : EigSolvers) (hS : EigContract S) (T : ℝ) (hT : 0 < T) :
    ∃ A w M A' w' M' y, Spins.createH ⟨1, 1, fun _ _ => 0, fun _ _ => 0, fun _ _ => 0, fun _ => 0, fun _ => 0, fun _ => 0⟩ none = .ok A ∧
      diagList S A = .ok (w, M) ∧ Spins.createH ⟨1, 1, fun _ _ => 0, fun _ _ => 0, fun _ _ => 0, fun _ => 0, fun _ => 1, fun _ => 0⟩ none = .ok A' ∧ diagList S A' = .ok (w', M') ∧
      thermalExpSites ⟨1, 1, 2⟩ M w pauliY 0 [T] none none "boson" = .ok ([[0]], [0]) ∧
      thermalExpSites ⟨1, 1, 2⟩ M' w' pauliY 0 [T] none none "boson" = .ok ([[y]], [0]) ∧ y < 0 := by
  obtain ⟨A, M, m, E, V, c1, a1, a2, a3, a4, a5, a6⟩ := fields_diag S hS (n := 1) (fun _ _ => 0) (fun _ _ => 0) (fun _ _ => 0)
    (fun _ _ => star_zero _) (fun _ _ => star_zero _) (fun _ _ => star_zero _) fun _ _ => 0
  obtain ⟨A', M', m', E', V', c2, b1, b2, b3, b4, b5, b6⟩ := fields_diag S hS (n := 1) (fun _ _ => 0) (fun _ _ => 0) (fun _ _ => 0)
    (fun _ _ => star_zero _) (fun _ _ => star_zero _) (fun _ _ => star_zero _) fun a _ => if a = 1 then 1 else 0
  set Y : Op 1 2 := siteOp sigmaY 0 with hY
  have hO : ∀ i : Fin 1, Gives (getSingleSiteOp ⟨1, 1, 2⟩ i 0 pauliY "boson") Y := fun i => by
    obtain rfl : i = 0 := Subsingleton.elim _ _
    exact (pauli_site 0).2.1
  have e1 : (spinH (fun _ _ => 0) (fun _ _ => 0) (fun _ _ => 0) (fun _ => ((0 : ℝ) : ℂ)) (fun _ => -((0 : ℝ) : ℂ)) (fun _ => ((0 : ℝ) : ℂ)) : Op 1 2) = 0 := by
    simp [spinH]
  have e2 : (spinH (fun _ _ => 0) (fun _ _ => 0) (fun _ _ => 0) (fun _ => ((if (0 : Fin 3) = 1 then 1 else 0 : ℝ) : ℂ))
      (fun _ => -((if (1 : Fin 3) = 1 then 1 else 0 : ℝ) : ℂ)) (fun _ => ((if (2 : Fin 3) = 1 then 1 else 0 : ℝ) : ℂ)) : Op 1 2) = (1 / 2 : ℂ) • Y := by
    simp [spinH, hY]
  rw [e1] at a5
  rw [e2] at b5
  have hag : ∀ s : Conf 1 2, AgreeOff 0 s s := fun s k _ => rfl
  have tr : trace Y = 0 := by
    refine Finset.sum_eq_zero fun s _ => ?_
    rw [diag_apply, hY, siteOp, of_apply, if_pos (hag s)]
    generalize s 0 = a
    fin_cases a <;> simp [sigmaY]
  have ne : Y ≠ 0 := by
    intro h
    have := congrFun (congrFun h (fun _ => 0)) (fun _ => 1)
    have ha : AgreeOff (0 : Fin 1) (fun _ => 0 : Conf 1 2) (fun _ => 1) := fun k hk => absurd (Subsingleton.elim k 0) hk
    rw [hY, siteOp, of_apply, if_pos ha] at this
    simp [sigmaY] at this
  have lin : ∀ c : ℝ, ∀ H O : Op 1 2, thermalAvg H ((c : ℂ) • O) T = c * thermalAvg H O T := fun c H O => by
    unfold thermalAvg
    rw [Matrix.mul_smul, trace_smul, smul_eq_mul, Complex.re_ofReal_mul]
  have v0 : canonical T E (fun k => (expect Y (colOf V k)).re) = 0 := by
    rw [← thermalAvg_eig a3 a4 a5 Y hT.ne', thermalAvg_ratio]
    unfold boltzOp
    rw [smul_zero, NormedSpace.exp_zero, Matrix.one_mul, tr, zero_div, Complex.zero_re]
  have v1 : canonical T E' (fun k => (expect Y (colOf V' k)).re) < 0 := by
    rw [← thermalAvg_eig b3 b4 b5 Y hT.ne']
    have := thermalAvg_traceless (hermitian_eig b4 b5) (smul_ne_zero (by norm_num) ne) (by rw [trace_smul, tr, smul_zero]) hT
    have e : ((1 / 2 : ℂ)) = ((1 / 2 : ℝ) : ℂ) := by push_cast; rfl
    conv at this => lhs; arg 2; rw [e]
    rw [lin] at this
    linarith
  refine ⟨A, _, M, A', _, M', _, ?_, a1, ?_, b1, ?_, site_averages ⟨1, 1, 2⟩ pauliY 0 hO b2 (Or.inl hT.ne'), v1⟩
  · rw [← c1]
    simp
  · rw [← c2]
    simp
  · rw [site_averages ⟨1, 1, 2⟩ pauliY 0 hO a2 (Or.inl hT.ne'), v0]
    rfl

/-! ## Cases -/

example (S : EigSolvers) (hS : EigContract S) : ∃ F : Fermions, InterOk F ∧ RealParams F ∧ ∃ s : Fin F.nspecies, (F.mus s).re < 1 ∧
    F.nsites = 2 ∧ F.ts 1 0 0 ≠ 0 := by
  refine ⟨⟨2, 2, fun _ _ _ => 1, fun _ => 4, fun _ _ _ => 0, fun _ => 0, fun _ _ => 0, fun _ _ => 1, fun _ _ => 0⟩, Or.inl le_rfl,
    ⟨fun _ _ _ => star_one _, fun _ => ?_, fun _ _ _ => star_zero _, fun _ => star_zero _, fun _ _ => star_zero _⟩, (0 : Fin 2), by simp, rfl, one_ne_zero⟩
  exact Complex.conj_ofReal 4

example : RealSpins ⟨3, 1, fun _ _ => 1, fun _ _ => 2, fun _ _ => 3, fun _ => 0, fun _ => 0, fun _ => 0⟩ :=
  ⟨rfl, fun _ _ => star_one _, fun _ _ => Complex.conj_ofReal 2, fun _ _ => Complex.conj_ofReal 3⟩

example : Averages [0, 1] [-1, 2] 0 := Or.inr ⟨rfl, fun x hx y hy => by
    simp only [List.mem_cons, List.not_mem_nil, or_false] at hx hy
    rcases hx with rfl | rfl <;> rcases hy with rfl | rfl <;> norm_num, fun x hx y hy => by
    simp only [List.mem_cons, List.not_mem_nil, or_false] at hx hy
    rcases hx with rfl | rfl <;> rcases hy with rfl | rfl <;> norm_num [abs_of_neg, abs_of_pos]⟩

end ED.Props
