import Verif.Lemmas.Sublattice
import Verif.Props.FieldAlignment

/-!
# Property C148: spins alternate between the sublattices

Spins one half whose transverse couplings are antiferromagnetic between two sublattices and ferromagnetic within each of them have
correlations with the signs of the sublattices, at every temperature and at every distance.
-/

namespace ED.Props

open Matrix

/-! ## Specification -/

/-- The same couplings along x and y, and fields along z only. -/
structure Axial (F : Spins) : Prop where
  j : ∀ i < F.nsites, ∀ j < i, F.jx i j = F.jy i j
  hx : ∀ i < F.nsites, F.hx i = 0
  hy : ∀ i < F.nsites, F.hy i = 0

/-- The same couplings along all directions, and no fields. -/
structure Isotropic (F : Spins) : Prop extends Axial F where
  jz : ∀ i < F.nsites, ∀ j < i, F.jx i j = F.jz i j
  hz : ∀ i < F.nsites, F.hz i = 0

/-- Transverse couplings are negative or zero within the sublattices and positive or zero between them. -/
def Sublattices (F : Spins) (c : Fin F.nsites → Bool) : Prop :=
  ∀ i j : Fin F.nsites, j < i → (c i = c j → (F.jx i j).re ≤ 0) ∧ (c i ≠ c j → 0 ≤ (F.jx i j).re)

/-- Two sites that are connected by transverse couplings, over any number of other sites. -/
def Linked (F : Spins) : Fin F.nsites → Fin F.nsites → Prop :=
  Relation.ReflTransGen fun i j => (j < i ∧ F.jx i j ≠ 0) ∨ (i < j ∧ F.jx j i ≠ 0)

/-- Correlations with the signs of the sublattices, which do not vanish between connected sites. -/
def Alternating (F : Spins) (c : Fin F.nsites → Bool) (x : Fin F.nsites → Fin F.nsites → ℝ → ℝ) : Prop :=
  ∀ i j : Fin F.nsites, i ≠ j → ∀ T : ℝ, 0 ≤ T → (c i = c j → 0 ≤ x i j T) ∧ (c i ≠ c j → x i j T ≤ 0) ∧ (0 < T → Linked F i j → x i j T ≠ 0)

/-! ## Proofs -/

section

variable {n b : ℕ}

theorem siteOp_neg (Y : Matrix (Fin b) (Fin b) ℂ) (k : Fin n) : siteOp (-Y) k = -siteOp Y k := by
  ext s t
  simp only [siteOp, of_apply, Matrix.neg_apply]
  split_ifs <;> simp

theorem heis_neg_x (X Y Z : Matrix (Fin b) (Fin b) ℂ) (jx jy jz : Fin n → Fin n → ℂ) (hy hz : Fin n → ℂ) :
    heis (-X) Y Z jx jy jz (fun _ => 0) hy hz = heis X Y Z jx jy jz (fun _ => 0) hy hz := by
  unfold heis
  simp only [siteOp_neg, neg_mul_neg, zero_smul]

theorem heis_neg_y (X Y Z : Matrix (Fin b) (Fin b) ℂ) (jx jy jz : Fin n → Fin n → ℂ) (hx hz : Fin n → ℂ) :
    heis X (-Y) Z jx jy jz hx (fun _ => 0) hz = heis X Y Z jx jy jz hx (fun _ => 0) hz := by
  unfold heis
  simp only [siteOp_neg, neg_mul_neg, zero_smul]

theorem heis_congr (X Y Z : Matrix (Fin b) (Fin b) ℂ) {jx jy jz jx' jy' jz' : Fin n → Fin n → ℂ} {hx hy hz hx' hy' hz' : Fin n → ℂ}
    (h1 : ∀ i j, j < i → jx i j = jx' i j) (h2 : ∀ i j, j < i → jy i j = jy' i j) (h3 : ∀ i j, j < i → jz i j = jz' i j)
    (h4 : ∀ i, hx i = hx' i) (h5 : ∀ i, hy i = hy' i) (h6 : ∀ i, hz i = hz' i) :
    heis X Y Z jx jy jz hx hy hz = heis X Y Z jx' jy' jz' hx' hy' hz' := by
  unfold heis
  congr 1
  · refine Finset.sum_congr rfl fun i _ => Finset.sum_congr rfl fun j _ => ?_
    by_cases h : j < i
    · rw [if_pos h, if_pos h, h1 i j h, h2 i j h, h3 i j h]
    · rw [if_neg h, if_neg h]
  · exact Finset.sum_congr rfl fun i _ => by rw [h4, h5, h6]

/-- Averages in the thermal ensemble, also at zero temperature. -/
theorem canonical_of_avg {ι : Type} [Fintype ι] [DecidableEq ι] {k : ℕ} {H : Matrix ι ι ℂ} {E : Fin (k + 1) → ℝ} {V : Matrix ι (Fin (k + 1)) ℂ} (h3 : Vᴴ * V = 1)
    (h4 : V * Vᴴ = 1) (h5 : H * V = V * diagonal fun k => (E k : ℂ)) {O O' : Matrix ι ι ℂ} (h : ∀ T, thermalAvg H O T = thermalAvg H O' T) (T : ℝ) :
    canonical T E (fun k => (expect O (colOf V k)).re) = canonical T E fun k => (expect O' (colOf V k)).re := by
  have key : ∀ T ≠ 0, canonical T E (fun k => (expect O (colOf V k)).re) = canonical T E fun k => (expect O' (colOf V k)).re := fun T hT => by
    rw [← thermalAvg_eig h3 h4 h5 O hT, ← thermalAvg_eig h3 h4 h5 O' hT, h]
  by_cases hT : T = 0
  · subst hT
    refine tendsto_nhds_unique_of_eventuallyEq (canonical_limit E _) (canonical_limit E _) ?_
    filter_upwards [self_mem_nhdsWithin] with T hT
    exact key T (ne_of_gt hT)
  · exact key T hT

theorem canonical_sign {k : ℕ} {E v : Fin (k + 1) → ℝ} (a : ℝ) (h : ∀ T, 0 < T → 0 ≤ a * canonical T E v) {T : ℝ} (hT : 0 ≤ T) : 0 ≤ a * canonical T E v := by
  rcases hT.eq_or_lt with rfl | hT
  · refine ge_of_tendsto ((canonical_limit E v).const_mul a) ?_
    filter_upwards [self_mem_nhdsWithin] with T hT
    exact h T hT
  · exact h T hT

theorem axial_avg (J jz : Fin n → Fin n → ℂ) (hz : Fin n → ℂ) (i j : Fin n) (T : ℝ) :
    thermalAvg (heis (sxM 1) (syM 1) (szM 1) J J jz (fun _ => 0) (fun _ => 0) hz : Op n 2) (siteOp (sxM 1) i * siteOp (sxM 1) j) T =
      thermalAvg (heis (sxM 1) (syM 1) (szM 1) J J jz (fun _ => 0) (fun _ => 0) hz : Op n 2) (siteOp (syM 1) i * siteOp (syM 1) j) T := by
  obtain ⟨h1, h2, h3⟩ := su2_alg (sp_sm_comm 1) (sz_sp 1) (sz_sm 1)
  obtain ⟨U, -, hU, u1, u2, u3⟩ := exists_rotation (szM_star 1) h3 (show _ = Complex.I • sxM 1 by
    rw [← neg_sub, h2, neg_smul, neg_neg]; rfl)
  refine thermalAvg_rotate hU ?_ (.inl u2) i j T
  rw [heis_everywhere hU, show U * sxM 1 * Uᴴ = syM 1 from u2, show U * syM 1 * Uᴴ = -sxM 1 from u3, u1, heis_comm_xy, heis_neg_x]

theorem isotropic_avg (J : Fin n → Fin n → ℂ) (i j : Fin n) (T : ℝ) :
    thermalAvg (heis (sxM 1) (syM 1) (szM 1) J J J (fun _ => 0) (fun _ => 0) (fun _ => 0) : Op n 2) (siteOp (syM 1) i * siteOp (syM 1) j) T =
      thermalAvg (heis (sxM 1) (syM 1) (szM 1) J J J (fun _ => 0) (fun _ => 0) (fun _ => 0) : Op n 2) (siteOp (szM 1) i * siteOp (szM 1) j) T := by
  obtain ⟨h1, h2, h3⟩ := su2_alg (sp_sm_comm 1) (sz_sp 1) (sz_sm 1)
  obtain ⟨U, hU', hU, u1, u2, u3⟩ := exists_rotation (sxM_star 1) h1 (show _ = Complex.I • syM 1 by
    rw [← neg_sub]; erw [h3]; rw [neg_smul, neg_neg]; rfl)
  refine thermalAvg_rotate hU ?_ (.inl u2) i j T
  rw [heis_everywhere hU, show U * sxM 1 * Uᴴ = sxM 1 from u1, show U * syM 1 * Uᴴ = szM 1 from u2, show U * szM 1 * Uᴴ = -syM 1 from u3, heis_comm_yz, heis_neg_y]

/-- Sign of a sublattice. -/
def subSign (c : Fin n → Bool) (i : Fin n) : ℤ := if c i then 1 else -1

theorem subSign_sq (c : Fin n → Bool) (i : Fin n) : subSign c i * subSign c i = 1 := by unfold subSign; split_ifs <;> norm_num

theorem subSign_eq {c : Fin n → Bool} {i j : Fin n} (h : c i = c j) : subSign c i * subSign c j = 1 := by
  unfold subSign
  rw [h]
  split_ifs <;> norm_num

theorem subSign_ne {c : Fin n → Bool} {i j : Fin n} (h : c i ≠ c j) : subSign c i * subSign c j = -1 := by
  unfold subSign
  cases hi : c i <;> cases hj : c j <;> simp_all

theorem planar_sign {k : ℕ} (J : Fin n → Fin n → ℝ) (jz : Fin n → Fin n → ℂ) (hz : Fin n → ℂ) (c : Fin n → Bool)
    (hc : ∀ i j, j < i → (c i = c j → J i j ≤ 0) ∧ (c i ≠ c j → 0 ≤ J i j)) {H : Op n 2} (hH : H.IsHermitian)
    (e : H = heis (sxM 1) (syM 1) (szM 1) (fun i j => (J i j : ℂ)) (fun i j => (J i j : ℂ)) jz (fun _ => 0) (fun _ => 0) hz)
    {E : Fin (k + 1) → ℝ} {V : Matrix (Conf n 2) (Fin (k + 1)) ℂ} (h3 : Vᴴ * V = 1) (h4 : V * Vᴴ = 1)
    (h5 : H * V = V * diagonal fun k => (E k : ℂ)) {i j : Fin n} (hij : i ≠ j) {T : ℝ} (hT : 0 ≤ T) :
    (c i = c j → 0 ≤ canonical T E fun k => (expect (siteOp (sxM 1) i * siteOp (sxM 1) j) (colOf V k)).re) ∧
      (c i ≠ c j → canonical T E (fun k => (expect (siteOp (sxM 1) i * siteOp (sxM 1) j) (colOf V k)).re) ≤ 0) ∧
      (0 < T → Relation.ReflTransGen (fun i j => (j < i ∧ J i j ≠ 0) ∨ (i < j ∧ J j i ≠ 0)) i j →
        canonical T E (fun k => (expect (siteOp (sxM 1) i * siteOp (sxM 1) j) (colOf V k)).re) ≠ 0) := by
  set v : Fin (k + 1) → ℝ := fun k => (expect (siteOp (sxM 1) i * siteOp (sxM 1) j) (colOf V k)).re with hv
  have hJ : ∀ i j, j < i → J i j = -(|J i j| * ((subSign c i * subSign c j : ℤ) : ℝ)) := fun i j h => by
    by_cases hs : c i = c j
    · rw [subSign_eq hs, abs_of_nonpos ((hc i j h).1 hs)]
      simp
    · rw [subSign_ne hs, abs_of_nonneg ((hc i j h).2 hs)]
      simp
  have hsgn := fun (T : ℝ) (hT : 0 < T) => exchange_sign J jz hz (subSign_sq c) hJ hH e hij hT
  have hval : ∀ T : ℝ, 0 < T →
      thermalAvg H (((subSign c i * subSign c j : ℤ) : ℂ) • (siteOp (sxM 1) i * siteOp (sxM 1) j + siteOp (syM 1) i * siteOp (syM 1) j)) T =
        2 * ((subSign c i * subSign c j : ℤ) : ℝ) * canonical T E v := fun T hT => by
    have hx := axial_avg (fun i j => (J i j : ℂ)) jz hz i j T
    rw [← e] at hx
    have hadd : ∀ A B : Op n 2, thermalAvg H (A + B) T = thermalAvg H A T + thermalAvg H B T := fun A B => by
      unfold thermalAvg
      rw [Matrix.mul_add, trace_add, Complex.add_re]
    rw [show (((subSign c i * subSign c j : ℤ) : ℂ)) = ((((subSign c i * subSign c j : ℤ) : ℝ)) : ℂ) by push_cast; rfl, thermalAvg_smul, hadd, ← hx,
      thermalAvg_eig h3 h4 h5 _ hT.ne']
    ring
  have hnn : ∀ T, 0 < T → 0 ≤ (2 * ((subSign c i * subSign c j : ℤ) : ℝ)) * canonical T E v := fun T hT => by
    rw [← hval T hT]
    exact (hsgn T hT).1
  have h0 := canonical_sign _ hnn hT
  refine ⟨fun hs => ?_, fun hs => ?_, fun hT hl h => ?_⟩
  · rw [subSign_eq hs] at h0
    push_cast at h0
    linarith
  · rw [subSign_ne hs] at h0
    push_cast at h0
    linarith
  · have := (hsgn T hT).2 hl
    rw [hval T hT, h, mul_zero] at this
    exact lt_irrefl _ this

end

section

variable (S : EigSolvers) (hS : EigContract S) (F : Spins) (h1 : F.twoS = 1) (hr : RealCouplings F)
include hS h1 hr

/-- C148: for spins one half with the same couplings along x and y, with any couplings along z and any fields along z, the correlations of
the x components are those of the y components, have the signs of the sublattices at all distances and temperatures, and do not vanish
between connected sites at positive temperatures. -/
theorem C148_axial (ha : Axial F) {c : Fin F.nsites → Bool} (hc : Sublattices F c) :
    ∃ A w M X Y x, F.createH none = .ok A ∧ diagList S A = .ok (w, M) ∧ getSx F.twoS = .ok X ∧ getSy F.twoS = .ok Y ∧
      PairAverages F w M X X x ∧ PairAverages F w M Y Y x ∧ Alternating F c x := by
  revert c
  obtain ⟨n, b, jx, jy, jz, hx, hy, hz⟩ := F
  simp only at h1
  subst h1
  set F : Spins := ⟨n, 1, jx, jy, jz, hx, hy, hz⟩ with hF
  intro c hc
  obtain ⟨A, hA, hAi⟩ := spin_createH F (.inl rfl)
  have hH := spins_hermitian hr
  obtain ⟨k, E, M, V, p0, p1, p2, p3, p4, p5⟩ := diagList_ok S hS hAi hH
  obtain ⟨X, hX, hXi⟩ := getSx_gives 1
  obtain ⟨Y, hY, hYi⟩ := getSy_gives 1
  obtain ⟨-, a1⟩ := averages_all F p1 p5 (X := sxM 1) (Y := sxM 1) hXi hXi
  obtain ⟨-, a2⟩ := averages_all F p1 p5 (X := syM 1) (Y := syM 1) hYi hYi
  have rx : ∀ i j : Fin n, ((jx i j).re : ℂ) = jx i j := fun i j => Complex.conj_eq_iff_re.1 (hr.jx i j)
  have e : spinHam F = heis (sxM 1) (syM 1) (szM 1) (fun i j : Fin n => ((jx i j).re : ℂ)) (fun i j : Fin n => ((jx i j).re : ℂ)) (fun i j : Fin n => jz i j)
      (fun _ => 0) (fun _ => 0) (fun i : Fin n => hz i) := by
    refine heis_congr _ _ _ (fun i j _ => (rx i j).symm) (fun i j h => ?_) (fun _ _ _ => rfl) (fun i => ha.hx i i.2) (fun i => ha.hy i i.2) fun _ => rfl
    rw [rx]
    exact (ha.j i i.2 j h).symm
  refine ⟨A, _, M, X, Y, _, hA, p0, hX, hY, a1, ?_, fun i j hij T hT => ?_⟩
  · have : (fun (i j : Fin F.nsites) (T : ℝ) => canonical T E fun k => (expect (siteOp (sxM 1) i * siteOp (sxM 1) j) (colOf V k)).re) =
        fun i j T => canonical T E fun k => (expect (siteOp (syM 1) i * siteOp (syM 1) j) (colOf V k)).re := by
      funext i j T
      refine canonical_of_avg p2 p3 p4 (fun T => ?_) T
      change thermalAvg (spinHam F) _ T = thermalAvg (spinHam F) _ T
      rw [e]
      exact axial_avg _ _ _ i j T
    rw [this]
    exact a2
  · have hl : Linked F i j → Relation.ReflTransGen (fun i j : Fin n => (j < i ∧ (jx i j).re ≠ 0) ∨ (i < j ∧ (jx j i).re ≠ 0)) i j := fun h => by
      refine Relation.ReflTransGen.mono (fun a b h => ?_) _ _ h
      have hne : ∀ a b : Fin n, jx a b ≠ 0 → (jx a b).re ≠ 0 := fun a b h e => h (by rw [← rx, e, Complex.ofReal_zero])
      exact h.imp (fun h => ⟨h.1, hne _ _ h.2⟩) fun h => ⟨h.1, hne _ _ h.2⟩
    have := planar_sign (fun i j : Fin n => (jx i j).re) _ _ c hc hH e p2 p3 p4 hij hT
    exact ⟨this.1, this.2.1, fun hT h => this.2.2 hT (hl h)⟩

/-- C148 (isotropic couplings): without fields the correlations are the same along all three directions, and alternate. -/
theorem C148_isotropic (ha : Isotropic F) {c : Fin F.nsites → Bool} (hc : Sublattices F c) :
    ∃ A w M X Y x, F.createH none = .ok A ∧ diagList S A = .ok (w, M) ∧ getSx F.twoS = .ok X ∧ getSy F.twoS = .ok Y ∧
      PairAverages F w M X X x ∧ PairAverages F w M Y Y x ∧ PairAverages F w M (getSz F.twoS) (getSz F.twoS) x ∧ Alternating F c x := by
  revert c
  obtain ⟨n, b, jx, jy, jz, hx, hy, hz⟩ := F
  simp only at h1
  subst h1
  set F : Spins := ⟨n, 1, jx, jy, jz, hx, hy, hz⟩ with hF
  intro c hc
  obtain ⟨A, hA, hAi⟩ := spin_createH F (.inl rfl)
  have hH := spins_hermitian hr
  obtain ⟨k, E, M, V, p0, p1, p2, p3, p4, p5⟩ := diagList_ok S hS hAi hH
  obtain ⟨X, hX, hXi⟩ := getSx_gives 1
  obtain ⟨Y, hY, hYi⟩ := getSy_gives 1
  obtain ⟨-, a1⟩ := averages_all F p1 p5 (X := sxM 1) (Y := sxM 1) hXi hXi
  obtain ⟨-, a2⟩ := averages_all F p1 p5 (X := syM 1) (Y := syM 1) hYi hYi
  obtain ⟨-, a3⟩ := averages_all F p1 p5 (X := szM 1) (Y := szM 1) (getSz_is 1) (getSz_is 1)
  have rx : ∀ i j : Fin n, ((jx i j).re : ℂ) = jx i j := fun i j => Complex.conj_eq_iff_re.1 (hr.jx i j)
  have e : spinHam F = heis (sxM 1) (syM 1) (szM 1) (fun i j : Fin n => ((jx i j).re : ℂ)) (fun i j : Fin n => ((jx i j).re : ℂ))
      (fun i j : Fin n => ((jx i j).re : ℂ)) (fun _ => 0) (fun _ => 0) (fun _ => 0) := by
    refine heis_congr _ _ _ (fun i j _ => (rx i j).symm) (fun i j h => ?_) (fun i j h => ?_) (fun i => ha.hx i i.2) (fun i => ha.hy i i.2) fun i => ha.hz i i.2
    · rw [rx]
      exact (ha.j i i.2 j h).symm
    · rw [rx]
      exact (ha.jz i i.2 j h).symm
  have exy : (fun (i j : Fin F.nsites) (T : ℝ) => canonical T E fun k => (expect (siteOp (sxM 1) i * siteOp (sxM 1) j) (colOf V k)).re) =
      fun i j T => canonical T E fun k => (expect (siteOp (syM 1) i * siteOp (syM 1) j) (colOf V k)).re := by
    funext i j T
    refine canonical_of_avg p2 p3 p4 (fun T => ?_) T
    change thermalAvg (spinHam F) _ T = thermalAvg (spinHam F) _ T
    rw [e]
    exact axial_avg _ _ _ i j T
  have eyz : (fun (i j : Fin F.nsites) (T : ℝ) => canonical T E fun k => (expect (siteOp (syM 1) i * siteOp (syM 1) j) (colOf V k)).re) =
      fun i j T => canonical T E fun k => (expect (siteOp (szM 1) i * siteOp (szM 1) j) (colOf V k)).re := by
    funext i j T
    refine canonical_of_avg p2 p3 p4 (fun T => ?_) T
    change thermalAvg (spinHam F) _ T = thermalAvg (spinHam F) _ T
    rw [e]
    exact isotropic_avg _ i j T
  refine ⟨A, _, M, X, Y, _, hA, p0, hX, hY, a1, by rw [exy]; exact a2, by rw [exy, eyz]; exact a3, fun i j hij T hT => ?_⟩
  have hl : Linked F i j → Relation.ReflTransGen (fun i j : Fin n => (j < i ∧ (jx i j).re ≠ 0) ∨ (i < j ∧ (jx j i).re ≠ 0)) i j := fun h => by
    refine Relation.ReflTransGen.mono (fun a b h => ?_) _ _ h
    have hne : ∀ a b : Fin n, jx a b ≠ 0 → (jx a b).re ≠ 0 := fun a b h e => h (by rw [← rx, e, Complex.ofReal_zero])
    exact h.imp (fun h => ⟨h.1, hne _ _ h.2⟩) fun h => ⟨h.1, hne _ _ h.2⟩
  have := planar_sign (fun i j : Fin n => (jx i j).re) _ _ c hc hH e p2 p3 p4 hij hT
  exact ⟨this.1, this.2.1, fun hT h => this.2.2 hT (hl h)⟩

end

/-! ## Examples -/

/-- An antiferromagnetic chain of four spins. -/
def fourSpins : Spins := ⟨4, 1, fun i j => if i = j + 1 then 1 else 0, fun i j => if i = j + 1 then 1 else 0, fun i j => if i = j + 1 then 1 else 0,
  fun _ => 0, fun _ => 0, fun _ => 0⟩

/-- The spins at the two ends of the chain are antiparallel, at every positive temperature. -/
example (S : EigSolvers) (hS : EigContract S) : ∃ A w M, fourSpins.createH none = .ok A ∧ diagList S A = .ok (w, M) ∧
    ∀ T : ℝ, 0 < T → ∃ x < 0, thermalCorrSites fourSpins.sys M w 0 0 (getSz 1) (getSz 1) [T] (some [(0, 3)]) none "boson" = .ok ([[x]], [(0, 3)]) := by
  obtain ⟨A, w, M, X, Y, x, h1, h2, h3, h4, h6, h7, h8, h9⟩ := C148_isotropic S hS fourSpins rfl
    (by constructor <;> intros <;> simp only [fourSpins] <;> (try split_ifs) <;> simp)
    ⟨⟨fun _ _ _ _ => rfl, fun _ _ => rfl, fun _ _ => rfl⟩, fun _ _ _ _ => rfl, fun _ _ => rfl⟩ (c := fun i => decide ((i : ℕ) % 2 = 0)) (fun i j hij => by
      simp only [fourSpins, decide_eq_decide]
      split_ifs with h
      · refine ⟨fun h' => ?_, fun _ => by simp⟩
        omega
      · simp)
  refine ⟨A, w, M, h1, h2, fun T hT => ⟨x ⟨0, by decide⟩ ⟨3, by decide⟩ T, ?_, ?_⟩⟩
  · obtain ⟨-, a2, a3⟩ := h9 ⟨0, by decide⟩ ⟨3, by decide⟩ (by decide) T hT.le
    refine lt_of_le_of_ne (a2 (by decide)) (a3 hT ?_)
    have step : ∀ k (hk : k + 1 < 4), Linked fourSpins ⟨k, Nat.lt_of_succ_lt hk⟩ ⟨k + 1, hk⟩ := fun k hk =>
      .single (.inr ⟨by simp [Fin.lt_def], by simp [fourSpins]⟩)
    exact ((step 0 (by decide)).trans (step 1 (by decide))).trans (step 2 (by decide))
  · exact h8 [T] (by simpa using Or.inl hT.ne') [(⟨0, by decide⟩, ⟨3, by decide⟩)] (by decide)

end ED.Props
