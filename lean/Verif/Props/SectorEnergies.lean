import Verif.Props.Translation
import Verif.Lemmas.MomentumSectors
import Verif.Lemmas.XformGroup
import Verif.Props.NumberSectors
import Verif.Spec.Sectors

/-! # Property C116: energies from symmetry sectors -/

namespace ED.Props

open Matrix Spec

variable {d : ℕ} {H : Matrix (Fin d) (Fin d) ℂ}

/-- The sectors of two commuting translations are close to exact sectors of every Hamiltonian with both symmetries. -/
theorem translations_near (hd : 0 < d) {T1 T2 : Matrix (Fin d) (Fin d) ℂ} (h1 : PhasePermutation T1)
    (h2 : PhasePermutation T2) (hcomm : T1 * T2 = T2 * T1) {n1 n2 : ℕ} (hn1 : 0 < n1) (hn1' : n1 < 10 ^ 4)
    (hn2 : 0 < n2) (hn2' : n2 < 38) (hp1 : T1 ^ n1 = 1) (hp2 : T2 ^ n2 = 1) (hc1 : T1 * H = H * T1) (hc2 : T2 * H = H * T2) :
    ∃ projs k1 k2, get2DTranslationProjectors T1 n1 T2 n2 = .ok (projs, k1, k2) ∧ NearSectors projs H (9 / 10 ^ 12) := by
  obtain ⟨L, g1, g2, g3, g4, -, -, -, -, g5⟩ := translation_sectors hd h1 h2 hcomm hn1 hn1' hn2 hn2' hp1 hp2
  refine ⟨_, _, _, g1, ?_⟩
  refine NearSectors.of_eigen (syms := [T1, T2]) (ω := fun s : Sector d => [omega n1 s.q, omega n2 s.p]) g3.of_map
    (fun s hs => (g2 s hs).2.2) (fun s hs => g5 s hs) (fun _ _ => rfl) (fun s _ z hz => ?_) (fun s hs t ht hst e => hst ?_) (fun V hV => ?_) g4
  · simp only [List.mem_cons, List.not_mem_nil, or_false] at hz
    rcases hz with rfl | rfl <;> exact omega_norm _ _
  · simp only [List.cons.injEq, and_true] at e
    refine List.inj_on_of_nodup_map g3 hs ht ?_
    rw [omega_inj hn1.ne' (g2 s hs).1 (g2 t ht).1 e.1, omega_inj hn2.ne' (g2 s hs).2.1 (g2 t ht).2.1 e.2]
  · simp only [List.mem_cons, List.not_mem_nil, or_false] at hV
    rcases hV with rfl | rfl
    · exact ⟨phase_unitary h1, hc1⟩
    · exact ⟨phase_unitary h2, hc2⟩

variable (S : EigSolvers) (hS : EigContract S) (hd : 0 < d) {C : ℝ} (hC : NormLe H C) (hH : H.IsHermitian) {A : Mat} (hA : A.Is H)
include hS hd hC hH hA

/-- C116, one symmetry: the energies that are found in the sectors of `getZnProjectors`, without the empty ones, are the
energies of the whole Hamiltonian, up to the rounding of the characters. -/
theorem C116_cyclic_partial {U : Matrix (Fin d) (Fin d) ℂ} (hU : PhasePermutation U) {n : ℕ} (hn : 0 < n) (hn' : n < 10 ^ 4)
    (hp : U ^ n = 1) (hc : U * H = H * U) :
    ∃ projs ks E x, getZnProjectors U n = .ok (projs, ks) ∧
      sectorEigs S A ((projs.filter fun Q => decide (Q.length ≠ 0)).map rowsMat) = .ok E ∧ NearSpectrum E H (C / 10 ^ 13) ∧
      maxDiff S A ((projs.filter fun Q => decide (Q.length ≠ 0)).map rowsMat) = .ok x ∧ x ≤ C / 10 ^ 13 := by
  obtain ⟨projs, h1, h2⟩ := zn_near hU hn hn' hp hc
  obtain ⟨E, x, h5, h6, h3, h4⟩ := near_maxDiff S hS hd h2 (by norm_num) hC hH hA (forall₂_rowsOf _)
  suffices hle : _ ≤ C / 10 ^ 13 from ⟨projs, _, E, x, h1, h5, h6.mono hle, h3, h4.trans hle⟩
  have := hC.1
  have e : C * (3 * (1 / 10 ^ 14)) * (2 + 3 * (1 / 10 ^ 14)) = C * (3 * (1 / 10 ^ 14) * (2 + 3 * (1 / 10 ^ 14))) := by ring
  rw [e, div_eq_mul_one_div C]
  exact mul_le_mul_of_nonneg_left (by norm_num) this

/-- C116, two commuting symmetries. -/
theorem C116_translations_partial {T1 T2 : Matrix (Fin d) (Fin d) ℂ} (h1 : PhasePermutation T1)
    (h2 : PhasePermutation T2) (hcomm : T1 * T2 = T2 * T1) {n1 n2 : ℕ} (hn1 : 0 < n1) (hn1' : n1 < 10 ^ 4)
    (hn2 : 0 < n2) (hn2' : n2 < 38) (hp1 : T1 ^ n1 = 1) (hp2 : T2 ^ n2 = 1) (hc1 : T1 * H = H * T1) (hc2 : T2 * H = H * T2) :
    ∃ projs k1 k2 E x, get2DTranslationProjectors T1 n1 T2 n2 = .ok (projs, k1, k2) ∧
      sectorEigs S A (projs.map rowsMat) = .ok E ∧ NearSpectrum E H (2 * C / 10 ^ 11) ∧
      maxDiff S A (projs.map rowsMat) = .ok x ∧ x ≤ 2 * C / 10 ^ 11 := by
  obtain ⟨projs, k1, k2, g1, g2⟩ := translations_near (H := H) hd h1 h2 hcomm hn1 hn1' hn2 hn2' hp1 hp2 hc1 hc2
  obtain ⟨E, x, h5, h6, h3, h4⟩ := near_maxDiff S hS hd g2 (by norm_num) hC hH hA (forall₂_rowsOf _)
  suffices hle : _ ≤ 2 * C / 10 ^ 11 from ⟨projs, k1, k2, E, x, g1, h5, h6.mono hle, h3, h4.trans hle⟩
  have := hC.1
  have e : C * (9 / 10 ^ 12) * (2 + 9 / 10 ^ 12) = C * (9 / 10 ^ 12 * (2 + 9 / 10 ^ 12)) := by ring
  rw [e, show 2 * C / 10 ^ 11 = C * (2 / 10 ^ 11) by ring]
  exact mul_le_mul_of_nonneg_left (by norm_num) this

omit hS hd hC hH hA

/-! ## The Hubbard model -/

theorem foldl_max_mem (l : List ℝ) (a : ℝ) : l.foldl max a = a ∨ l.foldl max a ∈ l := by
  induction l generalizing a with
  | nil => exact Or.inl rfl
  | cons b l ih =>
    rw [List.foldl_cons]
    rcases ih (max a b) with h | h
    · rw [h]
      rcases max_choice a b with h' | h'
      · exact Or.inl h'
      · exact Or.inr (by rw [h']; exact List.mem_cons_self)
    · exact Or.inr (List.mem_cons_of_mem _ h)

theorem le_foldl_max (l : List ℝ) (a : ℝ) : a ≤ l.foldl max a ∧ ∀ x ∈ l, x ≤ l.foldl max a := by
  induction l generalizing a with
  | nil => exact ⟨le_rfl, by simp⟩
  | cons b l ih =>
    rw [List.foldl_cons]
    obtain ⟨h1, h2⟩ := ih (max a b)
    refine ⟨(le_max_left a b).trans h1, fun x hx => ?_⟩
    rcases List.mem_cons.1 hx with rfl | hx
    · exact (le_max_right a _).trans h1
    · exact h2 x hx

/-- C116: what the largest difference is. The energies of the sectors are put in order and compared one by one with the
energies of the whole system; the result bounds all distances, and is one of them. -/
theorem C116_difference (S : EigSolvers) (A : Mat) (Ms : List Mat) {w E : List ℝ} {V : Mat} (hw : diagList S A = .ok (w, V))
    (hE : sectorEigs S A Ms = .ok E) :
    (E.length ≠ w.length → maxDiff S A Ms = .error .value) ∧
    (E.length = w.length → ∃ (x : ℝ) (l : List ℝ), maxDiff S A Ms = .ok x ∧ l.Perm E ∧ l.Pairwise (· ≤ ·) ∧
      (∀ (k : ℕ) (a b : ℝ), l[k]? = some a → w[k]? = some b → |a - b| ≤ x) ∧
      (w ≠ [] → ∃ (k : ℕ) (a b : ℝ), l[k]? = some a ∧ w[k]? = some b ∧ x = |a - b|)) := by
  unfold maxDiff
  rw [hw, hE]
  simp only [bind, Except.bind, List.length_mergeSort]
  constructor
  · intro h
    rw [if_pos h]
    rfl
  · intro h
    rw [if_neg (not_not.2 h)]
    obtain ⟨l, hl⟩ : ∃ l, l = E.mergeSort fun a b => decide (a ≤ b) := ⟨_, rfl⟩
    have hlen : l.length = w.length := by rw [hl, List.length_mergeSort, h]
    refine ⟨(List.zipWith (fun a b => |a - b|) l w).foldl max 0, l, by rw [hl]; rfl, ?_, ?_, fun k a b ha hb => ?_, fun hne => ?_⟩
    · rw [hl]
      exact List.mergeSort_perm _ _
    · rw [hl]
      have := List.pairwise_mergeSort (le := fun a b : ℝ => decide (a ≤ b)) (by simpa using fun a b c => le_trans)
        (by simpa using fun a b => le_total a b) E
      simpa using this
    · refine (le_foldl_max _ 0).2 _ (List.mem_iff_getElem?.2 ⟨k, ?_⟩)
      rw [List.getElem?_zipWith, ha, hb]
    · rcases foldl_max_mem (List.zipWith (fun a b => |a - b|) l w) 0 with h0 | h0
      · have hpos : 0 < w.length := List.length_pos_iff.2 hne
        have e1 : l[0]? = some l[0] := List.getElem?_eq_getElem (by omega)
        have e2 : w[0]? = some w[0] := List.getElem?_eq_getElem hpos
        refine ⟨0, _, _, e1, e2, le_antisymm ?_ ?_⟩
        · rw [h0]
          exact abs_nonneg _
        · refine (le_foldl_max _ 0).2 _ (List.mem_iff_getElem?.2 ⟨0, ?_⟩)
          rw [List.getElem?_zipWith, e1, e2]
      · exact zipWith_mem h0

/-- Sorting the modes differently does not change the number of particles of a species. -/
theorem speciesCount_perm {nsites nspecies : ℕ} (f : Fin nspecies → Equiv.Perm (Fin nsites)) (t : Conf (nsites * nspecies) 2)
    (s : Fin nspecies) : speciesCount (fun m => t ((modePerm f).symm m)) s = speciesCount t s := by
  unfold speciesCount
  have e : ∀ i, (modePerm f).symm (mode i s) = mode ((f s).symm i) s := by
    intro i
    rw [Equiv.symm_apply_eq, modePerm_mode, Equiv.apply_symm_apply]
  have : (Finset.univ.filter fun i : Fin nsites => t ((modePerm f).symm (mode i s)) = 1) =
      (Finset.univ.filter fun i : Fin nsites => t (mode i s) = 1).map (f s).toEmbedding := by
    ext i
    simp [e]
  rw [this, Finset.card_map]

theorem SignedPermutation.phase {U : Matrix (Fin d) (Fin d) ℂ} (h : SignedPermutation U) : PhasePermutation U := by
  obtain ⟨σ, u, hu, he⟩ := h
  exact ⟨σ, u, fun i => by rcases hu i with h | h <;> rw [h] <;> simp, he⟩

theorem is_asMatrix {N : ℕ} {M : Mat} {O : Op N 2} (h : M.Is O) : M.Is (asMatrix M (2 ^ N)) :=
  ⟨by rw [h.1]; simp, by rw [h.2.1]; simp, fun _ _ => rfl⟩

/-- The translation operators of the script. -/
theorem translation_is (F : Fermions) {π : Equiv.Perm (Fin F.nsites)} {cycles : List (List (Fin F.nsites))} (hc : CyclesOf cycles π) :
    ∃ (M : Mat) (U : Op (F.nsites * F.nspecies) 2), F.translation (siteNumbers cycles) = .ok M ∧ M.Is U ∧
      MovesFermions (nsites := F.nsites) (nspecies := F.nspecies) U (fun _ => π) := by
  obtain ⟨v, U, h1, h2, h3⟩ := C11_xform_fermions F.sys rfl cycles π hc
  change Op (F.nsites * F.nspecies) 2 at U
  have hE : (Mat.eye F.sys.nstates).Is (1 : Op (F.nsites * F.nspecies) 2) := Mat.is_eye (by simp [Sys.nstates, Fermions.sys])
  obtain ⟨a, a1, a2⟩ := Val.Is.mul (v := .mat (Mat.eye F.sys.nstates)) hE h2
  obtain ⟨b, b1, b2⟩ := Val.Is.mul (w := .mat (Mat.eye F.sys.nstates).dagger) a2 hE.dagger
  rw [Matrix.one_mul, conjTranspose_one, Matrix.mul_one] at b2
  cases b with
  | num z =>
    exfalso
    cases a with
    | num z => cases v <;> simp [Val.mul, Except.map] at a1 <;> split at a1 <;> simp at a1
    | mat A =>
      simp only [Val.mul] at b1
      cases hm : A.mul (Mat.eye F.sys.nstates).dagger with
      | ok x => rw [hm] at b1; simp [Except.map] at b1
      | error x => rw [hm] at b1; simp [Except.map] at b1
  | mat B =>
    refine ⟨B, U, ?_, b2, h3⟩
    unfold Fermions.translation Fermions.nProjector
    simp only [pure, Except.pure, bind, Except.bind, h1, a1, b1, Val.tocsr]

theorem asMatrix_reindex {N : ℕ} {M : Mat} {U : Op N 2} (h : M.Is U) :
    asMatrix M (2 ^ N) = U.submatrix (ED.numEquiv N).symm (ED.numEquiv N).symm := asMatrix_is h

theorem hermitian_asMatrix {N : ℕ} {M : Mat} {U : Op N 2} (h : M.Is U) (hU : U.IsHermitian) : (asMatrix M (2 ^ N)).IsHermitian := by
  rw [asMatrix_reindex h]
  exact hU.submatrix _

theorem normLe_asMatrix {N : ℕ} {M : Mat} {U : Op N 2} (h : M.Is U) {C : ℝ} (hU : NormLe U C) : NormLe (asMatrix M (2 ^ N)) C := by
  refine ⟨hU.1, fun v => ?_⟩
  rw [asMatrix_reindex h]
  have := hU.2 (v ∘ ED.numEquiv N)
  have e1 : ∀ f : Conf N 2 → ℝ, ∑ s, f s = ∑ j, f ((ED.numEquiv N).symm j) := fun f => (Equiv.sum_comp (ED.numEquiv N).symm f).symm
  have e2 : ∀ f : Conf N 2 → ℂ, ∑ s, f s = ∑ j, f ((ED.numEquiv N).symm j) := fun f => (Equiv.sum_comp (ED.numEquiv N).symm f).symm
  rw [e1, e1] at this
  simp only [vecMul, dotProduct, e2, Function.comp, Equiv.apply_symm_apply] at this
  exact this

theorem nearSpectrum_asMatrix {N : ℕ} {M : Mat} {U : Op N 2} (h : M.Is U) {E : List ℝ} {ε : ℝ}
    (hE : NearSpectrum E (asMatrix M (2 ^ N)) ε) : NearSpectrum E U ε := by
  obtain ⟨n, a, b, V, h1, h2, h3, h4, h5⟩ := hE
  have e : U = (asMatrix M (2 ^ N)).submatrix (ED.numEquiv N) (ED.numEquiv N) := by
    rw [asMatrix_reindex h, submatrix_submatrix]
    simp
  refine ⟨n, a, b, V.submatrix (ED.numEquiv N) id, h1, ?_, ?_, ?_, h5⟩
  · rw [conjTranspose_submatrix, submatrix_mul_equiv, h2, submatrix_id_id]
  · rw [conjTranspose_submatrix, ← submatrix_mul _ _ _ _ _ Function.bijective_id, h3, submatrix_one_equiv]
  · rw [e, submatrix_mul_equiv, h4, submatrix_mul _ _ _ _ _ Function.bijective_id, submatrix_id_id]

/-- Every operator has a bound of its norm. -/
theorem normLe_frobenius {ι : Type} [Fintype ι] (O : Matrix ι ι ℂ) : NormLe O (Real.sqrt (∑ i, ∑ j, ‖O i j‖ ^ 2)) := by
  refine ⟨Real.sqrt_nonneg _, fun v => ?_⟩
  rw [Real.sq_sqrt (Finset.sum_nonneg fun _ _ => Finset.sum_nonneg fun _ _ => by positivity), Finset.sum_comm, Finset.sum_mul]
  refine Finset.sum_le_sum fun j _ => ?_
  calc ‖(v ᵥ* O) j‖ ^ 2 ≤ (∑ i, ‖v i‖ * ‖O i j‖) ^ 2 := by
        refine pow_le_pow_left₀ (norm_nonneg _) ((norm_sum_le _ _).trans (le_of_eq ?_)) 2
        exact Finset.sum_congr rfl fun i _ => norm_mul _ _
    _ ≤ (∑ i, ‖v i‖ ^ 2) * ∑ i, ‖O i j‖ ^ 2 := Finset.sum_mul_sq_le_sq_mul_sq _ _ _
    _ = _ := mul_comm _ _

/-- The sectors of `measure_hubbard.py` are close to exact sectors of the Hamiltonian. -/
theorem hubbard_near (F : Fermions) (hn : 0 < F.nsites) (u d : Fin F.nspecies)
    (hu : (u : ℕ) = 0) (hd : (d : ℕ) = 1) (hr : RealParams F) (hb : FermionBonds F) {πx πy : Equiv.Perm (Fin F.nsites)}
    (hπ : πx * πy = πy * πx) (ix : FermionInvariant F πx) (iy : FermionInvariant F πy) {cx cy : List (List (Fin F.nsites))}
    (hx : CyclesOf cx πx) (hy : CyclesOf cy πy) {nx ny : ℕ} (hnx : 0 < nx) (hnx' : nx < 10 ^ 4) (hny : 0 < ny) (hny' : ny < 38)
    (px : πx ^ nx = 1) (py : πy ^ ny = 1) :
    ∃ L A projs, ∃ H : Op (F.nsites * F.nspecies) 2, momentumSectors F (siteNumbers cx) (siteNumbers cy) nx ny = .ok L ∧
      (L.map fun x => (x.1, x.2.1)).Nodup ∧
      (∀ x ∈ L, ∃ a b q p : ℕ, a ≤ F.nsites ∧ b ≤ F.nsites ∧ q < nx ∧ p < ny ∧ x.1 = ((a : ℂ), (b : ℂ)) ∧
        x.2.1 = (2 * Real.pi * (q : ℝ) / (nx : ℝ), 2 * Real.pi * (p : ℝ) / (ny : ℝ))) ∧
      F.createH none = .ok A ∧ A.Is H ∧ H.IsHermitian ∧ List.Forall₂ RowsOf (L.map fun x => x.2.2) projs ∧
      NearSectors projs (asMatrix A (2 ^ (F.nsites * F.nspecies))) (9 / 10 ^ 12) := by
  have hI : InterOk F := Or.inl (by have := d.2; omega)
  obtain ⟨H, ⟨A, hA1, hA2⟩, hcons⟩ := C26_number_conservation F hI
  obtain ⟨MX, UX, x1, x2, x3⟩ := translation_is F hx
  obtain ⟨MY, UY, y1, y2, y3⟩ := translation_is F hy
  obtain ⟨L, s1, s2, s3, s4⟩ := C115_sectors F hn u d hu hd
  have comm : ∀ {π : Equiv.Perm (Fin F.nsites)} {c : List (List (Fin F.nsites))} {U : Op (F.nsites * F.nspecies) 2},
      CyclesOf c π → FermionInvariant F π → MovesFermions (nsites := F.nsites) (nspecies := F.nspecies) U (fun _ => π) →
      U * H = H * U := by
    intro π c U hc hi hm
    obtain ⟨v, U', H', h1, h2, ⟨A', h3, h4⟩, h5⟩ := C13_fermions F hI π c hc hb.hop hi.hop hb.same hi.same hi.inter hi.pot
    obtain ⟨v', U'', g1, g2, g3⟩ := C11_xform_fermions F.sys rfl c π hc
    rw [h1] at g1
    injection g1 with e
    subst e
    rw [hA1] at h3
    injection h3 with e
    subst e
    have e1 : U' = U'' := by
      cases v with
      | num z => exact Eq.trans h2 (Eq.symm g2)
      | mat M => exact Mat.Is.ext h2 g2
    have e2 : U'' = U := (MovesFermions.unique (nsites := F.nsites) (nspecies := F.nspecies) g3 hm)
    rw [hA2.ext h4, ← e2, ← e1]
    exact h5
  have hcx := comm hx ix x3
  have hcy := comm hy iy y3
  have hpow : ∀ {π : Equiv.Perm (Fin F.nsites)} {U : Op (F.nsites * F.nspecies) 2} {k : ℕ},
      MovesFermions (nsites := F.nsites) (nspecies := F.nspecies) U (fun _ => π) → π ^ k = 1 → U ^ k = 1 := by
    intro π U k hm hk
    refine (faithful_fermions F.nsites F.nspecies).unique _ _ 1 ?_ (faithful_fermions F.nsites F.nspecies).one
    have := (faithful_fermions F.nsites F.nspecies).pow hm k
    rwa [hk] at this
  have hxy : UX * UY = UY * UX := by
    have h1 := (faithful_fermions F.nsites F.nspecies).mul _ _ _ _ x3 y3
    have h2 := (faithful_fermions F.nsites F.nspecies).mul _ _ _ _ y3 x3
    rw [← hπ] at h2
    exact (faithful_fermions F.nsites F.nspecies).unique _ _ _ h1 h2
  obtain ⟨lab, hlab⟩ : ∃ lab : Fin (2 ^ (F.nsites * F.nspecies)) → ℂ × ℂ, lab = fun j =>
    ((speciesCount (nsites := F.nsites) (nspecies := F.nspecies) ((ED.numEquiv (F.nsites * F.nspecies)).symm j) u : ℂ),
      (speciesCount (nsites := F.nsites) (nspecies := F.nspecies) ((ED.numEquiv (F.nsites * F.nspecies)).symm j) d : ℂ)) := ⟨_, rfl⟩
  have hidx : ∀ (j : Fin (2 ^ (F.nsites * F.nspecies))) (t : Conf (F.nsites * F.nspecies) 2), idx t = j ↔ t = (ED.numEquiv (F.nsites * F.nspecies)).symm j := by
    intro j t
    rw [Equiv.eq_symm_apply, Fin.ext_iff]
    rfl
  -- operators that keep the numbers of particles
  have keepU : ∀ {π : Equiv.Perm (Fin F.nsites)} {U : Op (F.nsites * F.nspecies) 2} {M : Mat}, M.Is U →
      MovesFermions (nsites := F.nsites) (nspecies := F.nspecies) U (fun _ => π) →
      ∀ i j, lab i ≠ lab j → asMatrix M (2 ^ (F.nsites * F.nspecies)) i j = 0 := by
    intro π U M hM hm i j hij
    have e0 : asMatrix M (2 ^ (F.nsites * F.nspecies)) i j = U ((ED.numEquiv (F.nsites * F.nspecies)).symm i) ((ED.numEquiv (F.nsites * F.nspecies)).symm j) := by
      rw [asMatrix_reindex hM]
      rfl
    rw [e0, ← mulVec_ket U]
    obtain ⟨e, -, he⟩ := hm.signed ((ED.numEquiv (F.nsites * F.nspecies)).symm j)
    rw [he, Pi.smul_apply, ket, smul_eq_mul, if_neg, mul_zero]
    intro h0
    apply hij
    simp only [hlab]
    rw [h0, speciesCount_perm, speciesCount_perm]
  have keepH : ∀ i j, lab i ≠ lab j → asMatrix A (2 ^ (F.nsites * F.nspecies)) i j = 0 := by
    intro i j hij
    rw [asMatrix_reindex hA2, submatrix_apply]
    by_cases hcu : speciesCount (nsites := F.nsites) (nspecies := F.nspecies) ((ED.numEquiv (F.nsites * F.nspecies)).symm i) u =
        speciesCount (nsites := F.nsites) (nspecies := F.nspecies) ((ED.numEquiv (F.nsites * F.nspecies)).symm j) u
    · obtain ⟨-, -, -, h⟩ := hcons d hn
      refine h _ _ fun hcd => hij ?_
      simp only [hlab, hcu, hcd]
    · obtain ⟨-, -, -, h⟩ := hcons u hn
      exact h _ _ hcu
  have hT : Translations (asMatrix MX (2 ^ (F.nsites * F.nspecies))) (asMatrix MY (2 ^ (F.nsites * F.nspecies))) (asMatrix A (2 ^ (F.nsites * F.nspecies))) nx ny :=
    { first := SignedPermutation.phase (x3.signed.permutation x2)
      second := SignedPermutation.phase (y3.signed.permutation y2)
      comm := (commute_asMatrix x2 y2 hxy.symm)
      pos1 := hnx
      small1 := hnx'
      pos2 := hny
      small2 := hny'
      pow1 := by rw [asMatrix_is x2, ← map_pow, hpow x3 px, map_one]
      pow2 := by rw [asMatrix_is y2, ← map_pow, hpow y3 py, map_one]
      comm1 := (commute_asMatrix hA2 x2 hcx).symm
      comm2 := (commute_asMatrix hA2 y2 hcy).symm }
  obtain ⟨ls, projs, g1, g2, g3, g4, g5⟩ := momentum_all hT (is_asMatrix x2) (is_asMatrix y2) (keepU x2 x3) (keepU y2 y3) keepH L s2
    (fun z => by
      rw [s3]
      constructor
      · rintro ⟨a, b, ha, hb, rfl⟩
        obtain ⟨t, ht⟩ := exists_counts (nspecies := F.nspecies) (fun s => if s = u then a else b) (fun s => by split_ifs <;> assumption)
        have hne : d ≠ u := fun h => by rw [h, hu] at hd; omega
        refine ⟨ED.numEquiv (F.nsites * F.nspecies) t, ?_⟩
        simp only [hlab, Equiv.symm_apply_apply]
        rw [ht, ht, if_pos rfl, if_neg hne]
      · rintro ⟨j, rfl⟩
        exact ⟨_, _, speciesCount_le _ _, speciesCount_le _ _, by rw [hlab]⟩)
    (fun s hs => (s4 s hs).congr fun j => by
      simp only [hlab]
      constructor
      · intro h
        exact h _ ((hidx j _).2 rfl)
      · intro h t ht
        rw [(hidx j t).1 ht]
        exact h)
  refine ⟨ls.flatten, A, projs, H, ?_, g4, fun x hx => ?_, hA1, hA2, ?_, g2, g3⟩
  · unfold momentumSectors
    simp only [x1, y1, s1, g1, bind, Except.bind]
    rfl
  · obtain ⟨h1, q, p, hq, hp, e⟩ := g5 x hx
    obtain ⟨a, b, ha, hb, e'⟩ := (s3 _).1 h1
    exact ⟨a, b, q, p, ha, hb, hq, hp, e', e⟩
  · obtain ⟨H', ⟨A', hA1', hA2'⟩, hiff⟩ := C25_hermitian_iff F hI hr.us hr.same hr.mus hr.pots
    rw [hA1] at hA1'
    injection hA1' with e
    rw [← e] at hA2'
    rw [hA2.ext hA2']
    exact hiff.2 fun i j s _ => Or.inl (hr.ts i j s)

/-- C116 for the Hubbard model: the sectors of particle numbers and momenta of `measure_hubbard.py`. If two commuting
permutations of the sites do not change the parameters of the model, the script makes from their cycles one projector for
each combination of particle numbers and momenta that occurs, and the energies found with these projectors are those of the
whole Hamiltonian, up to rounding. -/
theorem C116_hubbard_partial (S : EigSolvers) (hS : EigContract S) (F : Fermions) (hn : 0 < F.nsites) (u d : Fin F.nspecies)
    (hu : (u : ℕ) = 0) (hd : (d : ℕ) = 1) (hr : RealParams F) (hb : FermionBonds F) {πx πy : Equiv.Perm (Fin F.nsites)}
    (hπ : πx * πy = πy * πx) (ix : FermionInvariant F πx) (iy : FermionInvariant F πy) {cx cy : List (List (Fin F.nsites))}
    (hx : CyclesOf cx πx) (hy : CyclesOf cy πy) {nx ny : ℕ} (hnx : 0 < nx) (hnx' : nx < 10 ^ 4) (hny : 0 < ny) (hny' : ny < 38)
    (px : πx ^ nx = 1) (py : πy ^ ny = 1) :
    ∃ L A, ∃ H : Op (F.nsites * F.nspecies) 2, momentumSectors F (siteNumbers cx) (siteNumbers cy) nx ny = .ok L ∧
      (L.map fun x => (x.1, x.2.1)).Nodup ∧
      (∀ x ∈ L, ∃ a b q p : ℕ, a ≤ F.nsites ∧ b ≤ F.nsites ∧ q < nx ∧ p < ny ∧ x.1 = ((a : ℂ), (b : ℂ)) ∧
        x.2.1 = (2 * Real.pi * (q : ℝ) / (nx : ℝ), 2 * Real.pi * (p : ℝ) / (ny : ℝ))) ∧
      F.createH none = .ok A ∧ A.Is H ∧ ∀ C, NormLe H C →
        ∃ E x, sectorEigs S A (L.map fun x => x.2.2) = .ok E ∧ NearSpectrum E H (2 * C / 10 ^ 11) ∧
          maxDiff S A (L.map fun x => x.2.2) = .ok x ∧ x ≤ 2 * C / 10 ^ 11 := by
  obtain ⟨L, A, projs, H, h1, h2, h3, hA1, hA2, hH, g2, g3⟩ := hubbard_near F hn u d hu hd hr hb hπ ix iy hx hy hnx hnx' hny hny' px py
  refine ⟨L, A, H, h1, h2, h3, hA1, hA2, fun C hC => ?_⟩
  obtain ⟨E, x, h5, h6, h3, h4⟩ := near_maxDiff S hS (by positivity) g3 (by norm_num) (normLe_asMatrix hA2 hC)
    (hermitian_asMatrix hA2 hH) (is_asMatrix hA2) g2
  suffices hle : _ ≤ 2 * C / 10 ^ 11 from ⟨E, x, h5, (nearSpectrum_asMatrix hA2 h6).mono hle, h3, h4.trans hle⟩
  have := hC.1
  have e : C * (9 / 10 ^ 12) * (2 + 9 / 10 ^ 12) = C * (9 / 10 ^ 12 * (2 + 9 / 10 ^ 12)) := by ring
  rw [e, show 2 * C / 10 ^ 11 = C * (2 / 10 ^ 11) by ring]
  exact mul_le_mul_of_nonneg_left (by norm_num) this

/-- The hypotheses of `C116_cyclic_partial` and `C116_translations_partial` are met by a particle on a two by two lattice. -/
example (S : EigSolvers) (hS : EigContract S) (T1 T2 : Matrix (Fin 4) (Fin 4) ℂ)
    (e1 : T1 = Matrix.of ![![0, 1, 0, 0], ![1, 0, 0, 0], ![0, 0, 0, 1], ![0, 0, 1, 0]])
    (e2 : T2 = Matrix.of ![![0, 0, 1, 0], ![0, 0, 0, 1], ![1, 0, 0, 0], ![0, 1, 0, 0]]) (A : Mat) (hA : A.Is (T1 + T2)) :
    (∃ projs ks x C, getZnProjectors T1 2 = .ok (projs, ks) ∧
      maxDiff S A ((projs.filter fun Q => decide (Q.length ≠ 0)).map rowsMat) = .ok x ∧ x ≤ C / 10 ^ 13) ∧
    ∃ projs k1 k2 x C, get2DTranslationProjectors T1 2 T2 2 = .ok (projs, k1, k2) ∧
      maxDiff S A (projs.map rowsMat) = .ok x ∧ x ≤ 2 * C / 10 ^ 11 := by
  have p1 : PhasePermutation T1 := ⟨Equiv.swap 0 1 * Equiv.swap 2 3, fun _ => 1, by simp, by
    subst e1
    intro i j
    fin_cases i <;> fin_cases j <;> simp [Equiv.swap_apply_def]⟩
  have p2 : PhasePermutation T2 := ⟨Equiv.swap 0 2 * Equiv.swap 1 3, fun _ => 1, by simp, by
    subst e2
    intro i j
    fin_cases i <;> fin_cases j <;> simp [Equiv.swap_apply_def]⟩
  have hc : T1 * T2 = T2 * T1 := by
    subst e1 e2
    ext i j
    fin_cases i <;> fin_cases j <;> simp [Matrix.mul_apply, Fin.sum_univ_four]
  have q1 : T1 ^ 2 = 1 := by
    subst e1
    rw [pow_two]
    ext i j
    fin_cases i <;> fin_cases j <;> simp [Matrix.mul_apply, Fin.sum_univ_four, Matrix.one_apply]
  have q2 : T2 ^ 2 = 1 := by
    subst e2
    rw [pow_two]
    ext i j
    fin_cases i <;> fin_cases j <;> simp [Matrix.mul_apply, Fin.sum_univ_four, Matrix.one_apply]
  have hH : (T1 + T2).IsHermitian := by
    subst e1 e2
    ext i j
    fin_cases i <;> fin_cases j <;> simp
  have c1 : T1 * (T1 + T2) = (T1 + T2) * T1 := by rw [mul_add, add_mul, hc]
  have c2 : T2 * (T1 + T2) = (T1 + T2) * T2 := by rw [mul_add, add_mul, hc]
  refine ⟨?_, ?_⟩
  · obtain ⟨projs, ks, E, x, h1, -, -, h2, h3⟩ := C116_cyclic_partial S hS (by norm_num) (normLe_frobenius _) hH hA p1 (n := 2) (by norm_num)
      (by norm_num) q1 c1
    exact ⟨projs, ks, x, _, h1, h2, h3⟩
  · obtain ⟨projs, k1, k2, E, x, h1, -, -, h2, h3⟩ := C116_translations_partial S hS (by norm_num) (normLe_frobenius _) hH hA p1 p2 hc (n1 := 2) (n2 := 2)
      (by norm_num) (by norm_num) (by norm_num) (by norm_num) q1 q2 c1 c2
    exact ⟨projs, k1, k2, x, _, h1, h2, h3⟩

end ED.Props
