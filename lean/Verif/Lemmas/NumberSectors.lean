import Verif.Model.HubbardScript
import Verif.Props.SectorThermo
import Verif.Lemmas.LabelSectors
import Verif.Lemmas.Sectors
import Verif.Props.States
import Mathlib.LinearAlgebra.Matrix.Charpoly.Coeff

/-! # Diagonalization in sectors -/

namespace ED

open Matrix

theorem Mat.Is.inSector {ι κ : Type} [Fintype ι] [Fintype κ] [Basis ι] [Basis κ] {P A : Mat} {X : Matrix κ ι ℂ}
    {O : Matrix ι ι ℂ} (hP : P.Is X) (hA : A.Is O) : ∃ B, ED.inSector P A = .ok B ∧ B.Is (X * O * Xᴴ) := by
  obtain ⟨B, h1, h2⟩ := hP.mul hA
  obtain ⟨C, h3, h4⟩ := h2.mul hP.dagger
  refine ⟨C, ?_, h4⟩
  unfold ED.inSector
  simp only [h1, bind, Except.bind, h3]

/-- Splitting a set of states by the values of a diagonal operator. -/
theorem split_sector {n b : ℕ} {R M : Mat} {p : Conf n b → Prop} {f : Conf n b → ℂ}
    (hR : R.Selects (b ^ n) fun j => ∀ t : Conf n b, idx t = j → p t) (hM : M.Is (diagonal f)) :
    ∃ d, inSector R M = .ok d ∧ (getSubspaceProjs d none).2.Nodup ∧
      (getSubspaceProjs d none).1.length = (getSubspaceProjs d none).2.length ∧
      (∀ v, v ∈ (getSubspaceProjs d none).2 ↔ ∃ t, p t ∧ f t = v) ∧
      ∀ x ∈ (getSubspaceProjs d none).2.zip (getSubspaceProjs d none).1, ∃ Q, x.2.mul R = .ok Q ∧
        Q.Selects (b ^ n) fun j => ∀ t : Conf n b, idx t = j → p t ∧ f t = x.1 := by
  have hR' := hR
  obtain ⟨hc, sel, hmono, hrange, hRe⟩ := hR
  have surj : ∀ j : Fin (b ^ n), ∃ t : Conf n b, idx t = j := fun j => by
    obtain ⟨t, ht⟩ := Basis.surj (ι := Conf n b) j (by simpa using j.isLt)
    exact ⟨t, ht⟩
  have hlt : ∀ t : Conf n b, idx t < b ^ n := fun t => by simpa using idx_lt t
  let Rm : Matrix (Fin R.rows) (Conf n b) ℂ := Matrix.of fun r t => if idx t = sel r then 1 else 0
  have hRm : R.Is Rm := by
    refine ⟨by simp, by rw [hc]; simp, fun r t => ?_⟩
    have := hRe r ⟨idx t, hlt t⟩
    rw [num_conf]
    refine this.trans ?_
    simp only [Rm, of_apply, Fin.ext_iff]
  obtain ⟨d, hd1, hd2⟩ := hRm.inSector hM
  have hdiag : ∀ (r : Fin R.rows) (t : Conf n b), idx t = sel r → d.e r r = f t := by
    intro r t ht
    refine (hd2.2.2 r r).trans ?_
    rw [mul_apply, Finset.sum_eq_single t]
    · rw [mul_diagonal]
      simp [Rm, ht, conjTranspose_apply]
    · intro t' _ ht'
      have : ¬ idx t' = sel r := fun e => ht' (idx_injective (e.trans ht.symm))
      simp [Rm, this]
    · simp
  have hdr : d.rows = R.rows := by simpa using hd2.1
  have hdc : d.cols = R.rows := by simpa using hd2.2.1
  obtain ⟨hlen, hsel⟩ := Props.C17_selects d R.rows hdr hdc none
  obtain ⟨hnd, hmem⟩ := Props.C17_default_values d R.rows hdr hdc
  refine ⟨d, hd1, hnd, hlen, fun v => ?_, fun x hx => ?_⟩
  · rw [hmem]
    constructor
    · rintro ⟨r, hr⟩
      obtain ⟨t, ht⟩ := surj (sel r)
      refine ⟨t, ?_, (hdiag r t ht).symm.trans hr⟩
      have : sel r ∈ Set.range sel := ⟨r, rfl⟩
      rw [hrange] at this
      exact this t ht
    · rintro ⟨t, h1, h2⟩
      have : (⟨idx t, hlt t⟩ : Fin (b ^ n)) ∈ Set.range sel := by
        rw [hrange]
        intro t' ht'
        rw [idx_injective ht']
        exact h1
      obtain ⟨r, hr⟩ := this
      exact ⟨r, (hdiag r t (by rw [hr])).trans h2⟩
  · obtain ⟨k, hk, rfl⟩ := List.getElem_of_mem hx
    rw [List.length_zip] at hk
    have hP := hsel k _ _ (List.getElem?_eq_getElem (by omega)) (List.getElem?_eq_getElem (by omega))
    obtain ⟨Q, hQ1, hQ2⟩ := Mat.Selects.comp hR' hP sel hRe
      (fun j => ∀ t : Conf n b, idx t = j → f t = (getSubspaceProjs d none).2[k]'(by omega)) (by
        intro r
        obtain ⟨t, ht⟩ := surj (sel r)
        rw [hdiag r t ht]
        refine ⟨fun h => h t ht, fun h t' ht' => ?_⟩
        rw [idx_injective (ht'.trans ht.symm)]
        exact h)
    refine ⟨Q, by rw [List.getElem_zip]; exact hQ1, hQ2.congr fun j => ?_⟩
    rw [List.getElem_zip]
    exact ⟨fun h t ht => ⟨h.1 t ht, h.2 t ht⟩, fun h => ⟨fun t ht => (h t ht).1, fun t ht => (h t ht).2⟩⟩

/-- Splitting all states by the values of a diagonal operator. -/
theorem split_all {n b : ℕ} {M : Mat} {f : Conf n b → ℂ} (hM : M.Is (diagonal f)) :
    (getSubspaceProjs M none).2.Nodup ∧ (getSubspaceProjs M none).1.length = (getSubspaceProjs M none).2.length ∧
      (∀ v, v ∈ (getSubspaceProjs M none).2 ↔ ∃ t, f t = v) ∧
      ∀ x ∈ (getSubspaceProjs M none).2.zip (getSubspaceProjs M none).1,
        x.2.Selects (b ^ n) fun j => ∀ t : Conf n b, idx t = j → f t = x.1 := by
  have surj : ∀ j : Fin (b ^ n), ∃ t : Conf n b, idx t = j := fun j => by
    obtain ⟨t, ht⟩ := Basis.surj (ι := Conf n b) j (by simpa using j.isLt)
    exact ⟨t, ht⟩
  have hlt : ∀ t : Conf n b, idx t < b ^ n := fun t => by simpa using idx_lt t
  have hdiag : ∀ (r : Fin (b ^ n)) (t : Conf n b), idx t = r → M.e r r = f t := by
    intro r t ht
    have := hM.2.2 t t
    rw [num_conf, ht, diagonal_apply_eq] at this
    exact this
  obtain ⟨hlen, hsel⟩ := Props.C17_selects M (b ^ n) (by simpa using hM.1) (by simpa using hM.2.1) none
  obtain ⟨hnd, hmem⟩ := Props.C17_default_values M (b ^ n) (by simpa using hM.1) (by simpa using hM.2.1)
  refine ⟨hnd, hlen, fun v => ?_, fun x hx => ?_⟩
  · rw [hmem]
    constructor
    · rintro ⟨r, hr⟩
      obtain ⟨t, ht⟩ := surj r
      exact ⟨t, (hdiag r t ht).symm.trans hr⟩
    · rintro ⟨t, h2⟩
      exact ⟨⟨idx t, hlt t⟩, (hdiag _ t rfl).trans h2⟩
  · obtain ⟨k, hk, rfl⟩ := List.getElem_of_mem hx
    rw [List.length_zip] at hk
    have hP := hsel k _ _ (List.getElem?_eq_getElem (by omega)) (List.getElem?_eq_getElem (by omega))
    rw [List.getElem_zip]
    refine hP.congr fun j => ?_
    obtain ⟨t, ht⟩ := surj j
    rw [hdiag j t ht]
    refine ⟨fun h t' ht' => ?_, fun h => h t ht⟩
    rw [idx_injective (ht'.trans ht.symm)]
    exact h

section

variable {ι : Type} [Fintype ι] [DecidableEq ι] [Basis ι] [Nonempty ι] {r : ℕ} {d : Fin (r + 1) → ℕ}
  {P : ∀ i, Matrix (Fin (d i + 1)) ι ℂ} {H : Matrix ι ι ℂ}

/-- The projectors of a list are sectors of the Hamiltonian. -/
structure ListSectors (projs : List Mat) (P : ∀ i, Matrix (Fin (d i + 1)) ι ℂ) (H : Matrix ι ι ℂ) : Prop where
  length : projs.length = r + 1
  is : ∀ (i : Fin (r + 1)) (h : (i : ℕ) < projs.length), (projs[(i : ℕ)]'h).Is (P i)
  sectors : IsSectors P H

theorem ListSectors.ofFn {projs : List Mat} (h : ListSectors projs P H) :
    ∃ Q : Fin (r + 1) → Mat, projs = List.ofFn Q ∧ ∀ i, (Q i).Is (P i) := by
  refine ⟨fun i => projs[(i : ℕ)]'(by rw [h.length]; exact i.2), ?_, fun i => h.is i _⟩
  apply List.ext_getElem
  · simp [h.length]
  · intro k h1 h2
    rw [List.getElem_ofFn]

theorem sectorAverage_is (S : EigSolvers) (hS : EigContract S) {projs : List Mat} (h : ListSectors projs P H)
    (hH : H.IsHermitian) {A B : Mat} {O : Matrix ι ι ℂ} (hA : A.Is H) (hB : B.Is O) {T : ℝ} (hT : T ≠ 0) :
    sectorAverage S A projs B T = .ok (thermalAvg H O T) := by
  obtain ⟨Q, rfl, hQ⟩ := h.ofFn
  choose A' a1 a2 using fun i => (hQ i).inSector hA
  choose B' b1 b2 using fun i => (hQ i).inSector hB
  obtain ⟨w, M, h1, h2⟩ := Props.C111_average S hS hH h.sectors A' a2
  obtain ⟨a, h3, h4⟩ := h2 O B' b2 T hT
  unfold sectorAverage
  rw [mapM_ofFn Q _ (fun i => (a i, w i)) fun i => by simp only [a1, b1, h1, h3, bind, Except.bind, pure, Except.pure]]
  simp only [bind, Except.bind, List.map_ofFn]
  exact h4

theorem sectorEnergies_is (S : EigSolvers) (hS : EigContract S) {projs : List Mat} (h : ListSectors projs P H)
    (hH : H.IsHermitian) {A : Mat} (hA : A.Is H) {T : ℝ} (hT : 0 < T) :
    ∃ e s c c', sectorEnergies S A projs T = .ok (e, s, c) ∧ e = thermalAvg H H T ∧
      (1 ≤ r → s < vonNeumann (gibbs H T)) ∧ HasDerivAt (thermalAvg H H) c' T := by
  obtain ⟨Q, rfl, hQ⟩ := h.ofFn
  choose A' a1 a2 using fun i => (hQ i).inSector hA
  obtain ⟨w, M, h1, h2⟩ := Props.C111_hubbard_violated S hS hH h.sectors A' a2
  obtain ⟨x, h3, e, s, c, c', h4, h5, h6, h7, -⟩ := h2 T hT
  refine ⟨e, s, c, c', ?_, h5, h6, h7⟩
  unfold sectorEnergies
  rw [mapM_ofFn Q _ (fun i => (x i, w i)) fun i => by simp only [a1, h1, h3, bind, Except.bind, pure, Except.pure]]
  simp only [bind, Except.bind, List.map_ofFn]
  exact h4

omit [Basis ι] [Nonempty ι] in
/-- The eigenvalues of a matrix do not depend on the way it is diagonalized. -/
theorem roots_of_eig {κ : Type} [Fintype κ] [DecidableEq κ] {V : Matrix ι κ ℂ} {E : κ → ℝ} (h1 : Vᴴ * V = 1) (h2 : V * Vᴴ = 1)
    (h3 : H * V = V * diagonal fun k => (E k : ℂ)) : H.charpoly.roots = Finset.univ.val.map fun k => (E k : ℂ) := by
  have hH : H = V * diagonal (fun k => (E k : ℂ)) * Vᴴ := by
    rw [← h3, Matrix.mul_assoc, h2, Matrix.mul_one]
  have hcard : Fintype.card ι = Fintype.card κ := by
    have := Matrix.trace_mul_comm Vᴴ V
    rw [h1, h2, trace_one, trace_one] at this
    exact_mod_cast this.symm
  have hc : H.charpoly = (diagonal fun k => (E k : ℂ)).charpoly := by
    have := Matrix.charpoly_mul_comm' (V * diagonal (fun k => (E k : ℂ))) Vᴴ
    rw [← hH, ← Matrix.mul_assoc, h1, Matrix.one_mul, hcard] at this
    exact mul_left_cancel₀ (pow_ne_zero _ Polynomial.X_ne_zero) this
  rw [hc, charpoly_diagonal]
  have := Polynomial.roots_multiset_prod_X_sub_C (Finset.univ.val.map fun k => (E k : ℂ))
  rwa [Multiset.map_map] at this

theorem coe_flatten {r : ℕ} {m : Fin r → ℕ} (E : ∀ i, Fin (m i + 1) → ℝ) :
    ((List.ofFn fun i => List.ofFn (E i)).flatten : Multiset ℝ) =
      Finset.univ.val.map fun p : Σ i, Fin (m i + 1) => E p.1 p.2 := by
  have e : (Finset.univ : Finset (Σ i, Fin (m i + 1))).val =
      (Finset.univ : Finset (Fin r)).val.bind fun i => (Finset.univ : Finset (Fin (m i + 1))).val.map (Sigma.mk i) := by
    rw [← Finset.univ_sigma_univ]
    rfl
  rw [e, Multiset.map_bind, ← Multiset.coe_join, List.map_ofFn, ← Fin.univ_val_map, Multiset.bind]
  congr 1
  refine Multiset.map_congr rfl fun i _ => ?_
  rw [Multiset.map_map, Function.comp_apply, ← Fin.univ_val_map]
  rfl

/-- The energies of the sectors are the energies of the whole system. -/
theorem sectorEigs_is (S : EigSolvers) (hS : EigContract S) {projs : List Mat} (h : ListSectors projs P H)
    (hH : H.IsHermitian) {A : Mat} (hA : A.Is H) :
    ∃ w M L, diagList S A = .ok (w, M) ∧ sectorEigs S A projs = .ok L ∧ L.Perm w ∧ w.Pairwise (· ≤ ·) := by
  obtain ⟨Q, rfl, hQ⟩ := h.ofFn
  choose A' a1 a2 using fun i => (hQ i).inSector hA
  obtain ⟨n, E, M, V, h1, h2, h3, h4, h5, h6⟩ := Props.diagList_ok S hS hA hH
  obtain ⟨m, E', M', V', k1, k2, k3, k4, k5⟩ := Props.sector_diag S hS hH h.sectors A' a2
  obtain ⟨q1, q2, q3⟩ := Props.sectorVects_eig h.sectors k3 k4 k5
  refine ⟨_, M, (List.ofFn fun i => List.ofFn (E' i)).flatten, h1, ?_, ?_, ?_⟩
  · unfold sectorEigs
    rw [mapM_ofFn Q _ (fun i => List.ofFn (E' i)) fun i => by simp only [a1, k1, bind, Except.bind, pure, Except.pure]]
    rfl
  · rw [← Multiset.coe_eq_coe, coe_flatten, ← Fin.univ_val_map]
    apply Multiset.map_injective Complex.ofReal_injective
    rw [Multiset.map_map, Multiset.map_map]
    exact (roots_of_eig q1 q2 q3).symm.trans (roots_of_eig h3 h4 h5)
  · rw [List.pairwise_ofFn]
    exact fun i j hij => h6 hij.le

end

end ED
