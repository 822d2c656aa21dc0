import Verif.Lemmas.NearAverage
import Verif.Props.HubbardSectors

/-!
# Averages from the sectors of a symmetry that is only known up to rounding (C137)

The rows of the projectors on sectors of a momentum contain rounded phase factors, and `get_reduced_projector` rounds them once
more. The averages that are combined from these sectors differ from those of the whole Hamiltonian at most in proportion to
the rounding errors.
-/

namespace ED.Props

open Matrix Spec Geometry

theorem op_average (S : EigSolvers) (hS : EigContract S) {N : ℕ} {A B : Mat} {H O : Op N 2} {projs : List (Rows (2 ^ N))} {κ : ℝ}
    (h : NearSectors projs (asMatrix A (2 ^ N)) κ) (hκ : 0 ≤ κ) (hA : A.Is H) (hH : H.IsHermitian) (hB : B.Is O) {Ms : List Mat}
    (hMs : List.Forall₂ RowsOf Ms projs) {C c T : ℝ} (hC : NormLe H C) (hc : NormLe O c) (hT : 0 < T) :
    ∃ a, sectorAverage S A Ms B T = .ok a ∧ |a - thermalAvg H O T| ≤ c * κ * (2 + κ) * (1 + 2 * C / T) := by
  obtain ⟨a, h1, h2⟩ := near_average S hS (by positivity) h hκ (normLe_asMatrix hA hC) (normLe_asMatrix hB hc) (hermitian_asMatrix hA hH)
    (is_asMatrix hA) (is_asMatrix hB) hMs hT
  refine ⟨a, h1, ?_⟩
  rw [asMatrix_reindex hA, asMatrix_reindex hB, thermalAvg_submatrix] at h2
  exact h2

theorem direct_average (S : EigSolvers) (hS : EigContract S) {ι : Type} [Fintype ι] [DecidableEq ι] [Nonempty ι] [Basis ι]
    {A : Mat} {H : Matrix ι ι ℂ} (hA : A.Is H) (hH : H.IsHermitian) :
    ∃ w M, diagList S A = .ok (w, M) ∧ ∀ (B : Mat) (O : Matrix ι ι ℂ), B.Is O → ∀ T, T ≠ 0 → expValsThermal M B w T = .ok (thermalAvg H O T) := by
  obtain ⟨m, E, M, V, d1, d2, d3, d4, d5, d6⟩ := diagList_ok S hS hA hH
  refine ⟨_, M, d1, fun B O hB T hT => ?_⟩
  rw [C19_canonical d2 hB E T (Or.inl hT), thermalAvg_eig d3 d4 d5 O hT]

theorem rounding_small {c C T κ x : ℝ} (hc : 0 ≤ c) (hC : 0 ≤ C) (hT : 0 < T) (h : κ * (2 + κ) ≤ x) :
    c * κ * (2 + κ) * (1 + 2 * C / T) ≤ c * x * (1 + 2 * C / T) := by
  rw [mul_assoc c]
  have : 0 ≤ 1 + 2 * C / T := by positivity
  exact mul_le_mul_of_nonneg_right (mul_le_mul_of_nonneg_left h hc) this

section

variable {d : ℕ} {H : Matrix (Fin d) (Fin d) ℂ} (S : EigSolvers) (hS : EigContract S) (hd : 0 < d) {C : ℝ} (hC : NormLe H C)
  (hH : H.IsHermitian) {A : Mat} (hA : A.Is H)
include hS hd hC hH hA

/-- C137, one symmetry: the averages that are combined from the sectors of `getZnProjectors`, without the empty ones, are those of
the whole Hamiltonian, up to the rounding of the characters. -/
theorem C137_cyclic_partial {U : Matrix (Fin d) (Fin d) ℂ} (hU : PhasePermutation U) {n : ℕ} (hn : 0 < n) (hn' : n < 10 ^ 4)
    (hp : U ^ n = 1) (hc : U * H = H * U) :
    ∃ projs ks w M, getZnProjectors U n = .ok (projs, ks) ∧ diagList S A = .ok (w, M) ∧
      ∀ (B : Mat) (O : Matrix (Fin d) (Fin d) ℂ) (c T : ℝ), B.Is O → NormLe O c → 0 < T →
        ∃ a b, sectorAverage S A ((projs.filter fun Q => decide (Q.length ≠ 0)).map rowsMat) B T = .ok a ∧
          expValsThermal M B w T = .ok b ∧ |a - b| ≤ c * (1 / 10 ^ 13) * (1 + 2 * C / T) := by
  haveI : Nonempty (Fin d) := ⟨⟨0, hd⟩⟩
  obtain ⟨projs, h1, h2⟩ := zn_near hU hn hn' hp hc
  obtain ⟨w, M, h3, h4⟩ := direct_average S hS hA hH
  refine ⟨projs, _, w, M, h1, h3, fun B O c T hB hcO hT => ?_⟩
  obtain ⟨a, h5, h6⟩ := near_average S hS hd h2 (by norm_num) hC hcO hH hA hB (forall₂_rowsOf _) hT
  exact ⟨a, _, h5, h4 B O hB T hT.ne', h6.trans (rounding_small hcO.1 hC.1 hT (by norm_num))⟩

/-- C137, two commuting symmetries. -/
theorem C137_translations_partial {T1 T2 : Matrix (Fin d) (Fin d) ℂ} (h1 : PhasePermutation T1)
    (h2 : PhasePermutation T2) (hcomm : T1 * T2 = T2 * T1) {n1 n2 : ℕ} (hn1 : 0 < n1) (hn1' : n1 < 10 ^ 4)
    (hn2 : 0 < n2) (hn2' : n2 < 38) (hp1 : T1 ^ n1 = 1) (hp2 : T2 ^ n2 = 1) (hc1 : T1 * H = H * T1) (hc2 : T2 * H = H * T2) :
    ∃ projs k1 k2 w M, get2DTranslationProjectors T1 n1 T2 n2 = .ok (projs, k1, k2) ∧ diagList S A = .ok (w, M) ∧
      ∀ (B : Mat) (O : Matrix (Fin d) (Fin d) ℂ) (c T : ℝ), B.Is O → NormLe O c → 0 < T →
        ∃ a b, sectorAverage S A (projs.map rowsMat) B T = .ok a ∧
          expValsThermal M B w T = .ok b ∧ |a - b| ≤ c * (2 / 10 ^ 11) * (1 + 2 * C / T) := by
  haveI : Nonempty (Fin d) := ⟨⟨0, hd⟩⟩
  obtain ⟨projs, k1, k2, g1, g2⟩ := translations_near (H := H) hd h1 h2 hcomm hn1 hn1' hn2 hn2' hp1 hp2 hc1 hc2
  obtain ⟨w, M, h3, h4⟩ := direct_average S hS hA hH
  refine ⟨projs, k1, k2, w, M, g1, h3, fun B O c T hB hcO hT => ?_⟩
  obtain ⟨a, h5, h6⟩ := near_average S hS hd g2 (by norm_num) hC hcO hH hA hB (forall₂_rowsOf _) hT
  exact ⟨a, _, h5, h4 B O hB T hT.ne', h6.trans (rounding_small hcO.1 hC.1 hT (by norm_num))⟩

end

/-- C137, the Hubbard model: averages that are combined from all sectors of both particle numbers and both momenta are those of
the whole Hamiltonian, up to rounding. -/
theorem C137_hubbard_partial (S : EigSolvers) (hS : EigContract S) (F : Fermions) (hn : 0 < F.nsites) (u d : Fin F.nspecies)
    (hu : (u : ℕ) = 0) (hd : (d : ℕ) = 1) (hr : RealParams F) (hb : FermionBonds F) {πx πy : Equiv.Perm (Fin F.nsites)}
    (hπ : πx * πy = πy * πx) (ix : FermionInvariant F πx) (iy : FermionInvariant F πy) {cx cy : List (List (Fin F.nsites))}
    (hx : CyclesOf cx πx) (hy : CyclesOf cy πy) {nx ny : ℕ} (hnx : 0 < nx) (hnx' : nx < 10 ^ 4) (hny : 0 < ny) (hny' : ny < 38)
    (px : πx ^ nx = 1) (py : πy ^ ny = 1) :
    ∃ L A w M, ∃ H : Op (F.nsites * F.nspecies) 2, momentumSectors F (siteNumbers cx) (siteNumbers cy) nx ny = .ok L ∧
      F.createH none = .ok A ∧ A.Is H ∧ diagList S A = .ok (w, M) ∧
      ∀ (B : Mat) (O : Op (F.nsites * F.nspecies) 2) (C c T : ℝ), B.Is O → NormLe H C → NormLe O c → 0 < T →
        ∃ a b, sectorAverage S A (L.map fun x => x.2.2) B T = .ok a ∧
          expValsThermal M B w T = .ok b ∧ |a - b| ≤ c * (2 / 10 ^ 11) * (1 + 2 * C / T) := by
  obtain ⟨L, A, projs, H, h1, -, -, hA1, hA2, hH, g2, g3⟩ := hubbard_near F hn u d hu hd hr hb hπ ix iy hx hy hnx hnx' hny hny' px py
  obtain ⟨w, M, h3, h4⟩ := direct_average S hS hA2 hH
  refine ⟨L, A, w, M, H, h1, hA1, hA2, h3, fun B O C c T hB hC hcO hT => ?_⟩
  obtain ⟨a, h5, h6⟩ := op_average S hS g3 (by norm_num) hA2 hH hB g2 hC hcO hT
  exact ⟨a, _, h5, h4 B O hB T hT.ne', h6.trans (rounding_small hcO.1 hC.1 hT (by norm_num))⟩

/-- C137, the script `measure_hubbard.py`: geometry, model, symmetries and sectors as in the script, for lattices of any size
with periodic boundary conditions below the stated limits. -/
theorem C137_script_partial (S : EigSolvers) (hS : EigContract S) {nx ny : ℕ} (hx : 2 ≤ nx) (hx' : nx < 10 ^ 4) (hy : 2 ≤ ny)
    (hy' : ny < 38) (U t : ℝ) (mus : ℕ → ℝ) :
    ∃ g F cx cy L A w M, ∃ H : Op (F.nsites * F.nspecies) 2, createSquare nx ny 0 0 false false = .ok g ∧
      fermionModel g ⟨[], fun _ => U⟩ ⟨[], fun _ => t⟩ ⟨[2], fun idx => mus (idx.getD 0 0)⟩ ⟨[], fun _ => (0 : ℝ)⟩
        ⟨[], fun _ => (0 : ℝ)⟩ 2 = .ok F ∧
      findSiteCycles (getTranslFn (1, 0)) g (1 / 10 ^ 10) = .ok (cx, nx) ∧
      findSiteCycles (getTranslFn (0, 1)) g (1 / 10 ^ 10) = .ok (cy, ny) ∧ momentumSectors F cx cy nx ny = .ok L ∧
      F.createH none = .ok A ∧ A.Is H ∧ diagList S A = .ok (w, M) ∧
      ∀ (B : Mat) (O : Op (F.nsites * F.nspecies) 2) (C c T : ℝ), B.Is O → NormLe H C → NormLe O c → 0 < T →
        ∃ a b, sectorAverage S A (L.map fun x => x.2.2) B T = .ok a ∧
          expValsThermal M B w T = .ok b ∧ |a - b| ≤ c * (2 / 10 ^ 11) * (1 + 2 * C / T) := by
  obtain ⟨g, F, cx, cy, L, A, projs, H, r1, r2, r3, r4, r5, -, -, hA1, hA2, hH, g2, g3⟩ := script_near hx hx' hy hy' U t mus
  obtain ⟨w, M, h3, h4⟩ := direct_average S hS hA2 hH
  refine ⟨g, F, cx, cy, L, A, w, M, H, r1, r2, r3, r4, r5, hA1, hA2, h3, fun B O C c T hB hC hcO hT => ?_⟩
  obtain ⟨a, h5, h6⟩ := op_average S hS g3 (by norm_num) hA2 hH hB g2 hC hcO hT
  exact ⟨a, _, h5, h4 B O hB T hT.ne', h6.trans (rounding_small hcO.1 hC.1 hT (by norm_num))⟩

/-- The energy of a three by two lattice with the interaction and the chemical potentials of the
script, at temperature one. -/
example (S : EigSolvers) (hS : EigContract S) : ∃ g F cx cy L, createSquare 3 2 0 0 false false = .ok g ∧
    fermionModel g ⟨[], fun _ => (8 : ℝ)⟩ ⟨[], fun _ => (1 : ℝ)⟩ ⟨[2], fun _ => (4 : ℝ)⟩ ⟨[], fun _ => (0 : ℝ)⟩
      ⟨[], fun _ => (0 : ℝ)⟩ 2 = .ok F ∧
    findSiteCycles (getTranslFn (1, 0)) g (1 / 10 ^ 10) = .ok (cx, 3) ∧
    findSiteCycles (getTranslFn (0, 1)) g (1 / 10 ^ 10) = .ok (cy, 2) ∧ momentumSectors F cx cy 3 2 = .ok L ∧
    ∃ A w M C a b, F.createH none = .ok A ∧ diagList S A = .ok (w, M) ∧
      sectorAverage S A (L.map fun x => x.2.2) A 1 = .ok a ∧ expValsThermal M A w 1 = .ok b ∧
      |a - b| ≤ C * (2 / 10 ^ 11) * (1 + 2 * C / 1) := by
  obtain ⟨g, F, cx, cy, L, A, w, M, H, h1, h2, h3, h4, h5, h6, h7, h8, h9⟩ :=
    C137_script_partial S hS (nx := 3) (ny := 2) (by norm_num) (by norm_num) (by norm_num) (by norm_num) 8 1 (fun _ => 4)
  obtain ⟨a, b, k1, k2, k3⟩ := h9 A H _ _ 1 h7 (normLe_frobenius H) (normLe_frobenius H) one_pos
  exact ⟨g, F, cx, cy, L, h1, h2, h3, h4, h5, A, w, M, _, a, b, h6, h8, k1, k2, k3⟩

end ED.Props
