import Verif.Props.SectorEnergies
import Verif.Lemmas.SquareShift

/-! # Property C116 for the script as it stands: the Hubbard model on a periodic square lattice -/

namespace ED.Props

open Matrix Spec ED.Geometry

/-- The sectors of `measure_hubbard.py` on a periodic square lattice are close to exact sectors of the Hamiltonian. -/
theorem script_near {nx ny : ℕ} (hx : 2 ≤ nx) (hx' : nx < 10 ^ 4) (hy : 2 ≤ ny) (hy' : ny < 38) (U t : ℝ) (mus : ℕ → ℝ) :
    ∃ g F cx cy L A projs, ∃ H : Op (F.nsites * F.nspecies) 2, createSquare nx ny 0 0 false false = .ok g ∧
      fermionModel g ⟨[], fun _ => U⟩ ⟨[], fun _ => t⟩ ⟨[2], fun idx => mus (idx.getD 0 0)⟩ ⟨[], fun _ => (0 : ℝ)⟩
        ⟨[], fun _ => (0 : ℝ)⟩ 2 = .ok F ∧
      findSiteCycles (getTranslFn (1, 0)) g (1 / 10 ^ 10) = .ok (cx, nx) ∧
      findSiteCycles (getTranslFn (0, 1)) g (1 / 10 ^ 10) = .ok (cy, ny) ∧ momentumSectors F cx cy nx ny = .ok L ∧
      (L.map fun x => (x.1, x.2.1)).Nodup ∧
      (∀ x ∈ L, ∃ a b q p : ℕ, a ≤ nx * ny ∧ b ≤ nx * ny ∧ q < nx ∧ p < ny ∧ x.1 = ((a : ℂ), (b : ℂ)) ∧
        x.2.1 = (2 * Real.pi * (q : ℝ) / (nx : ℝ), 2 * Real.pi * (p : ℝ) / (ny : ℝ))) ∧
      F.createH none = .ok A ∧ A.Is H ∧ H.IsHermitian ∧ List.Forall₂ RowsOf (L.map fun x => x.2.2) projs ∧
      NearSectors projs (asMatrix A (2 ^ (F.nsites * F.nspecies))) (9 / 10 ^ 12) := by
  have h1 : nx = 1 → false = true := fun h => by omega
  have h2 : ny = 1 → false = true := fun h => by omega
  have hx0 : 0 < nx := by omega
  have hy0 : 0 < ny := by omega
  have harea : nx * ny < 10 ^ 14 := by nlinarith
  obtain ⟨g, hg, hN, -⟩ := C50_square nx ny hx0 hy0 0 0 false false h1 h2
  obtain ⟨p, hF, hus, hpar⟩ := fermionModel_square hx0 hy0 harea h1 h2 hg 2 U t 0 0 mus
  obtain ⟨hreg, -, -⟩ := square_facts hx0 hy0 harea h1 h2 hg
  obtain ⟨G⟩ := grid_of hx hy harea hg
  have hn2 : 2 ≤ g.nsites := by rw [hN]; nlinarith
  have hX : nx ≤ g.nsites := by rw [hN]; nlinarith
  have hY : ny ≤ g.nsites := by rw [hN]; nlinarith
  obtain ⟨cx, c1, c2⟩ := G.cycles shift_x hx0 hy0 hn2 hx0 hX fun m => by
    rw [mul_one, mul_zero]
    exact ⟨fun h => by exact_mod_cast h.1, fun h => ⟨by exact_mod_cast h, dvd_zero _⟩⟩
  obtain ⟨cy, c3, c4⟩ := G.cycles shift_y hx0 hy0 hn2 hy0 hY fun m => by
    rw [mul_one, mul_zero]
    exact ⟨fun h => by exact_mod_cast h.2, fun h => ⟨dvd_zero _, by exact_mod_cast h⟩⟩
  rw [Int.cast_one, Int.cast_zero] at c1 c3
  have hinv : ∀ {ρ : Equiv.Perm (Fin nx × Fin ny)} {a b : ℤ}, Shift ρ a b → FermionInvariant (p.model g 2) (G.perm ρ) := by
    intro ρ a b hρ
    refine ⟨fun i j s => ?_, fun i j s => ?_, fun i => ?_, fun i s => ?_⟩
    · exact ((hpar _ (G.perm ρ i).2 s s.2).2.2 _ (G.perm ρ j).2).2.2.trans
        ((congrArg (fun x : ℝ => (t : ℂ) * (x : ℂ)) (G.adjacency hρ i j)).trans ((hpar _ i.2 s s.2).2.2 _ j.2).2.2.symm)
    · exact ((hpar _ (G.perm ρ i).2 s s.2).2.2 _ (G.perm ρ j).2).2.1.trans
        ((congrArg (fun x : ℝ => ((0 : ℝ) : ℂ) * (x : ℂ)) (G.adjacency hρ i j)).trans ((hpar _ i.2 s s.2).2.2 _ j.2).2.1.symm)
    · exact (hus _ (G.perm ρ i).2).trans (hus _ i.2).symm
    · exact (hpar _ (G.perm ρ i).2 s s.2).2.1.trans (hpar _ i.2 s s.2).2.1.symm
  have hb : FermionBonds (p.model g 2) := by
    refine ⟨fun i j s => ?_, fun i j s => ?_⟩
    · rw [((hpar _ i.2 s s.2).2.2 _ j.2).2.2, ((hpar _ j.2 s s.2).2.2 _ i.2).2.2, hreg.symm i i.2 j j.2]
    · rw [((hpar _ i.2 s s.2).2.2 _ j.2).2.1, ((hpar _ j.2 s s.2).2.2 _ i.2).2.1, hreg.symm i i.2 j j.2]
  have hr : RealParams (p.model g 2) := by
    refine ⟨fun i j s => ?_, fun i => ?_, fun i j s => ?_, fun s => ?_, fun i s => ?_⟩
    · rw [((hpar _ i.2 s s.2).2.2 _ j.2).1, ← Complex.ofReal_mul]
      exact Complex.conj_ofReal _
    · rw [hus _ i.2]
      exact Complex.conj_ofReal _
    · rw [((hpar _ i.2 s s.2).2.2 _ j.2).2.1, ← Complex.ofReal_mul]
      exact Complex.conj_ofReal _
    · rw [(hpar 0 (by omega) s s.2).1]
      exact Complex.conj_ofReal _
    · rw [(hpar _ i.2 s s.2).2.1]
      exact Complex.conj_ofReal _
  have hpow : ∀ {ρ : Equiv.Perm (Fin nx × Fin ny)} {k : ℕ}, ρ ^ k = 1 → G.perm ρ ^ k = 1 := fun h => by
    rw [← G.perm_pow, h, G.perm_one]
  obtain ⟨L, A, projs, H, r1, r2, r3, r4, r5, r6, r7, r8⟩ := hubbard_near (p.model g 2) (show 0 < g.nsites by omega) (0 : Fin 2) (1 : Fin 2) rfl rfl hr hb
    (πx := G.perm _) (πy := G.perm _) ((G.perm_mul _ _).symm.trans ((congrArg G.perm (shift_x.commute shift_y)).trans (G.perm_mul _ _))) (hinv shift_x) (hinv shift_y) c2 c4 hx0 hx' hy0 hy'
    (hpow (shift_x.pow_eq_one (by simp) (by simp))) (hpow (shift_y.pow_eq_one (by simp) (by simp)))
  refine ⟨g, p.model g 2, _, _, L, A, projs, H, hg, hF, c1, c3, r1, r2, ?_, r4, r5, r6, r7, r8⟩
  have hN' : (p.model g 2).nsites = nx * ny := hN
  rwa [hN'] at r3

/-- C116 for `measure_hubbard.py`: on every periodic square lattice the search for cycles finds both translations and their
orders, the script makes from them one projector for each combination of particle numbers and momenta that occurs, and the
energies found with these projectors are those of the whole Hamiltonian, up to rounding. -/
theorem C116_script_partial (S : EigSolvers) (hS : EigContract S) {nx ny : ℕ} (hx : 2 ≤ nx) (hx' : nx < 10 ^ 4) (hy : 2 ≤ ny)
    (hy' : ny < 38) (U t : ℝ) (mus : ℕ → ℝ) :
    ∃ g F cx cy L A, ∃ H : Op (F.nsites * F.nspecies) 2, createSquare nx ny 0 0 false false = .ok g ∧
      fermionModel g ⟨[], fun _ => U⟩ ⟨[], fun _ => t⟩ ⟨[2], fun idx => mus (idx.getD 0 0)⟩ ⟨[], fun _ => (0 : ℝ)⟩
        ⟨[], fun _ => (0 : ℝ)⟩ 2 = .ok F ∧
      findSiteCycles (getTranslFn (1, 0)) g (1 / 10 ^ 10) = .ok (cx, nx) ∧
      findSiteCycles (getTranslFn (0, 1)) g (1 / 10 ^ 10) = .ok (cy, ny) ∧ momentumSectors F cx cy nx ny = .ok L ∧
      (L.map fun x => (x.1, x.2.1)).Nodup ∧
      (∀ x ∈ L, ∃ a b q p : ℕ, a ≤ nx * ny ∧ b ≤ nx * ny ∧ q < nx ∧ p < ny ∧ x.1 = ((a : ℂ), (b : ℂ)) ∧
        x.2.1 = (2 * Real.pi * (q : ℝ) / (nx : ℝ), 2 * Real.pi * (p : ℝ) / (ny : ℝ))) ∧
      F.createH none = .ok A ∧ A.Is H ∧ ∀ C, NormLe H C →
        ∃ E x, sectorEigs S A (L.map fun x => x.2.2) = .ok E ∧ NearSpectrum E H (2 * C / 10 ^ 11) ∧
          maxDiff S A (L.map fun x => x.2.2) = .ok x ∧ x ≤ 2 * C / 10 ^ 11 := by
  obtain ⟨g, F, cx, cy, L, A, projs, H, r1, r2, r3, r4, r5, r6, r7, hA1, hA2, hH, g2, g3⟩ := script_near hx hx' hy hy' U t mus
  refine ⟨g, F, cx, cy, L, A, H, r1, r2, r3, r4, r5, r6, r7, hA1, hA2, fun C hC => ?_⟩
  obtain ⟨E, x, h5, h6, h3, h4⟩ := near_maxDiff S hS (by positivity) g3 (by norm_num) (normLe_asMatrix hA2 hC)
    (hermitian_asMatrix hA2 hH) (is_asMatrix hA2) g2
  suffices hle : _ ≤ 2 * C / 10 ^ 11 from ⟨E, x, h5, (nearSpectrum_asMatrix hA2 h6).mono hle, h3, h4.trans hle⟩
  have := hC.1
  have e : C * (9 / 10 ^ 12) * (2 + 9 / 10 ^ 12) = C * (9 / 10 ^ 12 * (2 + 9 / 10 ^ 12)) := by ring
  rw [e, show 2 * C / 10 ^ 11 = C * (2 / 10 ^ 11) by ring]
  exact mul_le_mul_of_nonneg_left (by norm_num) this

/-- The three by two lattice of the script. -/
example (S : EigSolvers) (hS : EigContract S) : ∃ g F cx cy L, createSquare 3 2 0 0 false false = .ok g ∧
    fermionModel g ⟨[], fun _ => (8 : ℝ)⟩ ⟨[], fun _ => (1 : ℝ)⟩ ⟨[2], fun _ => (4 : ℝ)⟩ ⟨[], fun _ => (0 : ℝ)⟩
      ⟨[], fun _ => (0 : ℝ)⟩ 2 = .ok F ∧
    findSiteCycles (getTranslFn (1, 0)) g (1 / 10 ^ 10) = .ok (cx, 3) ∧
    findSiteCycles (getTranslFn (0, 1)) g (1 / 10 ^ 10) = .ok (cy, 2) ∧ momentumSectors F cx cy 3 2 = .ok L ∧
    ∃ A C x, F.createH none = .ok A ∧ maxDiff S A (L.map fun x => x.2.2) = .ok x ∧ x ≤ 2 * C / 10 ^ 11 := by
  obtain ⟨g, F, cx, cy, L, A, H, h1, h2, h3, h4, h5, -, -, h6, -, h7⟩ :=
    C116_script_partial S hS (nx := 3) (ny := 2) (by norm_num) (by norm_num) (by norm_num) (by norm_num) 8 1 (fun _ => 4)
  obtain ⟨E, x, -, -, h8, h9⟩ := h7 _ (normLe_frobenius H)
  exact ⟨g, F, cx, cy, L, h1, h2, h3, h4, h5, A, _, x, h6, h8, h9⟩

end ED.Props
