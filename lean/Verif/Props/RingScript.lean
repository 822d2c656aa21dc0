import Verif.Lemmas.RingSectors
import Verif.Lemmas.CyclicFourier
import Verif.Lemmas.Multiplets
import Verif.Lemmas.Atomic
import Verif.Props.SectorAverages
import Verif.Props.ParticleHole
import Verif.Props.FreeEnergy

/-!
# Densities, correlations and structure factors of fermions on a ring (C138)

The script `examples/fermions_attractive_phase_diagram_v2.py` measures densities and correlations in the sectors of particle number
and momentum, combines them, and computes the structure factor.
-/

namespace ED.Props

open Matrix Spec ED.Geometry

section Measure

theorem sites_in_sector (S : Sys) {V Q op : Mat} {w : List ℝ} {sp : ℕ} {T : ℝ} {X Y : Fin S.nsites → Mat} {a : Fin S.nsites → ℝ}
    (hX : ∀ j : Fin S.nsites, getSingleSiteOp S j sp op "boson" = .ok (X j)) (hY : ∀ j, sandwich 1 Q (X j) = .ok (Y j))
    (ha : ∀ j, expValsThermal V (Y j) w T = .ok (a j)) :
    thermalExpSites S V w op sp [T] none (some Q) "boson" = .ok (List.ofFn fun j => [a j], List.range S.nsites) := by
  unfold thermalExpSites
  simp only [Option.getD_none, Option.getD_some]
  have hr : List.range S.nsites = List.ofFn fun i : Fin S.nsites => (i : ℕ) := by
    simpa using list_range_map S.nsites id
  rw [hr, mapM_ofFn _ _ (fun j => [a j])]
  · rfl
  · intro j
    rw [hX]
    simp only [bind, Except.bind]
    rw [hY]
    simp only
    unfold expValsThermalList
    rw [List.mapM_cons, ha]
    rfl

theorem pairs_in_sector (S : Sys) {V op : Mat} {Q : Option Mat} {w : List ℝ} {sp : ℕ} {T : ℝ} {X Y : Fin S.nsites → Mat}
    {a : Fin S.nsites → ℝ} (hX : ∀ j : Fin S.nsites, getTwoSiteOp S 0 sp j sp op op "boson" = .ok (X j))
    (hY : ∀ j, sandwich 1 (Q.getD (Mat.eye V.rows)) (X j) = .ok (Y j)) (ha : ∀ j, expValsThermal V (Y j) w T = .ok (a j)) :
    thermalCorrSites S V w sp sp op op [T] (some ((List.range S.nsites).map fun j => (0, j))) Q "boson" =
      .ok (List.ofFn fun j => [a j], (List.range S.nsites).map fun j => (0, j)) := by
  unfold thermalCorrSites
  simp only [Option.getD_some]
  have hr : ((List.range S.nsites).map fun j => ((0 : ℕ), j)) = List.ofFn fun i : Fin S.nsites => ((0 : ℕ), (i : ℕ)) :=
    list_range_map S.nsites _
  rw [hr, mapM_ofFn _ _ (fun j => [a j])]
  · rfl
  · intro j
    simp only
    rw [hX]
    simp only [bind, Except.bind]
    rw [hY]
    simp only
    unfold expValsThermalList
    rw [List.mapM_cons, ha]
    rfl

theorem normLe_number {N : ℕ} (k : Fin N) : NormLe (number k : Op N 2) 1 := by
  have := norm_numbers {()} (fun _ : Unit => 1) fun _ => k
  simpa using this

theorem normLe_number2 {N : ℕ} (k l : Fin N) : NormLe (number k * number l : Op N 2) 1 := by
  letI := Matrix.instL2OpNormedAddCommGroup (m := Conf N 2) (n := Conf N 2) (𝕜 := ℂ)
  rw [normLe_iff]
  refine (l2_opNorm_mul _ _).trans ?_
  have h1 := normLe_iff.1 (normLe_number k)
  have h2 := normLe_iff.1 (normLe_number l)
  exact mul_le_one₀ h1 (norm_nonneg _) h2

/-- Densities and correlations that are combined from sectors close to exact ones. -/
theorem ring_measure (S : EigSolvers) (hS : EigContract S) (F : Fermions) (u : Fin F.nspecies) (hu : (u : ℕ) = 0) (o : Fin F.nsites)
    (ho : (o : ℕ) = 0) {A : Mat} {H : Op (F.nsites * F.nspecies) 2} (hA : A.Is H) (hH : H.IsHermitian)
    {projs : List (Rows (2 ^ (F.nsites * F.nspecies)))} {κ : ℝ} (h : NearSectors projs (asMatrix A (2 ^ (F.nsites * F.nspecies))) κ)
    (hκ : 0 ≤ κ) {Ms : List Mat} (hMs : List.Forall₂ RowsOf Ms projs) {C T : ℝ} (hC : NormLe H C) (hT : 0 < T) :
    ∃ dens corrs : Fin F.nsites → ℝ, ringMeasure S F A Ms T = .ok (List.ofFn dens, List.ofFn corrs) ∧ corrs o = dens o ∧
      ∀ j, |dens j - thermalAvg H (number (mode j u)) T| ≤ κ * (2 + κ) * (1 + 2 * C / T) ∧
        |corrs j - thermalAvg H (number (mode o u) * number (mode j u)) T| ≤ κ * (2 + κ) * (1 + 2 * C / T) := by
  obtain ⟨r, Q, n, P, A', w, M, rfl, q1, q2, q3, q5, q4⟩ := near_blocks S hS (by positivity) h hκ (normLe_asMatrix hA hC)
    (hermitian_asMatrix hA hH) (is_asMatrix hA) hMs
  choose X1 x1 x1' using fun j => F_single F j u
  choose X2 x2 x2' using fun j => F_two F o j u u
  rw [hu] at x1 x2
  rw [ho] at x2
  choose Y1 y1 y1' using fun i j => sandwich_gives (q1 i) (is_asMatrix (x1' j)) 1
  choose Y2 y2 y2' using fun i j => sandwich_gives (q1 i) (is_asMatrix (x2' j)) 1
  simp only [one_smul] at y1' y2'
  choose a1 d a11 a12 a13 using fun j => q4 _ 1 (normLe_asMatrix (x1' j) (normLe_number _)) (fun i => Y1 i j) (fun i => y1' i j) T hT
  choose a2 c a21 a22 a23 using fun j => q4 _ 1 (normLe_asMatrix (x2' j) (normLe_number2 _ _)) (fun i => Y2 i j) (fun i => y2' i j) T hT
  have hsec : ∀ i, ringSector S F A T (Q i) = .ok (List.ofFn fun j => a1 j i, List.ofFn fun j => a2 j i, w i) := by
    intro i
    unfold ringSector
    simp only [q2, q3, bind, Except.bind]
    rw [sites_in_sector F.sys x1 (y1 i) (fun j => a11 j i), pairs_in_sector F.sys (Q := some (Q i)) x2 (y2 i) fun j => a21 j i]
    simp only [List.map_ofFn, pure, Except.pure]
    rfl
  have hr : List.range F.nsites = List.ofFn fun i : Fin F.nsites => (i : ℕ) := by
    simpa using list_range_map F.nsites id
  have hget : ∀ (f : Fin F.nsites → ℝ) (j : Fin F.nsites), (List.ofFn f).getD j 0 = f j := by
    intro f j
    rw [List.getD_eq_getElem?_getD, List.getElem?_ofFn, dif_pos j.2]
    rfl
  refine ⟨d, c, ?_, ?_, fun j => ?_⟩
  · unfold ringMeasure
    rw [mapM_ofFn _ _ _ hsec]
    simp only [bind, Except.bind, List.map_ofFn, Function.comp_def]
    rw [hr, mapM_ofFn _ _ d fun j => ?_]
    · simp only
      rw [mapM_ofFn _ _ c fun j => ?_]
      · rfl
      · simp only [hget]
        exact a22 j
    · simp only [hget]
      exact a12 j
  · have e : a2 o = a1 o := by
      funext i
      obtain ⟨m, E, V, hw, hV⟩ := q5 i
      have b1 := a11 o i
      have b2 := a21 o i
      have y := y2' i o
      have : asMatrix (X2 o) (2 ^ (F.nsites * F.nspecies)) = asMatrix (X1 o) (2 ^ (F.nsites * F.nspecies)) := by
        rw [asMatrix_reindex (x2' o), asMatrix_reindex (x1' o), number_sq']
      rw [this] at y
      rw [hw, C19_canonical hV (y1' i o) E T (Or.inl hT.ne')] at b1
      rw [hw, C19_canonical hV y E T (Or.inl hT.ne')] at b2
      injection b1 with b1
      injection b2 with b2
      rw [← b1, ← b2]
    have e1 := a12 o
    have e2 := a22 o
    rw [e, e1] at e2
    injection e2 with e2
    exact e2.symm
  · have e1 := a13 j
    have e2 := a23 j
    rw [asMatrix_reindex hA, asMatrix_reindex (x1' j), thermalAvg_submatrix, one_mul] at e1
    rw [asMatrix_reindex hA, asMatrix_reindex (x2' j), thermalAvg_submatrix, one_mul] at e2
    exact ⟨e1, e2⟩

end Measure

section Exact

variable {a b : ℕ} {H U : Op (a * b) 2} {π : Equiv.Perm (Fin a)}

theorem avg_invariant (hH : H.IsHermitian) (hU : MovesFermions (nsites := a) (nspecies := b) U (fun _ => π)) (hc : U * H = H * U) {T : ℝ}
    (hT : T ≠ 0) (u : Fin b) (i j : Fin a) :
    thermalAvg H (number (mode (π i) u)) T = thermalAvg H (number (mode i u)) T ∧
    thermalAvg H (number (mode (π i) u) * number (mode (π j) u)) T = thermalAvg H (number (mode i u) * number (mode j u)) T := by
  have h0 : U * H * Uᴴ = H := by rw [hc, Matrix.mul_assoc, hU.right_inv, Matrix.mul_one]
  constructor
  · rw [← thermalAvg_unitary hU.right_inv hU.left_inv hH (number (mode i u)) hT, h0, moves_number hU]
  · rw [← thermalAvg_unitary hU.right_inv hU.left_inv hH (number (mode i u) * number (mode j u)) hT, h0, ← moves_number hU, ← moves_number hU]
    congr 1
    calc U * number (mode i u) * Uᴴ * (U * number (mode j u) * Uᴴ) = U * number (mode i u) * (Uᴴ * U) * number (mode j u) * Uᴴ := by
          simp only [Matrix.mul_assoc]
      _ = _ := by rw [hU.left_inv, Matrix.mul_one]; simp only [Matrix.mul_assoc]

theorem thermalAvg_one (hH : H.IsHermitian) {T : ℝ} (hT : T ≠ 0) : thermalAvg H 1 T = 1 := by
  obtain ⟨V, E, v1, v2, v3⟩ := eig_exists hH
  rw [thermalAvg_eig v1 v2 v3 _ hT]
  have : (fun k => (expect (1 : Op (a * b) 2) (colOf V k)).re) = fun _ => (1 : ℝ) := by
    funext k
    rw [expect_entry, Matrix.mul_one, v1, one_apply_eq, Complex.one_re]
  rw [this]
  exact canonical_const hT E 1

/-- Squares have nonnegative averages. -/
theorem thermalAvg_sq_nonneg (hH : H.IsHermitian) {B : Op (a * b) 2} (hB : B.IsHermitian) {T : ℝ} (hT : T ≠ 0) : 0 ≤ thermalAvg H (B * B) T := by
  obtain ⟨V, E, v1, v2, v3⟩ := eig_exists hH
  rw [thermalAvg_eig v1 v2 v3 _ hT, canonical_ne hT]
  refine div_nonneg (Finset.sum_nonneg fun k _ => mul_nonneg (Real.exp_pos _).le ?_) (levelsZ_pos T E).le
  rw [expect_entry]
  have e : Vᴴ * (B * B) * V = (B * V)ᴴ * (B * V) := by
    rw [conjTranspose_mul, hB]
    simp only [Matrix.mul_assoc]
  rw [e, mul_apply, Complex.re_sum]
  refine Finset.sum_nonneg fun x _ => ?_
  rw [conjTranspose_apply, Complex.star_def, ← Complex.normSq_eq_conj_mul_self, Complex.ofReal_re]
  exact Complex.normSq_nonneg _

/-- Correlations of densities around their common average form a positive form. -/
theorem covariance_nonneg (hH : H.IsHermitian) {T : ℝ} (hT : T ≠ 0) (u : Fin b) {ρ : ℝ} (hρ : ∀ i, thermalAvg H (number (mode i u)) T = ρ)
    (x : Fin a → ℝ) : 0 ≤ ∑ i, ∑ j, x i * x j * (thermalAvg H (number (mode i u) * number (mode j u)) T - ρ ^ 2) := by
  set D : Fin a → Op (a * b) 2 := fun i => number (mode i u) - (ρ : ℂ) • 1 with hD
  have hDh : ∀ i, (D i).IsHermitian := by
    intro i
    unfold Matrix.IsHermitian
    rw [hD, conjTranspose_sub, conjTranspose_smul, conjTranspose_one, number_star, Complex.star_def, Complex.conj_ofReal]
  have h1 : thermalAvg H (1 : Op (a * b) 2) T = 1 := thermalAvg_one hH hT
  have hDD : ∀ i j, thermalAvg H (D i * D j) T = thermalAvg H (number (mode i u) * number (mode j u)) T - ρ ^ 2 := by
    intro i j
    have e : D i * D j = number (mode i u) * number (mode j u) - (ρ : ℂ) • number (mode i u) - ((ρ : ℂ) • number (mode j u) - (ρ : ℂ) • ((ρ : ℂ) • 1)) := by
      simp only [hD, Matrix.sub_mul, Matrix.mul_sub, Matrix.smul_mul, Matrix.mul_smul, Matrix.one_mul, Matrix.mul_one, smul_sub]
      abel
    rw [e, thermalAvg_sub, thermalAvg_sub, thermalAvg_sub, thermalAvg_smul, thermalAvg_smul, thermalAvg_smul, thermalAvg_smul, hρ, hρ, h1]
    ring
  have hB : (∑ i, (x i : ℂ) • D i).IsHermitian := by
    unfold Matrix.IsHermitian
    rw [conjTranspose_sum]
    refine Finset.sum_congr rfl fun i _ => ?_
    rw [conjTranspose_smul, hDh i, Complex.star_def, Complex.conj_ofReal]
  have h := thermalAvg_sq_nonneg hH hB hT
  rw [Matrix.sum_mul, thermalAvg_sum] at h
  refine h.trans_eq (Finset.sum_congr rfl fun i _ => ?_)
  rw [Matrix.mul_sum, thermalAvg_sum]
  refine Finset.sum_congr rfl fun j _ => ?_
  rw [Matrix.smul_mul, Matrix.mul_smul, thermalAvg_smul, thermalAvg_smul, hDD]
  ring

end Exact

section Cyclic

variable {N : ℕ} {π : Equiv.Perm (Fin N)} (hπ : ∀ i, (π i : ℕ) = (i + 1) % N)
include hπ

theorem next_site {k : ℕ} (h : N = k + 1) (i : Fin N) : π i = Fin.cast h.symm (Fin.cast h i + 1) := by
  subst h
  apply Fin.ext
  rw [hπ, Fin.cast_refl, id, id, Fin.val_add, Fin.val_one', Nat.add_mod_mod]

theorem ring_const {o : Fin N} (ho : (o : ℕ) = 0) {f : Fin N → ℝ} (hf : ∀ i, f (π i) = f i) (i : Fin N) : f i = f o := by
  obtain ⟨m, hm⟩ := i
  induction m with
  | zero => exact congrArg f (Fin.ext ho.symm)
  | succ m ih =>
    have hm' : m < N := by omega
    rw [← ih hm', ← hf ⟨m, hm'⟩]
    refine congrArg f (Fin.ext ?_)
    rw [hπ]
    exact (Nat.mod_eq_of_lt hm).symm

theorem ring_fourier {o : Fin N} (ho : (o : ℕ) = 0) {c : Fin N → Fin N → ℝ} (hs : ∀ i j, c i j = c j i) (ht : ∀ i j, c (π i) (π j) = c i j)
    (hp : ∀ x : Fin N → ℝ, 0 ≤ ∑ i, ∑ j, x i * x j * c i j) (q : ℕ) :
    ∃ s : ℝ, 0 ≤ s ∧ ∑ d : Fin N, (c o d : ℂ) * stepPhase N q ^ (d : ℕ) = s := by
  obtain ⟨k, rfl⟩ : ∃ k, N = k + 1 := ⟨N - 1, by have := o.2; omega⟩
  have e : o = 0 := Fin.ext ho
  subst e
  refine fourier_nonneg hs (fun i j => ?_) hp q
  have := ht i j
  rwa [next_site hπ rfl, next_site hπ rfl] at this

theorem ring_total {o : Fin N} (ho : (o : ℕ) = 0) {c : Fin N → Fin N → ℝ} (ht : ∀ i j, c (π i) (π j) = c i j) :
    ∑ i, ∑ j, c i j = (N : ℝ) * ∑ d, c o d := by
  obtain ⟨k, rfl⟩ : ∃ k, N = k + 1 := ⟨N - 1, by have := o.2; omega⟩
  have e : o = 0 := Fin.ext ho
  subst e
  refine cyclic_total fun i j => ?_
  have := ht i j
  rwa [next_site hπ rfl, next_site hπ rfl] at this

end Cyclic

theorem structureFactor_ofFn {N : ℕ} (d c : Fin N → ℝ) : structureFactor (List.ofFn d) (List.ofFn c) =
    (List.ofFn fun j => c j - d j ^ 2,
      List.ofFn fun q : Fin N => (∑ j : Fin N, ((c j - d j ^ 2 : ℝ) : ℂ) * stepPhase N q ^ (j : ℕ)) / (N : ℂ)) := by
  have e : List.zipWith (fun c n => c - n ^ 2) (List.ofFn c) (List.ofFn d) = List.ofFn fun j => c j - d j ^ 2 := by
    apply List.ext_getElem
    · simp
    · intro k h1 h2
      simp
  unfold structureFactor
  simp only [e]
  congr 1
  unfold npFft
  rw [List.map_map, List.length_ofFn, List.length_ofFn, list_range_map]
  congr 1
  funext q
  simp only [Function.comp_apply]
  congr 1
  rw [← Fin.sum_univ_eq_sum_range fun j => (((List.ofFn fun j => c j - d j ^ 2).getD j 0 : ℝ) : ℂ) * Complex.exp (-2 * Real.pi * Complex.I * ((q : ℕ) : ℂ) * (j : ℂ) / (N : ℂ))]
  refine Finset.sum_congr rfl fun j _ => ?_
  rw [exp_stepPhase, List.getD_eq_getElem?_getD, List.getElem?_ofFn, dif_pos j.2]
  rfl

/-- What the script computes. -/
theorem ring_core (S : EigSolvers) (hS : EigContract S) {n : ℕ} (hn : 2 ≤ n) (hn' : n < 10 ^ 4) (t v : ℝ) {T : ℝ} (hT : 0 < T) :
    ∃ g F A, ∃ H U : Op (F.nsites * F.nspecies) 2, ∃ (u : Fin F.nspecies) (o : Fin F.nsites) (π : Equiv.Perm (Fin F.nsites)) (dens corrs : Fin F.nsites → ℝ),
      createSquare n 1 0 0 false true = .ok g ∧
      fermionModel g ⟨[], fun _ => 0⟩ ⟨[], fun _ => (t : ℂ)⟩ ⟨[], fun _ => (v : ℂ)⟩ ⟨[], fun _ => 0⟩ ⟨[], fun _ => (v : ℂ)⟩ 1 = .ok F ∧
      F.nsites = n ∧ F.nspecies = 1 ∧ (∀ i < n, F.us i = 0) ∧ F.mus 0 = v ∧ (∀ i < n, F.pots i 0 = (0 : ℝ) ∧ ∀ j < n, F.ts i j 0 = t * g.adjacency.e i j ∧
        F.usSame i j 0 = v * g.adjacency.e i j ∧ F.ts i j 0 * ((|F.xdist i j| + |F.ydist i j| : ℝ) : ℂ) = t * g.adjacency.e i j) ∧
      (u : ℕ) = 0 ∧ (o : ℕ) = 0 ∧ (∀ i, (π i : ℕ) = (i + 1) % F.nsites) ∧ F.createH none = .ok A ∧ A.Is H ∧ H.IsHermitian ∧
      MovesFermions (nsites := F.nsites) (nspecies := F.nspecies) U (fun _ => π) ∧ U * H = H * U ∧
      ringScript S n t v T = .ok ⟨List.ofFn dens, List.ofFn corrs, List.ofFn fun j => corrs j - dens j ^ 2,
        List.ofFn fun q : Fin F.nsites => (∑ j : Fin F.nsites, ((corrs j - dens j ^ 2 : ℝ) : ℂ) * stepPhase F.nsites q ^ (j : ℕ)) / (F.nsites : ℂ)⟩ ∧
      corrs o = dens o ∧ ∀ C, NormLe H C → ∀ j, |dens j - thermalAvg H (number (mode j u)) T| ≤ 1 / 10 ^ 13 * (1 + 2 * C / T) ∧
        |corrs j - thermalAvg H (number (mode o u) * number (mode j u)) T| ≤ 1 / 10 ^ 13 * (1 + 2 * C / T) := by
  have hn14 : n < 10 ^ 14 := hn'.trans (by norm_num)
  obtain ⟨g, hg, hN, -⟩ := C50_square n 1 (by omega) one_pos 0 0 false true (fun h => by omega) (fun _ => rfl)
  obtain ⟨G⟩ := ring_of hn hn14 hg
  obtain ⟨p0, z1, -⟩ := ring_model hn hn14 hg G t 0 0
  obtain ⟨p, m1, m2, m3, m4, m5, m6, m7, m8⟩ := ring_model hn hn14 hg G t v v
  rw [Complex.ofReal_zero] at z1 m1
  obtain ⟨cs, c1, c2⟩ := G.translation_order hn
  have hNs := G.nsites
  have hFn : (p.model g 1).nsites = n := hNs
  obtain ⟨L, A, projs, H, U, r1, -, -, r4, r5, r6, r7, r8, r9, r10⟩ := ring_near (p.model g 1) (by omega) (0 : Fin 1) rfl m5 m6 m7 m8 c2 (n := n)
    (by omega) hn' ((G.perm_pow _ _).symm.trans ((congrArg G.perm rotate_pow).trans G.perm_one))
  have hsec : ringSectors (p0.model g 1) (siteNumbers cs) n = .ok L := r1
  let o : Fin (p.model g 1).nsites := ⟨0, by omega⟩
  obtain ⟨dens, corrs, d1, d2, -⟩ := ring_measure S hS (p.model g 1) (0 : Fin 1) rfl o rfl r5 r6 r8 (by norm_num) r7 (normLe_frobenius H) hT
  refine ⟨g, p.model g 1, A, H, U, (0 : Fin 1), o, G.perm (finRotate n), dens, corrs, hg, m1, hFn, rfl, m2, m3, m4, rfl, rfl, fun i => ?_, r4, r5, r6, r9, r10,
    ?_, d2, fun C hC j => ?_⟩
  · have e1 : ((finRotate n (G.σ i) : Fin n) : ℕ) = (G.perm (finRotate n) i : Fin g.nsites) :=
      (congrArg Fin.val (G.perm_apply (finRotate n) i)).symm.trans (G.site hn hn14 hg (G.perm (finRotate n) i))
    have e2 := G.site hn hn14 hg i
    obtain ⟨k, hk⟩ := rotate_val (G.σ i)
    rw [e1, e2] at hk
    have h3 : ((G.perm (finRotate n) i : Fin g.nsites) : ℕ) < n := (Fin.is_lt _).trans_eq hNs
    have h4 : (((G.perm (finRotate n) i : Fin g.nsites) : ℕ) : ℤ) % n = ((i : ℕ) + 1) % n := by
      rw [hk, Int.add_mul_emod_self_right]
    have h5 : ((G.perm (finRotate n) i : Fin g.nsites) : ℕ) % n = ((i : ℕ) + 1) % n := by exact_mod_cast h4
    rw [Nat.mod_eq_of_lt h3] at h5
    exact h5.trans (congrArg (fun m => ((i : ℕ) + 1) % m) hFn.symm)
  · unfold ringScript
    simp only [hg, c1, z1, m1, hsec, r4, d1, bind, Except.bind, structureFactor_ofFn]
    rfl
  · obtain ⟨dens', corrs', d1', -, d3⟩ := ring_measure S hS (p.model g 1) (0 : Fin 1) rfl o rfl r5 r6 r8 (by norm_num) r7 hC hT
    rw [d1] at d1'
    injection d1' with e
    rw [Prod.mk.injEq] at e
    have e1 := List.ofFn_injective e.1
    have e2 := List.ofFn_injective e.2
    rw [e1, e2]
    have hs := rounding_small (c := 1) (x := 1 / 10 ^ 13) (κ := 3 * (1 / 10 ^ 14)) zero_le_one hC.1 hT (by norm_num)
    rw [one_mul, one_mul] at hs
    exact ⟨(d3 j).1.trans hs, (d3 j).2.trans hs⟩

/-- The average of the density and the correlation with the first site, from all eigenstates. -/
theorem ring_direct (S : EigSolvers) (hS : EigContract S) (F : Fermions) (u : Fin F.nspecies) (hu : (u : ℕ) = 0) (o : Fin F.nsites)
    (ho : (o : ℕ) = 0) {A : Mat} {H : Op (F.nsites * F.nspecies) 2} (hA : A.Is H) (hH : H.IsHermitian) :
    ∃ w M, diagList S A = .ok (w, M) ∧ ∀ T, 0 < T →
      thermalExpSites F.sys M w nOp 0 [T] none none "boson" =
        .ok (List.ofFn fun j : Fin F.nsites => [thermalAvg H (number (mode j u)) T], List.range F.nsites) ∧
      thermalCorrSites F.sys M w 0 0 nOp nOp [T] (some ((List.range F.nsites).map fun j => (0, j))) none "boson" =
        .ok (List.ofFn fun j : Fin F.nsites => [thermalAvg H (number (mode o u) * number (mode j u)) T], (List.range F.nsites).map fun j => (0, j)) ∧
      ∀ (B : Mat) (O : Op (F.nsites * F.nspecies) 2), B.Is O → expValsThermal M B w T = .ok (thermalAvg H O T) := by
  obtain ⟨m, E, M, V, d1, d2, d3, d4, d5, d6⟩ := diagList_ok S hS hA hH
  refine ⟨_, M, d1, fun T hT => ⟨?_, ?_, fun B O hB => ?_⟩⟩
  · have := site_averages F.sys nOp u (fun i => F_single F i u) d2 (E := E) (T := T) (Or.inl hT.ne')
    rw [hu] at this
    rw [this]
    have e : ∀ O : Op (F.nsites * F.nspecies) 2, canonical T E (fun k => (expect O (colOf V k)).re) = thermalAvg H O T := fun O =>
      (thermalAvg_eig d3 d4 d5 O hT.ne').symm
    refine congrArg (fun f : Fin F.nsites → List ℝ => Except.ok (List.ofFn f, List.range F.nsites)) ?_
    funext j
    exact congrArg (fun x => [x]) (e _)
  · choose X2 x2 x2' using fun j => F_two F o j u u
    rw [hu, ho] at x2
    have hP : (Mat.eye M.rows).Is (1 : Op (F.nsites * F.nspecies) 2) := Mat.is_eye (by rw [d2.1])
    choose Y2 y2 y2' using fun j => sandwich_gives hP (x2' j) 1
    simp only [one_smul, Matrix.one_mul, conjTranspose_one, Matrix.mul_one] at y2'
    exact pairs_in_sector F.sys (Q := none) x2 y2 fun j => by
      rw [C19_canonical d2 (y2' j) E T (Or.inl hT.ne'), thermalAvg_eig d3 d4 d5 _ hT.ne']
  · rw [C19_canonical d2 hB E T (Or.inl hT.ne'), thermalAvg_eig d3 d4 d5 O hT.ne']

section

variable (S : EigSolvers) (hS : EigContract S) {n : ℕ} (hn' : n < 10 ^ 4) (t U : ℝ) {T : ℝ} (hT : 0 < T)
include hS hn' hT

/-- C138, averages: densities and correlations with the first site that the script combines from all sectors are those of the whole
Hamiltonian, up to rounding. -/
theorem C138_averages_partial (hn : 2 ≤ n) : ∃ g F A w M r, ∃ (H : Op (F.nsites * F.nspecies) 2) (d c d' c' : Fin n → ℝ),
    createSquare n 1 0 0 false true = .ok g ∧
    fermionModel g ⟨[], fun _ => 0⟩ ⟨[], fun _ => (t : ℂ)⟩ ⟨[], fun _ => (U : ℂ)⟩ ⟨[], fun _ => 0⟩ ⟨[], fun _ => (U : ℂ)⟩ 1 = .ok F ∧
    F.createH none = .ok A ∧ A.Is H ∧ diagList S A = .ok (w, M) ∧
    thermalExpSites F.sys M w nOp 0 [T] none none "boson" = .ok (List.ofFn fun j => [d j], List.range n) ∧
    thermalCorrSites F.sys M w 0 0 nOp nOp [T] (some ((List.range n).map fun j => (0, j))) none "boson" =
      .ok (List.ofFn fun j => [c j], (List.range n).map fun j => (0, j)) ∧
    ringScript S n t U T = .ok r ∧ r.dens = List.ofFn d' ∧ r.corrs = List.ofFn c' ∧
    ∀ C, NormLe H C → ∀ j, |d' j - d j| ≤ 1 / 10 ^ 13 * (1 + 2 * C / T) ∧ |c' j - c j| ≤ 1 / 10 ^ 13 * (1 + 2 * C / T) := by
  obtain ⟨g, F, A, H, V, u, o, π, dens, corrs, h1, h2, rfl, -, -, -, -, h8, h9, -, h11, h12, h13, -, -, h16, -, h18⟩ := ring_core S hS hn hn' t U hT
  obtain ⟨w, M, k1, k2⟩ := ring_direct S hS F u h8 o h9 h12 h13
  obtain ⟨k3, k4, -⟩ := k2 T hT
  exact ⟨g, F, A, w, M, _, H, _, _, dens, corrs, h1, h2, h11, h12, k1, k3, k4, h16, rfl, rfl, h18⟩

/-- C138, half filling: on a ring of an even number of sites the script finds that half the sites are occupied, up to rounding. -/
theorem C138_half_filling_partial (hn : 3 ≤ n) (he : Even n) : ∃ g F A r, ∃ (H : Op (F.nsites * F.nspecies) 2),
    createSquare n 1 0 0 false true = .ok g ∧
    fermionModel g ⟨[], fun _ => 0⟩ ⟨[], fun _ => (t : ℂ)⟩ ⟨[], fun _ => (U : ℂ)⟩ ⟨[], fun _ => 0⟩ ⟨[], fun _ => (U : ℂ)⟩ 1 = .ok F ∧
    F.createH none = .ok A ∧ A.Is H ∧ ringScript S n t U T = .ok r ∧ r.dens.length = n ∧
    ∀ C, NormLe H C → ∀ x ∈ r.dens, |x - 1 / 2| ≤ 1 / 10 ^ 13 * (1 + 2 * C / T) := by
  obtain ⟨g, F, A, H, V, u, o, π, dens, corrs, h1, h2, rfl, h4, h5, h6, h7, h8, h9, -, h11, h12, h13, -, -, h16, -, h18⟩ := ring_core S hS (by omega) hn' t U hT
  obtain ⟨w, M, k1, k2⟩ := ring_direct S hS F u h8 o h9 h12 h13
  obtain ⟨A', w', M', a1, a2, a3⟩ := ring_half S hS hn he (hn'.trans (by norm_num)) t U h1 rfl h4 h5 h6 h7
  rw [h11] at a1
  injection a1 with e
  subst e
  rw [k1] at a2
  injection a2 with e
  rw [Prod.mk.injEq] at e
  obtain ⟨rfl, rfl⟩ := e
  have e := a3 [T] fun x hx => Or.inl (by rw [List.mem_singleton.1 hx]; exact hT.ne')
  rw [(k2 T hT).1] at e
  injection e with e
  rw [Prod.mk.injEq] at e
  have hd : ∀ j, thermalAvg H (number (mode j u)) T = 1 / 2 := by
    intro j
    have hj := congrArg (fun l : List (List ℝ) => l[(j : ℕ)]?) e.1
    simp only [List.getElem?_ofFn, dif_pos j.2, List.getElem?_replicate, if_pos j.2] at hj
    simpa using hj
  refine ⟨g, F, A, _, H, h1, h2, h11, h12, h16, List.length_ofFn, fun C hC x hx => ?_⟩
  obtain ⟨j, rfl⟩ := (List.mem_ofFn' _ _).1 hx
  have := (h18 C hC j).1
  rwa [hd] at this

/-- C138, structure factor: the values of all momenta add up to the fluctuations of the occupation of the first site; the one of
momentum zero is the variance of the particle number per square of the number of sites; no value is negative or has an imaginary
part, up to rounding. -/
theorem C138_structure_factor_partial (hn : 2 ≤ n) : ∃ g F A w M N N2 x y r, ∃ (H : Op (F.nsites * F.nspecies) 2) (d : Fin n → ℝ) (s : Fin n → ℂ),
    createSquare n 1 0 0 false true = .ok g ∧
    fermionModel g ⟨[], fun _ => 0⟩ ⟨[], fun _ => (t : ℂ)⟩ ⟨[], fun _ => (U : ℂ)⟩ ⟨[], fun _ => 0⟩ ⟨[], fun _ => (U : ℂ)⟩ 1 = .ok F ∧
    F.createH none = .ok A ∧ A.Is H ∧ diagList S A = .ok (w, M) ∧
    getSumOp F.sys nOp 0 "boson" = .ok N ∧ N.mul N = .ok N2 ∧ expValsThermal M N w T = .ok x ∧ expValsThermal M N2 w T = .ok y ∧
    ringScript S n t U T = .ok r ∧ r.dens = List.ofFn d ∧ r.sfact = List.ofFn s ∧
    ∑ q, s q = (d ⟨0, by omega⟩ * (1 - d ⟨0, by omega⟩) : ℝ) ∧
    ∀ C ε, NormLe H C → ε = 1 / 10 ^ 13 * (1 + 2 * C / T) →
      ‖s ⟨0, by omega⟩ - ((y - x ^ 2) / (n : ℝ) ^ 2 : ℝ)‖ ≤ 3 * ε + ε ^ 2 ∧ ∀ q, -(3 * ε + ε ^ 2) ≤ (s q).re ∧ |(s q).im| ≤ 3 * ε + ε ^ 2 := by
  obtain ⟨g, F, A, H, V, u, o, π, dens, corrs, h1, h2, rfl, -, -, -, -, h8, h9, h10, h11, h12, h13, h14, h15, h16, h17, h18⟩ := ring_core S hS hn hn' t U hT
  obtain ⟨w, M, k1, k2⟩ := ring_direct S hS F u h8 o h9 h12 h13
  obtain ⟨k3, k4, k5⟩ := k2 T hT
  have hpos : 0 < F.nsites := o.2.trans_le' (Nat.zero_le _)
  have hN0 : (F.nsites : ℂ) ≠ 0 := by exact_mod_cast hpos.ne'
  have hNr : (F.nsites : ℝ) ≠ 0 := by exact_mod_cast hpos.ne'
  obtain ⟨N, n1, n2⟩ := gives_sumOp (S := F.sys) (ι := Conf (F.nsites * F.nspecies) 2) hpos (fun i : Fin F.nsites => number (mode i u)) fun i => F_single F i u
  rw [h8] at n1
  obtain ⟨N2, n3, n4⟩ := n2.mul n2
  have hinv := fun i j => avg_invariant h13 h14 h15 hT.ne' u i j
  set ρ : ℝ := thermalAvg H (number (mode o u)) T with hρ
  have hρi : ∀ i, thermalAvg H (number (mode i u)) T = ρ := fun i =>
    ring_const h10 h9 (f := fun i => thermalAvg H (number (mode i u)) T) (fun i => (hinv i i).1) i
  set c : Fin F.nsites → Fin F.nsites → ℝ := fun i j => thermalAvg H (number (mode i u) * number (mode j u)) T - ρ ^ 2 with hc
  have ct : ∀ i j, c (π i) (π j) = c i j := fun i j => by simp only [hc, (hinv i j).2]
  have cs : ∀ i j, c i j = c j i := fun i j => by simp only [hc, number_comm (mode i u) (mode j u)]
  have exact_s := ring_fourier h10 h9 cs ct (covariance_nonneg h13 hT.ne' u hρi)
  have htot := ring_total h10 h9 ct
  have hx : thermalAvg H (∑ i : Fin F.nsites, number (mode i u)) T = F.nsites * ρ := by
    rw [thermalAvg_sum, Finset.sum_congr rfl fun i _ => hρi i, Finset.sum_const, Finset.card_univ, Fintype.card_fin, nsmul_eq_mul]
  have hy : thermalAvg H ((∑ i : Fin F.nsites, number (mode i u)) * ∑ i : Fin F.nsites, number (mode i u)) T =
      F.nsites * ∑ j, c o j + (F.nsites * ρ) ^ 2 := by
    rw [← htot, Matrix.sum_mul, thermalAvg_sum]
    have : ∀ i, thermalAvg H (number (mode i u) * ∑ j : Fin F.nsites, number (mode j u)) T = ∑ j, c i j + F.nsites * ρ ^ 2 := by
      intro i
      rw [Matrix.mul_sum, thermalAvg_sum]
      simp only [hc, Finset.sum_sub_distrib, Finset.sum_const, Finset.card_univ, Fintype.card_fin, nsmul_eq_mul]
      ring
    rw [Finset.sum_congr rfl fun i _ => this i, Finset.sum_add_distrib, Finset.sum_const, Finset.card_univ, Fintype.card_fin, nsmul_eq_mul]
    ring
  have ho : o = (⟨0, hpos⟩ : Fin F.nsites) := Fin.ext h9
  refine ⟨g, F, A, w, M, N, N2, _, _, _, H, dens, _, h1, h2, h11, h12, k1, n1, n3, k5 N _ n2, k5 N2 _ n4, h16, rfl, rfl, ?_,
    fun C ε hC hε => ?_⟩
  · rw [← Finset.sum_div, Finset.sum_comm]
    have : ∀ j : Fin F.nsites, ∑ q : Fin F.nsites, ((corrs j - dens j ^ 2 : ℝ) : ℂ) * stepPhase F.nsites q ^ (j : ℕ) =
        if j = o then ((corrs j - dens j ^ 2 : ℝ) : ℂ) * F.nsites else 0 := by
      intro j
      rw [← Finset.mul_sum, Fin.sum_univ_eq_sum_range fun q => stepPhase F.nsites q ^ (j : ℕ), sum_stepPhase hpos j.2]
      by_cases hj : j = o
      · rw [if_pos hj, if_pos (by rw [hj, h9])]
      · rw [if_neg hj, if_neg fun h => hj (Fin.ext (h.trans h9.symm)), mul_zero]
    rw [Finset.sum_congr rfl fun j _ => this j, Finset.sum_ite_eq' Finset.univ o, if_pos (Finset.mem_univ _), mul_div_assoc, div_self hN0, mul_one,
      h17, ← ho]
    push_cast
    ring
  · have herr : ∀ j, |corrs j - dens j ^ 2 - c o j| ≤ 3 * ε + ε ^ 2 := by
      intro j
      obtain ⟨b1, b2⟩ := h18 C hC j
      rw [← hε, hρi] at b1
      rw [← hε] at b2
      have b3 : |ρ| ≤ 1 := thermalAvg_le h13 T (normLe_number _)
      rw [abs_le] at b1 b2 b3 ⊢
      simp only [hc]
      constructor <;> nlinarith
    have hδ : 0 ≤ 3 * ε + ε ^ 2 := (abs_nonneg _).trans (herr o)
    have hs : ∀ q : Fin F.nsites, ‖(∑ j : Fin F.nsites, ((corrs j - dens j ^ 2 : ℝ) : ℂ) * stepPhase F.nsites q ^ (j : ℕ)) / (F.nsites : ℂ) -
        (∑ j : Fin F.nsites, (c o j : ℂ) * stepPhase F.nsites q ^ (j : ℕ)) / (F.nsites : ℂ)‖ ≤ 3 * ε + ε ^ 2 := by
      intro q
      rw [← sub_div, ← Finset.sum_sub_distrib, norm_div, Complex.norm_natCast, div_le_iff₀ (by exact_mod_cast hpos)]
      refine (norm_sum_le _ _).trans ?_
      have : ∀ j ∈ (Finset.univ : Finset (Fin F.nsites)), ‖((corrs j - dens j ^ 2 : ℝ) : ℂ) * stepPhase F.nsites q ^ (j : ℕ) -
          (c o j : ℂ) * stepPhase F.nsites q ^ (j : ℕ)‖ ≤ 3 * ε + ε ^ 2 := by
        intro j _
        rw [← sub_mul, norm_mul, norm_pow, stepPhase_norm, one_pow, mul_one, ← Complex.ofReal_sub, Complex.norm_real, Real.norm_eq_abs]
        exact herr j
      refine (Finset.sum_le_card_nsmul _ _ _ this).trans_eq ?_
      rw [Finset.card_univ, Fintype.card_fin, nsmul_eq_mul, mul_comm]
    refine ⟨?_, fun q => ?_⟩
    · have := hs ⟨0, hpos⟩
      have e : (∑ j : Fin F.nsites, (c o j : ℂ) * stepPhase F.nsites ((⟨0, hpos⟩ : Fin F.nsites) : ℕ) ^ (j : ℕ)) / (F.nsites : ℂ) =
          (((thermalAvg H ((∑ i : Fin F.nsites, number (mode i u)) * ∑ i : Fin F.nsites, number (mode i u)) T -
            (thermalAvg H (∑ i : Fin F.nsites, number (mode i u)) T) ^ 2) / (F.nsites : ℝ) ^ 2 : ℝ) : ℂ) := by
        have h0 : stepPhase F.nsites 0 = 1 := by simp [stepPhase]
        simp only [h0, one_pow, mul_one]
        rw [hx, hy, add_sub_cancel_right]
        push_cast
        field_simp
      rw [e] at this
      exact this
    · obtain ⟨σ, hσ, e⟩ := exact_s q
      have := hs q
      rw [e] at this
      have e2 : ((σ : ℂ) / (F.nsites : ℂ)) = ((σ / F.nsites : ℝ) : ℂ) := by push_cast; rfl
      rw [e2] at this
      have hre := (Complex.abs_re_le_norm _).trans this
      have him := (Complex.abs_im_le_norm _).trans this
      rw [Complex.sub_re, Complex.ofReal_re, abs_le] at hre
      rw [Complex.sub_im, Complex.ofReal_im, sub_zero] at him
      have : 0 ≤ σ / F.nsites := by positivity
      exact ⟨by linarith [hre.1], him⟩

end

/-- Four sites with attraction: the script runs and finds half the sites occupied. -/
example (S : EigSolvers) (hS : EigContract S) : ∃ r, ringScript S 4 1 (-2) 1 = .ok r ∧ r.sfact.length = 4 ∧ ∃ C : ℝ, ∀ x ∈ r.dens,
    |x - 1 / 2| ≤ 1 / 10 ^ 13 * (1 + 2 * C / 1) := by
  obtain ⟨g, F, A, r, H, h1, h2, h3, h4, h5, h6, h7⟩ := C138_half_filling_partial S hS (n := 4) (by norm_num) 1 (-2) (T := 1) one_pos (by norm_num) ⟨2, rfl⟩
  obtain ⟨g', F', A', w, M, N, N2, x, y, r', H', d, s, -, -, -, -, -, -, -, -, -, k1, -, k2, -⟩ :=
    C138_structure_factor_partial S hS (n := 4) (by norm_num) 1 (-2) (T := 1) one_pos (by norm_num)
  rw [h5] at k1
  injection k1 with e
  subst e
  exact ⟨r, h5, by rw [k2, List.length_ofFn], _, h7 _ (normLe_frobenius H)⟩

end ED.Props
