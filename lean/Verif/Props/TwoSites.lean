import Verif.Lemmas.TwoSites
import Verif.Lemmas.Hubbard
import Verif.Lemmas.NumberSectors
import Verif.Lemmas.SquareModel
import Verif.Model.FermionEnergies
import Verif.Props.Thermo
import Verif.Props.Fermions
import Verif.Props.States
import Verif.Props.JordanWigner

/-! # Property C121: the energies of the Hubbard model on two sites -/

namespace ED.Props

open Matrix ED.Geometry

/-- The Hubbard model on two sites: interaction `U`, hopping `t`, chemical potentials `m0` and `m1`. -/
structure Dimer (F : Fermions) (U t m0 m1 : ℝ) : Prop where
  sites : F.nsites = 2
  species : F.nspecies = 2
  us : ∀ i < 2, F.us i = U
  same : ∀ i < 2, ∀ j < 2, ∀ s < 2, F.usSame i j s = 0
  hop : ∀ s < 2, F.ts 1 0 s * ((|F.xdist 1 0| + |F.ydist 1 0| : ℝ) : ℂ) = t
  pot0 : ∀ i < 2, F.pots i 0 - F.mus 0 = -m0
  pot1 : ∀ i < 2, F.pots i 1 - F.mus 1 = -m1

theorem number_cast {n : ℕ} (i : Fin n) : (number i : Op n 2) = diagonal fun t => ((t i : ℕ) : ℂ) := by
  unfold number
  congr 1
  funext t
  generalize t i = x
  fin_cases x <;> simp

/-- The Hamiltonian as an integer combination. -/
theorem dimer_ham (U t m0 m1 : ℂ) (V : Fin 2 → Fin 2 → ℂ) (h0 : ∀ i, V i 0 = -m0) (h1 : ∀ i, V i 1 = -m1)
    (T : Fin 2 → Fin 2 → Fin 2 → ℂ) (hT : ∀ s, T 1 0 s = t) :
    (hubInter (fun _ => U) + (hubHop T + hubPot V) : Op (2 * 2) 2) = TwoSites.ham U t m0 m1 := by
  have e1 : (hubInter (fun _ => U) : Op (2 * 2) 2) = U • (TwoSites.diagZ fun t =>
      (t 0 : ℕ) * (t 2 : ℕ) + (t 1 : ℕ) * (t 3 : ℕ)).map (Int.castRingHom ℂ) := by
    unfold hubInter
    rw [dif_pos le_rfl, Fin.sum_univ_two, ← smul_add]
    congr 1
    rw [number_cast, number_cast, number_cast, number_cast, diagonal_mul_diagonal, diagonal_mul_diagonal, diagonal_add,
      TwoSites.diagZ, diagonal_map (by simp)]
    congr 1
    funext t
    push_cast
    simp
    rfl
  have e2 : (hubHop T : Op (2 * 2) 2) = -(t • TwoSites.flipZ.map (Int.castRingHom ℂ)) := by
    have : TwoSites.flipZ = TwoSites.hopZ := Matrix.ext fun i j => (TwoSites.hopZ_eq (i, j)).symm
    rw [this]
    unfold hubHop TwoSites.hopZ
    simp only [Fin.sum_univ_two, hT, lt_self_iff_false, if_false, Finset.sum_const_zero, add_zero, zero_add,
      Fin.not_lt_zero, Fin.zero_lt_one, if_true, ← neg_add, ← smul_add, TwoSites.create_eq, TwoSites.annih_eq,
      ← TwoSites.cast_mul]
    rw [Matrix.map_add _ (map_add _), Matrix.map_add _ (map_add _), Matrix.map_add _ (map_add _)]
    rfl
  have e3 : (hubPot V : Op (2 * 2) 2) = -(m0 • (TwoSites.diagZ fun t => (t 0 : ℕ) + (t 1 : ℕ)).map (Int.castRingHom ℂ)) -
      m1 • (TwoSites.diagZ fun t => (t 2 : ℕ) + (t 3 : ℕ)).map (Int.castRingHom ℂ) := by
    unfold hubPot
    simp only [Fin.sum_univ_two, h0, h1, number_cast]
    rw [TwoSites.diagZ, TwoSites.diagZ, diagonal_map (by simp), diagonal_map (by simp)]
    ext s s'
    simp only [Matrix.add_apply, Matrix.sub_apply, Matrix.neg_apply, Matrix.smul_apply, diagonal_apply, smul_eq_mul]
    split_ifs
    · simp only [Pi.map_apply, Int.coe_castRingHom, Function.comp_apply]
      push_cast
      have a0 : (mode (0 : Fin 2) (0 : Fin 2) : Fin (2 * 2)) = (0 : Fin 4) := rfl
      have a1 : (mode (1 : Fin 2) (0 : Fin 2) : Fin (2 * 2)) = (1 : Fin 4) := rfl
      have a2 : (mode (0 : Fin 2) (1 : Fin 2) : Fin (2 * 2)) = (2 : Fin 4) := rfl
      have a3 : (mode (1 : Fin 2) (1 : Fin 2) : Fin (2 * 2)) = (3 : Fin 4) := rfl
      rw [a0, a1, a2, a3]
      ring
    · simp
  rw [e1, e2, e3, TwoSites.ham]
  abel

/-- The energies are the zeros of the characteristic polynomial. -/
theorem diagList_roots (S : EigSolvers) (hS : EigContract S) {ι : Type} [Fintype ι] [DecidableEq ι] [Basis ι] [Nonempty ι]
    {A : Mat} {H : Matrix ι ι ℂ} (hA : A.Is H) (hH : H.IsHermitian) :
    ∃ w M, diagList S A = .ok (w, M) ∧ w.Pairwise (· ≤ ·) ∧ ((w : Multiset ℝ).map fun x : ℝ => (x : ℂ)) = H.charpoly.roots := by
  obtain ⟨n, E, M, V, a1, a2, a3, a4, a5, a6⟩ := diagList_ok S hS hA hH
  refine ⟨_, M, a1, ?_, ?_⟩
  · rw [List.pairwise_ofFn]
    exact fun i j hij => a6 hij.le
  · rw [roots_of_eig a3 a4 a5, List.ofFn_eq_map, Multiset.map_coe, List.map_map]
    rfl

theorem perm_of_roots {w l : List ℝ} (h : ((w : Multiset ℝ).map fun x : ℝ => (x : ℂ)) = (l : Multiset ℝ).map fun x : ℝ => (x : ℂ)) :
    w.Perm l := Multiset.coe_eq_coe.1 (Multiset.map_injective Complex.ofReal_injective h)

/-- The Hamiltonian of the model. -/
theorem Dimer.ham {ts : ℕ → ℕ → ℕ → ℂ} {us : ℕ → ℂ} {W : ℕ → ℕ → ℕ → ℂ} {mus : ℕ → ℂ} {pots : ℕ → ℕ → ℂ} {xd yd : ℕ → ℕ → ℝ}
    {U t m0 m1 : ℝ} (h : Dimer ⟨2, 2, ts, us, W, mus, pots, xd, yd⟩ U t m0 m1) :
    (hubInter (fun i : Fin 2 => us i) + hubRest ⟨2, 2, ts, us, W, mus, pots, xd, yd⟩ : Op (2 * 2) 2) =
      TwoSites.ham U t m0 m1 := by
  obtain ⟨-, -, h1, h2, h3, h4, h5⟩ := h
  rw [← dimer_ham U t m0 m1 (fun i s => pots i s - mus s) (fun i => h4 i i.2) (fun i => h5 i i.2)
    (fun i j s => ts i j s * ((|xd i j| + |yd i j| : ℝ) : ℂ)) (fun s => h3 s s.2)]
  have e1 : (hubSame (fun i j s => W i j s) : Op (2 * 2) 2) = 0 := by
    unfold hubSame
    refine Finset.sum_eq_zero fun i _ => Finset.sum_eq_zero fun j _ => Finset.sum_eq_zero fun s _ => ?_
    have hw : W i j s = 0 := h2 i i.2 j j.2 s s.2
    simp [hw]
  have e2 : (fun i : Fin 2 => us i) = fun _ => (U : ℂ) := funext fun i => h1 i i.2
  have e3 : (hubRest ⟨2, 2, ts, us, W, mus, pots, xd, yd⟩ : Op (2 * 2) 2) = hubSame (fun i j s => W i j s) +
      hubHop (fun i j s => ts i j s * ((|xd i j| + |yd i j| : ℝ) : ℂ)) + hubPot fun i s => pots i s - mus s := rfl
  rw [e3, e1, e2, zero_add]

theorem ham_hermitian (U t m0 m1 : ℝ) : (TwoSites.ham U t m0 m1).IsHermitian := by
  have key : ∀ (x : ℝ) (A : Matrix (Conf 4 2) (Conf 4 2) ℤ), Aᵀ = A → ((x : ℂ) • A.map (Int.castRingHom ℂ))ᴴ =
      (x : ℂ) • A.map (Int.castRingHom ℂ) := fun x A h => by
    ext i j
    simp only [conjTranspose_apply, Matrix.smul_apply, map_apply, eq_intCast, smul_eq_mul, star_mul', Complex.star_def,
      Complex.conj_ofReal]
    rw [← Matrix.transpose_apply A i j, h]
    simp
  have hd : ∀ p : Conf 4 2 × Conf 4 2, TwoSites.flipZ p.2 p.1 = TwoSites.flipZ p.1 p.2 := by decide +kernel
  have hf : TwoSites.flipZᵀ = TwoSites.flipZ := Matrix.ext fun i j => hd (i, j)
  unfold TwoSites.ham
  simp only [IsHermitian, conjTranspose_sub]
  rw [key _ _ (by rw [TwoSites.diagZ, diagonal_transpose]), key _ _ hf, key _ _ (by rw [TwoSites.diagZ, diagonal_transpose]),
    key _ _ (by rw [TwoSites.diagZ, diagonal_transpose])]

/-- The two energies of a pair of particles that hop together. -/
noncomputable def pairEnergy (U t : ℝ) (σ : ℝ) : ℝ := (U + σ * √(U ^ 2 + 16 * t ^ 2)) / 2

/-- The energies are those of no, one, two, three and four particles on two sites. -/
theorem C121_spectrum (S : EigSolvers) (hS : EigContract S) {F : Fermions} {U t m0 m1 : ℝ} (h : Dimer F U t m0 m1) :
    ∃ A w M, F.createH none = .ok A ∧ diagList S A = .ok (w, M) ∧ w.Pairwise (· ≤ ·) ∧ w.Perm
      [0,
       -t - m0, t - m0, -t - m1, t - m1,
       -2 * m0, -2 * m1, -m0 - m1, U - m0 - m1, pairEnergy U t 1 - m0 - m1, pairEnergy U t (-1) - m0 - m1,
       U - t - 2 * m0 - m1, U + t - 2 * m0 - m1, U - t - m0 - 2 * m1, U + t - m0 - 2 * m1,
       2 * U - 2 * m0 - 2 * m1] := by
  obtain ⟨n, b, ts, us, W, mus, pots, xd, yd⟩ := F
  obtain rfl : n = 2 := h.sites
  obtain rfl : b = 2 := h.species
  obtain ⟨A, hA, hAi⟩ := (C27_hamiltonian ⟨2, 2, ts, us, W, mus, pots, xd, yd⟩ (Or.inl le_rfl)).of_eq h.ham
  obtain ⟨w, M, h1, h2, h3⟩ := diagList_roots S hS hAi (ham_hermitian U t m0 m1)
  refine ⟨A, w, M, hA, h1, h2, perm_of_roots ?_⟩
  rw [h3, TwoSites.ham_charpoly, Polynomial.roots_mul (mul_ne_zero (charpoly_monic _).ne_zero (charpoly_monic _).ne_zero),
    TwoSites.roots_diagonal, TwoSites.block_roots]
  rw [Fin.univ_val_map, Multiset.map_coe]
  simp only [List.ofFn_succ, List.ofFn_zero, List.map_cons, List.map_nil, ← Multiset.cons_coe, Multiset.coe_nil,
    ← Multiset.singleton_add, Multiset.insert_eq_cons, pairEnergy, TwoSites.levels, TwoSites.hopD, TwoSites.doubD,
    TwoSites.num0, TwoSites.num1]
  simp [sub_eq_add_neg]
  simp only [← Multiset.singleton_add]
  abel

/-- With one particle of each species there are four energies. -/
theorem C121_sector (S : EigSolvers) (hS : EigContract S) {F : Fermions} {U t m0 m1 : ℝ} (h : Dimer F U t m0 m1) :
    ∃ P A w M, F.nProjector (some [some 1, some 1]) = .ok P ∧ F.createH (some P) = .ok A ∧ diagList S A = .ok (w, M) ∧
      w.Pairwise (· ≤ ·) ∧
      w.Perm [-m0 - m1, U - m0 - m1, pairEnergy U t 1 - m0 - m1, pairEnergy U t (-1) - m0 - m1] := by
  obtain ⟨n, b, ts, us, W, mus, pots, xd, yd⟩ := F
  obtain rfl : n = 2 := h.sites
  obtain rfl : b = 2 := h.species
  obtain ⟨P, hP, hsel⟩ := C16_number_projector ⟨2, 2, ts, us, W, mus, pots, xd, yd⟩ (by norm_num) [some 1, some 1] rfl
  have hcount : ∀ t : Conf (2 * 2) 2, (∀ (s : Fin 2) (v : ℤ), [some (1 : ℤ), some 1][s]? = some (some v) →
      (speciesCount t s : ℤ) = v) ↔ ∃ k, TwoSites.pairs k = t := by
    intro t
    rw [TwoSites.pairs_range]
    have h2 : ∀ s : Fin 2, speciesCount t s = (t (mode 0 s) : ℕ) + (t (mode 1 s) : ℕ) := fun s => by
      unfold speciesCount
      rw [Finset.card_filter, Fin.sum_univ_two]
      generalize t (mode 0 s) = x
      generalize t (mode 1 s) = y
      fin_cases x <;> fin_cases y <;> rfl
    have h3 : (t 0 : ℕ) + (t 1 : ℕ) = speciesCount t 0 := (h2 0).symm
    have h4 : (t 2 : ℕ) + (t 3 : ℕ) = speciesCount t 1 := (h2 1).symm
    rw [h3, h4]
    constructor
    · intro h
      exact ⟨by exact_mod_cast h 0 1 rfl, by exact_mod_cast h 1 1 rfl⟩
    · rintro ⟨h0, h1⟩ s v hv
      fin_cases s
      · obtain rfl : (1 : ℤ) = v := by simpa using hv
        exact_mod_cast h0
      · obtain rfl : (1 : ℤ) = v := by simpa using hv
        exact_mod_cast h1
  obtain ⟨d, sel, hinj, hrange, hPi⟩ := hsel.is (p := fun t => ∀ (s : Fin 2) (v : ℤ),
    [some (1 : ℤ), some 1][s]? = some (some v) → (speciesCount t s : ℤ) = v) ⟨TwoSites.pairs 0, (hcount _).2 ⟨0, rfl⟩⟩
  obtain ⟨A, hA, hAi⟩ := createH_gives_proj hPi (Or.inl le_rfl)
  have hr : ∀ t, (∃ r, sel r = t) ↔ ∃ k, TwoSites.pairs k = t := fun t => (hrange t).symm.trans (hcount t)
  choose f hf using fun r => (hr (sel r)).1 ⟨r, rfl⟩
  choose g hg using fun k => (hr (TwoSites.pairs k)).2 ⟨k, rfl⟩
  let e : Fin (d + 1) ≃ Fin 4 := ⟨f, g, fun r => hinj (by rw [hg, hf]), fun k => TwoSites.pairs_inj _ _ (by rw [hf, hg])⟩
  have hmat : (Matrix.of fun r t => if t = sel r then (1 : ℂ) else 0 : Matrix (Fin (d + 1)) (Conf (2 * 2) 2) ℂ) *
      (hubInter (fun i : Fin 2 => us i) + hubRest ⟨2, 2, ts, us, W, mus, pots, xd, yd⟩) *
      (Matrix.of fun r t => if t = sel r then (1 : ℂ) else 0)ᴴ = (TwoSites.hamSub U t m0 m1).submatrix e e := by
    rw [h.ham]
    ext r s
    rw [Matrix.mul_apply, Finset.sum_eq_single (sel s), Matrix.mul_apply, Finset.sum_eq_single (sel r)]
    · simp only [of_apply, if_true, one_mul, conjTranspose_apply, star_one, mul_one, submatrix_apply, TwoSites.hamSub]
      rw [← hf, ← hf s]
      rfl
    · intro t _ ht
      simp [ht]
    · simp
    · intro t _ ht
      simp [ht]
    · simp
  rw [hmat] at hAi
  obtain ⟨w, M, h1, h2, h3⟩ := diagList_roots S hS hAi (((ham_hermitian U t m0 m1).submatrix _).submatrix _)
  refine ⟨P, A, w, M, hP, hA, h1, h2, perm_of_roots ?_⟩
  rw [h3, show (TwoSites.hamSub (U : ℂ) t m0 m1).submatrix e e = reindex e.symm e.symm (TwoSites.hamSub (U : ℂ) t m0 m1) from rfl,
    charpoly_reindex, TwoSites.hamSub_charpoly,
    Polynomial.roots_mul (mul_ne_zero (charpoly_monic _).ne_zero (charpoly_monic _).ne_zero),
    TwoSites.roots_diagonal, TwoSites.block_roots]
  rw [Fin.univ_val_map, Multiset.map_coe]
  simp only [List.ofFn_succ, List.ofFn_zero, List.map_cons, List.map_nil, ← Multiset.cons_coe, Multiset.coe_nil,
    ← Multiset.singleton_add, Multiset.insert_eq_cons, pairEnergy]
  simp [sub_eq_add_neg]

/-- The first of the energies in ascending order is the lowest one. -/
theorem head_of_perm {w l : List ℝ} {x : ℝ} (h1 : w.Pairwise (· ≤ ·)) (h2 : w.Perm l) (hx : x ∈ l) (h : ∀ y ∈ l, x ≤ y) :
    w.head? = some x := by
  cases w with
  | nil => simp [h2.nil_eq.symm] at hx
  | cons a w =>
    have ha := h a (h2.subset (by simp))
    rcases List.mem_cons.1 (h2.symm.subset hx) with rfl | h3
    · rfl
    · rw [List.head?_cons, le_antisymm (List.rel_of_pairwise_cons h1 h3) ha]

/-- The ground state of two particles gains energy from the hopping, by at most four times the square of the hopping divided
by the interaction if this is repulsive. -/
theorem C121_ground (S : EigSolvers) (hS : EigContract S) {F : Fermions} {U t m0 m1 : ℝ} (h : Dimer F U t m0 m1) :
    ∃ P A w M, F.nProjector (some [some 1, some 1]) = .ok P ∧ F.createH (some P) = .ok A ∧ diagList S A = .ok (w, M) ∧
      w.head? = some (pairEnergy U t (-1) - m0 - m1) ∧ (t ≠ 0 → pairEnergy U t (-1) < 0 ∧ pairEnergy U t (-1) < U) ∧
      (0 < U → -(4 * t ^ 2 / U) ≤ pairEnergy U t (-1)) := by
  obtain ⟨P, A, w, M, h1, h2, h3, h4, h5⟩ := C121_sector S hS h
  have hq : √(U ^ 2 + 16 * t ^ 2) ^ 2 = U ^ 2 + 16 * t ^ 2 := Real.sq_sqrt (by positivity)
  have hq0 := Real.sqrt_nonneg (U ^ 2 + 16 * t ^ 2)
  unfold pairEnergy at *
  generalize √(U ^ 2 + 16 * t ^ 2) = q at *
  have ha : |U| ≤ q := abs_le_of_sq_le_sq (by nlinarith) hq0
  obtain ⟨b1, b2⟩ := abs_le.1 ha
  refine ⟨P, A, w, M, h1, h2, h3, head_of_perm h4 h5 (by simp) fun y hy => ?_, fun ht => ?_, fun hU => ?_⟩
  · simp only [List.mem_cons, List.not_mem_nil, or_false] at hy
    rcases hy with rfl | rfl | rfl | rfl <;> linarith
  · have : 0 < t ^ 2 := by positivity
    have : |U| < q := abs_lt_of_sq_lt_sq (by nlinarith) hq0
    obtain ⟨c1, c2⟩ := abs_lt.1 this
    exact ⟨by linarith, by linarith⟩
  · rw [← sub_nonneg]
    have e : (U + -1 * q) / 2 - -(4 * t ^ 2 / U) = (q - U) ^ 2 / (4 * U) := by
      field_simp
      nlinarith
    rw [e]
    positivity

/-- The models made by the constructor on two sites, open or closed to a ring. -/
theorem dimer_lattice (o : Bool) (U t : ℝ) (mu : ℕ → ℝ) :
    ∃ g F, createSquare 2 1 0 0 o true = .ok g ∧
      fermionModel g ⟨[], fun _ => (U : ℂ)⟩ ⟨[], fun _ => (t : ℂ)⟩ ⟨[2], fun idx => (mu (idx.getD 0 0) : ℂ)⟩ ⟨[], fun _ => ((0 : ℝ) : ℂ)⟩
        ⟨[], fun _ => ((0 : ℝ) : ℂ)⟩ 2 = .ok F ∧ Dimer F U t (mu 0) (mu 1) := by
  obtain ⟨g, hg, -⟩ := C50_square 2 1 (by norm_num) one_pos 0 0 o true (by norm_num) (fun _ => rfl)
  obtain ⟨hN, hadj⟩ := chain_adjacency (n := 2) (by norm_num) (by norm_num) (by norm_num) hg
  obtain ⟨p, hp, hus, hall⟩ := fermionModel_square (nx := 2) (ny := 1) (by norm_num) one_pos (by norm_num) (by norm_num)
    (fun _ => rfl) hg 2 U t 0 0 mu
  refine ⟨g, _, hg, hp, hN, rfl, fun i hi => hus i (by omega), fun i hi j hj s hs => ?_, fun s hs => ?_, fun i hi => ?_, fun i hi => ?_⟩
  · rw [((hall i (by omega) s hs).2.2 j (by omega)).2.1]
    simp
  · rw [((hall 1 (by omega) s hs).2.2 0 (by omega)).2.2, (hadj 1 (by omega) 0 (by omega)).2.2 ⟨0, by simp, by simp⟩]
    simp
  · rw [(hall i (by omega) 0 (by omega)).1, (hall i (by omega) 0 (by omega)).2.1]
    simp
  · rw [(hall i (by omega) 1 (by omega)).1, (hall i (by omega) 1 (by omega)).2.1]
    simp

/-- The energies of the models made by the constructor, with any numbers of particles and with one particle of each species. -/
theorem C121_lattice (S : EigSolvers) (hS : EigContract S) (o : Bool) (U t : ℝ) (mu : ℕ → ℝ) :
    ∃ g F A w M P A' w' M', createSquare 2 1 0 0 o true = .ok g ∧
      fermionModel g ⟨[], fun _ => (U : ℂ)⟩ ⟨[], fun _ => (t : ℂ)⟩ ⟨[2], fun idx => (mu (idx.getD 0 0) : ℂ)⟩ ⟨[], fun _ => ((0 : ℝ) : ℂ)⟩
        ⟨[], fun _ => ((0 : ℝ) : ℂ)⟩ 2 = .ok F ∧
      F.createH none = .ok A ∧ diagList S A = .ok (w, M) ∧ w.Pairwise (· ≤ ·) ∧ w.Perm
        [0,
         -t - mu 0, t - mu 0, -t - mu 1, t - mu 1,
         -2 * mu 0, -2 * mu 1, -mu 0 - mu 1, U - mu 0 - mu 1, pairEnergy U t 1 - mu 0 - mu 1, pairEnergy U t (-1) - mu 0 - mu 1,
         U - t - 2 * mu 0 - mu 1, U + t - 2 * mu 0 - mu 1, U - t - mu 0 - 2 * mu 1, U + t - mu 0 - 2 * mu 1,
         2 * U - 2 * mu 0 - 2 * mu 1] ∧
      F.nProjector (some [some 1, some 1]) = .ok P ∧ F.createH (some P) = .ok A' ∧ diagList S A' = .ok (w', M') ∧
      w'.Pairwise (· ≤ ·) ∧ w'.Perm
        [-mu 0 - mu 1, U - mu 0 - mu 1, pairEnergy U t 1 - mu 0 - mu 1, pairEnergy U t (-1) - mu 0 - mu 1] := by
  obtain ⟨g, F, h1, h2, hF⟩ := dimer_lattice o U t mu
  obtain ⟨A, w, M, a1, a2, a3, a4⟩ := C121_spectrum S hS hF
  obtain ⟨P, A', w', M', b1, b2, b3, b4, b5⟩ := C121_sector S hS hF
  exact ⟨g, F, A, w, M, P, A', w', M', h1, h2, a1, a2, a3, a4, b1, b2, b3, b4, b5⟩

/-- Hopping one, interaction three: the four energies of one particle of each species are `-1`, `0`, `3` and `4`. -/
example (S : EigSolvers) (hS : EigContract S) : ∃ g F P A w M, createSquare 2 1 0 0 true true = .ok g ∧
    fermionModel g ⟨[], fun _ => ((3 : ℝ) : ℂ)⟩ ⟨[], fun _ => ((1 : ℝ) : ℂ)⟩ ⟨[2], fun _ => ((0 : ℝ) : ℂ)⟩ ⟨[], fun _ => ((0 : ℝ) : ℂ)⟩
      ⟨[], fun _ => ((0 : ℝ) : ℂ)⟩ 2 = .ok F ∧ F.nProjector (some [some 1, some 1]) = .ok P ∧ F.createH (some P) = .ok A ∧
    diagList S A = .ok (w, M) ∧ w = [-1, 0, 3, 4] := by
  obtain ⟨g, F, h1, h2, hF⟩ := dimer_lattice true 3 1 fun _ => 0
  obtain ⟨P, A, w, M, h3, h4, h5, h6, h7⟩ := C121_sector S hS hF
  refine ⟨g, F, P, A, w, M, h1, h2, h3, h4, h5, ?_⟩
  have hq : √((3 : ℝ) ^ 2 + 16 * 1 ^ 2) = 5 := by rw [show ((3 : ℝ) ^ 2 + 16 * 1 ^ 2) = 5 ^ 2 by norm_num]; exact Real.sqrt_sq (by norm_num)
  simp only [pairEnergy, hq] at h7
  norm_num at h7
  refine (h7.trans ?_).eq_of_pairwise (le := (· ≤ ·)) (fun a b _ _ => le_antisymm) h6 (by norm_num)
  rw [← Multiset.coe_eq_coe]
  simp only [← Multiset.cons_coe, ← Multiset.singleton_add, Multiset.coe_nil]
  abel

end ED.Props
