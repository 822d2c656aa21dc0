import Verif.Props.Fermions
import Verif.Props.Directions
import Verif.Props.SiteOrder
import Verif.Lemmas.JordanWigner
import Verif.Lemmas.SquareModel
import Verif.Spec.JordanWigner
import Verif.Model.FermionEnergies

/-! # Property C119: spinless fermions on a chain and the Heisenberg model -/

namespace ED.Props

open ED ED.Geometry Matrix
open scoped BigOperators

/-- Spinless fermions with one mode for every site. -/
noncomputable def chainOp {n N : ℕ} (m : Fin n → Fin N) (W T : Fin n → Fin n → ℂ) (V : Fin n → ℂ) : Op N 2 :=
  (∑ i, ∑ j, if j ≤ i then W i j • (number (m i) * number (m j)) else 0) +
    (∑ i, ∑ j, if j < i then -(T i j • (create (m i) * annih (m j) + create (m j) * annih (m i))) else 0) +
    ∑ i, V i • number (m i)

theorem chainOp_gives {n N : ℕ} (hN : N = n) (m : Fin n → Fin N) (hm : ∀ i, (m i : ℕ) = i) {W T : Fin n → Fin n → ℂ}
    {V : Fin n → ℂ} {r : Res Mat} (h : Gives r (chainOp m W T V)) : Gives r (chainOp id W T V : Op n 2) := by
  subst hN
  have : m = id := funext fun i => Fin.ext (hm i)
  rwa [this] at h

theorem spinless_gives (F : Fermions) (h1 : F.nspecies = 1) (hu : ∀ i < F.nsites, F.us i = 0) :
    Gives (F.createH none) (chainOp id (fun i j => F.usSame i j 0) (fun i j => F.amplitude i j)
      (fun i => F.pots i 0 - F.mus 0) : Op F.nsites 2) := by
  have h := C27_hamiltonian F (Or.inr fun i => hu i i.2)
  obtain ⟨n, b, ts, us, W, mus, pots, xd, yd⟩ := F
  subst h1
  refine chainOp_gives (by simp) (fun i => mode i (0 : Fin 1)) (fun i => by simp [mode]) ?_
  convert h using 1
  unfold chainOp hubInter hubSame hubHop hubPot
  rw [dif_neg (by norm_num), zero_add]
  simp only [Fin.sum_univ_one]
  rfl

theorem siteOp_sigmaZ {n : ℕ} (i : Fin n) : (siteOp sigmaZ i : Op n 2) = diagonal fun t => spinVal t i := by
  have : sigmaZ = diagonal fun x : Fin 2 => if x = 0 then (1 : ℂ) else -1 := by
    ext x y
    simp only [sigmaZ, of_apply, diagonal_apply]
  rw [siteOp_eq_bop, this, bop_diag]
  rfl

theorem number_spin {n : ℕ} (i : Fin n) : (number i : Op n 2) = diagonal fun t => (1 - spinVal t i) / 2 := by
  unfold number spinVal
  congr 1
  funext t
  have := Fin.exists_fin_two.1 ⟨t i, rfl⟩
  rcases this with h | h
  · simp [h]
  · simp [h]

theorem spinVal_sq {n : ℕ} (t : Conf n 2) (i : Fin n) : spinVal t i * spinVal t i = 1 := by
  unfold spinVal
  split_ifs <;> ring

/-- The matrix elements of spinless fermions on a chain are those of spins. -/
theorem chain_entry {n : ℕ} (W T : Fin n → Fin n → ℂ) (V : Fin n → ℂ)
    (hT : ∀ i j : Fin n, j < i → (i : ℕ) ≠ j + 1 → ¬ ((j : ℕ) = 0 ∧ (i : ℕ) + 1 = n) → T i j = 0) (s t : Conf n 2)
    (ε : ℂ) (hε : ε = if _root_.Odd (occ t) then 1 else -1) :
    (chainOp id W T V : Op n 2) s t =
      (spinH (fun i j => if (i : ℕ) = j + 1 then -T i j else -(ε * T i j))
        (fun i j => if (i : ℕ) = j + 1 then -T i j else -(ε * T i j)) (fun i j => W i j / 2) (fun _ => 0) (fun _ => 0)
        (fun i => (∑ j, if j < i then W i j else if i < j then W j i else 0) / 2 + W i i + V i) : Op n 2) s t +
      if s = t then (∑ i, ∑ j, if j < i then W i j else 0) / 4 + (∑ i, (W i i + V i)) / 2 else 0 := by
  have hhop : ∀ i j : Fin n, (if j < i then -(T i j • (create i * annih j + create j * annih i)) else 0 : Op n 2) s t =
      if j < i then (1 / 2) * ((if (i : ℕ) = j + 1 then -T i j else -(ε * T i j)) *
        ((siteOp sigmaX i * siteOp sigmaX j : Op n 2) s t + (siteOp sigmaY i * siteOp sigmaY j : Op n 2) s t)) else 0 := by
    intro i j
    split_ifs with h h'
    · rw [Matrix.neg_apply, Matrix.smul_apply, smul_eq_mul, hop_next h']
      ring
    · rw [Matrix.neg_apply, Matrix.smul_apply, smul_eq_mul]
      by_cases he : (j : ℕ) = 0 ∧ (i : ℕ) + 1 = n
      · rw [hop_ends he.1 he.2 h, ← hε]
        ring
      · rw [hT i j h h' he]
        ring
    · rfl
  have hd : ∀ (p : Prop) [Decidable p] (d : Conf n 2 → ℂ), (if p then diagonal d else 0 : Op n 2) s t =
      if s = t then (if p then d t else 0) else 0 := by
    intro p _ d
    split_ifs with h1 h2 h2
    · subst h2; simp
    · simp [h2]
    · rfl
    · rfl
  unfold chainOp spinH
  simp only [id, number_spin, siteOp_sigmaZ, diagonal_mul_diagonal, Matrix.add_apply, Matrix.sub_apply, Matrix.sum_apply, hhop,
    zero_smul, zero_add]
  have h1 : ∀ i j : Fin n, (if j ≤ i then W i j • diagonal fun t : Conf n 2 => (1 - spinVal t i) / 2 * ((1 - spinVal t j) / 2)
      else 0 : Op n 2) s t = if s = t then (if j ≤ i then W i j * ((1 - spinVal t i) / 2 * ((1 - spinVal t j) / 2)) else 0) else 0 := by
    intro i j
    rw [← diagonal_smul]
    exact hd _ _
  have h2 : ∀ i : Fin n, (V i • diagonal fun t : Conf n 2 => (1 - spinVal t i) / 2 : Op n 2) s t =
      if s = t then V i * ((1 - spinVal t i) / 2) else 0 := by
    intro i
    have := hd True (V i • fun t : Conf n 2 => (1 - spinVal t i) / 2)
    rw [if_pos trivial, if_pos trivial] at this
    rw [← diagonal_smul]
    exact this
  have h3 : ∀ i j : Fin n, (if j < i then (1 / 2 : ℂ) • ((if (i : ℕ) = j + 1 then -T i j else -(ε * T i j)) •
      (siteOp sigmaX i * siteOp sigmaX j) + (if (i : ℕ) = j + 1 then -T i j else -(ε * T i j)) •
      (siteOp sigmaY i * siteOp sigmaY j) + (W i j / 2) • diagonal fun t : Conf n 2 => spinVal t i * spinVal t j) else 0 : Op n 2) s t =
      (if j < i then (1 / 2) * ((if (i : ℕ) = j + 1 then -T i j else -(ε * T i j)) *
        ((siteOp sigmaX i * siteOp sigmaX j : Op n 2) s t + (siteOp sigmaY i * siteOp sigmaY j : Op n 2) s t)) else 0) +
      if s = t then (if j < i then 1 / 2 * (W i j / 2 * (spinVal t i * spinVal t j)) else 0) else 0 := by
    intro i j
    by_cases h : j < i
    · simp only [if_pos h, Matrix.add_apply, Matrix.smul_apply, smul_eq_mul, diagonal_apply]
      by_cases hst : s = t
      · subst hst; simp only [if_true]; ring
      · simp only [if_neg hst]; ring
    · simp [h]
  have h4 : ∀ i : Fin n, ((1 / 2 : ℂ) • (((∑ j, if j < i then W i j else if i < j then W j i else 0) / 2 + W i i + V i) •
      diagonal fun t : Conf n 2 => spinVal t i) : Op n 2) s t = if s = t then 1 / 2 * (((∑ j, if j < i then W i j else
        if i < j then W j i else 0) / 2 + W i i + V i) * spinVal t i) else 0 := by
    intro i
    simp only [Matrix.smul_apply, smul_eq_mul, diagonal_apply]
    by_cases hst : s = t
    · subst hst; simp
    · simp [hst]
  simp only [h1, h2, h3, h4, Finset.sum_add_distrib]
  by_cases hst : s = t
  · subst hst
    simp only [if_true]
    have := diagonal_terms n W V (spinVal s) (spinVal_sq s)
    simp only [Finset.sum_add_distrib] at this
    linear_combination this
  · simp [hst]

/-! ## The two models -/

theorem chainSpins_gives (F : Fermions) (ε : ℂ) : Gives ((F.chainSpins ε).createH none)
    (spinH (fun i j => if (i : ℕ) = j + 1 then -F.amplitude i j else -(ε * F.amplitude i j))
      (fun i j => if (i : ℕ) = j + 1 then -F.amplitude i j else -(ε * F.amplitude i j)) (fun i j => F.usSame i j 0 / 2)
      (fun _ => 0) (fun _ => 0) (fun i => (∑ j : Fin F.nsites, if j < i then F.usSame i j 0 else if i < j then F.usSame j i 0
        else 0) / 2 + F.usSame i i 0 + (F.pots i 0 - F.mus 0)) : Op F.nsites 2) := by
  have h := spin_createH (F.chainSpins ε) (Or.inl rfl)
  simp only [Fermions.chainSpins, heis_half, neg_zero] at h
  have hi : ∀ i : Fin F.nsites, (∑ j : Fin F.nsites, if j < i then F.usSame i j 0 else if i < j then F.usSame j i 0 else 0) =
      F.interactions i := by
    intro i
    unfold Fermions.interactions
    rw [Finset.sum_range]
    rfl
  simp only [hi]
  exact h

theorem chainShift_eq (F : Fermions) : F.chainShift = (∑ i : Fin F.nsites, ∑ j : Fin F.nsites, if j < i then F.usSame i j 0 else 0) / 4 +
    (∑ i : Fin F.nsites, (F.usSame i i 0 + (F.pots i 0 - F.mus 0))) / 2 := by
  unfold Fermions.chainShift
  simp only [Finset.sum_range]
  rfl

/-- C119: spinless fermions with any potentials and interactions, and hopping between consecutive sites and between the first and
the last site. In the states with an odd number of particles the Hamiltonian is the one of the spins, up to a constant; in the
others the coupling between the first and the last spin has the other sign. -/
theorem C119_jordan_wigner_partial (F : Fermions) (h1 : F.nspecies = 1) (hu : ∀ i < F.nsites, F.us i = 0)
    (hT : ∀ i j, j < i → i < F.nsites → i ≠ j + 1 → ¬ (j = 0 ∧ i + 1 = F.nsites) → F.ts i j 0 = 0) :
    ∃ K A : Op F.nsites 2, Gives ((F.chainSpins 1).createH none) K ∧ Gives ((F.chainSpins (-1)).createH none) A ∧
      Gives (F.createH none) (of fun s t : Conf F.nsites 2 =>
        (if _root_.Odd (occ t) then K s t else A s t) + if s = t then F.chainShift else 0) := by
  refine ⟨_, _, chainSpins_gives F 1, chainSpins_gives F (-1), ?_⟩
  have h := spinless_gives F h1 hu
  convert h using 1
  ext s t
  have hT' : ∀ i j : Fin F.nsites, j < i → (i : ℕ) ≠ j + 1 → ¬ ((j : ℕ) = 0 ∧ (i : ℕ) + 1 = F.nsites) → F.amplitude i j = 0 := by
    intro i j h2 h3 h4
    unfold Fermions.amplitude
    rw [hT i j h2 i.2 h3 h4, zero_mul]
  rw [chain_entry _ _ _ hT' s t _ rfl, of_apply, chainShift_eq]
  split_ifs <;> rfl

/-- C119 on an open chain: the two Hamiltonians differ by a constant. -/
theorem C119_open_partial (F : Fermions) (h1 : F.nspecies = 1) (hu : ∀ i < F.nsites, F.us i = 0)
    (hT : ∀ i j, j < i → i < F.nsites → i ≠ j + 1 → F.ts i j 0 = 0) :
    ∃ K : Op F.nsites 2, Gives ((F.chainSpins 1).createH none) K ∧ Gives (F.createH none) (K + F.chainShift • 1) := by
  refine ⟨_, chainSpins_gives F 1, ?_⟩
  have h := spinless_gives F h1 hu
  convert h using 1
  ext s t
  have hT' : ∀ i j : Fin F.nsites, j < i → (i : ℕ) ≠ j + 1 → F.amplitude i j = 0 := by
    intro i j h2 h3
    unfold Fermions.amplitude
    rw [hT i j h2 i.2 h3, zero_mul]
  rw [chain_entry _ _ _ (fun i j h2 h3 _ => hT' i j h2 h3) s t _ rfl, chainShift_eq, Matrix.add_apply, Matrix.smul_apply,
    Matrix.one_apply, smul_eq_mul, mul_ite, mul_one, mul_zero]
  congr 1
  unfold spinH
  rw [Matrix.sub_apply, Matrix.sub_apply]
  refine congrArg₂ (· - ·) (congrFun (congrFun (?_ : (_ : Op F.nsites 2) = _) s) t) rfl
  refine Finset.sum_congr rfl fun i _ => Finset.sum_congr rfl fun j _ => ?_
  by_cases a : j < i
  · by_cases b : (i : ℕ) = j + 1
    · simp only [if_pos a, if_pos b]
    · simp only [if_pos a, if_neg b, hT' i j a b, mul_zero]
  · simp only [if_neg a]

/-! ## Energies -/

/-- A constant moves all energies. -/
theorem diagList_shift (S : EigSolvers) (hS : EigContract S) {ι : Type} [Fintype ι] [DecidableEq ι] [Basis ι] [Nonempty ι] {A A' : Mat}
    {H : Matrix ι ι ℂ} {c : ℝ} (hA : A.Is H) (hA' : A'.Is (H + (c : ℂ) • 1)) (hH : H.IsHermitian) :
    ∃ w M M', diagList S A = .ok (w, M) ∧ diagList S A' = .ok (w.map (· + c), M') := by
  obtain ⟨n, E, M, V, a1, a2, a3, a4, a5, a6⟩ := diagList_ok S hS hA hH
  have hH' : (H + (c : ℂ) • (1 : Matrix ι ι ℂ)).IsHermitian := by
    refine hH.add ?_
    unfold IsHermitian
    rw [conjTranspose_smul, conjTranspose_one, RCLike.star_def, Complex.conj_ofReal]
  obtain ⟨n', E', M', V', b1, b2, b3, b4, b5, b6⟩ := diagList_ok S hS hA' hH'
  refine ⟨_, M, M', a1, b1.trans ?_⟩
  suffices List.ofFn E' = (List.ofFn E).map (· + c) by rw [this]
  rw [List.map_ofFn]
  refine List.Perm.eq_of_pairwise' (r := (· ≤ ·)) ?_ ?_ ?_
  · rw [List.pairwise_ofFn]
    exact fun i j hij => b6 hij.le
  · rw [List.pairwise_ofFn]
    exact fun i j hij => add_le_add_left (a6 hij.le) c
  · rw [← Multiset.coe_eq_coe, ← Fin.univ_val_map, ← Fin.univ_val_map]
    have e : (H + (c : ℂ) • (1 : Matrix ι ι ℂ)) * V = V * diagonal fun k => (((E k + c : ℝ)) : ℂ) := by
      have : (diagonal fun k => (((E k + c : ℝ)) : ℂ)) = diagonal (fun k => (E k : ℂ)) + (c : ℂ) • 1 := by
        ext i j
        by_cases hij : i = j
        · subst hij; simp
        · simp [hij]
      rw [this, Matrix.add_mul, a5, Matrix.mul_add, Matrix.smul_mul, Matrix.one_mul, Matrix.mul_smul, Matrix.mul_one]
    have r1 := roots_of_eig a3 a4 e
    have r2 := roots_of_eig b3 b4 b5
    rw [r1] at r2
    have : Multiset.map (fun x : ℝ => (x : ℂ)) (Multiset.map (fun k => E k + c) Finset.univ.val) =
        Multiset.map (fun x : ℝ => (x : ℂ)) (Multiset.map E' Finset.univ.val) := by
      rw [Multiset.map_map, Multiset.map_map]
      exact r2
    exact (Multiset.map_injective Complex.ofReal_injective this).symm

/-- The sums of powers of the energies. -/
theorem diagList_powers (S : EigSolvers) (hS : EigContract S) {ι : Type} [Fintype ι] [DecidableEq ι] [Basis ι] [Nonempty ι] {A : Mat}
    {H : Matrix ι ι ℂ} (hA : A.Is H) (hH : H.IsHermitian) :
    ∃ w M, diagList S A = .ok (w, M) ∧ ∀ k : ℕ, (((w.map (· ^ k)).sum : ℝ) : ℂ) = (H ^ k).trace := by
  obtain ⟨n, E, M, V, a1, a2, a3, a4, a5, a6⟩ := diagList_ok S hS hA hH
  refine ⟨_, M, a1, fun k => ?_⟩
  have e : ∀ k : ℕ, H ^ k * V = V * diagonal fun i => ((E i : ℂ)) ^ k := by
    intro k
    induction k with
    | zero => simp
    | succ k ih =>
      rw [pow_succ', Matrix.mul_assoc, ih, ← Matrix.mul_assoc, a5, Matrix.mul_assoc, diagonal_mul_diagonal]
      congr 2
      funext i
      ring
  have t : (H ^ k).trace = (V * (diagonal fun i => ((E i : ℂ)) ^ k) * Vᴴ).trace := by
    rw [← e k, Matrix.mul_assoc, a4, Matrix.mul_one]
  rw [t, Matrix.trace_mul_comm, ← Matrix.mul_assoc, a3, Matrix.one_mul, trace_diagonal, List.map_ofFn, List.sum_ofFn]
  simp only [Function.comp, Complex.ofReal_sum, Complex.ofReal_pow]

/-- A model with real parameters. -/
def RealChain (F : Fermions) : Prop :=
  ∀ i < F.nsites, (F.pots i 0 - F.mus 0).im = 0 ∧ ∀ j < F.nsites, (F.ts i j 0).im = 0 ∧ (F.usSame i j 0).im = 0

theorem RealChain.shift {F : Fermions} (hR : RealChain F) : ((F.chainShift.re : ℝ) : ℂ) = F.chainShift := by
  refine Complex.ext (Complex.ofReal_re _) ?_
  rw [Complex.ofReal_im, chainShift_eq, Complex.add_im, Complex.div_ofNat_im, Complex.div_ofNat_im, Complex.im_sum,
    Complex.im_sum, Finset.sum_eq_zero, Finset.sum_eq_zero]
  · simp
  · intro i _
    rw [Complex.add_im, (hR i i.2).1, ((hR i i.2).2 i i.2).2, add_zero]
  · intro i _
    rw [Complex.im_sum, Finset.sum_eq_zero]
    intro j _
    split_ifs
    · exact ((hR i i.2).2 j j.2).2
    · rfl

theorem gives_unique {ι κ : Type} [Fintype ι] [Fintype κ] [Basis ι] [Basis κ] {r : Res Mat} {O O' : Matrix ι κ ℂ} (h : Gives r O)
    (h' : Gives r O') : O = O' := by
  obtain ⟨A, a1, a2⟩ := h
  obtain ⟨B, b1, b2⟩ := h'
  rw [a1] at b1
  injection b1 with e
  subst e
  ext i j
  rw [← a2.2.2, ← b2.2.2]

theorem RealChain.hermitian {F : Fermions} (hR : RealChain F) (ε : ℝ) {K : Op F.nsites 2}
    (hK : Gives ((F.chainSpins ε).createH none) K) : K.IsHermitian := by
  have h := spin_createH (F.chainSpins ε) (Or.inl rfl)
  have e : K = heis (n := F.nsites) (sxM 1) (syM 1) (szM 1) (fun i j => (F.chainSpins ε).jx i j)
      (fun i j => (F.chainSpins ε).jy i j) (fun i j => (F.chainSpins ε).jz i j) (fun i => (F.chainSpins ε).hx i)
      (fun i => (F.chainSpins ε).hy i) (fun i => (F.chainSpins ε).hz i) := gives_unique hK h
  have hs := heis_star (n := F.nsites) (sxM_star 1) (syM_star 1) (szM_star 1) (fun i j => (F.chainSpins ε).jx i j)
      (fun i j => (F.chainSpins ε).jy i j) (fun i j => (F.chainSpins ε).jz i j) (fun i => (F.chainSpins ε).hx i)
      (fun i => (F.chainSpins ε).hy i) (fun i => (F.chainSpins ε).hz i)
  have hc : ∀ z : ℂ, z.im = 0 → star z = z := fun z hz => Complex.conj_eq_iff_im.2 hz
  have ha : ∀ i j : Fin F.nsites, (F.amplitude i j).im = 0 := by
    intro i j
    unfold Fermions.amplitude
    rw [Complex.mul_im, Complex.ofReal_im, ((hR i i.2).2 j j.2).1]
    ring
  have hj : ∀ i j : Fin F.nsites, star ((F.chainSpins ε).jx i j) = (F.chainSpins ε).jx i j := by
    intro i j
    refine hc _ ?_
    simp only [Fermions.chainSpins]
    split_ifs
    · rw [Complex.neg_im, ha, neg_zero]
    · rw [Complex.neg_im, Complex.mul_im, Complex.ofReal_im, ha]
      ring
  have hj' : ∀ i j : Fin F.nsites, star ((F.chainSpins ε).jz i j) = (F.chainSpins ε).jz i j := by
    intro i j
    refine hc _ ?_
    simp only [Fermions.chainSpins]
    rw [Complex.div_ofNat_im, ((hR i i.2).2 j j.2).2, zero_div]
  have hf : ∀ i : Fin F.nsites, star ((F.chainSpins ε).hz i) = (F.chainSpins ε).hz i := by
    intro i
    refine hc _ ?_
    simp only [Fermions.chainSpins, Fermions.interactions]
    rw [Complex.add_im, Complex.add_im, (hR i i.2).1, ((hR i i.2).2 i i.2).2, Complex.div_ofNat_im, Complex.im_sum,
      Finset.sum_eq_zero]
    · simp
    · intro j hj
      rw [Finset.mem_range] at hj
      split_ifs
      · exact ((hR i i.2).2 j hj).2
      · exact ((hR j hj).2 i i.2).2
      · rfl
  rw [e]
  refine hs.trans ?_
  simp only [hj', hf]
  have hjy : ∀ i j : Fin F.nsites, star ((F.chainSpins ε).jy i j) = (F.chainSpins ε).jy i j := hj
  have h0 : ∀ i : Fin F.nsites, star ((F.chainSpins ε).hx i) = (F.chainSpins ε).hx i := fun i => hc _ rfl
  have h1 : ∀ i : Fin F.nsites, star ((F.chainSpins ε).hy i) = (F.chainSpins ε).hy i := fun i => hc _ rfl
  simp only [hj, hjy, h0, h1]

/-- C119 on an open chain with real parameters: the energies of the fermions are those of the spins, up to a constant. -/
theorem C119_energies_partial (S : EigSolvers) (hS : EigContract S) (F : Fermions) (h1 : F.nspecies = 1) (hu : ∀ i < F.nsites, F.us i = 0)
    (hR : RealChain F) (hT : ∀ i j, j < i → i < F.nsites → i ≠ j + 1 → F.ts i j 0 = 0) :
    ∃ w, spinEnergies S (F.chainSpins 1) = .ok w ∧ fermionEnergies S F = .ok (w.map (· + F.chainShift.re)) := by
  obtain ⟨K, hK, hF⟩ := C119_open_partial F h1 hu hT
  have hh : K.IsHermitian := hR.hermitian 1 (by rwa [Complex.ofReal_one])
  obtain ⟨A, a1, a2⟩ := hK
  obtain ⟨B, b1, b2⟩ := hF
  rw [← hR.shift] at b2
  obtain ⟨w, M, M', c1, c2⟩ := diagList_shift S hS a2 b2 hh
  refine ⟨w, ?_, ?_⟩
  · unfold spinEnergies
    rw [a1]
    simp only [bind, Except.bind, c1, pure, Except.pure]
  · unfold fermionEnergies
    rw [b1]
    simp only [bind, Except.bind, c2, pure, Except.pure]

/-! ## The constructors -/

/-- Neighbours on a chain made by the library. -/
theorem chain_adjacency {n : ℕ} (hn : 0 < n) (hn' : n < 10 ^ 14) {o : Bool} (ho : n = 1 → o = true) {g : Geometry}
    (hg : createSquare n 1 0 0 o true = .ok g) : g.nsites = n ∧ ∀ i < n, ∀ j < n,
      (g.adjacency.e i j = 0 ∨ g.adjacency.e i j = 1) ∧ (g.adjacency.e i j = 1 ↔
        ∃ k : ℤ, (o = true → k = 0) ∧ ((i : ℤ) - j + k * n = 1 ∨ (i : ℤ) - j + k * n = -1)) := by
  have hN : g.nsites = n := by
    obtain ⟨g', hg', h, -⟩ := C50_square n 1 hn one_pos 0 0 o true ho (fun _ => rfl)
    rw [hg] at hg'
    injection hg' with e
    rw [e, h, mul_one]
  refine ⟨hN, fun i hi j hj => ?_⟩
  have pi := C50_square_order n 1 hn one_pos (by omega) 0 0 o true ho (fun _ => rfl) hg (i := i) (by omega)
  have pj := C50_square_order n 1 hn one_pos (by omega) 0 0 o true ho (fun _ => rfl) hg (i := j) (by omega)
  rw [Nat.div_one, Nat.mod_one] at pi pj
  have := C51_square n 1 hn one_pos (by omega) 0 0 o true ho (fun _ => rfl) hg pi.1 pi.2 pj.1 pj.2
  refine ⟨this.1, this.2.trans ⟨?_, ?_⟩⟩
  · rintro ⟨k, l, hk, hl, h⟩
    refine ⟨k, hk, ?_⟩
    rw [hl rfl] at h
    simp only [Set.mem_insert_iff, Set.mem_singleton_iff, Prod.mk.injEq, Int.cast_zero, zero_mul, Nat.cast_zero, sub_zero, add_zero,
      and_true, zero_ne_one, and_false, zero_eq_neg, one_ne_zero, or_false] at h
    exact_mod_cast h
  · rintro ⟨k, hk, h⟩
    refine ⟨k, 0, hk, by simp, ?_⟩
    simp only [Set.mem_insert_iff, Set.mem_singleton_iff, Prod.mk.injEq, Int.cast_zero, zero_mul, Nat.cast_zero, sub_zero, add_zero,
      and_true, zero_ne_one, and_false, zero_eq_neg, one_ne_zero, or_false]
    exact_mod_cast h

/-- The number of neighbours of site `i` on an open chain of `n` sites. -/
def neighbours (n i : ℕ) : ℕ := (if 0 < i then 1 else 0) + if i + 1 < n then 1 else 0

/-- Spinless fermions with hopping `t`, chemical potential `mu`, potential `w` and interaction `v` between neighbours. -/
noncomputable def spinless (g : Geometry) (t v w mu : ℝ) : Res Fermions :=
  fermionModel g ⟨[], fun _ => ((0 : ℝ) : ℂ)⟩ ⟨[], fun _ => (t : ℂ)⟩ ⟨[1], fun _ => (mu : ℂ)⟩ ⟨[], fun _ => (w : ℂ)⟩ ⟨[], fun _ => (v : ℂ)⟩ 1

/-- What the constructor makes of the parameters. -/
theorem spinless_ok {n : ℕ} (hn : 0 < n) (hn' : n < 10 ^ 14) {o : Bool} (ho : n = 1 → o = true) {g : Geometry}
    (hg : createSquare n 1 0 0 o true = .ok g) (t v w mu : ℝ) : ∃ F, spinless g t v w mu = .ok F ∧ F.nsites = n ∧ F.nspecies = 1 ∧
      (∀ i < n, F.us i = 0) ∧ F.mus 0 = mu ∧ ∀ i < n, F.pots i 0 = w ∧ ∀ j < n, F.ts i j 0 = t * g.adjacency.e i j ∧
        F.usSame i j 0 = v * g.adjacency.e i j ∧ F.amplitude i j = t * g.adjacency.e i j := by
  have hN := (chain_adjacency hn hn' ho hg).1
  obtain ⟨p, hp, hus, hv⟩ := fermionModel_square hn one_pos (by omega) ho (fun _ => rfl) hg 1 0 t w v (fun _ => mu)
  rw [hN] at hus hv
  refine ⟨p.model g 1, hp, hN, rfl, fun i hi => ?_, (hv 0 hn 0 one_pos).1, fun i hi => ⟨(hv i hi 0 one_pos).2.1, fun j hj => ?_⟩⟩
  · rw [hus i hi]; simp
  · obtain ⟨h1, h2, h3⟩ := (hv i hi 0 one_pos).2.2 j hj
    exact ⟨h1, h2, h3⟩

theorem sum_before (n i : ℕ) (hi : i < n) (v : ℂ) :
    (∑ j ∈ Finset.range n, if j + 1 = i then v else 0) = if 0 < i then v else 0 := by
  cases i with
  | zero => simp
  | succ k =>
    simp only [Nat.add_right_cancel_iff, Finset.sum_ite_eq', Finset.mem_range]
    rw [if_pos (by omega), if_pos (by omega)]

theorem sum_after (n i : ℕ) (v : ℂ) : (∑ j ∈ Finset.range n, if j = i + 1 then v else 0) = if i + 1 < n then v else 0 := by
  rw [Finset.sum_ite_eq']
  simp

theorem sum_positive (n : ℕ) (hn : 0 < n) (v : ℂ) : (∑ i ∈ Finset.range n, if 0 < i then v else 0) = v * (n - 1) := by
  obtain ⟨m, rfl⟩ : ∃ m, n = m + 1 := ⟨n - 1, by omega⟩
  rw [Finset.sum_range_succ']
  simp
  ring

theorem sum_last (n : ℕ) (hn : 0 < n) (v : ℂ) : (∑ i ∈ Finset.range n, if i + 1 = n then v else 0) = v := by
  obtain ⟨m, rfl⟩ : ∃ m, n = m + 1 := ⟨n - 1, by omega⟩
  simp

theorem spinH_congr {n : ℕ} {jx jy jz jx' jy' jz' : Fin n → Fin n → ℂ} {hx hy hz hx' hy' hz' : Fin n → ℂ}
    (h1 : ∀ i j, j < i → jx i j = jx' i j ∧ jy i j = jy' i j ∧ jz i j = jz' i j)
    (h2 : ∀ i, hx i = hx' i ∧ hy i = hy' i ∧ hz i = hz' i) :
    (spinH jx jy jz hx hy hz : Op n 2) = spinH jx' jy' jz' hx' hy' hz' := by
  unfold spinH
  congr 1
  · refine Finset.sum_congr rfl fun i _ => Finset.sum_congr rfl fun j _ => ?_
    split_ifs with h
    · rw [(h1 i j h).1, (h1 i j h).2.1, (h1 i j h).2.2]
    · rfl
  · refine Finset.sum_congr rfl fun i _ => ?_
    rw [(h2 i).1, (h2 i).2.1, (h2 i).2.2]

/-- Spins one half with the same couplings below the diagonal and the same fields have the same Hamiltonian. -/
theorem half_gives {n : ℕ} (G G' : Spins) (hn : G.nsites = n) (hn' : G'.nsites = n) (h1 : G.twoS = 1) (h1' : G'.twoS = 1)
    (hj : ∀ i j, j < i → i < n → G.jx i j = G'.jx i j ∧ G.jy i j = G'.jy i j ∧ G.jz i j = G'.jz i j)
    (hh : ∀ i < n, G.hx i = G'.hx i ∧ G.hy i = G'.hy i ∧ G.hz i = G'.hz i) {K : Op n 2} (hK : Gives (G.createH none) K) :
    Gives (G'.createH none) K := by
  obtain ⟨m, d, jx, jy, jz, hx, hy, hz⟩ := G
  obtain ⟨m', d', jx', jy', jz', hx', hy', hz'⟩ := G'
  simp only at hn hn' h1 h1' hj hh
  subst hn hn' h1 h1'
  have a := spin_createH ⟨m', 1, jx, jy, jz, hx, hy, hz⟩ (Or.inl rfl)
  have b := spin_createH ⟨m', 1, jx', jy', jz', hx', hy', hz'⟩ (Or.inl rfl)
  simp only [heis_half] at a b
  rw [gives_unique hK a]
  convert b using 1
  exact spinH_congr (fun i j hij => hj i j hij i.2) fun i => ⟨(hh i i.2).1, by rw [(hh i i.2).2.1], (hh i i.2).2.2⟩

/-- C119 through the constructors: spinless fermions on an open chain are the spin chain with couplings `-t`, `-t`, `v / 2` and
the fields of the chemical potential, the potential and the neighbours. -/
theorem C119_open_chain_partial (S : EigSolvers) (hS : EigContract S) {n : ℕ} (hn : 0 < n) (hn' : n < 10 ^ 14) {g : Geometry}
    (hg : createSquare n 1 0 0 true true = .ok g) (t v w mu : ℝ) : ∃ (F : Fermions) (G : Spins) (es : List ℝ),
      spinless g t v w mu = .ok F ∧
      Spins.init n 1 (fun i j => g.adjacency.e i j) (fun i j => g.phase.e i j) (.scalar (-t)) (.scalar (-t)) (.scalar (v / 2))
        (.scalar 0) (.scalar 0) (.array n fun i => ((v * neighbours n i / 2 + w - mu : ℝ) : ℂ)) false = .ok G ∧
      (∃ K : Op n 2, Gives (G.createH none) K ∧
        Gives (F.createH none) (K + ((v * (n - 1) / 4 + n * (w - mu) / 2 : ℝ) : ℂ) • 1)) ∧
      spinEnergies S G = .ok es ∧ fermionEnergies S F = .ok (es.map (· + (v * (n - 1) / 4 + n * (w - mu) / 2))) := by
  have ho : n = 1 → true = true := fun _ => rfl
  obtain ⟨hN, hadj⟩ := chain_adjacency hn hn' ho hg
  obtain ⟨-, hph, -⟩ := square_facts hn one_pos (by omega) ho (fun _ => rfl) hg
  obtain ⟨F, hF, f1, f2, f3, f4, f5⟩ := spinless_ok hn hn' ho hg t v w mu
  subst f1
  have ha : ∀ i < F.nsites, ∀ j < F.nsites, g.adjacency.e i j = if i = j + 1 ∨ j = i + 1 then 1 else 0 := by
    intro i hi j hj
    obtain ⟨h1, h2⟩ := hadj i hi j hj
    have h3 : g.adjacency.e i j = 1 ↔ (i = j + 1 ∨ j = i + 1) := by
      rw [h2]
      constructor
      · rintro ⟨k, hk, h⟩
        rw [hk rfl] at h
        omega
      · intro h
        exact ⟨0, fun _ => rfl, by omega⟩
    split_ifs with h
    · exact h3.2 h
    · exact h1.resolve_right (mt h3.1 h)
  have hW : ∀ i < F.nsites, ∀ j < F.nsites, F.usSame i j 0 = if i = j + 1 ∨ j = i + 1 then (v : ℂ) else 0 := by
    intro i hi j hj
    rw [((f5 i hi).2 j hj).2.1, ha i hi j hj]
    split_ifs <;> simp
  have hT : ∀ i j, j < i → i < F.nsites → i ≠ j + 1 → F.ts i j 0 = 0 := by
    intro i j h1 h2 h3
    rw [((f5 i h2).2 j (by omega)).1, ha i h2 j (by omega), if_neg (by omega)]
    simp
  have hshift : F.chainShift = ((v * (F.nsites - 1) / 4 + F.nsites * (w - mu) / 2 : ℝ) : ℂ) := by
    have e1 : (∑ i ∈ Finset.range F.nsites, ∑ j ∈ Finset.range F.nsites, if j < i then F.usSame i j 0 else 0) =
        ∑ i ∈ Finset.range F.nsites, if 0 < i then (v : ℂ) else 0 := by
      refine Finset.sum_congr rfl fun i hi => ?_
      rw [← sum_before F.nsites i (Finset.mem_range.1 hi)]
      refine Finset.sum_congr rfl fun j hj => ?_
      rw [hW i (Finset.mem_range.1 hi) j (Finset.mem_range.1 hj)]
      split_ifs <;> first | rfl | omega
    have e2 : (∑ i ∈ Finset.range F.nsites, (F.usSame i i 0 + (F.pots i 0 - F.mus 0))) =
        ∑ i ∈ Finset.range F.nsites, ((w : ℂ) - mu) := by
      refine Finset.sum_congr rfl fun i hi => ?_
      rw [hW i (Finset.mem_range.1 hi) i (Finset.mem_range.1 hi), if_neg (by omega), (f5 i (Finset.mem_range.1 hi)).1, f4]
      ring
    unfold Fermions.chainShift
    rw [e1, e2, sum_positive _ hn, Finset.sum_const, Finset.card_range, nsmul_eq_mul]
    push_cast
    ring
  have hR : RealChain F := by
    intro i hi
    refine ⟨?_, fun j hj => ⟨?_, ?_⟩⟩
    · rw [(f5 i hi).1, f4]; simp
    · rw [((f5 i hi).2 j hj).1, ha i hi j hj]; split_ifs <;> simp
    · rw [hW i hi j hj]; split_ifs <;> simp
  obtain ⟨K, hK, hF'⟩ := C119_open_partial F f2 f3 hT
  obtain ⟨G, hG⟩ : ∃ G : Spins, G = ⟨F.nsites, 1, fun a b => ((-t : ℝ) : ℂ) * (g.adjacency.e a b : ℂ) * g.phase.e a b,
      fun a b => ((-t : ℝ) : ℂ) * (g.adjacency.e a b : ℂ) * g.phase.e a b,
      fun a b => ((v / 2 : ℝ) : ℂ) * (g.adjacency.e a b : ℂ) * g.phase.e a b, fun _ => ((0 : ℝ) : ℂ), fun _ => ((0 : ℝ) : ℂ),
      fun i => ((v * neighbours F.nsites i / 2 + w - mu : ℝ) : ℂ)⟩ := ⟨_, rfl⟩
  have hK' : Gives (G.createH none) K := by
    refine half_gives (n := F.nsites) (F.chainSpins 1) G rfl (by rw [hG]) rfl (by rw [hG]) ?_ ?_ hK <;> rw [hG]
    · intro i j hij hi
      have hj : j < F.nsites := by omega
      simp only [Fermions.chainSpins, hph, ((f5 i hi).2 j hj).2.2, ((f5 i hi).2 j hj).2.1]
      refine ⟨?_, ?_, ?_⟩
      · split_ifs <;> (push_cast; ring)
      · split_ifs <;> (push_cast; ring)
      · push_cast; ring
    · intro i hi
      refine ⟨Complex.ofReal_zero.symm, Complex.ofReal_zero.symm, ?_⟩
      have e : F.interactions i = v * neighbours F.nsites i := by
        unfold Fermions.interactions neighbours
        have : ∀ j ∈ Finset.range F.nsites, (if j < i then F.usSame i j 0 else if i < j then F.usSame j i 0 else 0) =
            (if j + 1 = i then (v : ℂ) else 0) + if j = i + 1 then (v : ℂ) else 0 := by
          intro j hj
          rw [Finset.mem_range] at hj
          rw [hW i hi j hj, hW j hj i hi]
          split_ifs <;> first | omega | simp
        rw [Finset.sum_congr rfl this, Finset.sum_add_distrib, sum_before _ _ hi, sum_after]
        split_ifs <;> (push_cast; ring)
      simp only [Fermions.chainSpins, e]
      rw [hW i hi i hi, if_neg (by omega), (f5 i hi).1, f4]
      push_cast
      ring
  rw [hshift] at hF'
  have hh : K.IsHermitian := hR.hermitian 1 (by rwa [Complex.ofReal_one])
  obtain ⟨A, a1, a2⟩ := hK'
  obtain ⟨B, b1, b2⟩ := hF'
  obtain ⟨es, M, M', c1, c2⟩ := diagList_shift S hS a2 b2 hh
  refine ⟨F, G, es, hF, ?_, ⟨K, ⟨A, a1, a2⟩, B, b1, b2⟩, ?_, ?_⟩
  · unfold Spins.init interactionMat fieldMat
    simp only [bind, Except.bind, pure, Except.pure, ne_eq, not_true_eq_false, if_false]
    rw [hG]
    rfl
  · unfold spinEnergies
    rw [a1]
    simp only [bind, Except.bind, c1, pure, Except.pure]
  · unfold fermionEnergies
    rw [b1]
    simp only [bind, Except.bind, c2, pure, Except.pure]

/-- C119 through the constructors on a ring: the couplings and the field are numbers, as in the unit test. With an even number of
particles the coupling between the first and the last spin has the other sign. -/
theorem C119_ring_partial {n : ℕ} (hn : 3 ≤ n) (hn' : n < 10 ^ 14) {g : Geometry} (hg : createSquare n 1 0 0 false true = .ok g)
    (t v w mu : ℝ) : ∃ (F : Fermions) (G G' : Spins) (K A : Op n 2), spinless g t v w mu = .ok F ∧
      Spins.init n 1 (fun i j => g.adjacency.e i j) (fun i j => g.phase.e i j) (.scalar (-t)) (.scalar (-t)) (.scalar (v / 2))
        (.scalar 0) (.scalar 0) (.scalar (v + w - mu)) false = .ok G ∧
      Spins.init n 1 (fun i j => g.adjacency.e i j) (fun i j => g.phase.e i j)
        (.square n fun i j => if i = j + 1 then ((-t * g.adjacency.e i j : ℝ) : ℂ) else ((t * g.adjacency.e i j : ℝ) : ℂ))
        (.square n fun i j => if i = j + 1 then ((-t * g.adjacency.e i j : ℝ) : ℂ) else ((t * g.adjacency.e i j : ℝ) : ℂ))
        (.scalar (v / 2)) (.scalar 0) (.scalar 0) (.scalar (v + w - mu)) false = .ok G' ∧
      Gives (G.createH none) K ∧ Gives (G'.createH none) A ∧
      Gives (F.createH none) (of fun s t : Conf n 2 => (if _root_.Odd (occ t) then K s t else A s t) +
        if s = t then ((n * v / 4 + n * (w - mu) / 2 : ℝ) : ℂ) else 0) := by
  have ho : n = 1 → false = true := fun h => by omega
  have h0 : 0 < n := by omega
  obtain ⟨hN, hadj⟩ := chain_adjacency h0 hn' ho hg
  obtain ⟨-, hph, -⟩ := square_facts h0 one_pos (by omega) ho (fun _ => rfl) hg
  obtain ⟨F, hF, f1, f2, f3, f4, f5⟩ := spinless_ok h0 hn' ho hg t v w mu
  subst f1
  have ha : ∀ i < F.nsites, ∀ j < F.nsites, g.adjacency.e i j =
      if i = j + 1 ∨ j = i + 1 ∨ (j = 0 ∧ i + 1 = F.nsites) ∨ (i = 0 ∧ j + 1 = F.nsites) then 1 else 0 := by
    intro i hi j hj
    obtain ⟨h1, h2⟩ := hadj i hi j hj
    have h3 : g.adjacency.e i j = 1 ↔ (i = j + 1 ∨ j = i + 1 ∨ (j = 0 ∧ i + 1 = F.nsites) ∨ (i = 0 ∧ j + 1 = F.nsites)) := by
      rw [h2]
      constructor
      · rintro ⟨k, -, h⟩
        have k1 : k < 2 := by
          by_contra hk
          have : (2 : ℤ) * F.nsites ≤ k * F.nsites := mul_le_mul_of_nonneg_right (by omega) (by omega)
          omega
        have k2 : -2 < k := by
          by_contra hk
          have : k * F.nsites ≤ (-2 : ℤ) * F.nsites := mul_le_mul_of_nonneg_right (by omega) (by omega)
          omega
        obtain rfl | rfl | rfl : k = -1 ∨ k = 0 ∨ k = 1 := by omega
        · omega
        · omega
        · omega
      · rintro (h | h | h | h)
        · exact ⟨0, by simp, by omega⟩
        · exact ⟨0, by simp, by omega⟩
        · exact ⟨-1, by simp, by omega⟩
        · exact ⟨1, by simp, by omega⟩
    split_ifs with h
    · exact h3.2 h
    · exact h1.resolve_right (mt h3.1 h)
  have hW : ∀ i < F.nsites, ∀ j < F.nsites, F.usSame i j 0 =
      if i = j + 1 ∨ j = i + 1 ∨ (j = 0 ∧ i + 1 = F.nsites) ∨ (i = 0 ∧ j + 1 = F.nsites) then (v : ℂ) else 0 := by
    intro i hi j hj
    rw [((f5 i hi).2 j hj).2.1, ha i hi j hj]
    split_ifs <;> simp
  have hT : ∀ i j, j < i → i < F.nsites → i ≠ j + 1 → ¬ (j = 0 ∧ i + 1 = F.nsites) → F.ts i j 0 = 0 := by
    intro i j h1 h2 h3 h4
    rw [((f5 i h2).2 j (by omega)).1, ha i h2 j (by omega), if_neg (by omega)]
    simp
  have hend : ∀ i < F.nsites, (∑ j ∈ Finset.range F.nsites, if j = 0 ∧ i + 1 = F.nsites then (v : ℂ) else 0) =
      if i + 1 = F.nsites then (v : ℂ) else 0 := by
    intro i _
    by_cases h : i + 1 = F.nsites
    · simp [h, h0]
    · simp [h]
  have hshift : F.chainShift = ((F.nsites * v / 4 + F.nsites * (w - mu) / 2 : ℝ) : ℂ) := by
    have e1 : (∑ i ∈ Finset.range F.nsites, ∑ j ∈ Finset.range F.nsites, if j < i then F.usSame i j 0 else 0) =
        ∑ i ∈ Finset.range F.nsites, ((if 0 < i then (v : ℂ) else 0) + if i + 1 = F.nsites then (v : ℂ) else 0) := by
      refine Finset.sum_congr rfl fun i hi => ?_
      rw [← sum_before F.nsites i (Finset.mem_range.1 hi), ← hend i (Finset.mem_range.1 hi), ← Finset.sum_add_distrib]
      refine Finset.sum_congr rfl fun j hj => ?_
      rw [hW i (Finset.mem_range.1 hi) j (Finset.mem_range.1 hj)]
      rw [Finset.mem_range] at hi hj
      split_ifs <;> first | omega | simp
    have e2 : (∑ i ∈ Finset.range F.nsites, (F.usSame i i 0 + (F.pots i 0 - F.mus 0))) =
        ∑ i ∈ Finset.range F.nsites, ((w : ℂ) - mu) := by
      refine Finset.sum_congr rfl fun i hi => ?_
      rw [Finset.mem_range] at hi
      rw [hW i hi i hi, if_neg (by omega), (f5 i hi).1, f4]
      ring
    unfold Fermions.chainShift
    rw [e1, e2, Finset.sum_add_distrib, sum_positive _ h0, sum_last _ h0, Finset.sum_const, Finset.card_range, nsmul_eq_mul]
    push_cast
    ring
  have hI : ∀ i < F.nsites, F.interactions i = 2 * v := by
    intro i hi
    unfold Fermions.interactions
    have : ∀ j ∈ Finset.range F.nsites, (if j < i then F.usSame i j 0 else if i < j then F.usSame j i 0 else 0) =
        ((if j + 1 = i then (v : ℂ) else 0) + if j = i + 1 then (v : ℂ) else 0) +
          ((if j = 0 ∧ i + 1 = F.nsites then (v : ℂ) else 0) + if j + 1 = F.nsites then (if i = 0 then (v : ℂ) else 0) else 0) := by
      intro j hj
      rw [Finset.mem_range] at hj
      rw [hW i hi j hj, hW j hj i hi]
      split_ifs <;> first | omega | simp
    rw [Finset.sum_congr rfl this, Finset.sum_add_distrib, Finset.sum_add_distrib, Finset.sum_add_distrib, sum_before _ _ hi,
      sum_after, hend i hi, sum_last _ h0]
    split_ifs <;> first | omega | ring
  obtain ⟨K, A, hK, hA, hF'⟩ := C119_jordan_wigner_partial F f2 f3 hT
  obtain ⟨G, hG⟩ : ∃ G : Spins, G = ⟨F.nsites, 1, fun a b => ((-t : ℝ) : ℂ) * (g.adjacency.e a b : ℂ) * g.phase.e a b,
      fun a b => ((-t : ℝ) : ℂ) * (g.adjacency.e a b : ℂ) * g.phase.e a b,
      fun a b => ((v / 2 : ℝ) : ℂ) * (g.adjacency.e a b : ℂ) * g.phase.e a b, fun _ => ((0 : ℝ) : ℂ), fun _ => ((0 : ℝ) : ℂ),
      fun _ => ((v + w - mu : ℝ) : ℂ)⟩ := ⟨_, rfl⟩
  obtain ⟨G', hG'⟩ : ∃ G' : Spins, G' = ⟨F.nsites, 1,
      fun i j => if i = j + 1 then ((-t * g.adjacency.e i j : ℝ) : ℂ) else ((t * g.adjacency.e i j : ℝ) : ℂ),
      fun i j => if i = j + 1 then ((-t * g.adjacency.e i j : ℝ) : ℂ) else ((t * g.adjacency.e i j : ℝ) : ℂ),
      fun a b => ((v / 2 : ℝ) : ℂ) * (g.adjacency.e a b : ℂ) * g.phase.e a b, fun _ => ((0 : ℝ) : ℂ), fun _ => ((0 : ℝ) : ℂ),
      fun _ => ((v + w - mu : ℝ) : ℂ)⟩ := ⟨_, rfl⟩
  have hh : ∀ i < F.nsites, F.interactions i / 2 + F.usSame i i 0 + (F.pots i 0 - F.mus 0) = ((v + w - mu : ℝ) : ℂ) := by
    intro i hi
    rw [hI i hi, hW i hi i hi, if_neg (by omega), (f5 i hi).1, f4]
    push_cast
    ring
  have hK' : Gives (G.createH none) K := by
    refine half_gives (n := F.nsites) (F.chainSpins 1) G rfl (by rw [hG]) rfl (by rw [hG]) ?_ ?_ hK <;> rw [hG]
    · intro i j hij hi
      have hj : j < F.nsites := by omega
      simp only [Fermions.chainSpins, hph, ((f5 i hi).2 j hj).2.2, ((f5 i hi).2 j hj).2.1]
      refine ⟨?_, ?_, ?_⟩
      · split_ifs <;> (push_cast; ring)
      · split_ifs <;> (push_cast; ring)
      · push_cast; ring
    · intro i hi
      exact ⟨Complex.ofReal_zero.symm, Complex.ofReal_zero.symm, hh i hi⟩
  have hA' : Gives (G'.createH none) A := by
    refine half_gives (n := F.nsites) (F.chainSpins (-1)) G' rfl (by rw [hG']) rfl (by rw [hG']) ?_ ?_ hA <;> rw [hG']
    · intro i j hij hi
      have hj : j < F.nsites := by omega
      simp only [Fermions.chainSpins, hph, ((f5 i hi).2 j hj).2.2, ((f5 i hi).2 j hj).2.1]
      refine ⟨?_, ?_, ?_⟩
      · split_ifs <;> (push_cast; ring)
      · split_ifs <;> (push_cast; ring)
      · push_cast; ring
    · intro i hi
      exact ⟨Complex.ofReal_zero.symm, Complex.ofReal_zero.symm, hh i hi⟩
  rw [hshift] at hF'
  refine ⟨F, G, G', K, A, hF, ?_, ?_, hK', hA', hF'⟩
  · unfold Spins.init interactionMat fieldMat
    simp only [bind, Except.bind, pure, Except.pure, ne_eq, not_true_eq_false, if_false]
    rw [hG]
    rfl
  · unfold Spins.init interactionMat fieldMat
    simp only [bind, Except.bind, pure, Except.pure, ne_eq, not_true_eq_false, if_false, if_true]
    rw [hG']
    rfl

/-! ## The ring of three sites -/

/-- The hopping of a spin between two sites. -/
def exchange {n : ℕ} (i j : Fin n) (s t : Conf n 2) : ℤ :=
  if (∀ k, k ≠ j → k ≠ i → s k = t k) ∧ s i ≠ t i ∧ s j ≠ t j ∧ t i ≠ t j then 1 else 0

theorem exchange_eq {n : ℕ} {i j : Fin n} (h : j < i) (s t : Conf n 2) :
    (1 / 2 : ℂ) * ((siteOp sigmaX i * siteOp sigmaX j : Op n 2) s t + (siteOp sigmaY i * siteOp sigmaY j : Op n 2) s t) =
      exchange i j s t := by
  unfold exchange
  rw [siteOp_eq_bop, siteOp_eq_bop, siteOp_eq_bop, siteOp_eq_bop, bop_mul_gt h, bop_mul_gt h, bop2_apply h, bop2_apply h]
  by_cases hk : ∀ k, k ≠ j → k ≠ i → s k = t k
  · simp only [if_pos hk, eq_true hk, true_and]
    generalize s i = a
    generalize t i = b
    generalize s j = c
    generalize t j = d
    fin_cases a <;> fin_cases b <;> fin_cases c <;> fin_cases d <;> simp [sigmaX, sigmaY] <;> norm_num
  · simp only [if_neg hk, hk, false_and, if_false]
    simp

/-- Three spins with couplings of unit strength, the one between the first and the last spin with a sign. -/
def ring3 (ε : ℤ) (s t : Conf 3 2) : ℤ := -(exchange 1 0 s t + exchange 2 1 s t + ε * exchange 2 0 s t)

/-- Three fermions with hopping of unit strength. -/
def fermi3 (s t : Conf 3 2) : ℤ := if (Finset.univ.filter fun j => t j = 1).card % 2 = 1 then ring3 1 s t else ring3 (-1) s t

theorem spins3_gives (G : Spins) (hn : G.nsites = 3) (h1 : G.twoS = 1) (ε : ℤ)
    (hx : G.jx 1 0 = -1 ∧ G.jx 2 1 = -1 ∧ G.jx 2 0 = -ε) (hy : G.jy 1 0 = -1 ∧ G.jy 2 1 = -1 ∧ G.jy 2 0 = -ε)
    (hz : G.jz 1 0 = 0 ∧ G.jz 2 1 = 0 ∧ G.jz 2 0 = 0) (h : ∀ i, G.hx i = 0 ∧ G.hy i = 0 ∧ G.hz i = 0) :
    Gives (G.createH none) ((of (ring3 ε)).map (Int.cast : ℤ → ℂ) : Op 3 2) := by
  obtain ⟨m, d, jx, jy, jz, hx', hy', hz'⟩ := G
  simp only at hn h1 hx hy hz h
  subst hn h1
  have a := spin_createH ⟨3, 1, jx, jy, jz, hx', hy', hz'⟩ (Or.inl rfl)
  simp only [heis_half] at a
  convert a using 1
  ext s t
  have e10 := exchange_eq (show (0 : Fin 3) < 1 by decide) s t
  have e21 := exchange_eq (show (1 : Fin 3) < 2 by decide) s t
  have e20 := exchange_eq (show (0 : Fin 3) < 2 by decide) s t
  unfold spinH
  simp only [Fin.sum_univ_three, h, neg_zero, zero_smul, add_zero, smul_zero, sub_zero, lt_irrefl, if_false,
    show ¬ (1 : Fin 3) < 0 by decide, show ¬ (2 : Fin 3) < 0 by decide, show ¬ (2 : Fin 3) < 1 by decide,
    show (0 : Fin 3) < 1 by decide, show (0 : Fin 3) < 2 by decide, show (1 : Fin 3) < 2 by decide, if_true, zero_add]
  simp only [Fin.val_zero, Fin.val_one, Fin.val_two, hx, hy, hz, Matrix.add_apply, Matrix.smul_apply, smul_eq_mul, zero_mul, add_zero,
    Matrix.map_apply, of_apply, ring3]
  push_cast
  rw [← e10, ← e21, ← e20]
  ring

theorem trace_cast {M : Conf 3 2 → Conf 3 2 → ℤ} : (((of M).map (Int.cast : ℤ → ℂ) : Op 3 2) ^ 1).trace = ((∑ a, M a a : ℤ) : ℂ) ∧
    (((of M).map (Int.cast : ℤ → ℂ) : Op 3 2) ^ 3).trace = ((∑ a, ∑ b, ∑ c, M a c * M c b * M b a : ℤ) : ℂ) := by
  constructor
  · rw [pow_one]
    simp only [Matrix.trace, Matrix.diag, Matrix.map_apply, of_apply]
    push_cast
    rfl
  · rw [pow_succ, pow_two]
    simp only [Matrix.trace, Matrix.diag, Matrix.mul_apply, Matrix.map_apply, of_apply]
    push_cast
    refine Finset.sum_congr rfl fun a _ => Finset.sum_congr rfl fun b _ => ?_
    rw [Finset.sum_mul]

/-- C119 fails on periodic clusters, which the unit test takes: three fermions on a ring and the spins with the corresponding
couplings have different energies, whatever constant is added. -/
theorem C119_periodic_violated (S : EigSolvers) (hS : EigContract S) : ∃ (g : Geometry) (F : Fermions) (G : Spins) (es fs : List ℝ),
    createSquare 3 1 0 0 false true = .ok g ∧ spinless g 1 0 0 0 = .ok F ∧
    Spins.init 3 1 (fun i j => g.adjacency.e i j) (fun i j => g.phase.e i j) (.scalar (-1)) (.scalar (-1)) (.scalar (0 / 2))
        (.scalar 0) (.scalar 0) (.scalar (0 + 0 - 0)) false = .ok G ∧
    spinEnergies S G = .ok es ∧ fermionEnergies S F = .ok fs ∧ ∀ c, fs ≠ es.map (· + c) := by
  obtain ⟨g, hg, -⟩ := C50_square 3 1 (by omega) (by omega) 0 0 false true (by simp) (by simp)
  obtain ⟨F, G, G', K, A, h1, h2, h3, h4, h5, h6⟩ := C119_ring_partial le_rfl (by norm_num) hg 1 0 0 0
  obtain ⟨-, hadj⟩ := chain_adjacency (by omega) (by norm_num) (by simp) hg
  obtain ⟨-, hph, -⟩ := square_facts (by omega) one_pos (by norm_num) (by simp) (fun _ => rfl) hg
  have a10 : g.adjacency.e 1 0 = 1 := ((hadj 1 (by omega) 0 (by omega)).2).2 ⟨0, by simp, by simp⟩
  have a21 : g.adjacency.e 2 1 = 1 := ((hadj 2 (by omega) 1 (by omega)).2).2 ⟨0, by simp, by simp⟩
  have a20 : g.adjacency.e 2 0 = 1 := ((hadj 2 (by omega) 0 (by omega)).2).2 ⟨-1, by simp, by simp⟩
  have hK := h4
  have hA := h5
  have e2 := h2
  have e3 := h3
  unfold Spins.init interactionMat fieldMat at e2 e3
  simp only [bind, Except.bind, pure, Except.pure, if_true, Bool.false_eq_true, if_false, Except.ok.injEq] at e2 e3
  rw [← e2] at hK
  rw [← e3] at hA
  have gK := spins3_gives _ (by rfl) (by rfl) 1 (by simp [hph, a10, a21, a20]) (by simp [hph, a10, a21, a20]) (by simp) (by simp) |> fun h => gives_unique hK h
  have gA := spins3_gives _ (by rfl) (by rfl) (-1) (by simp [a10, a21, a20]) (by simp [a10, a21, a20]) (by simp) (by simp) |> fun h => gives_unique hA h
  rw [gK] at h4 h6
  rw [gA] at h6
  have hF : Gives (F.createH none) ((of fermi3).map (Int.cast : ℤ → ℂ) : Op 3 2) := by
    convert h6 using 1
    ext s t
    simp only [Matrix.map_apply, of_apply, fermi3, Nat.odd_iff, occ]
    norm_num
  have sym : ∀ {M : Conf 3 2 → Conf 3 2 → ℤ}, (∀ s t, M s t = M t s) → ((of M).map (Int.cast : ℤ → ℂ) : Op 3 2).IsHermitian := by
    intro M hM
    ext s t
    simp only [conjTranspose_apply, Matrix.map_apply, of_apply]
    rw [hM t s]
    simp
  obtain ⟨P, p1, p2⟩ := h4
  obtain ⟨Q, q1, q2⟩ := hF
  obtain ⟨es, M, m1, m2⟩ := diagList_powers S hS p2 (sym (by decide +kernel))
  obtain ⟨fs, N, n1, n2⟩ := diagList_powers S hS q2 (sym (by decide +kernel))
  refine ⟨g, F, G, es, fs, hg, h1, h2, ?_, ?_, ?_⟩
  · unfold spinEnergies
    rw [p1]
    simp only [bind, Except.bind, m1, pure, Except.pure]
  · unfold fermionEnergies
    rw [q1]
    simp only [bind, Except.bind, n1, pure, Except.pure]
  · intro c hc
    have s1 := m2 1
    have s3 := m2 3
    have t1 := n2 1
    have t3 := n2 3
    rw [trace_cast.1] at s1 t1
    rw [trace_cast.2] at s3 t3
    have d1 : (∑ a, ring3 1 a a) = 0 := by decide +kernel
    have d2 : (∑ a, fermi3 a a) = 0 := by decide +kernel
    have d3 : (∑ a, ∑ b, ∑ c, ring3 1 a c * ring3 1 c b * ring3 1 b a) = -12 := by decide +kernel
    have d4 : (∑ a, ∑ b, ∑ c, fermi3 a c * fermi3 c b * fermi3 b a) = 0 := by decide +kernel
    rw [d1] at s1
    rw [d2] at t1
    rw [d3] at s3
    rw [d4] at t3
    have s0 := m2 0
    rw [pow_zero, Matrix.trace_one] at s0
    have l0 : (es.length : ℝ) = 8 := by
      have : (((es.map (· ^ 0)).sum : ℝ) : ℂ) = ((8 : ℝ) : ℂ) := s0.trans (by simp)
      have := Complex.ofReal_injective this
      simpa using this
    have l1 : es.sum = 0 := by
      have : (((es.map (· ^ 1)).sum : ℝ) : ℂ) = ((0 : ℝ) : ℂ) := s1.trans (by simp)
      have := Complex.ofReal_injective this
      simpa using this
    have l2 : fs.sum = 0 := by
      have : (((fs.map (· ^ 1)).sum : ℝ) : ℂ) = ((0 : ℝ) : ℂ) := t1.trans (by simp)
      have := Complex.ofReal_injective this
      simpa using this
    have l3 : fs.sum = es.sum + es.length * c := by
      rw [hc]
      clear * -
      induction es with
      | nil => simp
      | cons a l ih =>
        simp only [List.map_cons, List.sum_cons, ih, List.length_cons]
        push_cast
        ring
    have hc0 : c = 0 := by
      rw [l2, l1, l0] at l3
      linarith
    have he : fs = es := by rw [hc, hc0]; simp
    rw [he] at t3
    rw [t3] at s3
    norm_num at s3

/-- Instance of C119: spinless fermions on an open chain of five sites. -/
example (S : EigSolvers) (hS : EigContract S) : ∃ (g : Geometry) (F : Fermions) (G : Spins) (es : List ℝ),
    createSquare 5 1 0 0 true true = .ok g ∧ spinless g 1 2 0 1 = .ok F ∧
    Spins.init 5 1 (fun i j => g.adjacency.e i j) (fun i j => g.phase.e i j) (.scalar (-1)) (.scalar (-1)) (.scalar (2 / 2))
        (.scalar 0) (.scalar 0) (.array 5 fun i => ((2 * neighbours 5 i / 2 + 0 - 1 : ℝ) : ℂ)) false = .ok G ∧
    spinEnergies S G = .ok es ∧ fermionEnergies S F = .ok (es.map (· + (2 * ((5 : ℕ) - 1) / 4 + (5 : ℕ) * (0 - 1) / 2))) := by
  obtain ⟨g, hg, -⟩ := C50_square 5 1 (by omega) (by omega) 0 0 true true (by simp) (by simp)
  obtain ⟨F, G, es, h1, h2, -, h3, h4⟩ := C119_open_chain_partial S hS (by omega) (by norm_num) hg 1 2 0 1
  exact ⟨g, F, G, es, hg, h1, h2, h3, h4⟩

end ED.Props
