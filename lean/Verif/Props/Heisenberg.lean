import Verif.Lemmas.SectorTotal
import Verif.Lemmas.Ring
import Verif.Lemmas.OpNorm
import Verif.Props.SectorEnergies
import Verif.Props.Pauli
import Verif.Spec.Chain

/-! # Property C117: the symmetry sectors of `examples/heisenberg_chain.py` -/

namespace ED.Props

open Matrix Spec

theorem relMat_mul {ι : Type} [Fintype ι] [DecidableEq ι] (a b : Equiv.Perm ι) : relMat (a * b) = relMat a * relMat b := by
  ext s t
  have h : ∀ e : Equiv.Perm ι, ∀ x y, relMat e x y = if x = e y then 1 else 0 := fun _ _ _ => rfl
  rw [mul_apply, Finset.sum_eq_single (b t), h, h, h, if_pos rfl, mul_one, Equiv.Perm.mul_apply]
  · intro c _ hc
    rw [h b, if_neg hc, mul_zero]
  · simp

theorem relMat_one {ι : Type} [Fintype ι] [DecidableEq ι] : relMat (1 : Equiv.Perm ι) = 1 := by
  ext s t
  rw [one_apply]
  rfl

/-- Operators that permute the configurations, as matrices of numbers. -/
theorem relMat_phase {N : ℕ} {M : Mat} {e : Equiv.Perm (Conf N 2)} (h : M.Is (relMat e)) : PhasePermutation (asMatrix M (2 ^ N)) := by
  refine ⟨((ED.numEquiv N).symm.trans (e.symm.trans (ED.numEquiv N)) : Equiv.Perm _), fun _ => 1, by simp, fun i j => ?_⟩
  rw [asMatrix_reindex h, submatrix_apply, relMat, of_apply]
  have : (ED.numEquiv N).symm i = e ((ED.numEquiv N).symm j) ↔
      j = ((ED.numEquiv N).symm.trans (e.symm.trans (ED.numEquiv N)) : Equiv.Perm _) i := by
    simp only [Equiv.trans_apply]
    rw [← Equiv.symm_apply_eq (ED.numEquiv N), Equiv.eq_symm_apply, eq_comm]
  simp only [this]

theorem asOp_is {N d : ℕ} (hd : d = 2 ^ N) {v : Val} {U : Op N 2} (h : v.Is U) : (v.asOp d).Is U := by
  cases v with
  | mat M => exact h
  | num z =>
    have hU : U = z • (1 : Op N 2) := h
    rw [hU]
    exact (Mat.is_eye (ι := Conf N 2) (by simp [hd])).smul z

theorem magnetization_perm {n : ℕ} (π : Equiv.Perm (Fin n)) (t : Conf n 2) : magnetization (confPerm π t) = magnetization t := by
  unfold magnetization
  exact Equiv.sum_comp π.symm fun i => spinVal t i / 2

theorem magnetization_flip {n : ℕ} (t : Conf n 2) : magnetization (flipAll t) = - magnetization t := by
  unfold magnetization
  rw [← Finset.sum_neg_distrib]
  refine Finset.sum_congr rfl fun i _ => ?_
  unfold spinVal flipAll
  generalize t i = x
  fin_cases x <;> norm_num

/-- The operator of the total spin. -/
theorem total_spin {n : ℕ} (hn : 0 < n) : Gives (getSumOp ⟨n, 1, 2⟩ (getSz 1) 0 "boson") (diagonal fun t : Conf n 2 => magnetization t) := by
  have h := gives_sumOp (S := ⟨n, 1, 2⟩) (ι := Conf n 2) hn (fun i => siteOp (szM 1) i) fun i => spin_single i (getSz_is 1)
  have e : ∀ i : Fin n, (siteOp (szM 1) i : Op n 2) = diagonal fun t => spinVal t i / 2 := by
    intro i
    rw [siteOp_eq_bop, szM, bop_diag]
    congr 1
    funext t
    unfold spinVal
    generalize t i = x
    fin_cases x <;> norm_num
  simp only [e] at h
  rw [diag_sum] at h
  exact h

/-- Real couplings between spins without fields, equal along x and y. -/
structure AxialBonds (F : Spins) : Prop where
  half : F.twoS = 1
  fields : ∀ i : Fin F.nsites, F.hx i = 0 ∧ F.hy i = 0 ∧ F.hz i = 0
  equal : ∀ i j : Fin F.nsites, F.jx i j = F.jy i j
  real : ∀ i j : Fin F.nsites, star (F.jx i j) = F.jx i j ∧ star (F.jz i j) = F.jz i j
  symm : ∀ i j : Fin F.nsites, F.jx i j = F.jx j i ∧ F.jz i j = F.jz j i

/-- A permutation of the sites does not change the couplings. -/
structure SpinInvariant (F : Spins) (π : Equiv.Perm (Fin F.nsites)) : Prop where
  jx : ∀ i j : Fin F.nsites, F.jx (π i) (π j) = F.jx i j
  jz : ∀ i j : Fin F.nsites, F.jz (π i) (π j) = F.jz i j

/-- The operator of a permutation of the sites that does not change the couplings. -/
theorem spin_symmetry {F : Spins} (hF : AxialBonds F) {π : Equiv.Perm (Fin F.nsites)} (hπ : SpinInvariant F π)
    {cycles : List (List (Fin F.nsites))} (hc : CyclesOf cycles π) {A : Mat} {H : Op F.nsites 2} (hA : F.createH none = .ok A)
    (hH : A.Is H) : ∃ v, getXformOp 1 (spinSwapOp F.sys) (siteNumbers cycles) = .ok v ∧
      (v.asOp F.sys.nstates).Is (relMat (confPerm π) : Op F.nsites 2) ∧ relMat (confPerm π) * H = H * relMat (confPerm π) := by
  have h := hF.half
  obtain ⟨v, U, H', h1, h2, ⟨A', h3, h4⟩, h5⟩ := C13_spins F h π cycles hc (fun i j => (hF.symm i j).1)
    (fun i j => by rw [← hF.equal, ← hF.equal, (hF.symm i j).1]) (fun i j => (hF.symm i j).2) hπ.jx
    (fun i j => by rw [← hF.equal, ← hF.equal, hπ.jx]) hπ.jz (fun i => by rw [(hF.fields _).1, (hF.fields _).1])
    (fun i => by rw [(hF.fields _).2.1, (hF.fields _).2.1]) (fun i => by rw [(hF.fields _).2.2, (hF.fields _).2.2])
  obtain ⟨v', U', g1, g2, g3⟩ := spin_xform cycles π hc
  rw [h1] at g1
  injection g1 with e
  subst e
  have e1 : U = U' := by
    cases v with
    | num z => exact Eq.trans h2 (Eq.symm g2)
    | mat M => exact Mat.Is.ext h2 g2
  rw [hA] at h3
  injection h3 with e
  subst e
  have e2 := hH.ext h4
  have e3 := movesLabels_rel g3
  have hs : F.sys = ⟨F.nsites, 1, 2⟩ := by unfold Spins.sys; rw [h]
  refine ⟨v, ?_, ?_, ?_⟩
  · rw [hs]; exact h1
  · rw [← e3]
    exact asOp_is (by rw [hs]; simp [Sys.nstates]) g2
  · rw [← e3, ← e1, e2, h5]

/-- The Hamiltonian keeps the magnetization. -/
theorem keeps_magnetization {F : Spins} (hF : AxialBonds F) (hn : 0 < F.nsites) {A : Mat} {H : Op F.nsites 2} (hA : F.createH none = .ok A)
    (hH : A.Is H) (s t : Conf F.nsites 2) (hst : magnetization s ≠ magnetization t) : H s t = 0 := by
  obtain ⟨H', T, ⟨A', h1, h2⟩, ⟨B, h3, h4⟩, h5⟩ := C99_axial F hF.half hn (fun i hi j hj => hF.equal ⟨i, hi⟩ ⟨j, hj.trans hi⟩)
    (fun i hi => ⟨(hF.fields ⟨i, hi⟩).1, (hF.fields ⟨i, hi⟩).2.1⟩)
  rw [hA] at h1
  injection h1 with e
  subst e
  rw [← hH.ext h2] at h5
  have hZ : pauliZ.Is sigmaZ := ⟨rfl, rfl, fun i j => by fin_cases i <;> fin_cases j <;> simp [sigmaZ, pauliZ, Mat.lit2, Basis.num]⟩
  obtain ⟨B', g1, g2⟩ := gives_sumOp (S := ⟨F.nsites, 1, 2⟩) (ι := Conf F.nsites 2) hn (fun i => siteOp sigmaZ i) fun i => spin_single i hZ
  have hs : F.sys = ⟨F.nsites, 1, 2⟩ := by unfold Spins.sys; rw [hF.half]
  rw [hs, g1] at h3
  injection h3 with e
  subst e
  have hT : T = diagonal fun t => 2 * magnetization t := by
    rw [← Mat.Is.ext g2 h4]
    simp only [siteOp_Z]
    rw [diag_sum]
    congr 1
    funext t
    unfold magnetization
    rw [Finset.mul_sum]
    exact Finset.sum_congr rfl fun i _ => by ring
  have h6 := congrFun (congrFun h5 s) t
  rw [hT, mul_diagonal, diagonal_mul] at h6
  have h7 : (magnetization s - magnetization t) * H s t = 0 := by linear_combination (-1 / 2 : ℂ) * h6
  exact (mul_eq_zero.1 h7).resolve_left (sub_ne_zero.2 hst)

theorem entries_near {d m : ℕ} {Q : Rows d} {X : Matrix (Fin m) (Fin d) ℂ} {κ : ℝ} (h : NearRows Q X κ) (a : Fin m) (j : Fin d) :
    ‖Q.getD a 0 j - X a j‖ ≤ κ := by
  have h1 := h.2 (Pi.single a 1)
  have e1 : (fun j => ∑ b, (Pi.single a 1 : Fin m → ℂ) b * (Q.getD b 0 j - X b j)) = fun j => Q.getD a 0 j - X a j := by
    funext j
    rw [Finset.sum_eq_single a]
    · simp
    · intro b _ hb
      simp [hb]
    · simp
  have e2 : ∑ b, ‖(Pi.single a 1 : Fin m → ℂ) b‖ ^ 2 = 1 := by
    rw [Finset.sum_eq_single a]
    · simp
    · intro b _ hb
      simp [hb]
    · simp
  rw [e1, e2, Real.sqrt_one, mul_one, rnorm_eq] at h1
  refine le_trans ?_ h1
  refine Real.le_sqrt_of_sq_le ?_
  exact Finset.single_le_sum (f := fun j => ‖Q.getD a 0 j - X a j‖ ^ 2) (fun _ _ => by positivity) (Finset.mem_univ j)

/-- The symmetries of a chain of spins. -/
theorem chain_symmetries {F : Spins} (hF : AxialBonds F) (hn : 0 < F.nsites) (hn' : F.nsites < 10 ^ 4)
    {πT πI : Equiv.Perm (Fin F.nsites)} (hT : SpinInvariant F πT) (hI : SpinInvariant F πI) (pT : πT ^ F.nsites = 1) (pI : πI ^ 2 = 1)
    (hTI : πT * πI * πT = πI) {A tx inv : Mat} {H : Op F.nsites 2} (hA : F.createH none = .ok A) (hH : A.Is H)
    (ht : tx.Is (relMat (confPerm πT) : Op F.nsites 2)) (hi : inv.Is (relMat (confPerm πI) : Op F.nsites 2))
    (cT : relMat (confPerm πT) * H = H * relMat (confPerm πT)) (cI : relMat (confPerm πI) * H = H * relMat (confPerm πI)) :
    ChainSymmetries (asMatrix tx (2 ^ F.nsites)) (asMatrix (swapUpDownOp (2 ^ F.nsites)) (2 ^ F.nsites)) (asMatrix inv (2 ^ F.nsites))
      (asMatrix A (2 ^ F.nsites)) (fun j => magnetization ((ED.numEquiv F.nsites).symm j)) F.nsites := by
  have hf := swapUpDown_is F.nsites
  have cmul : ∀ a b : Equiv.Perm (Fin F.nsites), (confPerm (a * b) : Equiv.Perm (Conf F.nsites 2)) = confPerm a * confPerm b := by
    intro a b
    ext t i
    rfl
  have cone : (confPerm (1 : Equiv.Perm (Fin F.nsites)) : Equiv.Perm (Conf F.nsites 2)) = 1 := by
    ext t i
    rfl
  have cpow : ∀ (a : Equiv.Perm (Fin F.nsites)) (k : ℕ), (relMat (confPerm a) : Op F.nsites 2) ^ k = relMat (confPerm (a ^ k)) := by
    intro a k
    induction k with
    | zero => rw [pow_zero, pow_zero, cone, relMat_one]
    | succ k ih => rw [pow_succ, pow_succ, cmul, relMat_mul, ih]
  have flipc : ∀ a : Equiv.Perm (Fin F.nsites), (relMat (confPerm a) : Op F.nsites 2) * relMat flipPerm = relMat flipPerm * relMat (confPerm a) := by
    intro a
    rw [← relMat_mul, ← relMat_mul]
    congr 1
  have keep : ∀ (a : Equiv.Perm (Fin F.nsites)) (M : Mat), M.Is (relMat (confPerm a) : Op F.nsites 2) → ∀ i j,
      magnetization ((ED.numEquiv F.nsites).symm i) ≠ magnetization ((ED.numEquiv F.nsites).symm j) → asMatrix M (2 ^ F.nsites) i j = 0 := by
    intro a M hM i j hij
    rw [asMatrix_reindex hM, submatrix_apply, relMat, of_apply, if_neg]
    intro e
    exact hij (by rw [e, magnetization_perm])
  exact
    { pos := hn
      small := hn'
      translation := relMat_phase ht
      flip := relMat_phase hf
      inversion := relMat_phase hi
      powT := by rw [asMatrix_is ht, ← map_pow, cpow, pT, cone, relMat_one, map_one]
      powF := by
        rw [asMatrix_is hf, ← map_pow, pow_two, ← relMat_mul]
        have : (flipPerm * flipPerm : Equiv.Perm (Conf F.nsites 2)) = 1 := Equiv.ext fun t => flipPerm.left_inv t
        rw [this, relMat_one, map_one]
      powI := by rw [asMatrix_is hi, ← map_pow, cpow, pI, cone, relMat_one, map_one]
      flipT := by rw [asMatrix_is ht, asMatrix_is hf, ← map_mul, ← map_mul, flipc]
      flipI := by rw [asMatrix_is hi, asMatrix_is hf, ← map_mul, ← map_mul, flipc]
      reverse := by rw [asMatrix_is ht, asMatrix_is hi, ← map_mul, ← map_mul, ← relMat_mul, ← relMat_mul, ← cmul, ← cmul, hTI]
      commT := (commute_asMatrix hH ht cT).symm
      commF := by
        obtain ⟨X, H', h1, ⟨A', h2, h3⟩, h4⟩ := C36_flip_commutes F hF.half (fun i => (hF.fields i).2.1) (fun i => (hF.fields i).2.2)
        rw [hA] at h2
        injection h2 with e
        subst e
        exact (commute_asMatrix h3 h1 h4).symm
      commI := (commute_asMatrix hH hi cI).symm
      labT := keep πT tx ht
      labI := keep πI inv hi
      labH := fun i j hij => by
        rw [asMatrix_reindex hH, submatrix_apply]
        exact keeps_magnetization hF hn hA hH _ _ hij
      labF := fun i j hij => by
        rw [asMatrix_reindex hf, submatrix_apply, relMat, of_apply, if_neg]
        intro e
        refine hij ?_
        rw [e]
        exact magnetization_flip _ }

theorem axial_hermitian {F : Spins} (hF : AxialBonds F) {A : Mat} {H : Op F.nsites 2} (hA : F.createH none = .ok A) (hH : A.Is H) :
    H.IsHermitian := by
  obtain ⟨n, d, jx, jy, jz, hx, hy, hz⟩ := F
  have h : d = 1 := hF.half
  subst h
  obtain ⟨⟨H', ⟨A', g1, g2⟩, g3⟩, -⟩ := C33_hermitian_partial ⟨n, 1, jx, jy, jz, hx, hy, hz⟩ (Or.inl rfl) (fun i j => (hF.real i j).1)
    (fun i j => by rw [← hF.equal]; exact (hF.real i j).1) (fun i j => (hF.real i j).2) (fun i => by rw [(hF.fields i).1, star_zero])
    (fun i => by rw [(hF.fields i).2.1, star_zero]) (fun i => by rw [(hF.fields i).2.2, star_zero])
  rw [hA] at g1
  injection g1 with e
  subst e
  rw [hH.ext g2]
  exact g3

/-- Rows of the sectors in terms of configurations. -/
theorem quantum_numbers {N : ℕ} {T F I : Op N 2} {tx flip inv : Mat} (ht : tx.Is T) (hf : flip.Is F) (hi : inv.Is I) {n : ℕ}
    {l : Leaf (2 ^ N)} {κ : ℝ} (hr : RowsOf l.s.proj l.Q) (hn : NearRows l.Q l.X κ) (hX : l.X * l.Xᴴ = 1)
    (h : HasNumbers (asMatrix tx (2 ^ N)) (asMatrix flip (2 ^ N)) (asMatrix inv (2 ^ N))
      (fun j => magnetization ((ED.numEquiv N).symm j)) n l) :
    ∃ X : Matrix (Fin l.s.proj.rows) (Conf N 2) ℂ, l.s.proj.cols = 2 ^ N ∧ (∀ (a : Fin l.s.proj.rows) (t : Conf N 2), ‖l.s.proj.e a (idx t) - X a t‖ ≤ κ) ∧
      QuantumNumbers X T F I n l.s.mz l.s.kx l.s.spin l.s.space := by
  have hm : l.s.proj.rows = l.m := by
    have := hr.1
    rw [Fintype.card_fin] at this
    exact this.trans hn.1
  obtain ⟨Y, hY⟩ : ∃ Y : Matrix (Fin l.s.proj.rows) (Conf N 2) ℂ, Y = l.X.submatrix (Fin.cast hm) (ED.numEquiv N) := ⟨_, rfl⟩
  have move : ∀ {M : Mat} {U : Op N 2}, M.Is U → Y * U = (l.X * asMatrix M (2 ^ N)).submatrix (Fin.cast hm) (ED.numEquiv N) := by
    intro M U hM
    rw [asMatrix_reindex hM, hY, ← submatrix_mul_equiv _ _ _ (ED.numEquiv N), submatrix_submatrix]
    simp
  have mv : ∀ {M : Mat} {U : Op N 2} {z : ℂ}, M.Is U → l.X * asMatrix M (2 ^ N) = z • l.X → Y * U = z • Y := by
    intro M U z hM hz
    rw [move hM, hz, hY]
    rfl
  refine ⟨Y, by simpa using hr.2.1, fun a t => ?_, ?_, fun a t hat => ?_, h.kx, mv ht h.momentum, fun h0 => ?_, fun h0 => ?_, fun h0 => ?_, fun h0 => ?_⟩
  · have h1 := entries_near hn (Fin.cast hm a) (ED.numEquiv N t)
    have ha : (a : ℕ) < l.Q.length := by
      have h0 := hn.1
      exact lt_of_lt_of_eq a.2 (hm.trans h0.symm)
    have h2 := hr.2.2 ⟨a, ha⟩ (ED.numEquiv N t)
    rw [of_apply] at h2
    have h3 : l.Q.getD (a : ℕ) 0 = l.Q[(a : ℕ)] := getD_get _ _ ha
    have h4 : l.s.proj.e a (idx t) = l.Q.getD (Fin.cast hm a : Fin l.m) 0 (ED.numEquiv N t) := by
      refine Eq.trans ?_ (congrFun h3.symm _)
      exact h2
    rw [h4, hY]
    exact h1
  · rw [hY, conjTranspose_submatrix, submatrix_mul_equiv, hX]
    exact submatrix_one _ (Fin.cast_injective _)
  · by_contra hne
    refine hat ?_
    rw [hY, submatrix_apply]
    refine h.mz _ _ ?_
    rwa [Equiv.symm_apply_apply]
  · have := h.spin
    rw [if_pos h0] at this
    exact ⟨this.1, mv hf this.2⟩
  · have := h.spin
    rwa [if_neg h0] at this
  · have := h.space
    rw [if_pos h0] at this
    exact ⟨this.1, mv hi this.2⟩
  · have := h.space
    rwa [if_neg h0] at this

/-- C117 (what holds): the sectors of the script, with the total spin from the method of the base class. For spins one half
without fields, with couplings that are equal along x and y and are not changed by a translation and an inversion of the
sites, every sector has the quantum numbers that the script notes, up to rounding; no combination of quantum numbers occurs
twice; and the energies found in the sectors are those of the whole Hamiltonian, up to rounding. The full claim, for the
script as it stands, fails: `C117_total_spin_violated`. -/
theorem C117_sectors_partial (S : EigSolvers) (hS : EigContract S) (F : Spins) (hF : AxialBonds F) (hn : 0 < F.nsites)
    (hn' : F.nsites < 10 ^ 4) {πT πI : Equiv.Perm (Fin F.nsites)} (hT : SpinInvariant F πT) (hI : SpinInvariant F πI)
    {cT cI : List (List (Fin F.nsites))} (hcT : CyclesOf cT πT) (hcI : CyclesOf cI πI) (pT : πT ^ F.nsites = 1) (pI : πI ^ 2 = 1)
    (hTI : πT * πI * πT = πI) :
    ∃ (sz : Mat) (secs : List SpinSector) (A : Mat) (T X I H : Op F.nsites 2),
      getSumOp F.sys (getSz F.twoS) 0 "boson" = .ok sz ∧ chainSectors sz F (siteNumbers cT) (siteNumbers cI) = .ok secs ∧
      MovesLabels T πT ∧ (∀ t, X.mulVec (ket t) = ket (flipAll t)) ∧ MovesLabels I πI ∧
      (secs.map fun s => (s.mz, s.kx, s.spin, s.space)).Nodup ∧
      (∀ s ∈ secs, s.proj.cols = 2 ^ F.nsites ∧ ∃ Y : Matrix (Fin s.proj.rows) (Conf F.nsites 2) ℂ,
        (∀ (a : Fin s.proj.rows) (t : Conf F.nsites 2), ‖s.proj.e a (idx t) - Y a t‖ ≤ 1 / 10 ^ 11) ∧ QuantumNumbers Y T X I F.nsites s.mz s.kx s.spin s.space) ∧
      F.createH none = .ok A ∧ A.Is H ∧ ∀ C, NormLe H C →
        ∃ E x, sectorEigs S A (secs.map SpinSector.proj) = .ok E ∧ NearSpectrum E H (3 * C / 10 ^ 11) ∧
          maxDiff S A (secs.map SpinSector.proj) = .ok x ∧ x ≤ 3 * C / 10 ^ 11 := by
  obtain ⟨A, hA, hH⟩ := (C75_hamiltonian_partial F hF.half).1
  obtain ⟨H, hHe⟩ : ∃ H : Op F.nsites 2, H = spinH (fun i j => F.jx i j) (fun i j => F.jy i j) (fun i j => F.jz i j)
      (fun i => F.hx i) (fun i => -F.hy i) (fun i => F.hz i) := ⟨_, rfl⟩
  rw [← hHe] at hH
  have hs : F.sys = ⟨F.nsites, 1, 2⟩ := by unfold Spins.sys; rw [hF.half]
  have hst : F.sys.nstates = 2 ^ F.nsites := by rw [hs]; simp [Sys.nstates]
  obtain ⟨vT, t1, t2, t3⟩ := spin_symmetry hF hT hcT hA hH
  obtain ⟨vI, i1, i2, i3⟩ := spin_symmetry hF hI hcI hA hH
  obtain ⟨sz, z1, z2⟩ := total_spin hn
  have hsym := chain_symmetries hF hn hn' hT hI pT pI hTI hA hH t2 i2 t3 i3
  have hherm : H.IsHermitian := axial_hermitian hF hA hH
  have hidx : ∀ (j : Fin (2 ^ F.nsites)) (t : Conf F.nsites 2), idx t = j ↔ t = (ED.numEquiv F.nsites).symm j := by
    intro j t
    rw [Equiv.eq_symm_apply, Fin.ext_iff]
    rfl
  obtain ⟨m1, m2, m3, m4⟩ := split_all z2
  obtain ⟨outs, o1, o2⟩ := total_covers (by positivity) hsym (is_asMatrix t2) (is_asMatrix (swapUpDown_is F.nsites)) (is_asMatrix i2)
    ((getSubspaceProjs sz none).1.zip (getSubspaceProjs sz none).2)
    (by rw [List.map_snd_zip m2.ge]; exact m1)
    (fun j => by
      rw [List.map_snd_zip m2.ge, m3]
      exact ⟨_, rfl⟩)
    (fun s hs => by
      have := m4 s.swap (by
        rw [← List.zip_swap]
        exact List.mem_map.2 ⟨s, hs, rfl⟩)
      refine this.congr fun j => ?_
      constructor
      · intro h
        exact h _ ((hidx j _).2 rfl)
      · intro h t ht
        rw [(hidx j t).1 ht]
        exact h)
    (Q₀ := List.ofFn fun i => (1 : Matrix (Fin (2 ^ F.nsites)) (Fin (2 ^ F.nsites)) ℂ) i) (by simp)
  obtain ⟨projs, p1, p2, p3, p4⟩ := o2.total (by simp) (hermitian_asMatrix hH hherm)
  have z1' : getSumOp F.sys (getSz F.twoS) 0 "boson" = .ok sz := by rw [hs, hF.half]; exact z1
  refine ⟨sz, outs.flatten, A, relMat (confPerm πT), relMat flipPerm, relMat (confPerm πI), H, z1', ?_, fun t => relMat_mulVec _ t,
    fun t => relMat_mulVec _ t, fun t => relMat_mulVec _ t, p3, fun s hs => ?_, hA, hH, fun C hC => ?_⟩
  · unfold chainSectors heisenbergSectors
    rw [t1, i1]
    simp only [bind, Except.bind]
    rw [hst] at o1 ⊢
    rw [o1]
    rfl
  · obtain ⟨l, rfl, l1, l2, l3, l4⟩ := p4 s hs
    obtain ⟨Y, y1, y2, y3⟩ := quantum_numbers t2 (swapUpDown_is F.nsites) i2 l1 l2 l3 l4
    exact ⟨y1, Y, y2, y3⟩
  · obtain ⟨E, x, h5, h6, h3, h4⟩ := near_maxDiff S hS (by positivity) p2 (by norm_num) (normLe_asMatrix hH hC)
      (hermitian_asMatrix hH hherm) (is_asMatrix hH) p1
    suffices hle : _ ≤ 3 * C / 10 ^ 11 from ⟨E, x, h5, (nearSpectrum_asMatrix hH h6).mono hle, h3, h4.trans hle⟩
    have := hC.1
    have e : C * (1 / 10 ^ 11) * (2 + 1 / 10 ^ 11) = C * (1 / 10 ^ 11 * (2 + 1 / 10 ^ 11)) := by ring
    rw [e, show 3 * C / 10 ^ 11 = C * (3 / 10 ^ 11) by ring]
    exact mul_le_mul_of_nonneg_left (by norm_num) this

/-! ## The script -/

theorem rotate_ne {n : ℕ} (hn : 2 ≤ n) (v : Fin n) : finRotate n v ≠ v := by
  intro h
  obtain ⟨k, hk⟩ := rotate_val v
  rw [h] at hk
  have h0 : k * (n : ℤ) = -1 := by linarith
  have : (n : ℤ) ∣ 1 := ⟨-k, by linarith⟩
  have := Int.le_of_dvd one_pos this
  omega

namespace Ring

variable {n : ℕ} {g : Geometry} (G : Ring g n)

theorem neighbours (i j : Fin g.nsites) : g.adjacency.e i j = 1 ↔ RingNeighbours (G.σ i) (G.σ j) := by
  rw [G.adj]
  have key : ∀ a b : Fin n, b = finRotate n a ↔ ∃ k : ℤ, ((a : ℕ) : ℤ) - (b : ℕ) + k * n = -1 := by
    intro a b
    constructor
    · rintro rfl
      obtain ⟨k, hk⟩ := rotate_val a
      exact ⟨k, by linarith⟩
    · rintro ⟨k, hk⟩
      refine fin_modEq (Int.ModEq.trans ?_ (rotate_modEq a).symm)
      exact Int.modEq_iff_dvd.2 ⟨-k, by linarith⟩
  unfold RingNeighbours
  rw [key, key]
  constructor
  · rintro ⟨k, h | h⟩
    · exact Or.inr ⟨-k, by linarith⟩
    · exact Or.inl ⟨k, h⟩
  · rintro (⟨k, h⟩ | ⟨k, h⟩)
    · exact ⟨k, Or.inr h⟩
    · exact ⟨-k, Or.inl (by linarith)⟩

end Ring

theorem ring_not_self {n : ℕ} (hn : 2 ≤ n) (v : Fin n) : ¬ RingNeighbours v v := by
  rintro (h | h) <;> exact rotate_ne hn v h.symm

theorem ring_card {n : ℕ} {ι : Type} [Fintype ι] [DecidableEq ι] (σ : ι ≃ Fin n) (i : ι) [DecidablePred fun j => RingNeighbours (σ i) (σ j)] :
    (Finset.univ.filter fun j => RingNeighbours (σ i) (σ j)).card ≤ 2 := by
  refine (Finset.card_le_card (t := {σ.symm (finRotate n (σ i)), σ.symm ((finRotate n).symm (σ i))}) fun j hj => ?_).trans
    Finset.card_le_two
  rw [Finset.mem_filter] at hj
  rw [Finset.mem_insert, Finset.mem_singleton]
  rcases hj.2 with h | h
  · exact Or.inl (by rw [← h]; simp)
  · exact Or.inr (by rw [h, Equiv.symm_apply_apply, Equiv.symm_apply_apply])

/-- C117 fails: the script raises an exception when it asks for the total spin, for every ring and every coupling. -/
theorem C117_total_spin_violated (S : EigSolvers) (n : ℕ) (hn : 2 ≤ n) (J : ℝ) :
    heisenbergChain S spinGetSumOp n J = .error .attribute := by
  obtain ⟨g, hg, -⟩ := C50_square n 1 (by omega) (by omega) 0 0 false true (fun h => by omega) (fun _ => rfl)
  unfold heisenbergChain
  rw [hg]
  rfl

/-- C117 (what holds): the script, with the total spin from the method of the base class, for rings of less than 10^4 sites and
every coupling. Every sector has the quantum numbers that the script notes, up to rounding, where translation and inversion are
those of the ring; no combination of quantum numbers occurs twice; the Hamiltonian is that of the Heisenberg model on the ring;
and the energies found in the sectors are those of the Hamiltonian, so that the difference which the script prints is zero, up
to rounding. The full claim, for the script as it stands, fails: `C117_total_spin_violated`. -/
theorem C117_script_partial (S : EigSolvers) (hS : EigContract S) (n : ℕ) (hn : 2 ≤ n) (hn' : n < 10 ^ 4) (J : ℝ) :
    ∃ (g : Geometry) (σ : Fin g.nsites ≃ Fin n) (r : ChainResult) (T X I H : Op g.nsites 2),
      Geometry.createSquare n 1 0 0 false true = .ok g ∧ (∀ i : Fin g.nsites, g.at i = (((σ i : ℕ) : ℝ), 0)) ∧
      heisenbergChain S (fun sys op => getSumOp sys op 0 "boson") n J = .ok r ∧
      MovesLabels T (σ.symm.permCongr (finRotate n)) ∧ (∀ t, X.mulVec (ket t) = ket (flipAll t)) ∧
      MovesLabels I (σ.symm.permCongr Fin.revPerm) ∧
      (r.sectors.map fun s => (s.mz, s.kx, s.spin, s.space)).Nodup ∧
      (∀ s ∈ r.sectors, s.proj.cols = 2 ^ n ∧ ∃ Y : Matrix (Fin s.proj.rows) (Conf g.nsites 2) ℂ,
        (∀ (a : Fin s.proj.rows) (t : Conf g.nsites 2), ‖s.proj.e a (idx t) - Y a t‖ ≤ 1 / 10 ^ 11) ∧
        QuantumNumbers Y T X I n s.mz s.kx s.spin s.space) ∧
      H = spinHOn (fun i k => RingNeighbours (σ i) (σ k)) J J J 0 0 0 ∧ r.ham.Is H ∧
      NearSpectrum r.eigs H (9 * n * |J| / (2 * 10 ^ 11)) ∧ r.maxDiff ≤ 9 * n * |J| / (2 * 10 ^ 11) := by
  obtain ⟨g, hg, -⟩ := C50_square n 1 (by omega) (by omega) 0 0 false true (fun h => by omega) (fun _ => rfl)
  obtain ⟨G⟩ := ring_of hn (by omega) hg
  have hN := G.nsites
  obtain ⟨hreg, hph, -⟩ := square_facts (by omega : 0 < n) (by omega : 0 < 1) (by omega) (fun h => by omega) (fun _ => rfl) hg
  obtain ⟨F, hF⟩ : ∃ F : Spins, F = ⟨g.nsites, 1, fun a b => J * (g.adjacency.e a b : ℂ) * g.phase.e a b,
    fun a b => J * (g.adjacency.e a b : ℂ) * g.phase.e a b, fun a b => J * (g.adjacency.e a b : ℂ) * g.phase.e a b,
    fun _ => 0, fun _ => 0, fun _ => 0⟩ := ⟨_, rfl⟩
  have hinit : Spins.init g.nsites 1 (fun a b => (g.adjacency.e a b : ℂ)) g.phase.e (.scalar J) (.scalar J) (.scalar J)
      (.scalar 0) (.scalar 0) (.scalar 0) false = .ok F := by rw [hF]; rfl
  simp only [hph, mul_one] at hF
  have hsymm : ∀ i j : Fin g.nsites, g.adjacency.e i j = g.adjacency.e j i := fun i j => hreg.symm i i.2 j j.2
  obtain ⟨cT, mT, t1, t2⟩ := G.translation hn
  obtain ⟨c, cI, mI, i0, i1, i2⟩ := G.inversion hn
  have hT3 : G.perm (finRotate n) ^ g.nsites = 1 := by
    have : G.perm (finRotate n) ^ n = 1 := by rw [← G.perm_pow, rotate_pow, G.perm_one]
    simpa only [hN] using this
  have hI3 : G.perm Fin.revPerm ^ 2 = 1 := by rw [← G.perm_pow, rev_pow, G.perm_one]
  have hTI : G.perm (finRotate n) * G.perm Fin.revPerm * G.perm (finRotate n) = G.perm Fin.revPerm := by
    rw [← G.perm_mul, ← G.perm_mul, rotate_rev]
  have hax : AxialBonds F := by
    subst hF
    exact ⟨rfl, fun _ => ⟨rfl, rfl, rfl⟩, fun _ _ => rfl, fun i j => by simp, fun i j => by simp [hsymm i j]⟩
  subst hF
  obtain ⟨sz, secs, A, T, X, I, H, z1, z2, q1, q2, q3, q4, q5, q6, q7, q8⟩ := C117_sectors_partial S hS _ hax (by dsimp only; omega) (by dsimp only; omega)
    (πT := G.perm (finRotate n)) (πI := G.perm Fin.revPerm) ⟨fun i j => by simp only [G.adj_rotate], fun i j => by simp only [G.adj_rotate]⟩
    ⟨fun i j => by simp only [G.adj_rev], fun i j => by simp only [G.adj_rev]⟩ t2 i2 hT3 hI3 hTI
  have hns : ∀ i : Fin g.nsites, ¬ RingNeighbours (G.σ i) (G.σ i) := fun i => ring_not_self hn _
  have hH : H = spinHOn (fun i k : Fin g.nsites => RingNeighbours (G.σ i) (G.σ k)) J J J 0 0 0 := by
    obtain ⟨A', hA', hA''⟩ := (C75_hamiltonian_partial _ hax.half).1
    rw [q6] at hA'
    injection hA' with e
    subst e
    refine (Mat.Is.ext q7 hA'').trans ?_
    have := spinH_eq (adj := fun i k : Fin g.nsites => RingNeighbours (G.σ i) (G.σ k)) hns (fun i k => ⟨Or.symm, Or.symm⟩) (a := fun i k => (g.adjacency.e i k : ℂ))
      (fun i k h => by rw [(G.neighbours i k).2 h, Complex.ofReal_one])
      (fun i k h => by
        rcases G.adj01 i k with h' | h'
        · rw [h', Complex.ofReal_zero]
        · exact absurd ((G.neighbours i k).1 h') h) (J : ℂ) J J 0 0 0
    rw [← this]
    simp
  have hC := norm_spinHOn (adj := fun i k : Fin g.nsites => RingNeighbours (G.σ i) (G.σ k)) hns J (z := 2) (fun i => by convert ring_card G.σ i)
  rw [← hH] at hC
  obtain ⟨E, x, e1, e2, e3, e4⟩ := q8 _ hC
  have hb : 3 * (3 * (g.nsites : ℝ) * (2 : ℕ) * |J| / 4) / 10 ^ 11 = 9 * n * |J| / (2 * 10 ^ 11) := by
    rw [hN]
    push_cast
    ring
  rw [hb] at e2 e4
  refine ⟨g, G.σ, ⟨secs, A, E, x⟩, T, X, I, H, hg, G.at_site, ?_, q1, q2, q3, q4, fun s hs => ?_, hH, q7, e2, e4⟩
  · unfold heisenbergChain
    rw [hg]
    simp only [bind, Except.bind]
    rw [hinit]
    simp only [hph, mul_one]
    rw [z1]
    simp only
    rw [t1, i0]
    simp only
    rw [i1]
    simp only
    rw [z2]
    simp only
    rw [q6]
    simp only
    rw [e1]
    simp only
    rw [e3]
    rfl
  · obtain ⟨y1, Y, y2, y3⟩ := q5 s hs
    refine ⟨by rw [y1]; dsimp only; rw [hN], Y, y2, ?_⟩
    have cast : ∀ N : ℕ, N = n → QuantumNumbers Y T X I N s.mz s.kx s.spin s.space → QuantumNumbers Y T X I n s.mz s.kx s.spin s.space := by
      intro N e h
      rwa [e] at h
    exact cast _ hN y3

-- The script as it is written: ten sites and coupling one. The printed difference is less than 10^-9.
example (S : EigSolvers) (hS : EigContract S) : ∃ r, heisenbergChain S (fun sys op => getSumOp sys op 0 "boson") 10 1 = .ok r ∧
    r.maxDiff < 1 / 10 ^ 9 := by
  obtain ⟨g, σ, r, T, X, I, H, -, -, h, -, -, -, -, -, -, -, -, h'⟩ := C117_script_partial S hS 10 (by norm_num) (by norm_num) 1
  exact ⟨r, h, h'.trans_lt (by norm_num)⟩

end ED.Props
