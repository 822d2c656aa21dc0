import Verif.Props.Spins
import Verif.Lemmas.Select

/-!
# Properties C96, C99: Pauli operators on the sites of a system and symmetry of the spin Hamiltonian
-/

namespace ED.Props

open ED Matrix
open scoped BigOperators

theorem pauliY_loc : pauliY.IsLoc 2 := ⟨rfl, rfl⟩

private theorem loc_x : pauliX.loc 2 = sigmaX := by
  ext i j
  fin_cases i <;> fin_cases j <;> simp [pauliX, Mat.loc, Mat.lit2, sigmaX]

private theorem loc_y : pauliY.loc 2 = sigmaY := by
  ext i j
  fin_cases i <;> fin_cases j <;> simp [pauliY, Mat.loc, Mat.lit2, sigmaY]

private theorem loc_z : pauliZ.loc 2 = sigmaZ := by
  ext i j
  fin_cases i <;> fin_cases j <;> simp [pauliZ, Mat.loc, Mat.lit2, sigmaZ]

private theorem loc_p : pauliPlus.loc 2 = (1 / 2 : ℂ) • (sigmaX + Complex.I • sigmaY) := by
  ext i j
  fin_cases i <;> fin_cases j <;> norm_num [pauliPlus, Mat.loc, Mat.lit2, sigmaX, sigmaY]

private theorem loc_m : pauliMinus.loc 2 = (1 / 2 : ℂ) • (sigmaX - Complex.I • sigmaY) := by
  ext i j
  fin_cases i <;> fin_cases j <;> norm_num [pauliMinus, Mat.loc, Mat.lit2, sigmaX, sigmaY]

private theorem xx : sigmaX * sigmaX = 1 := by
  ext i j
  fin_cases i <;> fin_cases j <;> simp [sigmaX, Matrix.mul_apply]

private theorem yy : sigmaY * sigmaY = 1 := by
  ext i j
  fin_cases i <;> fin_cases j <;> simp [sigmaY, Matrix.mul_apply]

private theorem zz : sigmaZ * sigmaZ = 1 := by
  ext i j
  fin_cases i <;> fin_cases j <;> simp [sigmaZ, Matrix.mul_apply]

private theorem xy : sigmaX * sigmaY = Complex.I • sigmaZ := by
  ext i j
  fin_cases i <;> fin_cases j <;> simp [sigmaX, sigmaY, sigmaZ, Matrix.mul_apply]

private theorem yx : sigmaY * sigmaX = -(Complex.I • sigmaZ) := by
  ext i j
  fin_cases i <;> fin_cases j <;> simp [sigmaX, sigmaY, sigmaZ, Matrix.mul_apply]

private theorem yz : sigmaY * sigmaZ = Complex.I • sigmaX := by
  ext i j
  fin_cases i <;> fin_cases j <;> simp [sigmaX, sigmaY, sigmaZ, Matrix.mul_apply]

private theorem zy : sigmaZ * sigmaY = -(Complex.I • sigmaX) := by
  ext i j
  fin_cases i <;> fin_cases j <;> simp [sigmaX, sigmaY, sigmaZ, Matrix.mul_apply]

private theorem zx : sigmaZ * sigmaX = Complex.I • sigmaY := by
  ext i j
  fin_cases i <;> fin_cases j <;> simp [sigmaX, sigmaY, sigmaZ, Matrix.mul_apply]

private theorem xz : sigmaX * sigmaZ = -(Complex.I • sigmaY) := by
  ext i j
  fin_cases i <;> fin_cases j <;> simp [sigmaX, sigmaY, sigmaZ, Matrix.mul_apply]

private theorem hx : sigmaXᴴ = sigmaX := by
  ext i j
  fin_cases i <;> fin_cases j <;> simp [sigmaX]

private theorem hy : sigmaYᴴ = sigmaY := by
  ext i j
  fin_cases i <;> fin_cases j <;> simp [sigmaY]

private theorem hz : sigmaZᴴ = sigmaZ := by
  ext i j
  fin_cases i <;> fin_cases j <;> simp [sigmaZ]

/-- C96: the Pauli matrices of the library on the sites of a system of any size: the algebra on one site, Hermitian
operators, raising and lowering operators, and operators on different sites or species commute. -/
theorem C96_site_algebra (S : Sys) (hb : S.nbasis = 2) :
    ∃ X Y Z P M : Fin S.nsites → Fin S.nspecies → Op S.nlog 2,
      (∀ (i : Fin S.nsites) (s : Fin S.nspecies), Gives (getSingleSiteOp S i s pauliX "boson") (X i s) ∧
        Gives (getSingleSiteOp S i s pauliY "boson") (Y i s) ∧
        Gives (getSingleSiteOp S i s pauliZ "boson") (Z i s) ∧
        Gives (getSingleSiteOp S i s pauliPlus "boson") (P i s) ∧
        Gives (getSingleSiteOp S i s pauliMinus "boson") (M i s)) ∧
      (∀ i s, X i s * X i s = 1 ∧ Y i s * Y i s = 1 ∧ Z i s * Z i s = 1 ∧
        X i s * Y i s = Complex.I • Z i s ∧ Y i s * Z i s = Complex.I • X i s ∧
        Z i s * X i s = Complex.I • Y i s ∧
        (X i s)ᴴ = X i s ∧ (Y i s)ᴴ = Y i s ∧ (Z i s)ᴴ = Z i s ∧
        P i s = (1 / 2 : ℂ) • (X i s + Complex.I • Y i s) ∧
        M i s = (1 / 2 : ℂ) • (X i s - Complex.I • Y i s)) ∧
      ∀ i s j r, (i, s) ≠ (j, r) → ∀ A ∈ [X i s, Y i s, Z i s], ∀ B ∈ [X j r, Y j r, Z j r], A * B = B * A := by
  refine ⟨fun i s => bop (mode i s) sigmaX, fun i s => bop (mode i s) sigmaY, fun i s => bop (mode i s) sigmaZ,
    fun i s => bop (mode i s) (pauliPlus.loc 2), fun i s => bop (mode i s) (pauliMinus.loc 2), ?_, ?_, ?_⟩
  · intro i s
    rw [← loc_x, ← loc_y, ← loc_z]
    exact ⟨gives_single_boson hb i s pauliX_loc, gives_single_boson hb i s pauliY_loc,
      gives_single_boson hb i s pauliZ_loc, gives_single_boson hb i s pauliPlus_loc,
      gives_single_boson hb i s pauliMinus_loc⟩
  · intro i s
    simp only [bop_mul, bop_conj, xx, yy, zz, xy, yz, zx, hx, hy, hz, bop_one, bop_smul, true_and]
    have hsub : ∀ A B : Matrix (Fin 2) (Fin 2) ℂ, (bop (mode i s) (A - B) : Op S.nlog 2) =
        bop (mode i s) A - bop (mode i s) B := by
      intro A B
      rw [sub_eq_add_neg, bop_add, sub_eq_add_neg, ← neg_one_smul ℂ B, bop_smul, neg_one_smul]
    constructor
    · rw [loc_p, bop_smul, bop_add, bop_smul]
    · rw [loc_m, bop_smul, hsub, bop_smul]
  · intro i s j r hne A hA B hB
    have hm : (mode i s : Fin (S.nsites * S.nspecies)) ≠ mode j r := by
      intro h
      rw [mode_eq_iff] at h
      exact hne (Prod.ext h.1 h.2)
    simp only [List.mem_cons, List.not_mem_nil, or_false] at hA hB
    rcases hA with rfl | rfl | rfl <;> rcases hB with rfl | rfl | rfl <;> exact bop_comm hm _ _

/-- The sum over all sites. -/
private noncomputable def total {n : ℕ} (A : Matrix (Fin 2) (Fin 2) ℂ) : Op n 2 := ∑ k, siteOp A k

private theorem total_comm {n : ℕ} (A B : Matrix (Fin 2) (Fin 2) ℂ) (i : Fin n) :
    (total A : Op n 2) * siteOp B i = siteOp B i * total A + siteOp (A * B - B * A) i := by
  unfold total
  rw [Matrix.sum_mul, Matrix.mul_sum, ← Finset.add_sum_erase _ _ (Finset.mem_univ i),
    ← Finset.add_sum_erase (a := i) _ (fun k => siteOp B i * siteOp A k) (Finset.mem_univ i)]
  have : ∑ k ∈ Finset.univ.erase i, (siteOp A k * siteOp B i : Op n 2) =
      ∑ k ∈ Finset.univ.erase i, siteOp B i * siteOp A k := by
    apply Finset.sum_congr rfl
    intro k hk
    rw [siteOp_eq_bop, siteOp_eq_bop, bop_comm (Finset.ne_of_mem_erase hk)]
  rw [this]
  simp only [siteOp_eq_bop, bop_mul]
  rw [sub_eq_add_neg (A * B), bop_add, ← neg_one_smul ℂ (B * A), bop_smul, neg_one_smul]
  abel

private theorem total_gives {n : ℕ} (hn : 0 < n) {o : Mat} {A : Matrix (Fin 2) (Fin 2) ℂ} (ho : o.Is A) :
    Gives (getSumOp ⟨n, 1, 2⟩ o 0 "boson") (total A : Op n 2) :=
  gives_sumOp (S := ⟨n, 1, 2⟩) hn (fun i => siteOp A i) fun i => spin_single i ho

private theorem is_of_loc {o : Mat} {A : Matrix (Fin 2) (Fin 2) ℂ} (h : o.IsLoc 2) (h' : o.loc 2 = A) : o.Is A :=
  ⟨by simpa using h.1, by simpa using h.2, fun i j => by rw [← h']; rfl⟩

/-- The operators at one site. -/
theorem pauli_site {n : ℕ} (i : Fin n) :
    Gives (getSingleSiteOp ⟨n, 1, 2⟩ i 0 pauliX "boson") (siteOp sigmaX i : Op n 2) ∧
      Gives (getSingleSiteOp ⟨n, 1, 2⟩ i 0 pauliY "boson") (siteOp sigmaY i : Op n 2) ∧
      Gives (getSingleSiteOp ⟨n, 1, 2⟩ i 0 pauliZ "boson") (siteOp sigmaZ i : Op n 2) :=
  ⟨spin_single i (is_of_loc pauliX_loc loc_x), spin_single i (is_of_loc pauliY_loc loc_y), spin_single i (is_of_loc pauliZ_loc loc_z)⟩

/-- The sums over all sites. -/
theorem pauli_sums {n : ℕ} (hn : 0 < n) :
    Gives (getSumOp ⟨n, 1, 2⟩ pauliX 0 "boson") (∑ k, siteOp sigmaX k : Op n 2) ∧
      Gives (getSumOp ⟨n, 1, 2⟩ pauliY 0 "boson") (∑ k, siteOp sigmaY k : Op n 2) ∧
      Gives (getSumOp ⟨n, 1, 2⟩ pauliZ 0 "boson") (∑ k, siteOp sigmaZ k : Op n 2) :=
  ⟨total_gives hn (is_of_loc pauliX_loc loc_x), total_gives hn (is_of_loc pauliY_loc loc_y),
    total_gives hn (is_of_loc pauliZ_loc loc_z)⟩

/-- C96: the sums over all sites of half the Pauli matrices are a total spin. -/
theorem C96_total_spin {n : ℕ} (hn : 0 < n) :
    ∃ X Y Z : Op n 2, Gives (getSumOp ⟨n, 1, 2⟩ pauliX 0 "boson") X ∧ Gives (getSumOp ⟨n, 1, 2⟩ pauliY 0 "boson") Y ∧
      Gives (getSumOp ⟨n, 1, 2⟩ pauliZ 0 "boson") Z ∧
      ((1 / 2 : ℂ) • X) * ((1 / 2 : ℂ) • Y) - ((1 / 2 : ℂ) • Y) * ((1 / 2 : ℂ) • X) = Complex.I • ((1 / 2 : ℂ) • Z) ∧
      ((1 / 2 : ℂ) • Y) * ((1 / 2 : ℂ) • Z) - ((1 / 2 : ℂ) • Z) * ((1 / 2 : ℂ) • Y) = Complex.I • ((1 / 2 : ℂ) • X) ∧
      ((1 / 2 : ℂ) • Z) * ((1 / 2 : ℂ) • X) - ((1 / 2 : ℂ) • X) * ((1 / 2 : ℂ) • Z) =
        Complex.I • ((1 / 2 : ℂ) • Y) := by
  have key : ∀ A B C : Matrix (Fin 2) (Fin 2) ℂ, A * B - B * A = (2 * Complex.I) • C →
      ((1 / 2 : ℂ) • (total A : Op n 2)) * ((1 / 2 : ℂ) • total B) - ((1 / 2 : ℂ) • total B) * ((1 / 2 : ℂ) • total A) =
        Complex.I • ((1 / 2 : ℂ) • total C) := by
    intro A B C h
    have h1 : (total A : Op n 2) * total B - total B * total A = (2 * Complex.I) • total C := by
      conv_lhs =>
        rw [show (total B : Op n 2) = ∑ i, siteOp B i from rfl]
      rw [Matrix.mul_sum, Matrix.sum_mul, ← Finset.sum_sub_distrib]
      rw [show (total C : Op n 2) = ∑ i, siteOp C i from rfl, Finset.smul_sum]
      apply Finset.sum_congr rfl
      intro i _
      rw [total_comm, h, siteOp_smul]
      abel
    rw [Matrix.smul_mul, Matrix.mul_smul, Matrix.smul_mul, Matrix.mul_smul, ← smul_sub, ← smul_sub, h1, smul_smul,
      smul_smul, smul_smul]
    congr 1
    ring
  refine ⟨_, _, _, total_gives hn (is_of_loc pauliX_loc loc_x), total_gives hn (is_of_loc pauliY_loc loc_y),
    total_gives hn (is_of_loc pauliZ_loc loc_z), key _ _ _ ?_, key _ _ _ ?_, key _ _ _ ?_⟩
  · rw [xy, yx, mul_smul, two_smul]; abel
  · rw [yz, zy, mul_smul, two_smul]; abel
  · rw [zx, xz, mul_smul, two_smul]; abel

/-- Rotation of a pair of sites about the axis `C`, in terms of the other two axes. -/
private theorem pair_comm {n : ℕ} {A B C : Matrix (Fin 2) (Fin 2) ℂ} {z : ℂ} (h1 : C * A - A * C = z • B)
    (h2 : C * B - B * C = -(z • A)) (i j : Fin n) :
    (total C : Op n 2) * (siteOp A i * siteOp A j + siteOp B i * siteOp B j) =
      (siteOp A i * siteOp A j + siteOp B i * siteOp B j) * total C := by
  have e : ∀ D : Matrix (Fin 2) (Fin 2) ℂ, (total C : Op n 2) * (siteOp D i * siteOp D j) =
      siteOp D i * siteOp D j * total C + siteOp D i * siteOp (C * D - D * C) j +
        siteOp (C * D - D * C) i * siteOp D j := by
    intro D
    rw [← Matrix.mul_assoc, total_comm, Matrix.add_mul, Matrix.mul_assoc, total_comm, Matrix.mul_add, Matrix.mul_assoc]
  have e1 := e A
  have e2 := e B
  rw [h1, siteOp_smul, siteOp_smul, Matrix.mul_smul, Matrix.smul_mul] at e1
  rw [h2, ← neg_smul, siteOp_smul, siteOp_smul, Matrix.mul_smul, Matrix.smul_mul, neg_smul, neg_smul] at e2
  rw [Matrix.mul_add, e1, e2, Matrix.add_mul]
  abel

private theorem self_comm {n : ℕ} (C : Matrix (Fin 2) (Fin 2) ℂ) (i : Fin n) :
    (total C : Op n 2) * siteOp C i = siteOp C i * total C := by
  rw [total_comm, sub_self]
  have : (siteOp (0 : Matrix (Fin 2) (Fin 2) ℂ) i : Op n 2) = 0 := by rw [siteOp_eq_bop, bop_zero]
  rw [this, add_zero]

private theorem self_pair_comm {n : ℕ} (C : Matrix (Fin 2) (Fin 2) ℂ) (i j : Fin n) :
    (total C : Op n 2) * (siteOp C i * siteOp C j) = siteOp C i * siteOp C j * total C := by
  rw [← Matrix.mul_assoc, self_comm, Matrix.mul_assoc, self_comm, Matrix.mul_assoc]

private theorem zxy : sigmaZ * sigmaX - sigmaX * sigmaZ = (2 * Complex.I) • sigmaY ∧
    sigmaZ * sigmaY - sigmaY * sigmaZ = -((2 * Complex.I) • sigmaX) := by
  rw [zx, xz, zy, yz, mul_smul, two_smul, mul_smul, two_smul]
  exact ⟨by abel, by abel⟩

private theorem xyz : sigmaX * sigmaY - sigmaY * sigmaX = (2 * Complex.I) • sigmaZ ∧
    sigmaX * sigmaZ - sigmaZ * sigmaX = -((2 * Complex.I) • sigmaY) := by
  rw [zx, xz, xy, yx, mul_smul, two_smul, mul_smul, two_smul]
  exact ⟨by abel, by abel⟩

private theorem yzx : sigmaY * sigmaZ - sigmaZ * sigmaY = (2 * Complex.I) • sigmaX ∧
    sigmaY * sigmaX - sigmaX * sigmaY = -((2 * Complex.I) • sigmaZ) := by
  rw [zy, yz, xy, yx, mul_smul, two_smul, mul_smul, two_smul]
  exact ⟨by abel, by abel⟩

/-- Sums over pairs of sites that commute with an operator. -/
private theorem comm_pairs {n : ℕ} (T : Op n 2) (E : Fin n → Fin n → Op n 2) (h : ∀ i j, j < i → T * E i j = E i j * T) :
    T * (∑ i, ∑ j, if j < i then E i j else 0) = (∑ i, ∑ j, if j < i then E i j else 0) * T := by
  simp only [Matrix.mul_sum, Matrix.sum_mul]
  refine Finset.sum_congr rfl fun i _ => Finset.sum_congr rfl fun j _ => ?_
  split_ifs with hij
  · exact h i j hij
  · rw [Matrix.mul_zero, Matrix.zero_mul]

/-- C99: for spins one half with equal couplings along x and y and fields along z only, the Hamiltonian commutes with
the sum of the z components. -/
theorem C99_axial (F : Spins) (h : F.twoS = 1) (hn : 0 < F.nsites)
    (hj : ∀ i < F.nsites, ∀ j < i, F.jx i j = F.jy i j)
    (hf : ∀ i < F.nsites, F.hx i = 0 ∧ F.hy i = 0) :
    ∃ H T : Op F.nsites 2, Gives (F.createH none) H ∧ Gives (getSumOp F.sys pauliZ 0 "boson") T ∧ H * T = T * H := by
  have hH := (C75_hamiltonian_partial F h).1
  have hT : Gives (getSumOp F.sys pauliZ 0 "boson") (total sigmaZ : Op F.nsites 2) := by
    have := total_gives hn (is_of_loc pauliZ_loc loc_z)
    unfold Spins.sys
    rw [h]
    exact this
  refine ⟨_, _, hH, hT, ?_⟩
  symm
  unfold spinH
  rw [Matrix.mul_sub, Matrix.sub_mul, comm_pairs]
  · congr 1
    rw [Matrix.mul_sum, Matrix.sum_mul]
    refine Finset.sum_congr rfl fun i _ => ?_
    dsimp only
    rw [(hf i i.2).1, (hf i i.2).2, neg_zero, zero_smul, zero_smul, zero_add, zero_add, Matrix.mul_smul,
      Matrix.mul_smul, Matrix.smul_mul, Matrix.smul_mul, self_comm]
  · intro i j hij
    dsimp only
    rw [hj i i.2 j hij, ← smul_add, Matrix.mul_smul, Matrix.smul_mul, Matrix.mul_add, Matrix.add_mul, Matrix.mul_smul,
      Matrix.smul_mul, pair_comm zxy.1 zxy.2, Matrix.mul_smul, Matrix.smul_mul, self_pair_comm]

/-- C99: for spins one half with isotropic couplings and without fields, the Hamiltonian commutes with the sums of all
three components. -/
theorem C99_isotropic (F : Spins) (h : F.twoS = 1) (hn : 0 < F.nsites)
    (hj : ∀ i < F.nsites, ∀ j < i, F.jx i j = F.jy i j ∧ F.jy i j = F.jz i j)
    (hf : ∀ i < F.nsites, F.hx i = 0 ∧ F.hy i = 0 ∧ F.hz i = 0) :
    ∃ H X Y Z : Op F.nsites 2, Gives (F.createH none) H ∧ Gives (getSumOp F.sys pauliX 0 "boson") X ∧
      Gives (getSumOp F.sys pauliY 0 "boson") Y ∧ Gives (getSumOp F.sys pauliZ 0 "boson") Z ∧
      H * X = X * H ∧ H * Y = Y * H ∧ H * Z = Z * H := by
  have hH := (C75_hamiltonian_partial F h).1
  have hT : ∀ (o : Mat) (A : Matrix (Fin 2) (Fin 2) ℂ), o.Is A →
      Gives (getSumOp F.sys o 0 "boson") (total A : Op F.nsites 2) := by
    intro o A ho
    have := total_gives hn ho
    unfold Spins.sys
    rw [h]
    exact this
  have key : ∀ T : Op F.nsites 2, (∀ i j, j < i → T * (siteOp sigmaX i * siteOp sigmaX j +
      siteOp sigmaY i * siteOp sigmaY j + siteOp sigmaZ i * siteOp sigmaZ j) = (siteOp sigmaX i * siteOp sigmaX j +
      siteOp sigmaY i * siteOp sigmaY j + siteOp sigmaZ i * siteOp sigmaZ j) * T) →
      T * spinH (fun i j => F.jx i j) (fun i j => F.jy i j) (fun i j => F.jz i j) (fun i => F.hx i)
        (fun i => -F.hy i) (fun i => F.hz i) =
      spinH (fun i j => F.jx i j) (fun i j => F.jy i j) (fun i j => F.jz i j) (fun i => F.hx i)
        (fun i => -F.hy i) (fun i => F.hz i) * T := by
    intro T hc
    unfold spinH
    rw [Matrix.mul_sub, Matrix.sub_mul, comm_pairs]
    · congr 1
      rw [Matrix.mul_sum, Matrix.sum_mul]
      refine Finset.sum_congr rfl fun i _ => ?_
      dsimp only
      rw [(hf i i.2).1, (hf i i.2).2.1, (hf i i.2).2.2]
      simp
    · intro i j hij
      dsimp only
      rw [(hj i i.2 j hij).1, (hj i i.2 j hij).2, ← smul_add, ← smul_add, Matrix.mul_smul, Matrix.smul_mul,
        Matrix.mul_smul, Matrix.smul_mul, hc i j hij]
  refine ⟨_, _, _, _, hH, hT _ _ (is_of_loc pauliX_loc loc_x), hT _ _ (is_of_loc pauliY_loc loc_y),
    hT _ _ (is_of_loc pauliZ_loc loc_z), (key _ ?_).symm, (key _ ?_).symm, (key _ ?_).symm⟩
  · intro i j _
    rw [add_assoc, Matrix.mul_add, pair_comm xyz.1 xyz.2, self_pair_comm, ← Matrix.add_mul]
  · intro i j _
    rw [add_right_comm, add_comm (siteOp sigmaX i * siteOp sigmaX j), Matrix.mul_add, pair_comm yzx.1 yzx.2,
      self_pair_comm, ← Matrix.add_mul]
  · intro i j _
    rw [Matrix.mul_add, pair_comm zxy.1 zxy.2, self_pair_comm, ← Matrix.add_mul]

/-- A Heisenberg ring of three spins meets the hypotheses. -/
example : ∃ H X Y Z : Op 3 2, Gives (Spins.createH ⟨3, 1, fun _ _ => 1, fun _ _ => 1, fun _ _ => 1, fun _ => 0,
      fun _ => 0, fun _ => 0⟩ none) H ∧ Gives (getSumOp ⟨3, 1, 2⟩ pauliX 0 "boson") X ∧
    Gives (getSumOp ⟨3, 1, 2⟩ pauliY 0 "boson") Y ∧ Gives (getSumOp ⟨3, 1, 2⟩ pauliZ 0 "boson") Z ∧
    H * X = X * H ∧ H * Y = Y * H ∧ H * Z = Z * H :=
  C99_isotropic ⟨3, 1, fun _ _ => 1, fun _ _ => 1, fun _ _ => 1, fun _ => 0, fun _ => 0, fun _ => 0⟩ rfl (by simp)
    (by simp) (by simp)

end ED.Props
