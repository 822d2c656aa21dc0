import Verif.Lemmas.SpinMat
import Verif.Lemmas.HubbardAlg
import Verif.Spec.Spin

/-! # Helper lemmas: the spin Hamiltonian -/

namespace ED

open scoped BigOperators
open Matrix

variable {κ : Type} [Fintype κ] [Basis κ]

theorem siteOp_eq_bop {n b : ℕ} (A : Matrix (Fin b) (Fin b) ℂ) (i : Fin n) : siteOp A i = bop i A := by
  ext s t; rw [bop_apply, siteOp, of_apply]

theorem Mat.Is.isLoc {b : ℕ} {o : Mat} {A : Matrix (Fin b) (Fin b) ℂ} (h : o.Is A) :
    o.IsLoc b ∧ o.loc b = A :=
  ⟨⟨by simpa using h.1, by simpa using h.2.1⟩, by ext i j; exact h.2.2 i j⟩

theorem spin_single {n : ℕ} (i : Fin n) {o : Mat} {A : Matrix (Fin 2) (Fin 2) ℂ} (ho : o.Is A) :
    Gives (getSingleSiteOp ⟨n, 1, 2⟩ i 0 o "boson") (siteOp A i : Op n 2) := by
  have h := gives_single_boson (S := ⟨n, 1, 2⟩) rfl i (0 : Fin 1) ho.isLoc.1
  rw [ho.isLoc.2] at h
  have key : ∀ (r : Res Mat) (m : ℕ) (_ : m = n) (k : Fin m), (k : ℕ) = i →
      Gives r (bop k A : Op m 2) → Gives r (siteOp A i : Op n 2) := by
    rintro r m rfl k hk hg
    rw [siteOp_eq_bop, ← Fin.ext hk]; exact hg
  exact key _ _ (mul_one n) _ (by simp [mode]) h

/-- On the last site the local dimension does not matter. -/
theorem spin_single_last {n b : ℕ} (i : Fin n) (hi : (i : ℕ) + 1 = n) {o : Mat} {A : Matrix (Fin b) (Fin b) ℂ} (ho : o.Is A) :
    Gives (getSingleSiteOp ⟨n, 1, b⟩ i 0 o "boson") (siteOp A i : Op n b) := by
  obtain ⟨n, rfl⟩ : ∃ m, n = m + 1 := ⟨n - 1, by omega⟩
  have hi' : (i : ℕ) = n := by omega
  refine ⟨((Mat.eye (b ^ n)).kron o).kron (Mat.eye (b ^ 0)), ?_, ?_⟩
  · unfold getSingleSiteOp
    simp only [show ¬ ("boson" = "fermion") by decide, if_false, if_true]
    have h1 : spinful2spinless (i : ℕ) (n + 1) 0 = n := by simp [spinful2spinless, hi']
    have h2 : (Sys.nlog ⟨n + 1, 1, b⟩) = n + 1 := by simp [Sys.nlog]
    rw [h1, h2, if_pos (by omega), show n + 1 - n - 1 = 0 by omega, pow_zero, pow_zero]
  · have := single_core (N := n + 1) (l := n) (k := 0) rfl ho.isLoc.1 Mat.eye_dim (eye_tensor 0 b)
    refine Mat.is_of_op this.1 (this.2.trans ?_)
    rw [siteOp_eq_bop, bop, ho.isLoc.2, hi']

theorem spin_two {n b : ℕ} {i j : Fin n} (hij : i ≠ j) {o o' : Mat}
    {A B : Matrix (Fin b) (Fin b) ℂ} (ho : o.Is A) (ho' : o'.Is B) :
    Gives (getTwoSiteOp ⟨n, 1, b⟩ i 0 j 0 o o' "boson") (siteOp A i * siteOp B j : Op n b) := by
  have h : Gives (getTwoSiteOp ⟨n, 1, b⟩ i 0 j 0 o o' "boson")
      (bop (mode i (0 : Fin 1)) A * bop (mode j (0 : Fin 1)) B : Op (n * 1) b) := by
    have hne : mode i (0 : Fin 1) ≠ mode j (0 : Fin 1) := fun e => hij (by
      have := congrArg Fin.val e
      exact Fin.ext (by simpa [mode] using this))
    rw [← ho.isLoc.2, ← ho'.isLoc.2]
    rcases lt_or_gt_of_ne hne with h | h
    · rw [bop_mul_lt h]
      obtain ⟨M, h1, h2, h3⟩ := two_lt_boson (S := ⟨n, 1, b⟩) ho.isLoc.1 ho'.isLoc.1 h
        (mode_lt (S := ⟨n, 1, b⟩) j (0 : Fin 1))
      exact ⟨M, h1, Mat.is_of_op h2 h3⟩
    · rw [bop_mul_gt h]
      obtain ⟨M, h1, h2, h3⟩ := two_gt_boson (S := ⟨n, 1, b⟩) ho.isLoc.1 ho'.isLoc.1 h
        (mode_lt (S := ⟨n, 1, b⟩) i (0 : Fin 1))
      exact ⟨M, h1, Mat.is_of_op h2 h3⟩
  have key : ∀ (r : Res Mat) (m : ℕ) (_ : m = n) (k l : Fin m), (k : ℕ) = i → (l : ℕ) = j →
      Gives r (bop k A * bop l B : Op m b) → Gives r (siteOp A i * siteOp B j : Op n b) := by
    rintro r m rfl k l hk hl hg
    rw [siteOp_eq_bop, siteOp_eq_bop, ← Fin.ext hk, ← Fin.ext hl]; exact hg
  exact key _ _ (mul_one n) _ _ (by simp [mode]) (by simp [mode]) h

/-- The Hamiltonian `Σ_{i>j} 2 j S S - Σ h S` for given local matrices. -/
noncomputable def heis {n b : ℕ} (X Y Z : Matrix (Fin b) (Fin b) ℂ)
    (jx jy jz : Fin n → Fin n → ℂ) (hx hy hz : Fin n → ℂ) : Op n b :=
  (∑ i, ∑ j, if j < i then
      (2 * jx i j) • (siteOp X i * siteOp X j) + (2 * jy i j) • (siteOp Y i * siteOp Y j) +
        (2 * jz i j) • (siteOp Z i * siteOp Z j) else 0) -
    ∑ i, (hx i • siteOp X i + hy i • siteOp Y i + hz i • siteOp Z i)

noncomputable def sxM (d : ℕ) : Matrix (Fin (d + 1)) (Fin (d + 1)) ℂ := (1 / 2 : ℂ) • (spM d + smM d)
noncomputable def syM (d : ℕ) : Matrix (Fin (d + 1)) (Fin (d + 1)) ℂ :=
  (1 / Complex.I) • ((1 / 2 : ℂ) • (spM d - smM d))

theorem spinSandwich_gives {μ : Type} [Fintype μ] [Basis μ] {P op : Mat} {Pm : Matrix κ μ ℂ}
    {O : Matrix μ μ ℂ} (hP : P.Is Pm) (hO : op.Is O) (z : ℂ) :
    Gives (spinSandwich z P op) (Pm * (z • O) * Pmᴴ) := by
  unfold spinSandwich
  refine ((hP.smul z).mul hO).bind' fun A hA => ?_
  refine (hA.mul hP.dagger).of_eq ?_
  rw [Matrix.smul_mul, Matrix.mul_smul]

/-- Either spin one half, or no field: the single-site builder is wrong for other local dimensions. -/
def Spins.Ok (F : Spins) : Prop :=
  F.twoS = 1 ∨ ∀ i : Fin F.nsites, (i : ℕ) + 1 < F.nsites → F.hx i = 0 ∧ F.hy i = 0 ∧ F.hz i = 0

theorem fieldTerm_gives (F : Spins) {P : Mat} {Pm : Matrix κ (Conf F.nsites (F.twoS + 1)) ℂ}
    (hP : P.Is Pm) (i : Fin F.nsites) (z : ℂ) (hz : F.twoS = 1 ∨ ((i : ℕ) + 1 < F.nsites → z = 0)) {op : Res Mat}
    {A : Matrix (Fin (F.twoS + 1)) (Fin (F.twoS + 1)) ℂ} (ho : Gives op A) {acc : Mat}
    {B : Matrix κ κ ℂ} (hacc : acc.Is B) :
    Gives (F.fieldTerm P z op i acc) (B + Pm * (-(z • siteOp A i)) * Pmᴴ) := by
  unfold Spins.fieldTerm
  split_ifs with h
  · refine ho.bind' fun o ho => ?_
    have hs : Gives (getSingleSiteOp F.sys i 0 o "boson") (siteOp A i : Op F.nsites (F.twoS + 1)) := by
      obtain ⟨n, d, _, _, _, _, _, _⟩ := F
      rcases hz with h1 | h1
      · simp only at h1
        subst h1
        exact spin_single i ho
      · exact spin_single_last i (by
          have hlt : (i : ℕ) < n := i.2
          by_contra hne
          exact h (h1 (Nat.lt_of_le_of_ne hlt hne))) ho
    refine hs.bind' fun M hM => ?_
    refine (spinSandwich_gives hP hM _).bind' fun M' hM' => ?_
    refine (hacc.sub hM').of_eq ?_
    rw [Matrix.mul_neg, Matrix.neg_mul, sub_eq_add_neg]
  · obtain rfl : z = 0 := not_not.1 h
    exact hacc.pure.of_eq (by simp)

theorem pairTerm_gives (F : Spins) {P : Mat} {Pm : Matrix κ (Conf F.nsites (F.twoS + 1)) ℂ}
    (hP : P.Is Pm) {i j : Fin F.nsites} (hij : i ≠ j) (z : ℂ) {op : Res Mat}
    {A : Matrix (Fin (F.twoS + 1)) (Fin (F.twoS + 1)) ℂ} (ho : Gives op A) {acc : Mat}
    {B : Matrix κ κ ℂ} (hacc : acc.Is B) :
    Gives (F.pairTerm P z op i j acc)
      (B + Pm * ((2 * z) • (siteOp A i * siteOp A j)) * Pmᴴ) := by
  unfold Spins.pairTerm
  split_ifs with h
  · refine ho.bind' fun o ho => ?_
    refine (spin_two hij ho ho).bind' fun M hM => ?_
    refine (spinSandwich_gives hP hM _).bind' fun M' hM' => ?_
    exact hacc.add hM'
  · obtain rfl : z = 0 := not_not.1 h
    exact hacc.pure.of_eq (by simp)

theorem conj_sum' {ι μ : Type} [Fintype μ] (Pm : Matrix κ μ ℂ) (s : Finset ι)
    (T : ι → Matrix μ μ ℂ) :
    Pm * (∑ i ∈ s, T i) * Pmᴴ = ∑ i ∈ s, Pm * T i * Pmᴴ := by
  rw [Matrix.mul_sum, Matrix.sum_mul]

theorem spin_createH_proj (F : Spins) (hF : F.Ok) {P : Mat}
    {Pm : Matrix κ (Conf F.nsites (F.twoS + 1)) ℂ} (hP : P.Is Pm) :
    Gives (F.createH (some P)) (Pm * heis (sxM F.twoS) (syM F.twoS) (szM F.twoS)
      (fun i j => F.jx i j) (fun i j => F.jy i j) (fun i j => F.jz i j)
      (fun i => F.hx i) (fun i => F.hy i) (fun i => F.hz i) * Pmᴴ) := by
  unfold Spins.createH
  simp only [Option.getD_some]
  have hfield := foldlM_range_gives F.nsites (fun acc ii => do
    let a ← F.fieldTerm P (F.hx ii) (getSx F.twoS) ii acc
    let b ← F.fieldTerm P (F.hy ii) (getSy F.twoS) ii a
    F.fieldTerm P (F.hz ii) (pure (getSz F.twoS)) ii b)
    (fun i => Pm * (-(F.hx i • siteOp (sxM F.twoS) i + F.hy i • siteOp (syM F.twoS) i +
      F.hz i • siteOp (szM F.twoS) i)) * Pmᴴ) (fun i acc A hA => by
      refine (fieldTerm_gives F hP i _ (hF.imp_right fun h hi => (h i hi).1) (getSx_gives _) hA).bind' fun a ha => ?_
      refine (fieldTerm_gives F hP i _ (hF.imp_right fun h hi => (h i hi).2.1) (getSy_gives _) ha).bind' fun b hb => ?_
      refine (fieldTerm_gives F hP i _ (hF.imp_right fun h hi => (h i hi).2.2) (getSz_is _).pure hb).of_eq ?_
      rw [neg_add, neg_add, Matrix.mul_add, Matrix.mul_add, Matrix.add_mul, Matrix.add_mul,
        ← add_assoc, ← add_assoc]
      rfl) _ 0 (Mat.is_zero hP.1 hP.1)
  rw [zero_add, ← conj_sum', Finset.sum_neg_distrib] at hfield
  refine hfield.bind' fun h1 hh1 => ?_
  split_ifs with hn
  · refine (foldlM_range_gives F.nsites _ (fun i => Pm * (∑ j, if j < i then
      (2 * F.jx i j) • (siteOp (sxM F.twoS) i * siteOp (sxM F.twoS) j) +
      (2 * F.jy i j) • (siteOp (syM F.twoS) i * siteOp (syM F.twoS) j) +
        (2 * F.jz i j) • (siteOp (szM F.twoS) i * siteOp (szM F.twoS) j) else 0) * Pmᴴ)
      (fun i acc A hA => ?_) _ _ hh1).of_eq ?_
    · rw [conj_sum']
      refine foldlM_range_gives F.nsites _ _ (fun j acc A hA => ?_) acc A hA
      by_cases hij : j < i
      · rw [if_pos (show (i : ℕ) > j from hij), if_pos hij]
        refine (pairTerm_gives F hP hij.ne' _ (getSx_gives _) hA).bind' fun a ha => ?_
        refine (pairTerm_gives F hP hij.ne' _ (getSy_gives _) ha).bind' fun b hb => ?_
        refine (pairTerm_gives F hP hij.ne' _ (getSz_is _).pure hb).of_eq ?_
        rw [Matrix.mul_add, Matrix.mul_add, Matrix.add_mul, Matrix.add_mul, ← add_assoc, ← add_assoc]
        rfl
      · rw [if_neg (show ¬ (i : ℕ) > j from hij), if_neg hij]
        exact hA.pure.of_eq (by simp)
    · rw [← conj_sum', ← Matrix.add_mul, ← Matrix.mul_add]
      congr 2
      exact neg_add_eq_sub _ _
  · refine hh1.pure.of_eq ?_
    congr 2
    rw [heis]
    have : (∑ i : Fin F.nsites, ∑ j : Fin F.nsites, if j < i then
      (2 * F.jx i j) • (siteOp (sxM F.twoS) i * siteOp (sxM F.twoS) j) +
      (2 * F.jy i j) • (siteOp (syM F.twoS) i * siteOp (syM F.twoS) j) +
        (2 * F.jz i j) • (siteOp (szM F.twoS) i * siteOp (szM F.twoS) j) else 0) = 0 := by
      refine Finset.sum_eq_zero fun i _ => Finset.sum_eq_zero fun j _ => ?_
      rw [if_neg]
      intro h
      have : (j : ℕ) < i := h
      have := i.2
      omega
    rw [this, zero_sub]

theorem spin_createH (F : Spins) (hF : F.Ok) :
    Gives (F.createH none) (heis (n := F.nsites) (sxM F.twoS) (syM F.twoS) (szM F.twoS)
      (fun i j => F.jx i j) (fun i j => F.jy i j) (fun i j => F.jz i j)
      (fun i => F.hx i) (fun i => F.hy i) (fun i => F.hz i)) := by
  have hP : (Mat.eye (F.sys.nbasis ^ F.nsites)).Is (1 : Op F.nsites (F.twoS + 1)) :=
    Mat.is_eye (by simp)
  have := spin_createH_proj F hF hP
  rw [Matrix.one_mul, Matrix.conjTranspose_one, Matrix.mul_one] at this
  exact this

/-! ### Spin one half -/

theorem sxM_one : sxM 1 = (1 / 2 : ℂ) • sigmaX := by
  ext i j
  simp only [sxM, spM, smM, sigmaX, Matrix.smul_apply, of_apply, Matrix.add_apply]
  fin_cases i <;> fin_cases j <;> simp

theorem syM_one : syM 1 = (-1 / 2 : ℂ) • sigmaY := by
  ext i j
  simp only [syM, spM, smM, sigmaY, Matrix.smul_apply, of_apply, Matrix.sub_apply]
  fin_cases i <;> fin_cases j <;> simp <;> ring

theorem szM_one : szM 1 = (1 / 2 : ℂ) • sigmaZ := by
  ext i j
  simp only [szM, sigmaZ, Matrix.smul_apply, of_apply, diagonal_apply]
  fin_cases i <;> fin_cases j <;> simp
  norm_num

theorem siteOp_smul {n b : ℕ} (z : ℂ) (A : Matrix (Fin b) (Fin b) ℂ) (i : Fin n) :
    siteOp (z • A) i = z • siteOp A i := by
  rw [siteOp_eq_bop, siteOp_eq_bop, bop_smul]

theorem heis_half {n : ℕ} (jx jy jz : Fin n → Fin n → ℂ) (hx hy hz : Fin n → ℂ) :
    heis (sxM 1) (syM 1) (szM 1) jx jy jz hx hy hz =
      (spinH jx jy jz hx (fun i => -hy i) hz : Op n 2) := by
  unfold heis spinH
  rw [sxM_one, syM_one, szM_one]
  congr 1
  · refine Finset.sum_congr rfl fun i _ => Finset.sum_congr rfl fun j _ => ?_
    split_ifs
    · simp only [siteOp_smul, smul_mul_assoc, mul_smul_comm, smul_smul, smul_add]
      congr 1
      · congr 1 <;> congr 1 <;> ring
      · congr 1; ring
    · rfl
  · refine Finset.sum_congr rfl fun i _ => ?_
    simp only [siteOp_smul, smul_smul, smul_add]
    congr 1
    · congr 1 <;> congr 1 <;> ring
    · congr 1; ring

/-! ### Algebra -/

theorem siteOp_conj {n b : ℕ} (A : Matrix (Fin b) (Fin b) ℂ) (i : Fin n) :
    (siteOp A i)ᴴ = siteOp Aᴴ i := by rw [siteOp_eq_bop, siteOp_eq_bop, bop_conj]

theorem siteOp_comm {n b : ℕ} {i j : Fin n} (h : i ≠ j) (A B : Matrix (Fin b) (Fin b) ℂ) :
    siteOp A i * siteOp B j = siteOp B j * siteOp A i := by
  simp only [siteOp_eq_bop]; exact bop_comm h A B

theorem szM_is_star (d : ℕ) : (szM d)ᴴ = szM d := szM_star d

theorem sxM_star (d : ℕ) : (sxM d)ᴴ = sxM d := by
  rw [sxM, conjTranspose_smul, conjTranspose_add, smM_star, spM_star, add_comm (smM d)]
  congr 1; simp

theorem syM_star (d : ℕ) : (syM d)ᴴ = syM d := by
  rw [syM, conjTranspose_smul, conjTranspose_smul, conjTranspose_sub, smM_star, spM_star,
    smul_smul, smul_smul, ← neg_sub (spM d), smul_neg, ← neg_smul]
  congr 1; simp

theorem heis_star {n b : ℕ} {X Y Z : Matrix (Fin b) (Fin b) ℂ} (hX : Xᴴ = X) (hY : Yᴴ = Y)
    (hZ : Zᴴ = Z) (jx jy jz : Fin n → Fin n → ℂ) (hx hy hz : Fin n → ℂ) :
    (heis X Y Z jx jy jz hx hy hz)ᴴ = heis X Y Z (fun i j => star (jx i j))
      (fun i j => star (jy i j)) (fun i j => star (jz i j)) (fun i => star (hx i))
      (fun i => star (hy i)) (fun i => star (hz i)) := by
  unfold heis
  rw [conjTranspose_sub, conjTranspose_sum, conjTranspose_sum]
  congr 1
  · refine Finset.sum_congr rfl fun i _ => ?_
    rw [conjTranspose_sum]
    refine Finset.sum_congr rfl fun j _ => ?_
    split_ifs with h
    · simp only [conjTranspose_add, conjTranspose_smul, conjTranspose_mul, siteOp_conj, hX, hY, hZ,
        siteOp_comm h.ne, star_mul', star_ofNat]
    · simp
  · refine Finset.sum_congr rfl fun i _ => ?_
    simp only [conjTranspose_add, conjTranspose_smul, siteOp_conj, hX, hY, hZ]

end ED
