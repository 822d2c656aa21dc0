import Verif.Lemmas.Spins
import Verif.Lemmas.Select
import Verif.Props.Symmetry

/-! # Helper lemmas: symmetries and special states of spin models -/

namespace ED

open scoped BigOperators
open Matrix

/-! ### Permutations of the basis -/

section perm
variable {ι : Type} [Fintype ι] [DecidableEq ι]

/-- The matrix sending basis vector `t` to basis vector `e t`. -/
def relMat (e : Equiv.Perm ι) : Matrix ι ι ℂ := Matrix.of fun s t => if s = e t then 1 else 0

theorem relMat_mulVec (e : Equiv.Perm ι) (t : ι) : (relMat e).mulVec (ket t) = ket (e t) := by
  funext s
  rw [mulVec_ket, ket, relMat, of_apply]

theorem relMat_conj (e : Equiv.Perm ι) : (relMat e)ᴴ = relMat e.symm := by
  ext s t
  simp only [relMat, conjTranspose_apply, of_apply]
  have : t = e s ↔ s = e.symm t := by rw [Equiv.eq_symm_apply, eq_comm]
  simp only [this]
  split_ifs <;> simp

theorem relMat_conj_apply (e : Equiv.Perm ι) (M : Matrix ι ι ℂ) (s t : ι) :
    (relMat e * M * (relMat e)ᴴ) s t = M (e.symm s) (e.symm t) := by
  rw [relMat_conj, Matrix.mul_apply]
  simp only [relMat, of_apply, Matrix.mul_apply, ite_mul, one_mul, zero_mul, mul_ite, mul_one, mul_zero]
  have : ∀ x, (s = e x) ↔ (e.symm s = x) := fun x => by rw [Equiv.symm_apply_eq]
  simp only [this, Finset.sum_ite_eq, Finset.sum_ite_eq', Finset.mem_univ, if_true]

theorem relMat_unitary (e : Equiv.Perm ι) : (relMat e)ᴴ * relMat e = 1 ∧ relMat e * (relMat e)ᴴ = 1 := by
  have h : ∀ e : Equiv.Perm ι, relMat e * (relMat e)ᴴ = 1 := by
    intro e
    ext s t
    have := relMat_conj_apply e 1 s t
    rw [mul_one] at this
    rw [this, one_apply, one_apply]
    simp
  refine ⟨?_, h e⟩
  have := h e.symm
  rw [relMat_conj, Equiv.symm_symm] at this
  rw [relMat_conj]; exact this

theorem commute_of_conj {U H : Matrix ι ι ℂ} (hU : Uᴴ * U = 1) (h : U * H * Uᴴ = H) :
    U * H = H * U := by
  calc U * H = U * H * (Uᴴ * U) := by rw [hU, mul_one]
    _ = _ := by rw [← mul_assoc, h]

end perm

/-- The permutation of configurations induced by a permutation of sites. -/
def confPerm {n b : ℕ} (π : Equiv.Perm (Fin n)) : Equiv.Perm (Conf n b) where
  toFun t := fun i => t (π.symm i)
  invFun t := fun i => t (π i)
  left_inv t := by funext i; simp
  right_inv t := by funext i; simp

theorem movesLabels_rel {n b : ℕ} {U : Op n b} {π : Equiv.Perm (Fin n)} (h : MovesLabels U π) :
    U = relMat (confPerm π) := by
  rw [(movesLabels_iff _ _).1 h]; rfl

theorem conj_siteOp {n b : ℕ} (π : Equiv.Perm (Fin n)) (A : Matrix (Fin b) (Fin b) ℂ) (i : Fin n) :
    relMat (confPerm π) * siteOp A i * (relMat (confPerm π))ᴴ = siteOp A (π i) := by
  ext s t
  rw [relMat_conj_apply]
  simp only [siteOp, of_apply]
  have e : AgreeOff i ((confPerm π).symm s) ((confPerm π).symm t) ↔ AgreeOff (π i) s t := by
    constructor
    · intro h j hj
      have := h (π.symm j) (fun e => hj (by rw [← e]; simp))
      simpa [confPerm] using this
    · intro h j hj
      exact h (π j) (fun e => hj (π.injective e))
  simp only [e]
  rfl

section conj
variable {n b : ℕ} {U : Op n b}

theorem conj_mul2 (hU : Uᴴ * U = 1) (A B : Op n b) : U * (A * B) * Uᴴ = U * A * Uᴴ * (U * B * Uᴴ) := by
  calc U * (A * B) * Uᴴ = U * A * 1 * B * Uᴴ := by rw [mul_one]; simp only [mul_assoc]
    _ = U * A * (Uᴴ * U) * B * Uᴴ := by rw [hU]
    _ = _ := by simp only [mul_assoc]

/-- Conjugating the Hamiltonian with a unitary that changes the local operators. -/
theorem conj_heis (hU : Uᴴ * U = 1) {X Y Z : Matrix (Fin b) (Fin b) ℂ} {π : Equiv.Perm (Fin n)}
    {X' Y' Z' : Matrix (Fin b) (Fin b) ℂ}
    (hX : ∀ i, U * siteOp X i * Uᴴ = siteOp X' (π i))
    (hY : ∀ i, U * siteOp Y i * Uᴴ = siteOp Y' (π i))
    (hZ : ∀ i, U * siteOp Z i * Uᴴ = siteOp Z' (π i))
    {jx jy jz : Fin n → Fin n → ℂ} {hx hy hz : Fin n → ℂ}
    (sx : ∀ i j, jx i j = jx j i) (sy : ∀ i j, jy i j = jy j i) (sz : ∀ i j, jz i j = jz j i)
    (ix : ∀ i j, jx (π i) (π j) = jx i j) (iy : ∀ i j, jy (π i) (π j) = jy i j)
    (iz : ∀ i j, jz (π i) (π j) = jz i j)
    (fx : ∀ i, hx (π i) = hx i) (fy : ∀ i, hy (π i) = hy i) (fz : ∀ i, hz (π i) = hz i) :
    U * heis X Y Z jx jy jz hx hy hz * Uᴴ = heis X' Y' Z' jx jy jz hx hy hz := by
  let G : Fin n → Fin n → Op n b := fun i j => if i = j then 0 else
      (2 * jx i j) • (siteOp X' i * siteOp X' j) + (2 * jy i j) • (siteOp Y' i * siteOp Y' j) +
        (2 * jz i j) • (siteOp Z' i * siteOp Z' j)
  have hG : ∀ i j, G i j = G j i := by
    intro i j
    by_cases h : i = j
    · rw [h]
    · simp only [G, if_neg h, if_neg (Ne.symm h)]
      rw [sx, sy, sz, siteOp_comm h X', siteOp_comm h Y', siteOp_comm h Z']
  unfold heis
  rw [mul_sub, sub_mul]
  congr 1
  · have e : ∀ (X Y Z : Matrix (Fin b) (Fin b) ℂ), (∑ i, ∑ j, if j < i then
      (2 * jx i j) • (siteOp X i * siteOp X j) + (2 * jy i j) • (siteOp Y i * siteOp Y j) +
        (2 * jz i j) • (siteOp Z i * siteOp Z j) else 0) = ∑ i, ∑ j, if j < i then
        (if i = j then (0 : Op n b) else (2 * jx i j) • (siteOp X i * siteOp X j) + (2 * jy i j) • (siteOp Y i * siteOp Y j) +
        (2 * jz i j) • (siteOp Z i * siteOp Z j)) else 0 := by
      intro X Y Z
      refine Finset.sum_congr rfl fun i _ => Finset.sum_congr rfl fun j _ => ?_
      split_ifs with h1 h2
      · exact absurd h2 h1.ne'
      · rfl
      · rfl
    rw [e X' Y' Z']
    refine Eq.trans ?_ (pair_sum_perm π G hG)
    rw [Finset.mul_sum, Finset.sum_mul]
    refine Finset.sum_congr rfl fun i _ => ?_
    rw [Finset.mul_sum, Finset.sum_mul]
    refine Finset.sum_congr rfl fun j _ => ?_
    split_ifs with h
    · simp only [G]
      rw [if_neg (fun e => h.ne' (π.injective e)), ix, iy, iz, mul_add, mul_add, add_mul, add_mul]
      simp only [mul_smul_comm, smul_mul_assoc, conj_mul2 hU, hX, hY, hZ]
    · simp
  · rw [Finset.mul_sum, Finset.sum_mul,
      ← Equiv.sum_comp π fun i => hx i • siteOp X' i + hy i • siteOp Y' i + hz i • siteOp Z' i]
    refine Finset.sum_congr rfl fun i _ => ?_
    rw [fx, fy, fz, mul_add, mul_add, add_mul, add_mul]
    simp only [mul_smul_comm, smul_mul_assoc, hX, hY, hZ]

end conj

theorem spin_xform {n : ℕ} (cycles : List (List (Fin n))) (π : Equiv.Perm (Fin n))
    (h : CyclesOf cycles π) : ∃ (v : Val) (U : Op n 2),
      getXformOp 1 (spinSwapOp ⟨n, 1, 2⟩) (siteNumbers cycles) = .ok v ∧ v.Is U ∧ MovesLabels U π := by
  obtain ⟨v, U, h1, h2, σ, hσ, h3⟩ := Props.C11_xform_spins ⟨n, 1, 2⟩ rfl cycles π h
  have key : ∀ (m : ℕ) (_ : m = n) (U : Op m 2) (σ : Equiv.Perm (Fin m)),
      (∀ (i : Fin n) (k : Fin m), (k : ℕ) = i → (σ k : ℕ) = π i) → v.Is U → MovesLabels U σ →
      ∃ U' : Op n 2, v.Is U' ∧ MovesLabels U' π := by
    rintro m rfl U σ hσ h1 h2
    have : σ = π := by
      ext i; exact hσ i i rfl
    exact ⟨U, h1, this ▸ h2⟩
  obtain ⟨U', h4, h5⟩ := key (n * 1) (mul_one n) U σ (by
    intro i k hk
    have := congrArg Fin.val (hσ i (0 : Fin 1))
    have e : k = mode i (0 : Fin 1) := Fin.ext (by simp [mode, hk])
    rw [e]
    refine Eq.trans this ?_
    simp [mode]) h2 h3
  exact ⟨v, U', h1, h4, h5⟩

/-! ### Reversing all spins -/

def flipPerm {n : ℕ} : Equiv.Perm (Conf n 2) where
  toFun := flipAll
  invFun := flipAll
  left_inv t := by funext i; simp only [flipAll]; generalize t i = x; revert x; decide
  right_inv t := by funext i; simp only [flipAll]; generalize t i = x; revert x; decide

theorem idx_flip {n : ℕ} (t : Conf n 2) : idx (flipAll t) + idx t = 2 ^ n - 1 := by
  have h1 : idx (flipAll t) + idx t = ∑ i : Fin n, 2 ^ (n - 1 - (i : ℕ)) := by
    rw [idx, idx, ← Finset.sum_add_distrib]
    refine Finset.sum_congr rfl fun i _ => ?_
    rw [← add_mul]
    have : ((flipAll t i : Fin 2) : ℕ) + (t i : ℕ) = 1 := by
      simp only [flipAll]; generalize t i = x; revert x; decide
    rw [this, one_mul]
  rw [h1, Fin.sum_univ_eq_sum_range (fun i => 2 ^ (n - 1 - i)), Finset.sum_range_reflect (fun i => 2 ^ i)]
  exact Nat.geomSum_eq le_rfl n |>.trans (by simp)

theorem swapUpDown_is (n : ℕ) : (swapUpDownOp (2 ^ n)).Is (relMat (flipPerm (n := n))) := by
  refine ⟨by simp [swapUpDownOp], by simp [swapUpDownOp], fun s t => ?_⟩
  simp only [num_conf, swapUpDownOp, relMat, of_apply]
  have h := idx_flip t
  have e : idx s = 2 ^ n - 1 - idx t ↔ s = flipPerm t := by
    have : 2 ^ n - 1 - idx t = idx (flipAll t) := by omega
    rw [this]
    exact ⟨fun h => idx_injective h, fun h => by rw [h]; rfl⟩
  simp only [e]

theorem flip_siteOp {n : ℕ} (A : Matrix (Fin 2) (Fin 2) ℂ) (i : Fin n) :
    relMat flipPerm * siteOp A i * (relMat flipPerm)ᴴ =
      siteOp (Matrix.of fun a b => A (1 - a) (1 - b)) i := by
  ext s t
  rw [relMat_conj_apply]
  simp only [siteOp, of_apply]
  have e : AgreeOff i (flipPerm.symm s) (flipPerm.symm t) ↔ AgreeOff i s t := by
    refine forall_congr' fun j => imp_congr_right fun _ => ?_
    change 1 - s j = 1 - t j ↔ _
    generalize s j = x
    generalize t j = y
    revert x y; decide
  simp only [e]
  rfl

theorem flip_X : (Matrix.of fun a b => sigmaX (1 - a) (1 - b)) = sigmaX := by
  ext a b; fin_cases a <;> fin_cases b <;> simp [sigmaX]

theorem flip_Y : (Matrix.of fun a b => sigmaY (1 - a) (1 - b)) = (-1 : ℂ) • sigmaY := by
  ext a b; fin_cases a <;> fin_cases b <;> simp [sigmaY]

theorem flip_Z : (Matrix.of fun a b => sigmaZ (1 - a) (1 - b)) = (-1 : ℂ) • sigmaZ := by
  ext a b; fin_cases a <;> fin_cases b <;> simp [sigmaZ]

/-! ### Diagonal operators -/

theorem siteOp_Z {n : ℕ} (i : Fin n) : siteOp sigmaZ i = Matrix.diagonal fun t => spinVal t i := by
  have : sigmaZ = Matrix.diagonal fun a : Fin 2 => if a = 0 then (1 : ℂ) else -1 := by
    ext a b; fin_cases a <;> fin_cases b <;> simp [sigmaZ]
  rw [siteOp_eq_bop, this, bop_diag]
  rfl

theorem nrOp_is : nrOp.Is (Matrix.diagonal fun a : Fin 2 => if a = 0 then (1 : ℂ) else 0) := by
  refine ⟨rfl, rfl, fun a b => ?_⟩
  fin_cases a <;> fin_cases b <;> simp [nrOp, Mat.lit2, Basis.num]

theorem siteOp_nr {n : ℕ} (i : Fin n) :
    siteOp (Matrix.diagonal fun a : Fin 2 => if a = 0 then (1 : ℂ) else 0) i =
      Matrix.diagonal fun t => upVal t i := by
  rw [siteOp_eq_bop, bop_diag]
  rfl

theorem diag_sum {ι κ : Type} [DecidableEq κ] (s : Finset ι) (f : ι → κ → ℂ) :
    ∑ i ∈ s, Matrix.diagonal (f i) = Matrix.diagonal fun t => ∑ i ∈ s, f i t := by
  classical
  induction s using Finset.induction_on with
  | empty => simp
  | insert a s ha ih =>
    rw [Finset.sum_insert ha, ih, diagonal_add]
    congr 1; funext t; rw [Finset.sum_insert ha]

theorem spinH_ising {n : ℕ} (jz : Fin n → Fin n → ℂ) (hz : Fin n → ℂ) :
    spinH (fun _ _ => 0) (fun _ _ => 0) jz (fun _ => 0) (fun _ => -0) hz =
      Matrix.diagonal fun t : Conf n 2 =>
        1 / 2 * (∑ i, ∑ j, if j < i then jz i j * (spinVal t i * spinVal t j) else 0) -
          1 / 2 * ∑ i, hz i * spinVal t i := by
  unfold spinH
  have e1 : ∀ i j : Fin n, (if j < i then (1 / 2 : ℂ) • ((0 : ℂ) • (siteOp sigmaX i * siteOp sigmaX j) +
        (0 : ℂ) • (siteOp sigmaY i * siteOp sigmaY j) +
        jz i j • (siteOp sigmaZ i * siteOp sigmaZ j)) else (0 : Op n 2)) =
      Matrix.diagonal fun t => 1 / 2 * (if j < i then jz i j * (spinVal t i * spinVal t j) else 0) := by
    intro i j
    split_ifs
    · rw [zero_smul, zero_smul, zero_add, zero_add, siteOp_Z, siteOp_Z, diagonal_mul_diagonal,
        ← diagonal_smul, ← diagonal_smul]
      rfl
    · simp
  have e2 : ∀ i : Fin n, (1 / 2 : ℂ) • ((0 : ℂ) • siteOp sigmaX i + (-0 : ℂ) • siteOp sigmaY i +
      hz i • siteOp sigmaZ i) = Matrix.diagonal fun t => 1 / 2 * (hz i * spinVal t i) := by
    intro i
    rw [neg_zero, zero_smul, zero_smul, zero_add, zero_add, siteOp_Z, ← diagonal_smul, ← diagonal_smul]
    rfl
  simp only [e1, e2, diag_sum]
  rw [diagonal_sub]
  congr 1
  funext t
  simp only [Finset.mul_sum]

/-! ### Special states -/

theorem idx_snoc {n b : ℕ} (s : Conf (n + 1) b) :
    idx s = idx (fun j : Fin n => s j.castSucc) * b + s (Fin.last n) := by
  rw [idx, Fin.sum_univ_castSucc, idx, Finset.sum_mul]
  congr 1
  · refine Finset.sum_congr rfl fun j _ => ?_
    have : n + 1 - 1 - (j.castSucc : ℕ) = (n - 1 - (j : ℕ)) + 1 := by
      have := j.2
      simp only [Fin.val_castSucc]; omega
    rw [this, pow_succ]; ring
  · simp

/-- The alternating configuration: up, down, up, … -/
theorem idx_alt (n : ℕ) : 3 * (idx (fun i : Fin n => (⟨(i : ℕ) % 2, Nat.mod_lt _ (by norm_num)⟩ : Fin 2)) + 1) =
    2 ^ n + if n % 2 = 0 then 2 else 1 := by
  induction n with
  | zero => simp [idx]
  | succ n ih =>
    rw [idx_snoc]
    simp only [Fin.val_castSucc, Fin.val_last]
    rw [pow_succ]
    split_ifs at ih ⊢ with h1 h2 <;> omega

theorem allsite_apply {n : ℕ} {op : Mat} (hop : op.IsLoc 2) :
    (allsiteOp n op).rows = 2 ^ n ∧ (allsiteOp n op).cols = 2 ^ n ∧
    ∀ s t : Conf n 2, (allsiteOp n op).e (idx s) (idx t) = ∏ i, op.e (s i) (t i) := by
  induction n with
  | zero =>
    refine ⟨rfl, rfl, fun s t => ?_⟩
    simp [allsiteOp, Mat.eye, idx]
  | succ n ih =>
    have e : allsiteOp (n + 1) op = (allsiteOp n op).kron op := by
      simp [allsiteOp, List.range_succ]
    rw [e]
    refine ⟨by simp [Mat.kron, ih.1, hop.1, pow_succ], by simp [Mat.kron, ih.2.1, hop.2, pow_succ], ?_⟩
    intro s t
    rw [Fin.prod_univ_castSucc, ← ih.2.2 (fun j => s j.castSucc) (fun j => t j.castSucc)]
    simp only [Mat.kron, hop.1, hop.2]
    have hs : ∀ s : Conf (n + 1) 2, idx s / 2 = idx (fun j : Fin n => s j.castSucc) ∧
        idx s % 2 = s (Fin.last n) := by
      intro s
      have := idx_snoc s
      have := (s (Fin.last n)).2
      constructor <;> omega
    rw [(hs s).1, (hs s).2, (hs t).1, (hs t).2]

end ED
