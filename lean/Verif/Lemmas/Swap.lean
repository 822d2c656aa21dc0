import Verif.Lemmas.Gives
import Verif.Model.Spins
import Verif.Model.Fermions
import Mathlib.Tactic.NoncommRing
import Mathlib.Tactic.LinearCombination

/-! # Helper lemmas: exchange operators -/

namespace ED

open scoped BigOperators
open Matrix

variable {N b : ℕ}

/-! ### Spec operators and the builders -/

theorem fop_cdl (i : Fin N) : fop i cdl = create i := by
  ext s t
  rw [fop_apply, create, Matrix.of_apply, cdl_eq]
  have h1 : ∀ x y : Fin 2, (!![0, 0; 1, 0] : Matrix (Fin 2) (Fin 2) ℂ) x y =
      if x = 1 ∧ y = 0 then 1 else 0 := by
    intro x y; fin_cases x <;> fin_cases y <;> simp
  rw [h1]
  by_cases h : AgreeOff i s t <;> by_cases h' : s i = 1 ∧ t i = 0 <;> simp [h, h']

theorem fop_cl (i : Fin N) : fop i cl = annih i := by
  rw [annih, ← fop_cdl, fop_conj, ← cl_conj, Matrix.conjTranspose_conjTranspose]

theorem bop_diag (i : Fin N) (d : Fin b → ℂ) :
    bop i (Matrix.diagonal d) = Matrix.diagonal fun s => d (s i) := by
  ext s t
  rw [bop_apply]
  by_cases h : s = t
  · subst h; simp [AgreeOff]
  · rw [Matrix.diagonal_apply_ne _ h]
    split_ifs with h'
    · refine Matrix.diagonal_apply_ne _ fun e => h (funext fun j => ?_)
      by_cases hj : j = i
      · rw [hj]; exact e
      · exact h' j hj
    · rfl

theorem bop_nl (i : Fin N) : bop i nl = number i := by
  have : nl = Matrix.diagonal (fun x : Fin 2 => if x = 1 then (1 : ℂ) else 0) := by
    rw [nl_eq]; ext x y; fin_cases x <;> fin_cases y <;> simp
  rw [this, bop_diag, number]

theorem create_annih (i : Fin N) : create i * annih i = number i := by
  rw [← fop_cdl, ← fop_cl, fop_mul, cdl_cl, bop_nl]

theorem car1 (i j : Fin N) :
    annih i * create j + create j * annih i = if i = j then 1 else 0 := by
  rw [← fop_cdl, ← fop_cl]
  split_ifs with h
  · subst h
    rw [fop_mul, fop_mul, ← bop_add, cl_cdl, bop_one]
  · exact fop_anticomm h cl_odd cdl_odd

theorem car2 (i j : Fin N) : create i * create j + create j * create i = 0 := by
  rw [← fop_cdl, ← fop_cdl]
  by_cases h : i = j
  · subst h
    rw [fop_mul, cdl_cdl, bop_zero, add_zero]
  · exact fop_anticomm h cdl_odd cdl_odd

theorem car3 (i j : Fin N) : annih i * annih j + annih j * annih i = 0 := by
  have := congrArg Matrix.conjTranspose (car2 j i)
  simpa [annih, Matrix.conjTranspose_mul, Matrix.conjTranspose_add] using this

theorem annih_conj (i : Fin N) : (annih i).conjTranspose = create i := by
  simp [annih]

theorem annih_vac (i : Fin N) : (annih i).mulVec (ket vac) = 0 := by
  funext s
  simp only [Matrix.mulVec, dotProduct, ket, mul_ite, mul_one, mul_zero, Finset.sum_ite_eq',
    Finset.mem_univ, if_true, Pi.zero_apply]
  simp [annih, create, Matrix.conjTranspose_apply, vac]

/-! ### The fermion exchange operator, algebraically -/

/-- The exchange operator as a polynomial in the creation operators. -/
def xch (i j : Fin N) : Matrix (Conf N 2) (Conf N 2) ℂ :=
  create i * annih j + create j * annih i + 1 - number i - number j

section ring
variable {R : Type} [Ring R] (D E C al : R)

theorem ring_sq (h1 : D * E + E * D = 2) (h2 : D * D = 0) :
    (1 - E * D) * (1 - E * D) = 1 := by
  have : E * D * (E * D) = 2 * (E * D) := by
    have e1 : E * D * (E * D) = E * (D * E + E * D) * D - E * E * (D * D) := by noncomm_ring
    rw [e1, h1, h2]; noncomm_ring
  have e2 : (1 - E * D) * (1 - E * D) = 1 - 2 * (E * D) + E * D * (E * D) := by noncomm_ring
  rw [e2, this]; noncomm_ring

end ring

theorem xch_eq (i j : Fin N) :
    xch i j = 1 - (create i - create j) * (annih i - annih j) := by
  unfold xch
  rw [← create_annih, ← create_annih]
  noncomm_ring

theorem xch_D (i j : Fin N) (h : i ≠ j) :
    (annih i - annih j) * (create i - create j) + (create i - create j) * (annih i - annih j) =
      2 := by
  have h1 := car1 i i
  have h2 := car1 j j
  have h3 := car1 i j
  have h4 := car1 j i
  rw [if_pos rfl] at h1 h2
  rw [if_neg h] at h3
  rw [if_neg (Ne.symm h)] at h4
  have e : (annih i - annih j) * (create i - create j) +
      (create i - create j) * (annih i - annih j) =
      (annih i * create i + create i * annih i) + (annih j * create j + create j * annih j) -
      (annih i * create j + create j * annih i) - (annih j * create i + create i * annih j) := by
    noncomm_ring
  rw [e, h1, h2, h3, h4]
  norm_num

theorem two_self_zero {R : Type} [AddCommGroup R] [Module ℂ R] {x : R} (h : x + x = 0) : x = 0 := by
  have : (2 : ℂ) • x = 0 := by rw [two_smul, h]
  exact (smul_eq_zero.1 this).resolve_left two_ne_zero

theorem xch_D2 (i j : Fin N) : (annih i - annih j) * (annih i - annih j) = 0 := by
  have h1 := car3 i i
  have h2 := car3 j j
  have h3 := car3 i j
  have e : (annih i - annih j) * (annih i - annih j) =
     annih i * annih i + annih j * annih j - (annih i * annih j + annih j * annih i) := by
    noncomm_ring
  rw [e, two_self_zero h1, two_self_zero h2, h3]
  simp

theorem xch_E2 (i j : Fin N) : (create i - create j) * (create i - create j) = 0 := by
  have := congrArg Matrix.conjTranspose (xch_D2 i j)
  simpa [Matrix.conjTranspose_mul, annih_conj] using this

theorem xch_same (i : Fin N) : xch i i = 1 := by
  rw [xch_eq]; simp

theorem xch_sq (i j : Fin N) : xch i j * xch i j = 1 := by
  by_cases h : i = j
  · subst h; rw [xch_same, one_mul]
  · rw [xch_eq]
    exact ring_sq _ _ (xch_D i j h) (xch_D2 i j)

theorem number_conj (i : Fin N) : (number i).conjTranspose = number i := by
  rw [← create_annih, Matrix.conjTranspose_mul, annih_conj]
  simp [annih]

theorem xch_conj (i j : Fin N) : (xch i j).conjTranspose = xch i j := by
  rw [xch_eq]
  simp only [Matrix.conjTranspose_sub, Matrix.conjTranspose_one, Matrix.conjTranspose_mul,
    annih_conj]
  rfl

theorem xch_vac (i j : Fin N) : (xch i j).mulVec (ket vac) = ket vac := by
  rw [xch_eq, Matrix.sub_mulVec, Matrix.one_mulVec, ← Matrix.mulVec_mulVec]
  simp [Matrix.sub_mulVec, annih_vac]

theorem xch_create (i j k : Fin N) (h : i ≠ j) :
    xch i j * create k = create k * xch i j -
      ((if k = i then 1 else 0) - (if k = j then 1 else 0) : ℂ) • (create i - create j) := by
  rw [xch_eq]
  have hD : (annih i - annih j) * create k + create k * (annih i - annih j) =
      ((if k = i then 1 else 0) - (if k = j then 1 else 0) : ℂ) • (1 : Matrix (Conf N 2) (Conf N 2) ℂ) := by
    have h1 := car1 i k
    have h2 := car1 j k
    have e : (annih i - annih j) * create k + create k * (annih i - annih j) =
      (annih i * create k + create k * annih i) - (annih j * create k + create k * annih j) := by
      noncomm_ring
    rw [e, h1, h2, sub_smul]
    congr 1 <;> (simp only [eq_comm (a := k)]; split_ifs <;> simp)
  have hE : (create i - create j) * create k + create k * (create i - create j) = 0 := by
    have h1 := car2 i k
    have h2 := car2 j k
    have e : (create i - create j) * create k + create k * (create i - create j) =
      (create i * create k + create k * create i) - (create j * create k + create k * create j) := by
      noncomm_ring
    rw [e, h1, h2, sub_zero]
  generalize create i - create j = E at *
  generalize annih i - annih j = D at *
  have e : (1 - E * D) * create k = create k * (1 - E * D) - E * (D * create k + create k * D) +
      (E * create k + create k * E) * D := by noncomm_ring
  rw [e, hD, hE, mul_smul_comm]
  simp

theorem xch_moves (i j k : Fin N) :
    xch i j * create k * xch i j = create (Equiv.swap i j k) := by
  by_cases h : i = j
  · subst h; simp [xch_same]
  · rw [xch_create _ _ _ h, sub_mul, mul_assoc, xch_sq, mul_one, smul_mul_assoc, xch_eq, mul_sub,
      mul_one, ← mul_assoc, xch_E2, zero_mul, sub_zero]
    by_cases h1 : k = i
    · subst h1; rw [Equiv.swap_apply_left]; simp [h]
    · by_cases h2 : k = j
      · subst h2; rw [Equiv.swap_apply_right]; simp [h1]
      · rw [Equiv.swap_apply_of_ne_of_ne h1 h2]; simp [h1, h2]

theorem gives_fermionSwap {S : Sys} (hb : S.nbasis = 2) (i j : Fin S.nsites) (s : Fin S.nspecies) :
    Gives (fermionSwapOp S i j s) (xch (mode i s) (mode j s)) := by
  unfold fermionSwapOp
  refine (gives_two_fermion hb i j s s cdagOp_loc cOp_loc).bind fun A hA => ?_
  refine (gives_two_fermion hb j i s s cdagOp_loc cOp_loc).bind fun B hB => ?_
  refine (hA.add hB).bind fun C hC => ?_
  refine (hC.add (Mat.is_eye (by simp [Sys.nstates, hb]))).bind fun D hD => ?_
  refine (gives_single_boson hb i s nOp_loc).bind fun E hE => ?_
  refine (hD.sub hE).bind fun F hF => ?_
  refine (gives_single_boson hb j s nOp_loc).bind fun G hG => ?_
  refine (hF.sub hG).of_eq ?_
  change fop _ cdl * fop _ cl + fop _ cdl * fop _ cl + 1 - bop _ nl - bop _ nl = _
  simp only [fop_cdl, fop_cl, bop_nl, xch]

/-! ### The spin exchange operator -/

theorem bop_bop_apply {i j : Fin N} (h : i ≠ j) (A B : Matrix (Fin b) (Fin b) ℂ) (s t : Conf N b) :
    (bop i A * bop j B) s t =
      if ∀ k, k ≠ i → k ≠ j → s k = t k then A (s i) (t i) * B (s j) (t j) else 0 := by
  rcases lt_or_gt_of_ne h with h | h
  · rw [bop_mul_lt h, bop2_apply h]
  · rw [bop_mul_gt h, bop2_apply h]
    have e : (∀ k, k ≠ j → k ≠ i → s k = t k) ↔ (∀ k, k ≠ i → k ≠ j → s k = t k) :=
      ⟨fun h k a b => h k b a, fun h k a b => h k b a⟩
    simp only [e, mul_comm]

theorem mulVec_ket {ι : Type} [Fintype ι] [DecidableEq ι] (U : Matrix ι ι ℂ) (t s : ι) :
    U.mulVec (ket t) s = U s t := by
  simp [Matrix.mulVec, dotProduct, ket]

/-- The permutation matrix moving labels. -/
def permMat (f : Equiv.Perm (Fin N)) : Matrix (Conf N b) (Conf N b) ℂ :=
  Matrix.of fun s t => if s = fun i => t (f.symm i) then 1 else 0

theorem movesLabels_iff (U : Matrix (Conf N b) (Conf N b) ℂ) (f : Equiv.Perm (Fin N)) :
    MovesLabels U f ↔ U = permMat f := by
  constructor
  · intro h
    ext s t
    have := congrFun (h t) s
    rw [mulVec_ket] at this
    rw [this, ket, permMat, Matrix.of_apply]
  · rintro rfl t
    funext s
    rw [mulVec_ket, ket, permMat, Matrix.of_apply]

theorem permMat_mul (f g : Equiv.Perm (Fin N)) :
    (permMat f * permMat g : Matrix (Conf N b) (Conf N b) ℂ) = permMat (f * g) := by
  ext s t
  rw [Matrix.mul_apply]
  simp only [permMat, Matrix.of_apply, mul_ite, mul_one, mul_zero, Finset.sum_ite_eq',
    Finset.mem_univ, if_true]
  rfl

theorem permMat_one : (permMat 1 : Matrix (Conf N b) (Conf N b) ℂ) = 1 := by
  ext s t
  simp only [permMat, Matrix.of_apply, Matrix.one_apply]
  rfl

theorem permMat_conj (f : Equiv.Perm (Fin N)) :
    (permMat f : Matrix (Conf N b) (Conf N b) ℂ).conjTranspose = permMat f⁻¹ := by
  ext s t
  simp only [permMat, Matrix.of_apply, Matrix.conjTranspose_apply]
  have : (t = fun i => s (f.symm i)) ↔ (s = fun i => t (f i)) := by
    constructor
    · rintro rfl; funext i; simp
    · rintro rfl; funext i; simp
  simp only [this]
  change star (if _ then (1 : ℂ) else 0) = if s = fun i => t (f i) then (1 : ℂ) else 0
  split_ifs <;> simp

theorem swap_cond {i j : Fin N} (h : i ≠ j) (s t : Conf N b) :
    (s = fun k => t ((Equiv.swap i j).symm k)) ↔
      (∀ k, k ≠ i → k ≠ j → s k = t k) ∧ s i = t j ∧ s j = t i := by
  rw [Equiv.symm_swap]
  constructor
  · rintro rfl
    refine ⟨fun k h1 h2 => ?_, ?_, ?_⟩
    · simp [Equiv.swap_apply_of_ne_of_ne h1 h2]
    · simp
    · simp
  · rintro ⟨h1, h2, h3⟩
    funext k
    by_cases e1 : k = i
    · subst e1; simp [h2]
    · by_cases e2 : k = j
      · subst e2; simp [h3]
      · rw [Equiv.swap_apply_of_ne_of_ne e1 e2]; exact h1 k e1 e2

theorem pauliPlus_loc : pauliPlus.IsLoc 2 := ⟨rfl, rfl⟩
theorem pauliMinus_loc : pauliMinus.IsLoc 2 := ⟨rfl, rfl⟩
theorem pauliZ_loc : pauliZ.IsLoc 2 := ⟨rfl, rfl⟩
theorem pauliX_loc : pauliX.IsLoc 2 := ⟨rfl, rfl⟩

theorem spin_xch {i j : Fin N} (h : i ≠ j) :
    bop i (pauliPlus.loc 2) * bop j (pauliMinus.loc 2) +
      bop i (pauliMinus.loc 2) * bop j (pauliPlus.loc 2) + (1 / 2 : ℂ) • 1 +
      (1 / 2 : ℂ) • (bop i (pauliZ.loc 2) * bop j (pauliZ.loc 2)) = permMat (Equiv.swap i j) := by
  have h1 : (1 : Matrix (Conf N 2) (Conf N 2) ℂ) = bop i 1 * bop j 1 := by simp [bop_one]
  rw [h1]
  ext s t
  simp only [Matrix.add_apply, Matrix.smul_apply, bop_bop_apply h, permMat, Matrix.of_apply,
    swap_cond h]
  by_cases hk : ∀ k, k ≠ i → k ≠ j → s k = t k
  · rw [if_pos hk, if_pos hk, if_pos hk, if_pos hk]
    simp only [and_iff_right hk]
    generalize s i = a
    generalize s j = c
    generalize t i = d
    generalize t j = e
    fin_cases a <;> fin_cases c <;> fin_cases d <;> fin_cases e <;>
      norm_num [pauliPlus, pauliMinus, pauliZ, Mat.loc, Mat.lit2]
  · simp [hk]

theorem gives_spinSwap_core {S : Sys} (hb : S.nbasis = 2) (i j : Fin S.nsites)
    (s : Fin S.nspecies) :
    Gives (spinSwapOp S i j s)
      (bop (mode i s) (pauliPlus.loc 2) * bop (mode j s) (pauliMinus.loc 2) +
      bop (mode i s) (pauliMinus.loc 2) * bop (mode j s) (pauliPlus.loc 2) + (1 / 2 : ℂ) • 1 +
      (1 / 2 : ℂ) • (bop (mode i s) (pauliZ.loc 2) * bop (mode j s) (pauliZ.loc 2))) := by
  unfold spinSwapOp
  refine (gives_two_boson hb i j s s pauliPlus_loc pauliMinus_loc).bind fun A hA => ?_
  refine (gives_two_boson hb i j s s pauliMinus_loc pauliPlus_loc).bind fun B hB => ?_
  refine (hA.add hB).bind fun C hC => ?_
  refine (hC.add ((Mat.is_eye (by simp [Sys.nstates, hb])).smul _)).bind fun D hD => ?_
  refine (gives_two_boson hb i j s s pauliZ_loc pauliZ_loc).bind fun E hE => ?_
  exact hD.add (hE.smul _)

theorem gives_spinSwap {S : Sys} (hb : S.nbasis = 2) {i j : Fin S.nsites} (h : i ≠ j)
    (s : Fin S.nspecies) :
    Gives (spinSwapOp S i j s)
      (permMat (Equiv.swap (mode i s : Fin S.nlog) (mode j s)) : Matrix (Conf S.nlog 2) _ ℂ) :=
  (gives_spinSwap_core hb i j s).of_eq (spin_xch fun e => h (mode_inj e).1)

theorem gives_spinSwap_same {S : Sys} (hb : S.nbasis = 2) (i : Fin S.nsites)
    (s : Fin S.nspecies) :
    Gives (spinSwapOp S i i s) ((2 : ℂ) • (1 : Matrix (Conf S.nlog 2) (Conf S.nlog 2) ℂ)) := by
  refine (gives_spinSwap_core hb i i s).of_eq ?_
  rw [bop_mul, bop_mul, bop_mul, ← bop_one (mode i s), ← bop_smul, ← bop_smul, ← bop_smul,
    ← bop_add, ← bop_add, ← bop_add]
  congr 1
  ext x y
  fin_cases x <;> fin_cases y <;>
    norm_num [pauliPlus, pauliMinus, pauliZ, Mat.loc, Mat.lit2, Matrix.mul_apply,
      Fin.sum_univ_two, Matrix.one_apply]

end ED
