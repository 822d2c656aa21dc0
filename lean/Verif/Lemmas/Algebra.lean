import Verif.Lemmas.SiteOps
import Verif.Model.FermionConsts
import Mathlib.LinearAlgebra.Matrix.Notation

/-! # Helper lemmas: algebra of one-mode operators on configurations -/

namespace ED

open scoped BigOperators

variable {N b : ℕ}

/-- Operator `A` on mode `i`, identity elsewhere. -/
def bop (i : Fin N) (A : Matrix (Fin b) (Fin b) ℂ) : Matrix (Conf N b) (Conf N b) ℂ :=
  tensor (fam1 i A 1)

/-- Operator `A` on mode `i` with the parity string on later modes. -/
def fop (i : Fin N) (A : Matrix (Fin 2) (Fin 2) ℂ) : Matrix (Conf N 2) (Conf N 2) ℂ :=
  tensor (fam1 i A Ploc)

/-- Two-mode operator. -/
def bop2 (i j : Fin N) (A g B : Matrix (Fin b) (Fin b) ℂ) : Matrix (Conf N b) (Conf N b) ℂ :=
  tensor (fam2 i j A g B)

theorem bop_apply (i : Fin N) (A : Matrix (Fin b) (Fin b) ℂ) (s t : Conf N b) :
    bop i A s t = if AgreeOff i s t then A (s i) (t i) else 0 := by
  simp only [bop, tensor, Matrix.of_apply]
  split_ifs with h
  · rw [Finset.prod_eq_single i]
    · simp [fam1]
    · intro j _ hj
      have hj' : (j : ℕ) ≠ i := fun e => hj (Fin.ext e)
      simp only [fam1, hj', if_false, ite_self, Matrix.one_apply, h j hj, if_true]
    · simp
  · simp only [AgreeOff] at h
    push Not at h
    obtain ⟨j, hj, hne⟩ := h
    refine Finset.prod_eq_zero (Finset.mem_univ j) ?_
    have hj' : (j : ℕ) ≠ i := fun e => hj (Fin.ext e)
    simp only [fam1, hj', if_false, ite_self, Matrix.one_apply, hne]

theorem fop_apply (i : Fin N) (A : Matrix (Fin 2) (Fin 2) ℂ) (s t : Conf N 2) :
    fop i A s t = if AgreeOff i s t then (-1) ^ occAfter i s * A (s i) (t i) else 0 := by
  simp only [fop, tensor, Matrix.of_apply]
  split_ifs with h
  · have key : ∀ j, (fam1 (N := N) i A Ploc j) (s j) (t j) =
        (if i < j ∧ s j = 1 then -1 else 1) * (if j = i then A (s i) (t i) else 1) := by
      intro j
      by_cases hj : j = i
      · subst hj; simp [fam1]
      · have hj' : (j : ℕ) ≠ i := fun e => hj (Fin.ext e)
        simp only [fam1, hj', if_false, hj, mul_one, h j hj]
        by_cases hlt : (j : ℕ) < i
        · simp [hlt, not_lt.2 (le_of_lt (show j < i from hlt))]
        · have hlt' : i < j := lt_of_le_of_ne (not_lt.1 hlt) (fun e => hj' (by rw [e]))
          simp [hlt, hlt', Ploc_apply]
    rw [Finset.prod_congr rfl fun j _ => key j, Finset.prod_mul_distrib]
    congr 1
    · rw [Finset.prod_ite, Finset.prod_const, Finset.prod_const_one, mul_one, occAfter]
    · simp
  · simp only [AgreeOff] at h
    push Not at h
    obtain ⟨j, hj, hne⟩ := h
    refine Finset.prod_eq_zero (Finset.mem_univ j) ?_
    have hj' : (j : ℕ) ≠ i := fun e => hj (Fin.ext e)
    simp only [fam1, hj', if_false]
    split_ifs
    · simp [Matrix.one_apply, hne]
    · simp [Ploc_apply, hne]

theorem bop_mul (i : Fin N) (A B : Matrix (Fin b) (Fin b) ℂ) :
    bop i A * bop i B = bop i (A * B) := by
  unfold bop
  rw [tensor_mul]
  congr 1
  funext j
  simp only [fam1]
  split_ifs <;> simp

theorem fop_mul (i : Fin N) (A B : Matrix (Fin 2) (Fin 2) ℂ) :
    fop i A * fop i B = bop i (A * B) := by
  unfold fop bop
  rw [tensor_mul]
  congr 1
  funext j
  simp only [fam1]
  split_ifs <;> simp [Ploc_sq]

theorem bop_mul_lt {i j : Fin N} (h : i < j) (A B : Matrix (Fin b) (Fin b) ℂ) :
    bop i A * bop j B = bop2 i j A 1 B := by
  unfold bop bop2
  rw [tensor_mul]
  congr 1
  funext k
  have h' : (i : ℕ) < j := h
  simp only [fam1, fam2]
  split_ifs <;> first | omega | simp

theorem bop_mul_gt {i j : Fin N} (h : j < i) (A B : Matrix (Fin b) (Fin b) ℂ) :
    bop i A * bop j B = bop2 j i B 1 A := by
  unfold bop bop2
  rw [tensor_mul]
  congr 1
  funext k
  have h' : (j : ℕ) < i := h
  simp only [fam1, fam2]
  split_ifs <;> first | omega | simp

theorem bop_comm {i j : Fin N} (h : i ≠ j) (A B : Matrix (Fin b) (Fin b) ℂ) :
    bop i A * bop j B = bop j B * bop i A := by
  rcases lt_or_gt_of_ne h with h | h
  · rw [bop_mul_lt h, bop_mul_gt h]
  · rw [bop_mul_lt h, bop_mul_gt h]

theorem fop_mul_lt {i j : Fin N} (h : i < j) (A B : Matrix (Fin 2) (Fin 2) ℂ) :
    fop i A * fop j B = bop2 i j A Ploc (Ploc * B) := by
  unfold fop bop2
  rw [tensor_mul]
  congr 1
  funext k
  have h' : (i : ℕ) < j := h
  simp only [fam1, fam2]
  split_ifs <;> first | omega | simp [Ploc_sq]

theorem fop_mul_gt {i j : Fin N} (h : j < i) (A B : Matrix (Fin 2) (Fin 2) ℂ) :
    fop i A * fop j B = bop2 j i B Ploc (A * Ploc) := by
  unfold fop bop2
  rw [tensor_mul]
  congr 1
  funext k
  have h' : (j : ℕ) < i := h
  simp only [fam1, fam2]
  split_ifs <;> first | omega | simp [Ploc_sq]

theorem tensor_update_neg (f : Fin N → Matrix (Fin b) (Fin b) ℂ) (i : Fin N)
    (g : Fin N → Matrix (Fin b) (Fin b) ℂ) (hi : g i = - f i) (h : ∀ j, j ≠ i → g j = f j) :
    tensor g = - tensor f := by
  ext s t
  simp only [tensor, Matrix.of_apply, Matrix.neg_apply]
  rw [← Finset.mul_prod_erase _ _ (Finset.mem_univ i), ← Finset.mul_prod_erase _ _ (Finset.mem_univ i), hi,
    Matrix.neg_apply, neg_mul]
  congr 2
  refine Finset.prod_congr rfl fun j hj => ?_
  rw [h j (Finset.ne_of_mem_erase hj)]

theorem bop2_neg {i j : Fin N} (h : i < j) (A g B : Matrix (Fin b) (Fin b) ℂ) :
    bop2 i j A g (-B) = - bop2 i j A g B := by
  have h' : (i : ℕ) < j := h
  unfold bop2
  refine tensor_update_neg _ j _ ?_ ?_
  · simp only [fam2]; split_ifs <;> first | omega | rfl
  · intro k hk
    have : (k : ℕ) ≠ j := fun e => hk (Fin.ext e)
    simp only [fam2]; split_ifs <;> first | omega | rfl

/-- Local operators that change the parity. -/
def Odd (A : Matrix (Fin 2) (Fin 2) ℂ) : Prop := Ploc * A = - (A * Ploc)
/-- Local operators that preserve the parity. -/
def Even' (A : Matrix (Fin 2) (Fin 2) ℂ) : Prop := Ploc * A = A * Ploc

theorem fop_anticomm {i j : Fin N} (h : i ≠ j) {A B : Matrix (Fin 2) (Fin 2) ℂ} (hA : Odd A)
    (hB : Odd B) : fop i A * fop j B + fop j B * fop i A = 0 := by
  rcases lt_or_gt_of_ne h with h | h
  · rw [fop_mul_lt h, fop_mul_gt h, hB, bop2_neg h]; simp
  · rw [fop_mul_lt h, fop_mul_gt h, hA, bop2_neg h]; simp

theorem bop_one (i : Fin N) : bop i (1 : Matrix (Fin b) (Fin b) ℂ) = 1 := by
  rw [bop, ← tensor_one]
  congr 1
  funext j
  simp only [fam1]; split_ifs <;> rfl

theorem bop_add (i : Fin N) (A B : Matrix (Fin b) (Fin b) ℂ) :
    bop i (A + B) = bop i A + bop i B := by
  ext s t
  simp only [bop_apply, Matrix.add_apply]
  split_ifs <;> simp

theorem bop_smul (i : Fin N) (z : ℂ) (A : Matrix (Fin b) (Fin b) ℂ) :
    bop i (z • A) = z • bop i A := by
  ext s t
  simp only [bop_apply, Matrix.smul_apply]
  split_ifs <;> simp

theorem fop_add (i : Fin N) (A B : Matrix (Fin 2) (Fin 2) ℂ) :
    fop i (A + B) = fop i A + fop i B := by
  ext s t
  simp only [fop_apply, Matrix.add_apply]
  split_ifs <;> ring

theorem bop_zero (i : Fin N) : bop i (0 : Matrix (Fin b) (Fin b) ℂ) = 0 := by
  ext s t
  simp only [bop_apply, Matrix.zero_apply, ite_self]

theorem bop2_apply {i j : Fin N} (h : i < j) (A B : Matrix (Fin b) (Fin b) ℂ) (s t : Conf N b) :
    bop2 i j A 1 B s t =
      if ∀ k, k ≠ i → k ≠ j → s k = t k then A (s i) (t i) * B (s j) (t j) else 0 := by
  have hij : (i : ℕ) < j := h
  simp only [bop2, tensor, Matrix.of_apply]
  split_ifs with hk
  · rw [← Finset.mul_prod_erase _ _ (Finset.mem_univ i),
      ← Finset.mul_prod_erase _ _ (Finset.mem_erase.2 ⟨h.ne', Finset.mem_univ j⟩), ← mul_assoc]
    have : ∏ x ∈ (Finset.univ.erase i).erase j, fam2 (N := N) i j A 1 B x (s x) (t x) = 1 := by
      refine Finset.prod_eq_one fun k hk' => ?_
      have h1 : k ≠ j := Finset.ne_of_mem_erase hk'
      have h2 : k ≠ i := Finset.ne_of_mem_erase (Finset.mem_of_mem_erase hk')
      have h1' : (k : ℕ) ≠ j := fun e => h1 (Fin.ext e)
      have h2' : (k : ℕ) ≠ i := fun e => h2 (Fin.ext e)
      simp [fam2, h1', h2', hk k h2 h1]
    rw [this, mul_one]
    congr 1
    · simp [fam2]
    · simp [fam2, hij.ne', not_lt.2 hij.le]
  · push Not at hk
    obtain ⟨k, h2, h1, hne⟩ := hk
    refine Finset.prod_eq_zero (Finset.mem_univ k) ?_
    have h1' : (k : ℕ) ≠ j := fun e => h1 (Fin.ext e)
    have h2' : (k : ℕ) ≠ i := fun e => h2 (Fin.ext e)
    simp [fam2, h1', h2', hne]

/-! ### Local fermion operators -/

/-- local annihilator -/
def cl : Matrix (Fin 2) (Fin 2) ℂ := cOp.loc 2
/-- local creator -/
def cdl : Matrix (Fin 2) (Fin 2) ℂ := cdagOp.loc 2
/-- local number -/
def nl : Matrix (Fin 2) (Fin 2) ℂ := nOp.loc 2

theorem cl_eq : cl = !![0, 1; 0, 0] := by
  ext i j; fin_cases i <;> fin_cases j <;> simp [cl, cOp, Mat.loc, Mat.lit2]
theorem cdl_eq : cdl = !![0, 0; 1, 0] := by
  ext i j; fin_cases i <;> fin_cases j <;> simp [cdl, cdagOp, Mat.loc, Mat.lit2]
theorem nl_eq : nl = !![0, 0; 0, 1] := by
  ext i j; fin_cases i <;> fin_cases j <;> simp [nl, nOp, Mat.loc, Mat.lit2]
theorem Ploc_eq : Ploc = !![1, 0; 0, -1] := by
  ext i j; fin_cases i <;> fin_cases j <;> simp [Ploc, parityOp, Mat.loc, Mat.lit2]

theorem cl_odd : Odd cl := by
  rw [Odd, Ploc_eq, cl_eq]; ext i j
  fin_cases i <;> fin_cases j <;> simp [Matrix.mul_apply, Fin.sum_univ_two]
theorem cdl_odd : Odd cdl := by
  rw [Odd, Ploc_eq, cdl_eq]; ext i j
  fin_cases i <;> fin_cases j <;> simp [Matrix.mul_apply, Fin.sum_univ_two]
theorem cl_cdl : cl * cdl + cdl * cl = 1 := by
  rw [cdl_eq, cl_eq]; ext i j
  fin_cases i <;> fin_cases j <;> simp [Matrix.mul_apply, Fin.sum_univ_two]
theorem cl_cl : cl * cl = 0 := by
  rw [cl_eq]; ext i j
  fin_cases i <;> fin_cases j <;> simp [Matrix.mul_apply, Fin.sum_univ_two]
theorem cdl_cdl : cdl * cdl = 0 := by
  rw [cdl_eq]; ext i j
  fin_cases i <;> fin_cases j <;> simp [Matrix.mul_apply, Fin.sum_univ_two]
theorem cdl_cl : cdl * cl = nl := by
  rw [cdl_eq, cl_eq, nl_eq]; ext i j
  fin_cases i <;> fin_cases j <;> simp [Matrix.mul_apply, Fin.sum_univ_two]
theorem cl_conj : cl.conjTranspose = cdl := by
  rw [cdl_eq, cl_eq]; ext i j
  fin_cases i <;> fin_cases j <;> simp [Matrix.conjTranspose_apply]
theorem nl_conj : nl.conjTranspose = nl := by
  rw [nl_eq]; ext i j
  fin_cases i <;> fin_cases j <;> simp [Matrix.conjTranspose_apply]
theorem Ploc_conj : Ploc.conjTranspose = Ploc := by
  rw [Ploc_eq]; ext i j
  fin_cases i <;> fin_cases j <;> simp [Matrix.conjTranspose_apply]

theorem bop_conj (i : Fin N) (A : Matrix (Fin b) (Fin b) ℂ) :
    (bop i A).conjTranspose = bop i A.conjTranspose := by
  unfold bop
  rw [tensor_conjTranspose]
  congr 1; funext j
  simp only [fam1]; split_ifs <;> simp

theorem fop_conj (i : Fin N) (A : Matrix (Fin 2) (Fin 2) ℂ) :
    (fop i A).conjTranspose = fop i A.conjTranspose := by
  unfold fop
  rw [tensor_conjTranspose]
  congr 1; funext j
  simp only [fam1]; split_ifs <;> simp [Ploc_conj]

theorem cOp_loc : cOp.IsLoc 2 := ⟨rfl, rfl⟩
theorem cdagOp_loc : cdagOp.IsLoc 2 := ⟨rfl, rfl⟩
theorem nOp_loc : nOp.IsLoc 2 := ⟨rfl, rfl⟩

/-! ### The builders in terms of `bop`, `fop` -/

theorem mode_val {S : Sys} (site : Fin S.nsites) (sp : Fin S.nspecies) :
    ((mode site sp : Fin S.nlog) : ℕ) = spinful2spinless site S.nsites sp := rfl

theorem mode_lt {S : Sys} (site : Fin S.nsites) (sp : Fin S.nspecies) :
    spinful2spinless site S.nsites sp < S.nlog := (mode site sp).2

theorem getSingle_boson {S : Sys} (hb : S.nbasis = 2) (site : Fin S.nsites) (sp : Fin S.nspecies)
    {op : Mat} (hop : op.IsLoc 2) :
    ∃ M, getSingleSiteOp S site sp op "boson" = .ok M ∧ M.HasDim S.nlog 2 ∧
      M.op S.nlog 2 = bop (mode site sp) (op.loc 2) :=
  single_boson hb hop (mode_lt site sp)

theorem getSingle_fermion {S : Sys} (hb : S.nbasis = 2) (site : Fin S.nsites)
    (sp : Fin S.nspecies) {op : Mat} (hop : op.IsLoc 2) :
    ∃ M, getSingleSiteOp S site sp op "fermion" = .ok M ∧ M.HasDim S.nlog 2 ∧
      M.op S.nlog 2 = fop (mode site sp) (op.loc 2) :=
  single_fermion hb hop (mode_lt site sp)

theorem getTwo_same {S : Sys} (hb : S.nbasis = 2) (site : Fin S.nsites) (sp : Fin S.nspecies)
    {op1 op2 : Mat} (h1 : op1.IsLoc 2) (h2 : op2.IsLoc 2) (fmt : String) :
    ∃ M, getTwoSiteOp S site sp site sp op1 op2 fmt = .ok M ∧ M.HasDim S.nlog 2 ∧
      M.op S.nlog 2 = bop (mode site sp) (op1.loc 2 * op2.loc 2) := by
  obtain ⟨C, hC, hCl, hCe⟩ := h1.mul_ok h2
  obtain ⟨M, hM, hd, ho⟩ := getSingle_boson hb site sp hCl
  refine ⟨M, ?_, hd, ho.trans (by rw [hCe])⟩
  simp [getTwoSiteOp, hC, bind_ok, hM]

theorem mode_inj {S : Sys} {site1 site2 : Fin S.nsites} {sp1 sp2 : Fin S.nspecies}
    (h : (mode site1 sp1 : Fin S.nlog) = mode site2 sp2) : site1 = site2 ∧ sp1 = sp2 := by
  have h' : S.nsites * (sp1 : ℕ) + site1 = S.nsites * sp2 + site2 := congrArg Fin.val h
  have hp : 0 < S.nsites := lt_of_le_of_lt (Nat.zero_le _) site1.2
  have e1 := Nat.mul_add_div hp (sp1 : ℕ) site1
  have e2 := Nat.mul_add_div hp (sp2 : ℕ) site2
  rw [Nat.div_eq_of_lt site1.2] at e1
  rw [Nat.div_eq_of_lt site2.2] at e2
  rw [h'] at e1
  have e3 : (sp1 : ℕ) = sp2 := by omega
  refine ⟨Fin.ext ?_, Fin.ext e3⟩
  rw [e3] at h'
  omega

/-- The two-site builder returns the product of the single-site operators (boson format). -/
theorem getTwo_boson {S : Sys} (hb : S.nbasis = 2) (site1 site2 : Fin S.nsites)
    (sp1 sp2 : Fin S.nspecies) {op1 op2 : Mat} (h1 : op1.IsLoc 2) (h2 : op2.IsLoc 2) :
    ∃ M, getTwoSiteOp S site1 sp1 site2 sp2 op1 op2 "boson" = .ok M ∧ M.HasDim S.nlog 2 ∧
      M.op S.nlog 2 = bop (mode site1 sp1) (op1.loc 2) * bop (mode site2 sp2) (op2.loc 2) := by
  rcases lt_trichotomy (mode site1 sp1 : Fin S.nlog) (mode site2 sp2) with h | h | h
  · rw [bop_mul_lt h]
    have := two_lt_boson (S := S) (op1 := op1) (op2 := op2) (by rw [hb]; exact h1)
      (by rw [hb]; exact h2) h (mode_lt site2 sp2)
    rw [hb] at this
    exact this
  · obtain ⟨rfl, rfl⟩ := mode_inj h
    rw [bop_mul]
    exact getTwo_same hb site1 sp1 h1 h2 _
  · rw [bop_mul_gt h]
    have := two_gt_boson (S := S) (op1 := op1) (op2 := op2) (by rw [hb]; exact h1)
      (by rw [hb]; exact h2) h (mode_lt site1 sp1)
    rw [hb] at this
    exact this

/-- The two-site builder returns the product of the single-site operators (fermion format). -/
theorem getTwo_fermion {S : Sys} (hb : S.nbasis = 2) (site1 site2 : Fin S.nsites)
    (sp1 sp2 : Fin S.nspecies) {op1 op2 : Mat} (h1 : op1.IsLoc 2) (h2 : op2.IsLoc 2) :
    ∃ M, getTwoSiteOp S site1 sp1 site2 sp2 op1 op2 "fermion" = .ok M ∧ M.HasDim S.nlog 2 ∧
      M.op S.nlog 2 = fop (mode site1 sp1) (op1.loc 2) * fop (mode site2 sp2) (op2.loc 2) := by
  rcases lt_trichotomy (mode site1 sp1 : Fin S.nlog) (mode site2 sp2) with h | h | h
  · rw [fop_mul_lt h]
    exact two_lt_fermion hb h1 h2 h (mode_lt site2 sp2)
  · obtain ⟨rfl, rfl⟩ := mode_inj h
    rw [fop_mul]
    exact getTwo_same hb site1 sp1 h1 h2 _
  · rw [fop_mul_gt h]
    exact two_gt_fermion hb h1 h2 h (mode_lt site1 sp1)

end ED
