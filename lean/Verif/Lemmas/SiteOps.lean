import Verif.Model.Base
import Verif.Spec.Fock
import Verif.Lemmas.Tensor

/-! # Helper lemmas: the operator builders as tensor-product operators -/

namespace ED

open scoped BigOperators

variable {N l k b : ℕ}

theorem Mat.loc_mul {A B C : Mat} (hA : A.cols = b) (h : A.mul B = .ok C) :
    C.loc b = A.loc b * B.loc b := by
  unfold Mat.mul at h
  split at h
  · cases h
    ext i j
    simp only [Mat.loc, Matrix.of_apply, Matrix.mul_apply, hA]
    exact Finset.sum_range (fun k => A.e i k * B.e k j)
  · cases h

theorem Mat.IsLoc.dim {M : Mat} (h : M.IsLoc b) : M.HasDim 1 b := by
  simpa [Mat.HasDim, Mat.IsLoc] using h

theorem Mat.IsLoc.mul_ok {A B : Mat} (hA : A.IsLoc b) (hB : B.IsLoc b) :
    ∃ C, A.mul B = .ok C ∧ C.IsLoc b ∧ C.loc b = A.loc b * B.loc b := by
  obtain ⟨C, h1, h2, h3, _⟩ := Mat.mul_ok (A := A) (B := B) (hA.2.trans hB.1.symm)
  exact ⟨C, h1, ⟨h2.trans hA.1, h3.trans hB.2⟩, Mat.loc_mul hA.2 h1⟩

/-- The local parity matrix. -/
def Ploc : Matrix (Fin 2) (Fin 2) ℂ := parityOp.loc 2

theorem parity_isLoc : parityOp.IsLoc 2 := ⟨rfl, rfl⟩

theorem Ploc_sq : Ploc * Ploc = 1 := by
  ext i j
  fin_cases i <;> fin_cases j <;>
    simp [Ploc, Mat.loc, parityOp, Mat.lit2, Matrix.mul_apply, Fin.sum_univ_two]

theorem Ploc_apply (i j : Fin 2) : Ploc i j = if i = j then (if i = 1 then -1 else 1) else 0 := by
  fin_cases i <;> fin_cases j <;> simp [Ploc, Mat.loc, parityOp, Mat.lit2]

theorem parityString_succ (l : ℕ) :
    parityString (l + 1) = (parityString l).kron parityOp := by
  simp [parityString, List.range_succ, List.foldl_append]

theorem append_const {α : Type} (m k : ℕ) (g : α) :
    Fin.append (fun _ : Fin m => g) (fun _ : Fin k => g) = fun _ => g := by
  funext i
  refine Fin.addCases (fun i => ?_) (fun i => ?_) i <;> simp

theorem parityString_spec (l : ℕ) :
    (parityString l).HasDim l 2 ∧ (parityString l).op l 2 = tensor (fun _ => Ploc) := by
  induction l with
  | zero =>
    constructor
    · exact ⟨rfl, rfl⟩
    · have h : (Mat.eye (2 ^ 0)).op 0 2 = 1 := Mat.eye_op
      have h' : (parityString 0).op 0 2 = 1 := h
      rw [h', ← tensor_one]
      congr 1
      funext i
      exact i.elim0
  | succ l ih =>
    rw [parityString_succ]
    refine ⟨Mat.kron_dim ih.1 parity_isLoc.dim, ?_⟩
    rw [Mat.kron_tensor parity_isLoc.dim ih.2 Mat.loc_op]
    congr 1
    exact append_const l 1 Ploc

theorem eye_tensor (n b : ℕ) : (Mat.eye (b ^ n)).op n b = tensor (fun _ => 1) := by
  rw [Mat.eye_op, tensor_one]

/-- Local operator family of a single-site operator: identity before, `A` at `l`, `g` after. -/
def fam1 (l : ℕ) (A g : Matrix (Fin b) (Fin b) ℂ) : Fin N → Matrix (Fin b) (Fin b) ℂ :=
  fun j => if (j : ℕ) < l then 1 else if (j : ℕ) = l then A else g

theorem single_core (h : N = l + 1 + k) {op tail : Mat} (hop : op.IsLoc b) (ht : tail.HasDim k b)
    {g : Matrix (Fin b) (Fin b) ℂ} (hg : tail.op k b = tensor (fun _ => g)) :
    (((Mat.eye (b ^ l)).kron op).kron tail).HasDim N b ∧
    (((Mat.eye (b ^ l)).kron op).kron tail).op N b = tensor (fam1 l (op.loc b) g) := by
  subst h
  refine ⟨Mat.kron_dim (Mat.kron_dim Mat.eye_dim hop.dim) ht, ?_⟩
  rw [Mat.kron_tensor ht (Mat.kron_tensor hop.dim (eye_tensor l b) Mat.loc_op) hg]
  congr 1
  funext j
  refine Fin.addCases (fun j => ?_) (fun j => ?_) j
  · rw [Fin.append_left]
    refine Fin.addCases (fun j => ?_) (fun j => ?_) j
    · rw [Fin.append_left]
      simp [fam1]
    · rw [Fin.append_right]
      have : (j : ℕ) = 0 := by omega
      simp [fam1, this]
  · rw [Fin.append_right]
    simp only [fam1, Fin.val_natAdd]
    rw [if_neg (by omega), if_neg (by omega)]

/-- Single-site operator, boson format, local dimension two. -/
theorem single_boson {S : Sys} (hb : S.nbasis = 2) {site sp : ℕ} {op : Mat} (hop : op.IsLoc 2)
    (hl : spinful2spinless site S.nsites sp < S.nlog) :
    ∃ M, getSingleSiteOp S site sp op "boson" = .ok M ∧ M.HasDim S.nlog 2 ∧
      M.op S.nlog 2 = tensor (fam1 (spinful2spinless site S.nsites sp) (op.loc 2) 1) := by
  refine ⟨((Mat.eye (2 ^ spinful2spinless site S.nsites sp)).kron op).kron
    (Mat.eye (2 ^ (S.nlog - spinful2spinless site S.nsites sp - 1))), ?_, ?_⟩
  · simp [getSingleSiteOp, hl, hb]
  exact single_core (k := S.nlog - spinful2spinless site S.nsites sp - 1) (by omega) hop
    Mat.eye_dim (eye_tensor _ _)

/-- Single-site operator, fermion format. -/
theorem single_fermion {S : Sys} (hb : S.nbasis = 2) {site sp : ℕ} {op : Mat} (hop : op.IsLoc 2)
    (hl : spinful2spinless site S.nsites sp < S.nlog) :
    ∃ M, getSingleSiteOp S site sp op "fermion" = .ok M ∧ M.HasDim S.nlog 2 ∧
      M.op S.nlog 2 = tensor (fam1 (spinful2spinless site S.nsites sp) (op.loc 2) Ploc) := by
  refine ⟨((Mat.eye (2 ^ spinful2spinless site S.nsites sp)).kron op).kron
    (parityString (S.nlog - spinful2spinless site S.nsites sp - 1)), ?_, ?_⟩
  · simp [getSingleSiteOp, hb]
  exact single_core (k := S.nlog - spinful2spinless site S.nsites sp - 1) (by omega) hop
    (parityString_spec _).1 (parityString_spec _).2

/-- Local operator family of a two-site operator. -/
def fam2 (a c : ℕ) (A mid B : Matrix (Fin b) (Fin b) ℂ) : Fin N → Matrix (Fin b) (Fin b) ℂ :=
  fun j => if (j : ℕ) < a then 1 else if (j : ℕ) = a then A else if (j : ℕ) < c then mid
    else if (j : ℕ) = c then B else 1

theorem two_core {a m t : ℕ} (h : N = a + 1 + m + (1 + t)) {opa opb mid : Mat}
    (ha : opa.IsLoc b) (hb : opb.IsLoc b) (hm : mid.HasDim m b)
    {g : Matrix (Fin b) (Fin b) ℂ} (hg : mid.op m b = tensor (fun _ => g)) :
    ((((Mat.eye (b ^ a)).kron opa).kron mid).kron (opb.kron (Mat.eye (b ^ t)))).HasDim N b ∧
    ((((Mat.eye (b ^ a)).kron opa).kron mid).kron (opb.kron (Mat.eye (b ^ t)))).op N b =
      tensor (fam2 a (a + 1 + m) (opa.loc b) g (opb.loc b)) := by
  subst h
  obtain ⟨h1, h2⟩ := single_core (N := a + 1 + m) (b := b) rfl ha hm hg
  refine ⟨Mat.kron_dim h1 (Mat.kron_dim hb.dim Mat.eye_dim), ?_⟩
  rw [Mat.kron_tensor (Mat.kron_dim hb.dim Mat.eye_dim) h2
    (Mat.kron_tensor Mat.eye_dim Mat.loc_op (eye_tensor t b))]
  congr 1
  funext j
  refine Fin.addCases (fun j => ?_) (fun j => ?_) j
  · rw [Fin.append_left]
    have := j.2
    simp only [fam1, fam2, Fin.val_castAdd]
    split_ifs <;> first | rfl | omega
  · rw [Fin.append_right]
    refine Fin.addCases (fun j => ?_) (fun j => ?_) j
    · rw [Fin.append_left]
      have : (j : ℕ) = 0 := by omega
      simp only [fam2, Fin.val_natAdd, Fin.val_castAdd, this]
      split_ifs <;> first | rfl | omega
    · rw [Fin.append_right]
      simp only [fam2, Fin.val_natAdd]
      split_ifs <;> first | rfl | omega

/-- Except-monad unfolding used by the lemmas below. -/
theorem bind_ok {α β : Type} (a : α) (f : α → Res β) : (Except.ok a >>= f) = f a := rfl

theorem pure_eq_ok {α : Type} (a : α) : (pure a : Res α) = Except.ok a := rfl

/-! Two-site operators on different logical sites, by order of the sites and format. -/

theorem two_lt_boson {S : Sys} {site1 sp1 site2 sp2 : ℕ} {op1 op2 : Mat}
    (h1 : op1.IsLoc S.nbasis) (h2 : op2.IsLoc S.nbasis)
    (hlt : spinful2spinless site1 S.nsites sp1 < spinful2spinless site2 S.nsites sp2)
    (hl : spinful2spinless site2 S.nsites sp2 < S.nlog) :
    ∃ M, getTwoSiteOp S site1 sp1 site2 sp2 op1 op2 "boson" = .ok M ∧ M.HasDim S.nlog S.nbasis ∧
      M.op S.nlog S.nbasis = tensor (fam2 (spinful2spinless site1 S.nsites sp1)
        (spinful2spinless site2 S.nsites sp2) (op1.loc _) 1 (op2.loc _)) := by
  have e1 : min (spinful2spinless site1 S.nsites sp1) (spinful2spinless site2 S.nsites sp2)
    = spinful2spinless site1 S.nsites sp1 := by omega
  have e2 : max (spinful2spinless site1 S.nsites sp1) (spinful2spinless site2 S.nsites sp2)
    = spinful2spinless site2 S.nsites sp2 := by omega
  refine ⟨((((Mat.eye (S.nbasis ^ spinful2spinless site1 S.nsites sp1)).kron op1).kron
      (Mat.eye (S.nbasis ^ (spinful2spinless site2 S.nsites sp2 - spinful2spinless site1 S.nsites sp1 - 1)))).kron
      (op2.kron (Mat.eye (S.nbasis ^ (S.nlog - spinful2spinless site2 S.nsites sp2 - 1))))), ?_, ?_⟩
  · simp only [getTwoSiteOp, e1, e2]
    rw [if_neg (by omega)]
    simp [pure_eq_ok, bind_ok, hl, hlt.ne, hlt.ne']
  · have := two_core (N := S.nlog) (b := S.nbasis) (a := spinful2spinless site1 S.nsites sp1)
      (m := spinful2spinless site2 S.nsites sp2 - spinful2spinless site1 S.nsites sp1 - 1)
      (t := S.nlog - spinful2spinless site2 S.nsites sp2 - 1)
      (by omega) h1 h2 Mat.eye_dim (eye_tensor _ _)
    rwa [show spinful2spinless site1 S.nsites sp1 + 1 +
      (spinful2spinless site2 S.nsites sp2 - spinful2spinless site1 S.nsites sp1 - 1) =
      spinful2spinless site2 S.nsites sp2 by omega] at this

theorem two_gt_boson {S : Sys} {site1 sp1 site2 sp2 : ℕ} {op1 op2 : Mat}
    (h1 : op1.IsLoc S.nbasis) (h2 : op2.IsLoc S.nbasis)
    (hlt : spinful2spinless site2 S.nsites sp2 < spinful2spinless site1 S.nsites sp1)
    (hl : spinful2spinless site1 S.nsites sp1 < S.nlog) :
    ∃ M, getTwoSiteOp S site1 sp1 site2 sp2 op1 op2 "boson" = .ok M ∧ M.HasDim S.nlog S.nbasis ∧
      M.op S.nlog S.nbasis = tensor (fam2 (spinful2spinless site2 S.nsites sp2)
        (spinful2spinless site1 S.nsites sp1) (op2.loc _) 1 (op1.loc _)) := by
  have e1 : min (spinful2spinless site1 S.nsites sp1) (spinful2spinless site2 S.nsites sp2)
    = spinful2spinless site2 S.nsites sp2 := by omega
  have e2 : max (spinful2spinless site1 S.nsites sp1) (spinful2spinless site2 S.nsites sp2)
    = spinful2spinless site1 S.nsites sp1 := by omega
  refine ⟨((((Mat.eye (S.nbasis ^ spinful2spinless site2 S.nsites sp2)).kron op2).kron
      (Mat.eye (S.nbasis ^ (spinful2spinless site1 S.nsites sp1 - spinful2spinless site2 S.nsites sp2 - 1)))).kron
      (op1.kron (Mat.eye (S.nbasis ^ (S.nlog - spinful2spinless site1 S.nsites sp1 - 1))))), ?_, ?_⟩
  · simp only [getTwoSiteOp, e1, e2]
    rw [if_neg (by omega)]
    simp [pure_eq_ok, bind_ok, hl, hlt.ne, hlt.ne']
  · have := two_core (N := S.nlog) (b := S.nbasis) (a := spinful2spinless site2 S.nsites sp2)
      (m := spinful2spinless site1 S.nsites sp1 - spinful2spinless site2 S.nsites sp2 - 1)
      (t := S.nlog - spinful2spinless site1 S.nsites sp1 - 1)
      (by omega) h2 h1 Mat.eye_dim (eye_tensor _ _)
    rwa [show spinful2spinless site2 S.nsites sp2 + 1 +
      (spinful2spinless site1 S.nsites sp1 - spinful2spinless site2 S.nsites sp2 - 1) =
      spinful2spinless site1 S.nsites sp1 by omega] at this

theorem two_lt_fermion {S : Sys} (hb : S.nbasis = 2) {site1 sp1 site2 sp2 : ℕ} {op1 op2 : Mat}
    (h1 : op1.IsLoc 2) (h2 : op2.IsLoc 2)
    (hlt : spinful2spinless site1 S.nsites sp1 < spinful2spinless site2 S.nsites sp2)
    (hl : spinful2spinless site2 S.nsites sp2 < S.nlog) :
    ∃ M, getTwoSiteOp S site1 sp1 site2 sp2 op1 op2 "fermion" = .ok M ∧ M.HasDim S.nlog 2 ∧
      M.op S.nlog 2 = tensor (fam2 (spinful2spinless site1 S.nsites sp1)
        (spinful2spinless site2 S.nsites sp2) (op1.loc _) Ploc (Ploc * op2.loc _)) := by
  have e1 : min (spinful2spinless site1 S.nsites sp1) (spinful2spinless site2 S.nsites sp2)
    = spinful2spinless site1 S.nsites sp1 := by omega
  have e2 : max (spinful2spinless site1 S.nsites sp1) (spinful2spinless site2 S.nsites sp2)
    = spinful2spinless site2 S.nsites sp2 := by omega
  obtain ⟨C, hC, hCl, hCe⟩ := parity_isLoc.mul_ok h2
  refine ⟨((((Mat.eye (2 ^ spinful2spinless site1 S.nsites sp1)).kron op1).kron
      (parityString (spinful2spinless site2 S.nsites sp2 - spinful2spinless site1 S.nsites sp1 - 1))).kron
      (C.kron (Mat.eye (2 ^ (S.nlog - spinful2spinless site2 S.nsites sp2 - 1))))), ?_, ?_⟩
  · simp only [getTwoSiteOp, e1, e2]
    rw [if_neg (by omega)]
    simp [pure_eq_ok, bind_ok, hl, hlt.ne, hlt.ne', hC, hb]
  · have := two_core (N := S.nlog) (b := 2) (a := spinful2spinless site1 S.nsites sp1)
      (m := spinful2spinless site2 S.nsites sp2 - spinful2spinless site1 S.nsites sp1 - 1)
      (t := S.nlog - spinful2spinless site2 S.nsites sp2 - 1)
      (by omega) h1 hCl (parityString_spec _).1 (parityString_spec _).2
    rwa [show spinful2spinless site1 S.nsites sp1 + 1 +
      (spinful2spinless site2 S.nsites sp2 - spinful2spinless site1 S.nsites sp1 - 1) =
      spinful2spinless site2 S.nsites sp2 by omega, hCe] at this

theorem two_gt_fermion {S : Sys} (hb : S.nbasis = 2) {site1 sp1 site2 sp2 : ℕ} {op1 op2 : Mat}
    (h1 : op1.IsLoc 2) (h2 : op2.IsLoc 2)
    (hlt : spinful2spinless site2 S.nsites sp2 < spinful2spinless site1 S.nsites sp1)
    (hl : spinful2spinless site1 S.nsites sp1 < S.nlog) :
    ∃ M, getTwoSiteOp S site1 sp1 site2 sp2 op1 op2 "fermion" = .ok M ∧ M.HasDim S.nlog 2 ∧
      M.op S.nlog 2 = tensor (fam2 (spinful2spinless site2 S.nsites sp2)
        (spinful2spinless site1 S.nsites sp1) (op2.loc _) Ploc (op1.loc _ * Ploc)) := by
  have e1 : min (spinful2spinless site1 S.nsites sp1) (spinful2spinless site2 S.nsites sp2)
    = spinful2spinless site2 S.nsites sp2 := by omega
  have e2 : max (spinful2spinless site1 S.nsites sp1) (spinful2spinless site2 S.nsites sp2)
    = spinful2spinless site1 S.nsites sp1 := by omega
  obtain ⟨C, hC, hCl, hCe⟩ := h1.mul_ok parity_isLoc
  refine ⟨((((Mat.eye (2 ^ spinful2spinless site2 S.nsites sp2)).kron op2).kron
      (parityString (spinful2spinless site1 S.nsites sp1 - spinful2spinless site2 S.nsites sp2 - 1))).kron
      (C.kron (Mat.eye (2 ^ (S.nlog - spinful2spinless site1 S.nsites sp1 - 1))))), ?_, ?_⟩
  · simp only [getTwoSiteOp, e1, e2]
    rw [if_neg (by omega)]
    simp [pure_eq_ok, bind_ok, hl, hlt.ne, hlt.ne', hC, hb]
  · have := two_core (N := S.nlog) (b := 2) (a := spinful2spinless site2 S.nsites sp2)
      (m := spinful2spinless site1 S.nsites sp1 - spinful2spinless site2 S.nsites sp2 - 1)
      (t := S.nlog - spinful2spinless site1 S.nsites sp1 - 1)
      (by omega) h2 hCl (parityString_spec _).1 (parityString_spec _).2
    rwa [show spinful2spinless site2 S.nsites sp2 + 1 +
      (spinful2spinless site1 S.nsites sp1 - spinful2spinless site2 S.nsites sp2 - 1) =
      spinful2spinless site1 S.nsites sp1 by omega, hCe] at this

end ED
