import Verif.Spec.Conf
import Mathlib.Data.Matrix.Mul
import Mathlib.Algebra.BigOperators.Ring.Finset
import Mathlib.Data.Fintype.BigOperators
import Mathlib.LinearAlgebra.Matrix.ConjTranspose
import Mathlib.Tactic.Ring
import Mathlib.Tactic.Linarith

/-! # Helper lemmas: digits, Kronecker products, tensor-product operators -/

namespace ED

open scoped BigOperators

variable {n m k b : ℕ}

/-! ## The basis order -/

theorem idx_append (s : Fin (m + k) → Fin b) :
    idx s = idx (fun i => s (Fin.castAdd k i)) * b ^ k + idx (fun i => s (Fin.natAdd m i)) := by
  unfold idx
  rw [Fin.sum_univ_add, Finset.sum_mul]
  congr 1
  · refine Finset.sum_congr rfl fun i _ => ?_
    have hi := i.2
    simp only [Fin.val_castAdd]
    rw [mul_assoc, ← pow_add]
    congr 2
    omega
  · refine Finset.sum_congr rfl fun i _ => ?_
    simp only [Fin.val_natAdd]
    congr 2
    omega

theorem idx_zero (s : Fin 0 → Fin b) : idx s = 0 := by simp [idx]

theorem idx_one (s : Fin 1 → Fin b) : idx s = s 0 := by simp [idx]

theorem idx_lt (s : Conf n b) : idx s < b ^ n := by
  induction n with
  | zero => simp [idx_zero]
  | succ n ih =>
    rw [idx_append, idx_one, pow_one, pow_succ]
    have h1 := ih fun i => s (Fin.castAdd 1 i)
    have h2 := (s (Fin.natAdd n 0)).2
    nlinarith

theorem idx_div (s : Fin (m + k) → Fin b) :
    idx s / b ^ k = idx (fun i => s (Fin.castAdd k i)) := by
  rw [idx_append, mul_comm, Nat.mul_add_div, Nat.div_eq_of_lt (idx_lt _), add_zero]
  exact lt_of_le_of_lt (Nat.zero_le _) (idx_lt fun i => s (Fin.natAdd m i))

theorem idx_mod (s : Fin (m + k) → Fin b) :
    idx s % b ^ k = idx (fun i => s (Fin.natAdd m i)) := by
  rw [idx_append, mul_comm, Nat.mul_add_mod, Nat.mod_eq_of_lt (idx_lt _)]

theorem idx_injective : Function.Injective (idx : Conf n b → ℕ) := by
  induction n with
  | zero => intro s t _; exact Subsingleton.elim _ _
  | succ n ih =>
    intro s t h
    have h1 := idx_div (m := n) (k := 1) s
    have h2 := idx_div (m := n) (k := 1) t
    have h3 := idx_mod (m := n) (k := 1) s
    have h4 := idx_mod (m := n) (k := 1) t
    rw [h] at h1 h3
    have e1 := ih (h1.symm.trans h2)
    have e2 := h3.symm.trans h4
    rw [idx_one, idx_one] at e2
    funext i
    refine Fin.addCases (fun i => ?_) (fun i => ?_) i
    · exact congrFun e1 i
    · have : i = 0 := Subsingleton.elim _ _
      subst this
      exact Fin.ext e2

theorem idx_surj (x : ℕ) (hx : x < b ^ n) : ∃ s : Conf n b, idx s = x := by
  have hinj : Function.Injective (fun s : Conf n b => (⟨idx s, idx_lt s⟩ : Fin (b ^ n))) := by
    intro s t h
    exact idx_injective (by simpa using h)
  have hcard : Fintype.card (Conf n b) = Fintype.card (Fin (b ^ n)) := by simp
  have := (Fintype.bijective_iff_injective_and_card _).2 ⟨hinj, hcard⟩
  obtain ⟨s, hs⟩ := this.2 ⟨x, hx⟩
  exact ⟨s, by simpa using congrArg Fin.val hs⟩

theorem sum_range_conf {α : Type} [AddCommMonoid α] (f : ℕ → α) :
    ∑ k ∈ Finset.range (b ^ n), f k = ∑ s : Conf n b, f (idx s) := by
  refine (Finset.sum_bij (fun s _ => idx s) ?_ ?_ ?_ ?_).symm
  · intro s _; exact Finset.mem_range.2 (idx_lt s)
  · intro s _ t _ h; exact idx_injective h
  · intro x hx
    obtain ⟨s, hs⟩ := idx_surj x (Finset.mem_range.1 hx)
    exact ⟨s, Finset.mem_univ _, hs⟩
  · intro s _; rfl

/-! ## Reading matrix arithmetic as operator arithmetic -/

theorem Mat.mul_ok {A B : Mat} (h : A.cols = B.rows) :
    ∃ C, A.mul B = .ok C ∧ C.rows = A.rows ∧ C.cols = B.cols ∧
      ∀ i j, C.e i j = ∑ k ∈ Finset.range A.cols, A.e i k * B.e k j := by
  exact ⟨⟨A.rows, B.cols, _⟩, if_pos h, rfl, rfl, fun _ _ => rfl⟩

theorem Mat.mul_op {A B : Mat} (hA : A.HasDim n b) (hB : B.HasDim n b) :
    ∃ C, A.mul B = .ok C ∧ C.HasDim n b ∧ C.op n b = A.op n b * B.op n b := by
  obtain ⟨C, h1, h2, h3, h4⟩ := Mat.mul_ok (A := A) (B := B) (hA.2.trans hB.1.symm)
  refine ⟨C, h1, ⟨h2.trans hA.1, h3.trans hB.2⟩, ?_⟩
  ext s t
  rw [Matrix.mul_apply]
  simp only [Mat.op, Matrix.of_apply, h4, hA.2]
  exact sum_range_conf _

theorem Mat.add_op {A B : Mat} (hA : A.HasDim n b) (hB : B.HasDim n b) :
    ∃ C, A.add B = .ok C ∧ C.HasDim n b ∧ C.op n b = A.op n b + B.op n b := by
  refine ⟨⟨A.rows, A.cols, _⟩, if_pos ⟨hA.1.trans hB.1.symm, hA.2.trans hB.2.symm⟩,
    ⟨hA.1, hA.2⟩, ?_⟩
  ext s t; rfl

theorem Mat.smul_op {A : Mat} (z : ℂ) : (A.smul z).op n b = z • A.op n b := by
  ext s t; rfl

theorem Mat.smul_dim {A : Mat} (z : ℂ) (hA : A.HasDim n b) : (A.smul z).HasDim n b := hA

theorem Mat.sub_op {A B : Mat} (hA : A.HasDim n b) (hB : B.HasDim n b) :
    ∃ C, A.sub B = .ok C ∧ C.HasDim n b ∧ C.op n b = A.op n b - B.op n b := by
  obtain ⟨C, h1, h2, h3⟩ := Mat.add_op hA (Mat.smul_dim (-1) hB)
  refine ⟨C, h1, h2, ?_⟩
  rw [h3, Mat.smul_op]; ext s t; simp [sub_eq_add_neg]

theorem Mat.dagger_op {A : Mat} : A.dagger.op n b = (A.op n b).conjTranspose := by
  ext s t; rfl

theorem Mat.eye_op : (Mat.eye (b ^ n)).op n b = 1 := by
  ext s t
  simp only [Mat.op, Mat.eye, Matrix.of_apply, Matrix.one_apply]
  by_cases h : s = t
  · simp [h]
  · rw [if_neg h, if_neg (fun h' => h (idx_injective h'))]

theorem Mat.eye_dim : (Mat.eye (b ^ n)).HasDim n b := ⟨rfl, rfl⟩

theorem Mat.zero_op (r c : ℕ) : (Mat.zero r c).op n b = 0 := by ext s t; rfl

/-- In-range entries are determined by the operator. -/
theorem Mat.e_of_op {A B : Mat} (h : A.op n b = B.op n b) {i j : ℕ} (hi : i < b ^ n)
    (hj : j < b ^ n) : A.e i j = B.e i j := by
  obtain ⟨s, rfl⟩ := idx_surj i hi
  obtain ⟨t, rfl⟩ := idx_surj j hj
  exact congrFun (congrFun h s) t

/-! ## Kronecker products -/

theorem Mat.kron_dim {A B : Mat} (hA : A.HasDim m b) (hB : B.HasDim k b) :
    (A.kron B).HasDim (m + k) b := by
  constructor
  · simp only [Mat.kron]; rw [hA.1, hB.1, pow_add]
  · simp only [Mat.kron]; rw [hA.2, hB.2, pow_add]

theorem Mat.kron_op {A B : Mat} (hB : B.HasDim k b) (s t : Conf (m + k) b) :
    (A.kron B).op (m + k) b s t =
      A.op m b (fun i => s (Fin.castAdd k i)) (fun i => t (Fin.castAdd k i)) *
      B.op k b (fun i => s (Fin.natAdd m i)) (fun i => t (Fin.natAdd m i)) := by
  simp only [Mat.op, Mat.kron, Matrix.of_apply]
  rw [hB.1, hB.2, idx_div, idx_div, idx_mod, idx_mod]

/-- Tensor product of one local operator per mode. -/
def tensor (f : Fin n → Matrix (Fin b) (Fin b) ℂ) : Matrix (Conf n b) (Conf n b) ℂ :=
  Matrix.of fun s t => ∏ i, f i (s i) (t i)

theorem tensor_mul (f g : Fin n → Matrix (Fin b) (Fin b) ℂ) :
    tensor f * tensor g = tensor (fun i => f i * g i) := by
  ext s t
  rw [Matrix.mul_apply]
  simp only [tensor, Matrix.of_apply, Matrix.mul_apply]
  simp_rw [← Finset.prod_mul_distrib]
  exact (Fintype.prod_sum (fun i k => f i (s i) k * g i k (t i))).symm

theorem tensor_one : tensor (fun _ : Fin n => (1 : Matrix (Fin b) (Fin b) ℂ)) = 1 := by
  ext s t
  simp only [tensor, Matrix.of_apply, Matrix.one_apply]
  by_cases h : s = t
  · subst h; simp
  · rw [if_neg h]
    obtain ⟨i, hi⟩ := Function.ne_iff.1 h
    exact Finset.prod_eq_zero (Finset.mem_univ i) (by simp [hi])

theorem tensor_conjTranspose (f : Fin n → Matrix (Fin b) (Fin b) ℂ) :
    (tensor f).conjTranspose = tensor (fun i => (f i).conjTranspose) := by
  ext s t
  simp [tensor, Matrix.conjTranspose_apply]

theorem tensor_append (f : Fin (m + k) → Matrix (Fin b) (Fin b) ℂ) (s t : Conf (m + k) b) :
    tensor f s t =
      tensor (fun i => f (Fin.castAdd k i)) (fun i => s (Fin.castAdd k i))
        (fun i => t (Fin.castAdd k i)) *
      tensor (fun i => f (Fin.natAdd m i)) (fun i => s (Fin.natAdd m i))
        (fun i => t (Fin.natAdd m i)) := by
  simp only [tensor, Matrix.of_apply]
  exact Fin.prod_univ_add _

/-- A Kronecker product of tensor-product operators is a tensor-product operator. -/
theorem Mat.kron_tensor {A B : Mat} {f : Fin m → Matrix (Fin b) (Fin b) ℂ}
    {g : Fin k → Matrix (Fin b) (Fin b) ℂ} (hB : B.HasDim k b)
    (hf : A.op m b = tensor f) (hg : B.op k b = tensor g) :
    (A.kron B).op (m + k) b = tensor (Fin.append f g) := by
  ext s t
  rw [Mat.kron_op hB, tensor_append, hf, hg]
  simp

theorem Mat.loc_op {A : Mat} : A.op 1 b = tensor (fun _ => A.loc b) := by
  ext s t
  simp [Mat.op, tensor, idx_one, Mat.loc]

end ED
