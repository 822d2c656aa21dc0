import Mathlib.Algebra.Lie.Sl2
import Mathlib.Algebra.Lie.OfAssociative
import Mathlib.LinearAlgebra.Eigenspace.Basic
import Mathlib.LinearAlgebra.Matrix.ToLin
import Mathlib.LinearAlgebra.Matrix.Basis
import Mathlib.LinearAlgebra.Matrix.Kronecker
import Mathlib.Analysis.Complex.Basic
import Mathlib.Data.Matrix.Block

/-! # Helper lemmas: the product of two spins (Clebsch-Gordan) -/

namespace ED

open scoped BigOperators
open Matrix Kronecker

/-- Raising operator of a spin with `a + 1` states, in the basis in which the lowering operator has entries one. -/
def stdE (a : ℕ) : Matrix (Fin (a + 1)) (Fin (a + 1)) ℂ :=
  Matrix.of fun i j => if (j : ℕ) = i + 1 then ((i : ℂ) + 1) * (a - i) else 0

/-- Lowering operator. -/
def stdF (a : ℕ) : Matrix (Fin (a + 1)) (Fin (a + 1)) ℂ :=
  Matrix.of fun i j => if (i : ℕ) = j + 1 then 1 else 0

/-- Twice the component along z. -/
def stdH (a : ℕ) : Matrix (Fin (a + 1)) (Fin (a + 1)) ℂ := Matrix.diagonal fun i => (a : ℂ) - 2 * i

theorem sum_succ {n : ℕ} (i : ℕ) (f : Fin n → ℂ) :
    (∑ k : Fin n, if (k : ℕ) = i then f k else 0) = if h : i < n then f ⟨i, h⟩ else 0 := by
  split_ifs with h
  · rw [Finset.sum_eq_single ⟨i, h⟩]
    · simp
    · intro b _ hb
      rw [if_neg fun e => hb (Fin.ext e)]
    · simp
  · exact Finset.sum_eq_zero fun k _ => if_neg fun e : (k : ℕ) = i => h (e ▸ k.2)

theorem stdE_mulVec (a : ℕ) (v : Fin (a + 1) → ℂ) (i : Fin (a + 1)) :
    (stdE a *ᵥ v) i = if h : (i : ℕ) + 1 < a + 1 then ((i : ℂ) + 1) * (a - i) * v ⟨i + 1, h⟩ else 0 := by
  rw [← sum_succ (i + 1) fun k => ((i : ℂ) + 1) * (a - i) * v k]
  rw [mulVec, dotProduct]
  refine Finset.sum_congr rfl fun k _ => ?_
  rw [stdE, of_apply]
  split_ifs <;> simp

theorem stdE_mul_stdF (a : ℕ) : stdE a * stdF a = Matrix.diagonal fun i : Fin (a + 1) => ((i : ℂ) + 1) * (a - i) := by
  ext i j
  rw [mul_apply, diagonal_apply]
  have := sum_succ (i + 1) fun k : Fin (a + 1) => ((i : ℂ) + 1) * (a - i) * stdF a k j
  simp only [stdE, of_apply, ite_mul, zero_mul]
  rw [this]
  simp only [stdF, of_apply, Fin.ext_iff]
  split_ifs with h1 h2 h3 h4 h5
  · simp
  · omega
  · omega
  · simp
  · have : (i : ℕ) = a := by have := i.2; omega
    rw [this]; simp
  · rfl

theorem stdF_mul_stdE (a : ℕ) : stdF a * stdE a = Matrix.diagonal fun i : Fin (a + 1) => (i : ℂ) * (a - i + 1) := by
  ext i j
  rw [mul_apply, diagonal_apply]
  rcases Nat.eq_zero_or_pos (i : ℕ) with h0 | h0
  · rw [Finset.sum_eq_zero]
    · simp [h0]
    · intro k _
      rw [stdF, of_apply, if_neg (by omega), zero_mul]
  · have := sum_succ (i - 1 : ℕ) fun k : Fin (a + 1) => stdE a k j
    rw [dif_pos (by omega)] at this
    rw [show (∑ k, stdF a i k * stdE a k j) = ∑ k : Fin (a + 1), if (k : ℕ) = i - 1 then stdE a k j else 0 from ?_, this]
    · simp only [stdE, of_apply, Fin.ext_iff]
      rw [Nat.sub_add_cancel h0, Nat.cast_sub h0]
      simp only [eq_comm (a := (j : ℕ))]
      refine if_congr Iff.rfl ?_ rfl
      push_cast; ring
    · refine Finset.sum_congr rfl fun k _ => ?_
      rw [stdF, of_apply]
      by_cases h : (i : ℕ) = k + 1
      · rw [if_pos h, if_pos (by omega), one_mul]
      · rw [if_neg h, if_neg (by omega), zero_mul]

theorem std_ef (a : ℕ) : stdE a * stdF a - stdF a * stdE a = stdH a := by
  rw [stdE_mul_stdF, stdF_mul_stdE, diagonal_sub, stdH]
  congr 1; funext i; ring

theorem std_he (a : ℕ) : stdH a * stdE a - stdE a * stdH a = (2 : ℂ) • stdE a := by
  ext i j
  rw [Matrix.sub_apply, stdH, diagonal_mul, mul_diagonal, Matrix.smul_apply, stdE, of_apply]
  split_ifs with h
  · rw [h]; push_cast; rw [smul_eq_mul]; ring
  · simp

theorem std_hf (a : ℕ) : stdH a * stdF a - stdF a * stdH a = -((2 : ℂ) • stdF a) := by
  ext i j
  rw [Matrix.sub_apply, stdH, diagonal_mul, mul_diagonal, Matrix.neg_apply, Matrix.smul_apply, stdF, of_apply]
  split_ifs with h
  · rw [h]; push_cast; rw [smul_eq_mul]; ring
  · simp

/-- Sum of an operator on each of two spins. -/
def both {α β : Type} [DecidableEq α] [DecidableEq β] (A : Matrix α α ℂ) (B : Matrix β β ℂ) : Matrix (α × β) (α × β) ℂ :=
  A ⊗ₖ 1 + 1 ⊗ₖ B

section
variable {α β : Type} [Fintype α] [Fintype β] [DecidableEq α] [DecidableEq β]

theorem both_comm (A A' : Matrix α α ℂ) (B B' : Matrix β β ℂ) :
    both A B * both A' B' - both A' B' * both A B = both (A * A' - A' * A) (B * B' - B' * B) := by
  simp only [both, Matrix.mul_add, Matrix.add_mul, ← mul_kronecker_mul, Matrix.mul_one, Matrix.one_mul]
  have e1 : (A * A' - A' * A) ⊗ₖ (1 : Matrix β β ℂ) = (A * A') ⊗ₖ 1 - (A' * A) ⊗ₖ 1 := by
    ext; simp [sub_mul]
  have e2 : (1 : Matrix α α ℂ) ⊗ₖ (B * B' - B' * B) = 1 ⊗ₖ (B * B') - 1 ⊗ₖ (B' * B) := by
    ext; simp [mul_sub]
  rw [e1, e2]
  abel

theorem both_smul (z : ℂ) (A : Matrix α α ℂ) (B : Matrix β β ℂ) : both (z • A) (z • B) = z • both A B := by
  simp only [both, smul_kronecker, kronecker_smul, smul_add]

theorem both_neg (A : Matrix α α ℂ) (B : Matrix β β ℂ) : both (-A) (-B) = -both A B := by
  rw [← neg_one_smul ℂ A, ← neg_one_smul ℂ B, both_smul, neg_one_smul]

theorem both_mulVec (A : Matrix α α ℂ) (B : Matrix β β ℂ) (v : α × β → ℂ) (x : α) (y : β) :
    (both A B *ᵥ v) (x, y) = (A *ᵥ fun x' => v (x', y)) x + (B *ᵥ fun y' => v (x, y')) y := by
  simp only [both, mulVec, dotProduct, Matrix.add_apply, kroneckerMap_apply, add_mul, Finset.sum_add_distrib, Fintype.sum_prod_type,
    Matrix.one_apply, mul_ite, mul_one, mul_zero, ite_mul, one_mul, zero_mul]
  congr 1
  · refine Finset.sum_congr rfl fun k _ => ?_
    rw [Finset.sum_ite_eq]
    simp
  · rw [Finset.sum_comm]
    refine Finset.sum_congr rfl fun k _ => ?_
    rw [Finset.sum_ite_eq]
    simp

end

/-- The state of highest weight with `k` lowerings. -/
noncomputable def topVec (a b k : ℕ) : Fin (a + 1) × Fin (b + 1) → ℂ := fun x =>
  if (x.1 : ℕ) + x.2 = k then
    (-1) ^ (x.1 : ℕ) / ((x.1 : ℕ).factorial * a.descFactorial x.1 * ((x.2 : ℕ).factorial * b.descFactorial x.2)) else 0

theorem topVec_ne (a b : ℕ) {k : ℕ} (hk : k ≤ min a b) : topVec a b k ≠ 0 := by
  intro h
  have := congrFun h (0, ⟨k, by omega⟩)
  simp only [topVec, Fin.val_zero, zero_add, if_true, pow_zero, Nat.factorial_zero, Nat.descFactorial_zero, Nat.cast_one, one_mul,
    Pi.zero_apply] at this
  have h1 : ((k.factorial : ℕ) : ℂ) ≠ 0 := Nat.cast_ne_zero.2 k.factorial_ne_zero
  have h2 : ((b.descFactorial k : ℕ) : ℂ) ≠ 0 := by
    rw [Nat.cast_ne_zero, Ne, Nat.descFactorial_eq_zero_iff_lt]
    omega
  exact div_ne_zero one_ne_zero (mul_ne_zero h1 h2) this

theorem topVec_h (a b k : ℕ) : both (stdH a) (stdH b) *ᵥ topVec a b k = ((a + b : ℂ) - 2 * k) • topVec a b k := by
  ext ⟨i, j⟩
  rw [both_mulVec, stdH, stdH, mulVec_diagonal, mulVec_diagonal, Pi.smul_apply, smul_eq_mul]
  simp only [topVec]
  split_ifs with h
  · rw [← h]; push_cast; ring
  · simp

theorem topVec_e (a b : ℕ) {k : ℕ} (hk : k ≤ min a b) : both (stdE a) (stdE b) *ᵥ topVec a b k = 0 := by
  ext ⟨i, j⟩
  rw [both_mulVec, stdE_mulVec, stdE_mulVec, Pi.zero_apply]
  by_cases h : (i : ℕ) + j + 1 = k
  · rw [dif_pos (by omega), dif_pos (by omega)]
    simp only [topVec]
    rw [if_pos (by omega), if_pos (by omega), Nat.factorial_succ, Nat.factorial_succ, Nat.descFactorial_succ, Nat.descFactorial_succ]
    have h1 : (((i : ℕ).factorial : ℕ) : ℂ) ≠ 0 := Nat.cast_ne_zero.2 (Nat.factorial_ne_zero _)
    have h2 : (((j : ℕ).factorial : ℕ) : ℂ) ≠ 0 := Nat.cast_ne_zero.2 (Nat.factorial_ne_zero _)
    have h3 : ((a.descFactorial i : ℕ) : ℂ) ≠ 0 := by
      rw [Nat.cast_ne_zero, Ne, Nat.descFactorial_eq_zero_iff_lt]; omega
    have h4 : ((b.descFactorial j : ℕ) : ℂ) ≠ 0 := by
      rw [Nat.cast_ne_zero, Ne, Nat.descFactorial_eq_zero_iff_lt]; omega
    have h5 : (a : ℂ) - i ≠ 0 := by
      rw [← Nat.cast_sub (by omega), Nat.cast_ne_zero]; omega
    have h6 : (b : ℂ) - j ≠ 0 := by
      rw [← Nat.cast_sub (by omega), Nat.cast_ne_zero]; omega
    have h7 : ((i : ℕ) : ℂ) + 1 ≠ 0 := Nat.cast_add_one_ne_zero _
    have h8 : ((j : ℕ) : ℂ) + 1 ≠ 0 := Nat.cast_add_one_ne_zero _
    push_cast [Nat.cast_sub (show (i : ℕ) ≤ a by omega), Nat.cast_sub (show (j : ℕ) ≤ b by omega)]
    field_simp
    ring
  · simp only [topVec]
    split_ifs <;> first | omega | simp

/-- Twice the spin squared, times two: `4 F E + H H + 2 H`. -/
def casim {α : Type} [Fintype α] (e f h : Matrix α α ℂ) : Matrix α α ℂ := (4 : ℂ) • (f * e) + h * h + (2 : ℂ) • h

theorem casim_std (a : ℕ) : casim (stdE a) (stdF a) (stdH a) = ((a : ℂ) * (a + 2)) • 1 := by
  rw [casim, stdF_mul_stdE, stdH, diagonal_mul_diagonal, ← diagonal_smul, ← diagonal_smul, diagonal_add, diagonal_add,
    smul_one_eq_diagonal]
  congr 1; funext i
  simp only [Pi.smul_apply, smul_eq_mul]
  ring

attribute [local instance 100] LieRing.ofAssociativeRing

/-- The states obtained by lowering a state of highest weight. -/
theorem string_end {V : Type} [AddCommGroup V] [Module ℂ V] [FiniteDimensional ℂ V] {e f h : Module.End ℂ V} (hef : e * f - f * e = h)
    (hhe : h * e - e * h = (2 : ℂ) • e) (hhf : h * f - f * h = -((2 : ℂ) • f)) (h0 : h ≠ 0) {c : ℕ} {u : V} (hu : u ≠ 0)
    (hh : h u = (c : ℂ) • u) (he : e u = 0) :
    (∀ m : ℕ, h ((f ^ m) u) = ((c : ℂ) - 2 * m) • ((f ^ m) u)) ∧
    (∀ m : ℕ, e ((f ^ (m + 1)) u) = (((m : ℂ) + 1) * (c - m)) • ((f ^ m) u)) ∧
    (∀ m ≤ c, (f ^ m) u ≠ 0) ∧ (f ^ (c + 1)) u = 0 := by
  have t : IsSl2Triple h e f := by
    refine ⟨h0, hef, ?_, ?_⟩
    · rw [Ring.lie_def, hhe]
      exact (two_smul ℂ _).trans (two_nsmul _).symm
    · rw [Ring.lie_def, hhf]
      exact congrArg _ ((two_smul ℂ _).trans (two_nsmul _).symm)
  have P : t.HasPrimitiveVectorWith u (c : ℂ) := ⟨hu, hh, he⟩
  exact ⟨P.lie_h_pow_toEnd_f, P.lie_e_pow_succ_toEnd_f, fun m hm => P.pow_toEnd_f_ne_zero_of_eq_nat rfl hm,
    P.pow_toEnd_f_eq_zero_of_eq_nat rfl⟩

/-- The same for matrices. -/
theorem string {α : Type} [Fintype α] [DecidableEq α] {e f h : Matrix α α ℂ} (hef : e * f - f * e = h)
    (hhe : h * e - e * h = (2 : ℂ) • e) (hhf : h * f - f * h = -((2 : ℂ) • f)) {c : ℕ} {u : α → ℂ} (hu : u ≠ 0)
    (hh : h *ᵥ u = (c : ℂ) • u) (he : e *ᵥ u = 0) :
    (∀ m : ℕ, h *ᵥ (f ^ m *ᵥ u) = ((c : ℂ) - 2 * m) • (f ^ m *ᵥ u)) ∧
    (∀ m : ℕ, e *ᵥ (f ^ (m + 1) *ᵥ u) = (((m : ℂ) + 1) * (c - m)) • (f ^ m *ᵥ u)) ∧
    (∀ m ≤ c, f ^ m *ᵥ u ≠ 0) ∧ f ^ (c + 1) *ᵥ u = 0 := by
  by_cases h0 : h = 0
  · subst h0
    have e0 : e = 0 := by
      have := hhe.symm
      rw [Matrix.zero_mul, Matrix.mul_zero, sub_zero] at this
      exact (smul_eq_zero.1 this).resolve_left two_ne_zero
    have f0 : f = 0 := by
      have := hhf.symm
      rw [Matrix.zero_mul, Matrix.mul_zero, sub_zero, neg_eq_zero] at this
      exact (smul_eq_zero.1 this).resolve_left two_ne_zero
    have c0 : c = 0 := by
      rw [zero_mulVec] at hh
      exact_mod_cast (smul_eq_zero.1 hh.symm).resolve_right hu
    subst e0 f0 c0
    refine ⟨fun m => ?_, fun m => ?_, fun m hm => ?_, ?_⟩
    · rcases m with _ | m
      · simp
      · simp
    · rcases m with _ | m
      · simp
      · simp
    · obtain rfl : m = 0 := by omega
      simpa using hu
    · simp
  have toE : ∀ A B : Matrix α α ℂ, toLin' (A * B) = (toLin' A * toLin' B : Module.End ℂ (α → ℂ)) := fun A B => toLin'_mul A B
  have ev : ∀ m, ((toLin' f : Module.End ℂ (α → ℂ)) ^ m) u = f ^ m *ᵥ u := by
    intro m
    induction m with
    | zero => simp
    | succ m ih =>
      rw [pow_succ', Module.End.mul_apply, ih, pow_succ', ← mulVec_mulVec]
      rfl
  have := string_end (V := α → ℂ) (e := toLin' e) (f := toLin' f) (h := toLin' h)
    (by rw [← toE, ← toE, ← map_sub, hef]) (by rw [← toE, ← toE, ← map_sub, hhe, map_smul])
    (by rw [← toE, ← toE, ← map_sub, hhf, map_neg, map_smul])
    (fun e0 => h0 ((LinearEquiv.map_eq_zero_iff _).1 e0)) hu hh he
  simp only [ev] at this
  exact this

theorem mul_blocks {α ι : Type} {β : ι → Type} [Fintype ι] [DecidableEq ι] [∀ i, Fintype (β i)]
    (U : Matrix α (Σ i, β i) ℂ) (M : ∀ i, Matrix (β i) (β i) ℂ) (x : α) (k : ι) (m : β k) :
    (U * blockDiagonal' M) x ⟨k, m⟩ = ∑ m', U x ⟨k, m'⟩ * M k m' m := by
  rw [mul_apply, Fintype.sum_sigma, Finset.sum_eq_single k]
  · exact Finset.sum_congr rfl fun m' _ => by rw [blockDiagonal'_apply_eq]
  · intro j _ hj
    exact Finset.sum_eq_zero fun m' _ => by rw [blockDiagonal'_apply_ne _ _ _ hj, mul_zero]
  · simp

theorem cg_card (a b : ℕ) : ∑ k ∈ Finset.range (min a b + 1), (a + b - 2 * k + 1) = (a + 1) * (b + 1) := by
  suffices h : ∀ n ≤ min a b + 1, (∑ k ∈ Finset.range n, (a + b - 2 * k + 1)) + n * (n - 1) = n * (a + b + 1) by
    have := h _ le_rfl
    rcases le_total a b with hab | hab
    · rw [min_eq_left hab] at this ⊢
      simp only [Nat.add_sub_cancel] at this
      nlinarith
    · rw [min_eq_right hab] at this ⊢
      simp only [Nat.add_sub_cancel] at this
      nlinarith
  intro n hn
  induction n with
  | zero => simp
  | succ n ih =>
    have := ih (by omega)
    rw [Finset.sum_range_succ, Nat.add_sub_cancel]
    obtain ⟨d, hd⟩ : ∃ d, a + b = 2 * n + d := ⟨a + b - 2 * n, by omega⟩
    have e : a + b - 2 * n = d := by omega
    rw [e]
    rcases n with _ | n
    · simp at *; omega
    · simp only [Nat.add_sub_cancel] at this
      nlinarith

theorem cg_weights {N c c' m m' : ℕ} (hc : c ≤ N) (hc' : c' ≤ N) (hm : m ≤ c) (hm' : m' ≤ c')
    (h : ((2 * N + 1 : ℕ) : ℂ) * ((c : ℂ) * (c + 2)) + ((c : ℂ) - 2 * m) = ((2 * N + 1 : ℕ) : ℂ) * ((c' : ℂ) * (c' + 2)) + ((c' : ℂ) - 2 * m')) :
    c = c' ∧ m = m' := by
  have h' : ((2 * N + 1 : ℕ) : ℤ) * ((c : ℤ) * (c + 2)) + ((c : ℤ) - 2 * m) = ((2 * N + 1 : ℕ) : ℤ) * ((c' : ℤ) * (c' + 2)) + ((c' : ℤ) - 2 * m') := by
    exact_mod_cast h
  push_cast at h'
  have key : ∀ c c' m m' : ℤ, 0 ≤ c' → 0 ≤ m → 0 ≤ m' → c ≤ N → c' ≤ N → m ≤ c → m' ≤ c' →
      (2 * (N : ℤ) + 1) * (c * (c + 2)) + (c - 2 * m) = (2 * (N : ℤ) + 1) * (c' * (c' + 2)) + (c' - 2 * m') → c ≤ c' := by
    intro c c' m m' h1 h2 h3 h4 h5 h6 h7 he
    by_contra hlt
    have hN : (0 : ℤ) ≤ 2 * N + 1 := by positivity
    have : (1 : ℤ) ≤ c * (c + 2) - c' * (c' + 2) := by nlinarith
    have := mul_le_mul_of_nonneg_left this hN
    nlinarith
  have e1 := key c c' m m' (by positivity) (by positivity) (by positivity) (by exact_mod_cast hc) (by exact_mod_cast hc') (by exact_mod_cast hm)
    (by exact_mod_cast hm') h'
  have e2 := key c' c m' m (by positivity) (by positivity) (by positivity) (by exact_mod_cast hc') (by exact_mod_cast hc) (by exact_mod_cast hm')
    (by exact_mod_cast hm) h'.symm
  have e : (c : ℤ) = c' := le_antisymm e1 e2
  rw [e] at h'
  exact ⟨by exact_mod_cast e, by omega⟩

/-- Clebsch-Gordan: the product of two spins is a sum of spins. -/
theorem clebsch_gordan (a b : ℕ) :
    ∃ (U : Matrix (Fin (a + 1) × Fin (b + 1)) (Σ k : Fin (min a b + 1), Fin (a + b - 2 * k + 1)) ℂ)
      (V : Matrix (Σ k : Fin (min a b + 1), Fin (a + b - 2 * k + 1)) (Fin (a + 1) × Fin (b + 1)) ℂ),
      U * V = 1 ∧ V * U = 1 ∧ both (stdE a) (stdE b) * U = U * blockDiagonal' (fun k : Fin (min a b + 1) => stdE (a + b - 2 * k)) ∧
      both (stdF a) (stdF b) * U = U * blockDiagonal' (fun k : Fin (min a b + 1) => stdF (a + b - 2 * k)) ∧
      both (stdH a) (stdH b) * U = U * blockDiagonal' (fun k : Fin (min a b + 1) => stdH (a + b - 2 * k)) := by
  set e := both (stdE a) (stdE b) with he
  set f := both (stdF a) (stdF b) with hf
  set h := both (stdH a) (stdH b) with hh
  have hef : e * f - f * e = h := by rw [he, hf, both_comm, std_ef, std_ef]
  have hhe : h * e - e * h = (2 : ℂ) • e := by rw [he, hh, both_comm, std_he, std_he, both_smul]
  have hhf : h * f - f * h = -((2 : ℂ) • f) := by rw [hf, hh, both_comm, std_hf, std_hf, both_neg, both_smul]
  have hc : ∀ k : Fin (min a b + 1), ((a + b - 2 * k : ℕ) : ℂ) = (a + b : ℂ) - 2 * (k : ℕ) := by
    intro k
    have := k.2
    rw [Nat.cast_sub (by omega)]
    push_cast; rfl
  have str : ∀ k : Fin (min a b + 1), _ := fun k => string hef hhe hhf (topVec_ne a b (Nat.lt_succ_iff.1 k.2))
    ((topVec_h a b k).trans (by rw [hc])) (topVec_e a b (Nat.lt_succ_iff.1 k.2))
  let v : (Σ k : Fin (min a b + 1), Fin (a + b - 2 * k + 1)) → (Fin (a + 1) × Fin (b + 1) → ℂ) := fun x => f ^ (x.2 : ℕ) *ᵥ topVec a b x.1
  have hH : ∀ x, h *ᵥ v x = (((a + b - 2 * x.1 : ℕ) : ℂ) - 2 * (x.2 : ℕ)) • v x := fun x => (str x.1).1 x.2
  have hE : ∀ (k : Fin (min a b + 1)) (m : Fin (a + b - 2 * k + 1)),
      e *ᵥ v ⟨k, m⟩ = ((m : ℂ) * ((a + b - 2 * k : ℕ) - m + 1)) • (f ^ ((m : ℕ) - 1) *ᵥ topVec a b k) := by
    intro k m
    rcases Nat.eq_zero_or_pos (m : ℕ) with h0 | h0
    · change e *ᵥ (f ^ (m : ℕ) *ᵥ topVec a b k) = _
      rw [h0, pow_zero, one_mulVec, topVec_e a b (Nat.lt_succ_iff.1 k.2)]
      simp
    · obtain ⟨p, hp⟩ : ∃ p, (m : ℕ) = p + 1 := ⟨m - 1, by omega⟩
      have := (str k).2.1 p
      change e *ᵥ (f ^ (m : ℕ) *ᵥ topVec a b k) = _
      rw [hp, this, Nat.add_sub_cancel]
      congr 1
      push_cast; ring
  have hFE : ∀ x, (f * e) *ᵥ v x = ((x.2 : ℂ) * ((a + b - 2 * x.1 : ℕ) - x.2 + 1)) • v x := by
    rintro ⟨k, m⟩
    rw [← mulVec_mulVec, hE, mulVec_smul]
    rcases Nat.eq_zero_or_pos (m : ℕ) with h0 | h0
    · simp [h0]
    · congr 1
      change f *ᵥ _ = f ^ (m : ℕ) *ᵥ topVec a b k
      obtain ⟨p, hp⟩ : ∃ p, (m : ℕ) = p + 1 := ⟨m - 1, by omega⟩
      rw [hp, Nat.add_sub_cancel, mulVec_mulVec, ← pow_succ']
  have hind : LinearIndependent ℂ v := by
    refine Module.End.eigenvectors_linearIndependent' (toLin' (((2 * (a + b) + 1 : ℕ) : ℂ) • casim e f h + h))
      (fun x => ((2 * (a + b) + 1 : ℕ) : ℂ) * (((a + b - 2 * x.1 : ℕ) : ℂ) * ((a + b - 2 * x.1 : ℕ) + 2)) +
        (((a + b - 2 * x.1 : ℕ) : ℂ) - 2 * (x.2 : ℕ))) ?_ v ?_
    · rintro ⟨k, m⟩ ⟨k', m'⟩ hx
      obtain ⟨e1, e2⟩ := cg_weights (N := a + b) (by omega) (by omega) (by have := m.2; omega) (by have := m'.2; omega) hx
      have ek : k = k' := Fin.ext (by
        have := k.2
        have := k'.2
        simp only at e1
        omega)
      subst ek
      exact congrArg _ (Fin.ext e2)
    · intro x
      rw [Module.End.hasEigenvector_iff, Module.End.mem_eigenspace_iff]
      refine ⟨?_, (str x.1).2.2.1 x.2 (by have := x.2.2; omega)⟩
      rw [toLin'_apply, casim, add_mulVec, smul_mulVec, add_mulVec, add_mulVec, smul_mulVec, smul_mulVec, hFE, ← mulVec_mulVec, hH,
        mulVec_smul, hH]
      simp only [smul_smul, ← add_smul]
      congr 1
      ring
  have hcard : Fintype.card (Σ k : Fin (min a b + 1), Fin (a + b - 2 * k + 1)) = Module.finrank ℂ (Fin (a + 1) × Fin (b + 1) → ℂ) := by
    rw [Fintype.card_sigma, Module.finrank_fintype_fun_eq_card, Fintype.card_prod]
    simp only [Fintype.card_fin]
    rw [← cg_card a b, Finset.sum_range]
  have : Nonempty (Σ k : Fin (min a b + 1), Fin (a + b - 2 * k + 1)) := ⟨⟨0, 0⟩⟩
  let B := basisOfLinearIndependentOfCardEqFinrank hind hcard
  have hB : ∀ x, B x = v x := fun x => by rw [coe_basisOfLinearIndependentOfCardEqFinrank]
  have hcol : ∀ (A : Matrix (Fin (a + 1) × Fin (b + 1)) (Fin (a + 1) × Fin (b + 1)) ℂ) x y,
      (A * (Matrix.of fun x y => v y x)) x y = (A *ᵥ v y) x := fun A x y => rfl
  refine ⟨Matrix.of fun x y => v y x, B.toMatrix (Pi.basisFun ℂ _), ?_, ?_, ?_, ?_, ?_⟩
  · have := (Pi.basisFun ℂ (Fin (a + 1) × Fin (b + 1))).toMatrix_mul_toMatrix_flip B
    rw [← this]
    congr 1
    ext x y
    rw [Module.Basis.toMatrix_apply, Pi.basisFun_repr, hB]
    rfl
  · have := B.toMatrix_mul_toMatrix_flip (Pi.basisFun ℂ (Fin (a + 1) × Fin (b + 1)))
    rw [← this]
    congr 1
    ext x y
    rw [Module.Basis.toMatrix_apply, Pi.basisFun_repr, hB]
    rfl
  · ext x ⟨k, m⟩
    rw [hcol, mul_blocks, hE]
    simp only [of_apply, v]
    rcases Nat.eq_zero_or_pos (m : ℕ) with h0 | h0
    · rw [h0, Finset.sum_eq_zero]
      · simp
      · intro m' _
        rw [stdE, of_apply, if_neg (by omega), mul_zero]
    · have := sum_succ (m - 1 : ℕ) fun m' : Fin (a + b - 2 * k + 1) => (f ^ (m' : ℕ) *ᵥ topVec a b k) x * ((m : ℂ) * ((a + b - 2 * k : ℕ) - m + 1))
      rw [dif_pos (by have := m.2; omega)] at this
      rw [Pi.smul_apply, smul_eq_mul, mul_comm, ← this]
      refine Finset.sum_congr rfl fun m' _ => ?_
      rw [stdE, of_apply]
      by_cases hm : (m : ℕ) = m' + 1
      · rw [if_pos hm, if_pos (by omega), hm]
        push_cast; ring
      · rw [if_neg hm, if_neg (by omega), mul_zero]
  · ext x ⟨k, m⟩
    rw [hcol, mul_blocks]
    simp only [of_apply, v, stdF, mul_ite, mul_one, mul_zero]
    rw [sum_succ, mulVec_mulVec, ← pow_succ']
    split_ifs with h1
    · rfl
    · have : (m : ℕ) = a + b - 2 * k := by have := m.2; omega
      rw [this, (str k).2.2.2]
      rfl
  · ext x ⟨k, m⟩
    rw [hcol, mul_blocks, hH]
    simp only [of_apply, stdH, diagonal_apply, mul_ite, mul_zero, Finset.sum_ite_eq', Finset.mem_univ, if_true, Pi.smul_apply, smul_eq_mul]
    ring

end ED
