import Verif.Spec.Zn
import Mathlib.LinearAlgebra.Matrix.ConjTranspose
import Mathlib.Analysis.SpecialFunctions.Complex.Log
import Mathlib.Analysis.Complex.Trigonometric
import Mathlib.RingTheory.RootsOfUnity.Complex
import Mathlib.GroupTheory.Perm.Cycle.Basic
import Mathlib.Algebra.Order.Field.GeomSum

/-! # Cyclic projectors: exact algebra -/

namespace ED

open scoped BigOperators Matrix
open Classical

/-- The generator of the characters: `exp (-2 π i k / n)`. -/
noncomputable def omega (n k : ℕ) : ℂ := Complex.exp (-2 * Real.pi * Complex.I / n * k)

theorem omega_norm (n k : ℕ) : ‖omega n k‖ = 1 := by
  unfold omega
  have : (-2 * (Real.pi : ℂ) * Complex.I / n * k) = ((-2 * Real.pi / n * k : ℝ) : ℂ) * Complex.I := by
    push_cast
    ring
  rw [this, Complex.norm_exp_ofReal_mul_I]

theorem omega_conj (n k : ℕ) : (starRingEnd ℂ) (omega n k) * omega n k = 1 := by
  rw [mul_comm, Complex.mul_conj, Complex.normSq_eq_norm_sq, omega_norm]
  simp

theorem omega_pow_n {n : ℕ} (hn : n ≠ 0) (k : ℕ) : omega n k ^ n = 1 := by
  unfold omega
  rw [← Complex.exp_nat_mul, Complex.exp_eq_one_iff]
  refine ⟨-k, ?_⟩
  have : (n : ℂ) ≠ 0 := by exact_mod_cast hn
  field_simp
  push_cast
  ring

theorem omega_eq_pow (n k : ℕ) : omega n k = omega n 1 ^ k := by
  unfold omega
  rw [← Complex.exp_nat_mul]
  congr 1
  push_cast
  ring

theorem omega_primitive {n : ℕ} (hn : n ≠ 0) : IsPrimitiveRoot (omega n 1) n := by
  have h := (Complex.isPrimitiveRoot_exp n hn).inv
  have e : omega n 1 = (Complex.exp (2 * Real.pi * Complex.I / n))⁻¹ := by
    rw [← Complex.exp_neg]
    unfold omega
    congr 1
    push_cast
    ring
  rw [e]
  exact h

theorem omega_inj {n : ℕ} (hn : n ≠ 0) {k l : ℕ} (hk : k < n) (hl : l < n) (h : omega n k = omega n l) :
    k = l := by
  rw [omega_eq_pow n k, omega_eq_pow n l] at h
  exact (omega_primitive hn).pow_inj hk hl h

/-- Sum of the conjugate characters over the representations. -/
theorem omega_sum {n : ℕ} (hn : n ≠ 0) {l : ℕ} (hl : l < n) :
    ∑ k ∈ Finset.range n, (starRingEnd ℂ) (omega n k) ^ l = if l = 0 then (n : ℂ) else 0 := by
  by_cases h : l = 0
  · subst h
    simp
  rw [if_neg h]
  have hne : omega n 1 ^ l ≠ 1 := by
    intro h1
    have := (omega_primitive hn).pow_inj hl (by omega : 0 < n) (by rw [h1, pow_zero])
    exact h this
  have hsum : ∑ k ∈ Finset.range n, omega n k ^ l = 0 := by
    have e : ∀ k ∈ Finset.range n, omega n k ^ l = (omega n 1 ^ l) ^ k := by
      intro k _
      rw [omega_eq_pow n k, ← pow_mul, ← pow_mul, mul_comm]
    rw [Finset.sum_congr rfl e]
    have := mul_neg_geom_sum (omega n 1 ^ l) n
    rw [← pow_mul, mul_comm l n, pow_mul, omega_pow_n hn, one_pow, sub_self] at this
    rcases mul_eq_zero.1 this with h2 | h2
    · exact absurd (sub_eq_zero.1 h2).symm hne
    · exact h2
  have := congrArg (starRingEnd ℂ) hsum
  rw [map_sum, map_zero] at this
  rw [← this]
  exact Finset.sum_congr rfl fun k _ => by rw [map_pow]

variable {d : ℕ}

/-- An operator with the entries of a permutation with phases. -/
structure Mono (U : Matrix (Fin d) (Fin d) ℂ) (σ : Equiv.Perm (Fin d)) (u : Fin d → ℂ) : Prop where
  norm : ∀ i, ‖u i‖ = 1
  entry : ∀ i j, U i j = if j = σ i then u i else 0

namespace Mono

variable {U : Matrix (Fin d) (Fin d) ℂ} {σ : Equiv.Perm (Fin d)} {u : Fin d → ℂ}

theorem conj_mul (h : Mono U σ u) (i : Fin d) : u i * (starRingEnd ℂ) (u i) = 1 := by
  rw [Complex.mul_conj, Complex.normSq_eq_norm_sq, h.norm]
  simp

theorem ne_zero (h : Mono U σ u) (i : Fin d) : u i ≠ 0 := by
  intro h0
  have := h.norm i
  rw [h0] at this
  simp at this

theorem mul_entry (h : Mono U σ u) (M : Matrix (Fin d) (Fin d) ℂ) (i j : Fin d) : (U * M) i j = u i * M (σ i) j := by
  rw [Matrix.mul_apply, Finset.sum_eq_single (σ i)]
  · rw [h.entry, if_pos rfl]
  · intro b _ hb
    rw [h.entry, if_neg hb, zero_mul]
  · exact fun hh => absurd (Finset.mem_univ _) hh

theorem entry_mul (h : Mono U σ u) (M : Matrix (Fin d) (Fin d) ℂ) (i j : Fin d) :
    (M * U) i (σ j) = M i j * u j := by
  rw [Matrix.mul_apply, Finset.sum_eq_single j]
  · rw [h.entry, if_pos rfl]
  · intro b _ hb
    rw [h.entry, if_neg (fun hh => hb (σ.injective hh).symm), mul_zero]
  · exact fun hh => absurd (Finset.mem_univ _) hh

theorem unitary (h : Mono U σ u) : Uᴴ * U = 1 := by
  ext i j
  obtain ⟨j, rfl⟩ := σ.surjective j
  rw [h.entry_mul, Matrix.conjTranspose_apply, h.entry]
  by_cases e : i = σ j
  · rw [if_pos e, e, Matrix.one_apply_eq, mul_comm]
    exact h.conj_mul j
  · rw [if_neg e, Matrix.one_apply_ne e, star_zero, zero_mul]

/-- Powers have the entries of powers of the permutation. -/
theorem pow (h : Mono U σ u) (l : ℕ) : ∃ a : Fin d → ℂ, Mono (U ^ l) (σ ^ l) a := by
  induction l with
  | zero =>
    refine ⟨fun _ => 1, fun i => by simp, fun i j => ?_⟩
    rw [pow_zero, pow_zero, Matrix.one_apply]
    simp only [Equiv.Perm.one_apply, eq_comm]
  | succ l ih =>
    obtain ⟨a, ha⟩ := ih
    refine ⟨fun i => u i * a (σ i), fun i => ?_, fun i j => ?_⟩
    · rw [norm_mul, h.norm, ha.norm, one_mul]
    · rw [pow_succ' U, h.mul_entry, ha.entry, pow_succ σ, Equiv.Perm.mul_apply]
      by_cases e : j = (σ ^ l) (σ i)
      · rw [if_pos e, if_pos e]
      · rw [if_neg e, if_neg e, mul_zero]

end Mono

/-- The exact projector, times `n`. -/
noncomputable def exactProj (U : Matrix (Fin d) (Fin d) ℂ) (n k : ℕ) : Matrix (Fin d) (Fin d) ℂ :=
  ∑ l ∈ Finset.range n, (starRingEnd ℂ) (omega n k) ^ l • U ^ l

section Exact

variable {U : Matrix (Fin d) (Fin d) ℂ} {n : ℕ}

private theorem geom_fix {A : Type} [Ring A] {V : A} {n : ℕ} (h : V ^ n = 1) :
    V * ∑ l ∈ Finset.range n, V ^ l = ∑ l ∈ Finset.range n, V ^ l := by
  have := mul_neg_geom_sum V n
  rw [h, sub_self, sub_mul, one_mul, sub_eq_zero] at this
  exact this.symm

private theorem geom_fix' {A : Type} [Ring A] {V : A} {n : ℕ} (h : V ^ n = 1) :
    (∑ l ∈ Finset.range n, V ^ l) * V = ∑ l ∈ Finset.range n, V ^ l := by
  have := geom_sum_mul_neg V n
  rw [h, sub_self, mul_sub, mul_one, sub_eq_zero] at this
  exact this.symm

theorem exactProj_eq (k : ℕ) :
    exactProj U n k = ∑ l ∈ Finset.range n, ((starRingEnd ℂ) (omega n k) • U) ^ l := by
  unfold exactProj
  exact Finset.sum_congr rfl fun l _ => (smul_pow _ _ _).symm

private theorem twisted (hn : n ≠ 0) (hU : U ^ n = 1) (k : ℕ) : ((starRingEnd ℂ) (omega n k) • U) ^ n = 1 := by
  rw [smul_pow, hU, ← map_pow, omega_pow_n hn, map_one, one_smul]

private theorem untwist {X Y : Matrix (Fin d) (Fin d) ℂ} {n k : ℕ} (h : (starRingEnd ℂ) (omega n k) • X = Y) :
    X = omega n k • Y := by
  rw [← h, smul_smul, mul_comm, omega_conj, one_smul]

theorem exactProj_left (hn : n ≠ 0) (hU : U ^ n = 1) (k : ℕ) :
    U * exactProj U n k = omega n k • exactProj U n k := by
  have h := geom_fix (twisted hn hU k)
  rw [← exactProj_eq, Matrix.smul_mul] at h
  exact untwist h

theorem exactProj_right (hn : n ≠ 0) (hU : U ^ n = 1) (k : ℕ) :
    exactProj U n k * U = omega n k • exactProj U n k := by
  have h := geom_fix' (twisted hn hU k)
  rw [← exactProj_eq, Matrix.mul_smul] at h
  exact untwist h

theorem exactProj_sq (hn : n ≠ 0) (hU : U ^ n = 1) (k : ℕ) :
    exactProj U n k * exactProj U n k = (n : ℂ) • exactProj U n k := by
  have h := geom_fix (twisted hn hU k)
  rw [← exactProj_eq] at h
  have hp : ∀ l, ((starRingEnd ℂ) (omega n k) • U) ^ l * exactProj U n k = exactProj U n k := by
    intro l
    induction l with
    | zero => simp
    | succ l ih => rw [pow_succ, mul_assoc, h, ih]
  conv_lhs => rw [exactProj_eq, Finset.sum_mul]
  rw [← exactProj_eq, Finset.sum_congr rfl fun l _ => hp l, Finset.sum_const, Finset.card_range]
  rw [← Nat.cast_smul_eq_nsmul ℂ]

theorem exactProj_orth (hn : n ≠ 0) (hU : U ^ n = 1) {k k' : ℕ} (hk : k < n) (hk' : k' < n) (h : k ≠ k') :
    exactProj U n k * exactProj U n k' = 0 := by
  have h1 : exactProj U n k * (U * exactProj U n k') = omega n k' • (exactProj U n k * exactProj U n k') := by
    rw [exactProj_left hn hU, Matrix.mul_smul]
  rw [← mul_assoc, exactProj_right hn hU, Matrix.smul_mul, ← sub_eq_zero, ← sub_smul] at h1
  rcases smul_eq_zero.1 h1 with h2 | h2
  · exact absurd (omega_inj hn hk hk' (sub_eq_zero.1 h2)) h
  · exact h2

theorem exactProj_sum (hn : n ≠ 0) :
    ∑ k ∈ Finset.range n, exactProj U n k = (n : ℂ) • (1 : Matrix (Fin d) (Fin d) ℂ) := by
  unfold exactProj
  rw [Finset.sum_comm, Finset.sum_eq_single 0]
  · rw [← Finset.sum_smul, omega_sum hn (by omega), if_pos rfl, pow_zero]
  · intro l hl h
    rw [← Finset.sum_smul, omega_sum hn (Finset.mem_range.1 hl), if_neg h, zero_smul]
  · intro h
    exact absurd (Finset.mem_range.2 (by omega)) h

theorem exactProj_star {σ : Equiv.Perm (Fin d)} {u : Fin d → ℂ} (hm : Mono U σ u) (hn : n ≠ 0) (hU : U ^ n = 1)
    (k : ℕ) : (exactProj U n k)ᴴ = exactProj U n k := by
  set V := (starRingEnd ℂ) (omega n k) • U with hV
  have hfix : V * exactProj U n k = exactProj U n k := by
    rw [exactProj_eq]
    exact geom_fix (twisted hn hU k)
  have hVV : Vᴴ * V = 1 := by
    rw [hV, Matrix.conjTranspose_smul, Matrix.smul_mul, Matrix.mul_smul, smul_smul, hm.unitary]
    rw [show star ((starRingEnd ℂ) (omega n k)) * (starRingEnd ℂ) (omega n k) = 1 by
      rw [← starRingEnd_apply, Complex.conj_conj, mul_comm, omega_conj], one_smul]
  have hfix' : Vᴴ * exactProj U n k = exactProj U n k := by
    conv_lhs => rw [← hfix, ← mul_assoc, hVV, one_mul]
  have hp : ∀ l, (Vᴴ) ^ l * exactProj U n k = exactProj U n k := by
    intro l
    induction l with
    | zero => simp
    | succ l ih => rw [pow_succ, mul_assoc, hfix', ih]
  have hstar : (exactProj U n k)ᴴ * exactProj U n k = (n : ℂ) • exactProj U n k := by
    conv_lhs => rw [exactProj_eq, Matrix.conjTranspose_sum, Finset.sum_mul]
    rw [← exactProj_eq, Finset.sum_congr rfl fun l _ => by rw [Matrix.conjTranspose_pow, hp l], Finset.sum_const,
      Finset.card_range, ← Nat.cast_smul_eq_nsmul ℂ]
  have hc : (n : ℂ) ≠ 0 := by exact_mod_cast hn
  have h2 := congrArg Matrix.conjTranspose hstar
  rw [Matrix.conjTranspose_mul, Matrix.conjTranspose_conjTranspose, hstar, Matrix.conjTranspose_smul] at h2
  rw [show star (n : ℂ) = n by simp] at h2
  exact (smul_right_injective _ hc h2).symm

end Exact

end ED
