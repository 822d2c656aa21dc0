import Verif.Lemmas.SpinRotation
import Verif.Lemmas.SpinAlg
import Verif.Lemmas.SpinCluster
import Verif.Lemmas.NearAverage
import Verif.Props.ParticleHole
import Mathlib.LinearAlgebra.Matrix.NonsingularInverse

/-! # Reversal of time -/

namespace ED

open Matrix

section Levels

variable {ι κ : Type} [Fintype ι] [DecidableEq ι] [Fintype κ] [DecidableEq κ]

/-- If reversing time twice changes the sign of every state, and does not change the Hamiltonian, the number of states of every energy is
even. -/
theorem even_level {H Y : Matrix ι ι ℂ} (hY : Yᴴ * Y = 1) (ht : Yᵀ = -Y) (hc : H * Y = Y * Hᵀ) {V : Matrix ι κ ℂ} {E : κ → ℝ} (h1 : Vᴴ * V = 1)
    (h2 : V * Vᴴ = 1) (h3 : H * V = V * diagonal fun k => (E k : ℂ)) (e : ℝ) : Even (Fintype.card {k // E k = e}) := by
  have h3' : Vᴴ * H = diagonal (fun k => (E k : ℂ)) * Vᴴ := by
    calc Vᴴ * H = Vᴴ * H * (V * Vᴴ) := by rw [h2, Matrix.mul_one]
      _ = Vᴴ * (H * V) * Vᴴ := by simp only [Matrix.mul_assoc]
      _ = _ := by rw [h3, ← Matrix.mul_assoc, h1, Matrix.one_mul]
  set B : Matrix κ κ ℂ := Vᴴ * Y * Vᴴᵀ with hB
  have bt : Bᵀ = -B := by
    rw [hB, transpose_mul, transpose_mul, transpose_transpose, ht, Matrix.neg_mul, Matrix.mul_neg, Matrix.mul_assoc]
  have hu : Vᴴᵀ * (Vᴴᵀ)ᴴ = 1 := by
    have : (Vᴴᵀ)ᴴ = Vᵀ := by
      ext i j
      simp [conjTranspose_apply, transpose_apply]
    rw [this, ← transpose_mul, h2, transpose_one]
  have hu' : (Vᴴᵀ)ᴴ * Vᴴᵀ = 1 := by
    have : (Vᴴᵀ)ᴴ = Vᵀ := by
      ext i j
      simp [conjTranspose_apply, transpose_apply]
    rw [this, ← transpose_mul, h1, transpose_one]
  have hY' : Y * Yᴴ = 1 := mul_eq_one_comm.1 hY
  have bu : B * Bᴴ = 1 := by
    rw [hB, conjTranspose_mul, conjTranspose_mul, conjTranspose_conjTranspose]
    calc Vᴴ * Y * Vᴴᵀ * ((Vᴴᵀ)ᴴ * (Yᴴ * V)) = Vᴴ * Y * (Vᴴᵀ * (Vᴴᵀ)ᴴ) * Yᴴ * V := by simp only [Matrix.mul_assoc]
      _ = Vᴴ * (Y * Yᴴ) * V := by rw [hu, Matrix.mul_one]; simp only [Matrix.mul_assoc]
      _ = 1 := by rw [hY', Matrix.mul_one, h1]
  have bd : diagonal (fun k => (E k : ℂ)) * B = B * diagonal fun k => (E k : ℂ) := by
    calc diagonal (fun k => (E k : ℂ)) * B = Vᴴ * (H * Y) * Vᴴᵀ := by rw [hB]; simp only [← Matrix.mul_assoc]; rw [← h3']
      _ = Vᴴ * Y * (Vᴴ * H)ᵀ := by rw [hc, transpose_mul]; simp only [Matrix.mul_assoc]
      _ = _ := by rw [h3', transpose_mul, diagonal_transpose, hB]; simp only [Matrix.mul_assoc]
  have bz : ∀ k l, E k ≠ E l → B k l = 0 := by
    intro k l hkl
    have h := congrFun (congrFun bd k) l
    rw [diagonal_mul, mul_diagonal, mul_comm] at h
    have : B k l * ((E k : ℂ) - E l) = 0 := by rw [mul_sub, h, sub_self]
    rcases mul_eq_zero.1 this with h | h
    · exact h
    · exact absurd (Complex.ofReal_injective (sub_eq_zero.1 h)) hkl
  set C : Matrix {k // E k = e} {k // E k = e} ℂ := B.submatrix Subtype.val Subtype.val with hC
  have ct : Cᵀ = -C := by
    rw [hC, transpose_submatrix, bt]
    rfl
  have cu : C * Cᴴ = 1 := by
    ext k l
    have h := congrFun (congrFun bu k.1) l.1
    rw [mul_apply] at h ⊢
    simp only [conjTranspose_apply, hC, submatrix_apply] at h ⊢
    rw [one_apply] at h ⊢
    rw [if_congr (Subtype.ext_iff (a1 := k) (a2 := l)) rfl rfl, ← h]
    rw [← Finset.sum_filter_of_ne (p := fun x => E x = e) (fun x _ hx => by
      by_contra hne
      exact hx (by rw [bz k.1 x (fun h' => hne (h' ▸ k.2)), zero_mul]))]
    exact (Finset.sum_subtype (p := fun x => E x = e) (Finset.univ.filter fun x => E x = e) (by simp) fun x => B k.1 x * star (B l.1 x)).symm
  have hdet : C.det ≠ 0 := by
    intro h0
    have := congrArg det cu
    rw [det_mul, h0, zero_mul, det_one] at this
    exact zero_ne_one this
  have h := congrArg det ct
  rw [det_transpose, det_neg] at h
  rcases Nat.even_or_odd (Fintype.card {k // E k = e}) with h' | h'
  · exact h'
  · rw [h'.neg_one_pow] at h
    exact absurd (by linear_combination (1 / 2 : ℂ) * h) hdet

/-- If reversing time does not change the Hamiltonian and changes the sign of an operator, the average of this operator vanishes. -/
theorem average_reversed {H Y O : Matrix ι ι ℂ} (hH : H.IsHermitian) (hY : Yᴴ * Y = 1) (hc : H * Y = Y * Hᵀ) (ho : O * Y = -(Y * Oᵀ)) {m : ℕ}
    {V : Matrix ι (Fin (m + 1)) ℂ} {E : Fin (m + 1) → ℝ} (h1 : Vᴴ * V = 1)
    (h2 : V * Vᴴ = 1) (h3 : H * V = V * diagonal fun k => (E k : ℂ)) (T : ℝ) :
    canonical T E (fun k => (expect O (colOf V k)).re) = 0 := by
  have hY' : Y * Yᴴ = 1 := mul_eq_one_comm.1 hY
  have key : ∀ T : ℝ, T ≠ 0 → canonical T E (fun k => (expect O (colOf V k)).re) = 0 := by
    intro T hT
    rw [← thermalAvg_eig h1 h2 h3 _ hT]
    have e1 : Y * Hᵀ * Yᴴ = H := by rw [← hc, Matrix.mul_assoc, hY', Matrix.mul_one]
    have e2 : Y * Oᵀ * Yᴴ = -O := by
      have : Y * Oᵀ = -(O * Y) := by rw [ho, neg_neg]
      rw [this, Matrix.neg_mul, Matrix.mul_assoc, hY', Matrix.mul_one]
    have h := thermalAvg_unitary hY' hY hH.transpose Oᵀ hT
    rw [e1, e2, thermalAvg_transpose] at h
    have : thermalAvg H (-O) T = -thermalAvg H O T := by
      unfold thermalAvg
      rw [Matrix.mul_neg, trace_neg, Complex.neg_re]
    rw [this] at h
    linarith
  by_cases hT : T = 0
  · subst hT
    refine tendsto_nhds_unique_of_eventuallyEq (Props.canonical_limit E _) tendsto_const_nhds ?_
    filter_upwards [self_mem_nhdsWithin] with T hT
    exact key T (ne_of_gt hT)
  · exact key T hT

end Levels

/-! ## Spins -/

/-- Reversal of a spin. -/
def reverseSite (d : ℕ) : Matrix (Fin (d + 1)) (Fin (d + 1)) ℂ := Matrix.of fun i j => if (i : ℕ) + j = d then (-1) ^ (i : ℕ) else 0

theorem reverseSite_transpose (d : ℕ) : (reverseSite d)ᵀ = (-1 : ℂ) ^ d • reverseSite d := by
  ext i j
  rw [transpose_apply, Matrix.smul_apply, smul_eq_mul]
  simp only [reverseSite, of_apply]
  by_cases h : (i : ℕ) + j = d
  · have e : (-1 : ℂ) ^ d = (-1) ^ (i : ℕ) * (-1) ^ (j : ℕ) := by rw [← pow_add, h]
    rw [if_pos h, if_pos (by omega), e, mul_right_comm, ← pow_add, ← two_mul, pow_mul, neg_one_sq, one_pow, one_mul]
  · rw [if_neg h, if_neg (by omega), mul_zero]

theorem reverseSite_entry (d : ℕ) (X : Matrix (Fin (d + 1)) (Fin (d + 1)) ℂ) (i j : Fin (d + 1)) :
    (reverseSite d * X) i j = (-1) ^ (i : ℕ) * X i.rev j := by
  rw [mul_apply, Finset.sum_eq_single i.rev]
  · simp only [reverseSite, of_apply]
    rw [if_pos (by rw [Fin.val_rev]; omega)]
  · intro k _ hk
    simp only [reverseSite, of_apply]
    rw [if_neg, zero_mul]
    intro h
    exact hk (Fin.ext (by rw [Fin.val_rev]; omega))
  · simp

theorem entry_reverseSite (d : ℕ) (X : Matrix (Fin (d + 1)) (Fin (d + 1)) ℂ) (i j : Fin (d + 1)) :
    (X * reverseSite d) i j = X i j.rev * (-1) ^ (j.rev : ℕ) := by
  rw [mul_apply, Finset.sum_eq_single j.rev]
  · simp only [reverseSite, of_apply]
    rw [if_pos (by rw [Fin.val_rev]; omega)]
  · intro k _ hk
    simp only [reverseSite, of_apply]
    rw [if_neg, mul_zero]
    intro h
    exact hk (Fin.ext (by rw [Fin.val_rev]; omega))
  · simp

theorem reverseSite_unitary (d : ℕ) : (reverseSite d)ᴴ * reverseSite d = 1 := by
  ext i j
  rw [entry_reverseSite, conjTranspose_apply, one_apply]
  simp only [reverseSite, of_apply]
  by_cases h : i = j
  · subst h
    rw [if_pos (by rw [Fin.val_rev]; omega), if_pos rfl, star_pow, star_neg, star_one, ← pow_add, ← two_mul, pow_mul, neg_one_sq, one_pow]
  · rw [if_neg, star_zero, zero_mul, if_neg h]
    intro h'
    exact h (Fin.ext (by rw [Fin.val_rev] at h'; omega))

theorem reverse_sz (d : ℕ) : szM d * reverseSite d = -(reverseSite d * (szM d)ᵀ) := by
  rw [szM_transpose]
  ext i j
  rw [Matrix.neg_apply, entry_reverseSite, reverseSite_entry]
  simp only [szM, diagonal_apply]
  by_cases h : (i : ℕ) + j = d
  · rw [if_pos (Fin.ext (by rw [Fin.val_rev]; omega)), if_pos (Fin.ext (by rw [Fin.val_rev]; omega)), Fin.val_rev, Fin.val_rev,
      show d + 1 - ((i : ℕ) + 1) = j by omega, show d + 1 - ((j : ℕ) + 1) = i by omega]
    have e : (d : ℝ) = i + j := by exact_mod_cast h.symm
    rw [e]
    push_cast
    ring
  · rw [if_neg (fun e => h (by rw [e, Fin.val_rev]; omega)), if_neg (fun e => h (by rw [← e, Fin.val_rev]; omega)), zero_mul, mul_zero, neg_zero]

theorem reverse_sp (d : ℕ) : spM d * reverseSite d = -(reverseSite d * (spM d)ᵀ) := by
  rw [spM_transpose]
  ext i j
  rw [Matrix.neg_apply, entry_reverseSite, reverseSite_entry]
  simp only [spM, smM, of_apply]
  by_cases h : (i : ℕ) + j = d + 1
  · rw [if_pos (by rw [Fin.val_rev]; omega), if_pos (by rw [Fin.val_rev]; omega), Fin.val_rev, Fin.val_rev]
    obtain ⟨k, hk⟩ : ∃ k, (i : ℕ) = k + 1 := ⟨i - 1, by omega⟩
    rw [show d + 1 - ((i : ℕ) + 1) = d - i by omega, show d + 1 - ((j : ℕ) + 1) = k by omega, hk, pow_succ]
    have e : ((d - (k + 1) : ℕ) : ℝ) = d - (k + 1) := by rw [Nat.cast_sub (by omega)]; push_cast; rfl
    rw [e]
    have : ((k : ℝ) + 1) * (d - k) = ((d : ℝ) - (k + 1) + 1) * (d - (d - (k + 1))) := by ring
    rw [this]
    ring
  · rw [if_neg, if_neg, zero_mul, mul_zero, neg_zero]
    · rw [Fin.val_rev]; omega
    · rw [Fin.val_rev]; omega

theorem reverse_sm (d : ℕ) : smM d * reverseSite d = -(reverseSite d * (smM d)ᵀ) := by
  rw [smM_transpose]
  ext i j
  rw [Matrix.neg_apply, entry_reverseSite, reverseSite_entry]
  simp only [spM, smM, of_apply]
  by_cases h : (i : ℕ) + j + 1 = d
  · rw [if_pos (by rw [Fin.val_rev]; omega), if_pos (by rw [Fin.val_rev]; omega), Fin.val_rev]
    rw [show d + 1 - ((j : ℕ) + 1) = i + 1 by omega, pow_succ]
    have e : (d : ℝ) = i + j + 1 := by exact_mod_cast h.symm
    have : ((i : ℝ) + 1) * (d - i) = ((j : ℝ) + 1) * (d - j) := by rw [e]; ring
    rw [this]
    ring
  · rw [if_neg, if_neg, zero_mul, mul_zero, neg_zero]
    · rw [Fin.val_rev]; omega
    · rw [Fin.val_rev]; omega

theorem reverse_sx (d : ℕ) : sxM d * reverseSite d = -(reverseSite d * (sxM d)ᵀ) := by
  rw [sxM, transpose_smul, transpose_add, Matrix.smul_mul, Matrix.mul_smul, Matrix.add_mul, Matrix.mul_add, reverse_sp, reverse_sm, ← smul_neg, neg_add]

theorem reverse_sy (d : ℕ) : syM d * reverseSite d = -(reverseSite d * (syM d)ᵀ) := by
  rw [syM, transpose_smul, transpose_smul, transpose_sub, Matrix.smul_mul, Matrix.smul_mul, Matrix.mul_smul, Matrix.mul_smul, Matrix.sub_mul, Matrix.mul_sub,
    reverse_sp, reverse_sm, ← smul_neg, ← smul_neg, neg_sub, sub_neg_eq_add, neg_add_eq_sub]

/-- Reversal of all spins. -/
def reverseSpins (n d : ℕ) : Op n (d + 1) := tensor fun _ => reverseSite d

theorem reverseSpins_unitary (n d : ℕ) : (reverseSpins n d)ᴴ * reverseSpins n d = 1 := by
  unfold reverseSpins
  rw [tensor_conjTranspose, tensor_mul]
  simp only [reverseSite_unitary, tensor_one]

theorem reverseSpins_transpose (n d : ℕ) : (reverseSpins n d)ᵀ = (-1 : ℂ) ^ (d * n) • reverseSpins n d := by
  ext s t
  rw [transpose_apply, Matrix.smul_apply, smul_eq_mul]
  simp only [reverseSpins, tensor, of_apply]
  have : ∀ i, reverseSite d (t i) (s i) = (-1 : ℂ) ^ d * reverseSite d (s i) (t i) := fun i => by
    have := congrFun (congrFun (reverseSite_transpose d) (s i)) (t i)
    rwa [transpose_apply, Matrix.smul_apply, smul_eq_mul] at this
  simp only [this, Finset.prod_mul_distrib, Finset.prod_const, Finset.card_univ, Fintype.card_fin, ← pow_mul]

theorem reverseSpins_site {n d : ℕ} {X : Matrix (Fin (d + 1)) (Fin (d + 1)) ℂ} (h : X * reverseSite d = -(reverseSite d * Xᵀ)) (i : Fin n) :
    siteOp X i * reverseSpins n d = -(reverseSpins n d * (siteOp X i)ᵀ) := by
  have ht : (siteOp X i : Op n (d + 1))ᵀ = tensor fun k => (fam1 i X 1 k)ᵀ := by
    rw [siteOp_eq_bop]
    ext s t
    simp only [bop, tensor, transpose_apply, of_apply]
  rw [ht, siteOp_eq_bop, bop, reverseSpins, tensor_mul, tensor_mul]
  refine tensor_update_neg _ i _ ?_ fun j hj => ?_
  · simp [fam1, h]
  · have : (j : ℕ) ≠ i := fun h => hj (Fin.ext h)
    simp only [fam1, if_neg this]
    split_ifs <;> simp

end ED
