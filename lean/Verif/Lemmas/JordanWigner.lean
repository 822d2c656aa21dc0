import Verif.Lemmas.Swap
import Verif.Lemmas.Spins
import Verif.Spec.Hubbard
import Mathlib.Tactic.FinCases
import Mathlib.Algebra.BigOperators.Field

/-! # Lemmas: fermions on a chain and spins -/

namespace ED

open scoped BigOperators
open Matrix

variable {N : ℕ}

/-- The parity string between two modes. -/
theorem bop2_string {j i : Fin N} (h : j < i) (A B : Matrix (Fin 2) (Fin 2) ℂ) (s t : Conf N 2) :
    bop2 j i A Ploc B s t =
      (-1) ^ (Finset.univ.filter fun k => (j < k ∧ k < i) ∧ t k = 1).card * bop2 j i A 1 B s t := by
  have hji : (j : ℕ) < i := h
  simp only [bop2, tensor, Matrix.of_apply]
  have key : ∀ k, fam2 (N := N) j i A Ploc B k (s k) (t k) =
      (if (j < k ∧ k < i) ∧ t k = 1 then -1 else 1) * fam2 (N := N) j i A 1 B k (s k) (t k) := by
    intro k
    by_cases hb : (j : ℕ) < k ∧ (k : ℕ) < i
    · have f : ∀ g, fam2 (N := N) j i A g B k = g := by
        intro g
        unfold fam2
        split_ifs <;> first | omega | rfl
      rw [f, f, Ploc_apply, Matrix.one_apply]
      have hb' : j < k ∧ k < i := hb
      simp only [hb', true_and, and_self]
      split_ifs <;> simp_all
    · have f : fam2 (N := N) j i A Ploc B k = fam2 (N := N) j i A 1 B k := by
        unfold fam2
        split_ifs <;> first | omega | rfl
      rw [f, if_neg (fun h => hb h.1), one_mul]
  rw [Finset.prod_congr rfl fun k _ => key k, Finset.prod_mul_distrib, Finset.prod_ite, Finset.prod_const,
    Finset.prod_const_one, mul_one]

theorem hop_entry {j i : Fin N} (h : j < i) (s t : Conf N 2) :
    (create i * annih j + create j * annih i) s t =
      (-1) ^ (Finset.univ.filter fun k => (j < k ∧ k < i) ∧ t k = 1).card *
        ((1 / 2 : ℂ) * ((siteOp sigmaX i * siteOp sigmaX j) s t + (siteOp sigmaY i * siteOp sigmaY j) s t)) := by
  have e1 : cdl * Ploc = cdl := by
    rw [cdl_eq, Ploc_eq]; ext a b; fin_cases a <;> fin_cases b <;> simp [Matrix.mul_apply, Fin.sum_univ_two]
  have e2 : Ploc * cl = cl := by
    rw [cl_eq, Ploc_eq]; ext a b; fin_cases a <;> fin_cases b <;> simp [Matrix.mul_apply, Fin.sum_univ_two]
  rw [Matrix.add_apply, ← fop_cdl, ← fop_cl, ← fop_cdl, ← fop_cl, fop_mul_gt h, fop_mul_lt h, e1, e2, bop2_string h,
    bop2_string h, ← mul_add]
  congr 1
  rw [siteOp_eq_bop, siteOp_eq_bop, siteOp_eq_bop, siteOp_eq_bop, bop_mul_gt h, bop_mul_gt h, bop2_apply h,
    bop2_apply h, bop2_apply h, bop2_apply h]
  split_ifs
  · generalize s i = a
    generalize t i = b
    generalize s j = c
    generalize t j = d
    rw [cl_eq, cdl_eq]
    fin_cases a <;> fin_cases b <;> fin_cases c <;> fin_cases d <;> simp [sigmaX, sigmaY] <;> norm_num
  · simp

/-- A hop changes exactly one of the two occupations. -/
theorem hop_support {j i : Fin N} (h : j < i) {s t : Conf N 2}
    (hne : (siteOp sigmaX i * siteOp sigmaX j : Op N 2) s t + (siteOp sigmaY i * siteOp sigmaY j : Op N 2) s t ≠ 0) :
    (t i = 1 ↔ t j = 0) := by
  rw [siteOp_eq_bop, siteOp_eq_bop, siteOp_eq_bop, siteOp_eq_bop, bop_mul_gt h, bop_mul_gt h, bop2_apply h,
    bop2_apply h] at hne
  split_ifs at hne
  · revert hne
    generalize s i = a
    generalize t i = b
    generalize s j = c
    generalize t j = d
    fin_cases a <;> fin_cases b <;> fin_cases c <;> fin_cases d <;> simp [sigmaX, sigmaY]
  · simp at hne

/-- Hopping between neighbours. -/
theorem hop_next {j i : Fin N} (h : (i : ℕ) = j + 1) (s t : Conf N 2) :
    (create i * annih j + create j * annih i) s t =
      (1 / 2 : ℂ) * ((siteOp sigmaX i * siteOp sigmaX j) s t + (siteOp sigmaY i * siteOp sigmaY j) s t) := by
  rw [hop_entry (Fin.lt_def.2 (by omega))]
  rw [Finset.filter_eq_empty_iff.2, Finset.card_empty, pow_zero, one_mul]
  rintro k - ⟨⟨h1, h2⟩, -⟩
  rw [Fin.lt_def] at h1 h2
  omega

/-- Hopping between the ends of the chain. -/
theorem hop_ends {j i : Fin N} (hj : (j : ℕ) = 0) (hi : (i : ℕ) + 1 = N) (h : j < i) (s t : Conf N 2) :
    (create i * annih j + create j * annih i) s t = (if _root_.Odd (occ t) then 1 else -1) *
      ((1 / 2 : ℂ) * ((siteOp sigmaX i * siteOp sigmaX j) s t + (siteOp sigmaY i * siteOp sigmaY j) s t)) := by
  rw [hop_entry h]
  by_cases h0 : (siteOp sigmaX i * siteOp sigmaX j : Op N 2) s t + (siteOp sigmaY i * siteOp sigmaY j : Op N 2) s t = 0
  · rw [h0]; simp
  congr 1
  have hs := hop_support h h0
  have hcard : occ t = (Finset.univ.filter fun k => (j < k ∧ k < i) ∧ t k = 1).card + 1 := by
    unfold occ
    obtain ⟨e, he, he'⟩ : ∃ e, t e = 1 ∧ ∀ k, t k = 1 ↔ (k = e ∨ ((j < k ∧ k < i) ∧ t k = 1)) ∧ ¬ (j < e ∧ e < i) := by
      have hk : ∀ k : Fin N, k = j ∨ k = i ∨ (j < k ∧ k < i) := by
        intro k
        have := k.2
        simp only [Fin.ext_iff, Fin.lt_def]
        omega
      by_cases ht : t i = 1
      · have hj0 := hs.1 ht
        refine ⟨i, ht, fun k => ?_⟩
        simp only [lt_irrefl, and_false, not_false_eq_true, and_true]
        rcases hk k with rfl | rfl | hk
        · simp [hj0, h.ne]
        · simp [ht]
        · simp [hk, (hk.2).ne]
      · have hj1 : t j = 1 := by
          have : t j ≠ 0 := fun e => ht (hs.2 e)
          omega
        refine ⟨j, hj1, fun k => ?_⟩
        simp only [lt_irrefl, false_and, not_false_eq_true, and_true]
        rcases hk k with rfl | rfl | hk
        · simp [hj1]
        · simp [ht, h.ne']
        · simp [hk, (hk.1).ne']
    have : (Finset.univ.filter fun k => t k = 1) =
        insert e (Finset.univ.filter fun k => (j < k ∧ k < i) ∧ t k = 1) := by
      ext k
      simp only [Finset.mem_filter, Finset.mem_univ, true_and, Finset.mem_insert]
      exact ⟨fun hk => ((he' k).1 hk).1, fun hk => hk.elim (fun e' => e' ▸ he) fun h => h.2⟩
    rw [this, Finset.card_insert_of_notMem]
    simp only [Finset.mem_filter, Finset.mem_univ, true_and, not_and]
    intro hh
    exact absurd hh ((he' e).1 he).2
  rw [hcard]
  generalize (Finset.univ.filter fun k => (j < k ∧ k < i) ∧ t k = 1).card = m
  rcases Nat.even_or_odd m with hm | hm
  · rw [hm.neg_one_pow, if_pos hm.add_one]
  · rw [hm.neg_one_pow, if_neg (Nat.not_odd_iff_even.2 hm.add_one)]

/-! ### The diagonal terms -/

theorem sum_below (n : ℕ) (f : Fin n → Fin n → ℂ) :
    ∑ i, ∑ j, (if j ≤ i then f i j else 0) = (∑ i, ∑ j, if j < i then f i j else 0) + ∑ i, f i i := by
  rw [← Finset.sum_add_distrib]
  refine Finset.sum_congr rfl fun i _ => ?_
  have : ∀ j, (if j ≤ i then f i j else 0) = (if j < i then f i j else 0) + if j = i then f i i else 0 := by
    intro j
    rcases lt_trichotomy j i with h | h | h
    · simp [h, h.le, h.ne]
    · subst h; simp
    · simp [h.not_ge, h.le.not_gt, h.ne']
  rw [Finset.sum_congr rfl fun j _ => this j, Finset.sum_add_distrib, Finset.sum_ite_eq' Finset.univ i]
  simp

theorem diagonal_terms (n : ℕ) (W : Fin n → Fin n → ℂ) (V z : Fin n → ℂ) (hz : ∀ i, z i * z i = 1) :
    (∑ i, ∑ j, if j ≤ i then W i j * (((1 - z i) / 2) * ((1 - z j) / 2)) else 0) + ∑ i, V i * ((1 - z i) / 2) =
      (∑ i, ∑ j, if j < i then 1 / 2 * (W i j / 2 * (z i * z j)) else 0) -
        (∑ i, 1 / 2 * (((∑ j, if j < i then W i j else if i < j then W j i else 0) / 2 + W i i + V i) * z i)) +
        ((∑ i, ∑ j, if j < i then W i j else 0) / 4 + (∑ i, (W i i + V i)) / 2) := by
  rw [sum_below]
  have e1 : ∑ i, W i i * ((1 - z i) / 2 * ((1 - z i) / 2)) = ∑ i, W i i * ((1 - z i) / 2) := by
    refine Finset.sum_congr rfl fun i _ => ?_
    linear_combination (W i i / 4) * hz i
  have e2 : ∑ i, ∑ j, (if j < i then W i j * (((1 - z i) / 2) * ((1 - z j) / 2)) else 0) =
      (∑ i, ∑ j, if j < i then 1 / 2 * (W i j / 2 * (z i * z j)) else 0) -
        (∑ i, ∑ j, if j < i then W i j / 4 * z i else 0) - (∑ i, ∑ j, if j < i then W i j / 4 * z j else 0) +
        (∑ i, ∑ j, if j < i then W i j else 0) / 4 := by
    rw [Finset.sum_div, ← Finset.sum_sub_distrib, ← Finset.sum_sub_distrib, ← Finset.sum_add_distrib]
    refine Finset.sum_congr rfl fun i _ => ?_
    rw [Finset.sum_div, ← Finset.sum_sub_distrib, ← Finset.sum_sub_distrib, ← Finset.sum_add_distrib]
    refine Finset.sum_congr rfl fun j _ => ?_
    split_ifs
    · ring
    · simp
  have e3 : (∑ i, ∑ j, if j < i then W i j / 4 * z j else 0) = ∑ i, ∑ j, if i < j then W j i / 4 * z i else 0 :=
    Finset.sum_comm
  have e4 : (∑ i, 1 / 2 * (((∑ j, if j < i then W i j else if i < j then W j i else 0) / 2 + W i i + V i) * z i)) =
      (∑ i, ∑ j, if j < i then W i j / 4 * z i else 0) + (∑ i, ∑ j, if i < j then W j i / 4 * z i else 0) +
        ∑ i, 1 / 2 * ((W i i + V i) * z i) := by
    rw [← Finset.sum_add_distrib, ← Finset.sum_add_distrib]
    refine Finset.sum_congr rfl fun i _ => ?_
    have : (∑ j, if j < i then W i j / 4 * z i else 0) + (∑ j, if i < j then W j i / 4 * z i else 0) =
        (∑ j, if j < i then W i j else if i < j then W j i else 0) / 4 * z i := by
      rw [← Finset.sum_add_distrib, Finset.sum_div, Finset.sum_mul]
      refine Finset.sum_congr rfl fun j _ => ?_
      rcases lt_trichotomy j i with h | h | h
      · simp [h, h.le.not_gt]
      · subst h; simp
      · simp [h, h.le.not_gt]
    rw [this]
    ring
  rw [e1, e2, e3, e4]
  have e5 : ∑ i, W i i * ((1 - z i) / 2) + ∑ i, V i * ((1 - z i) / 2) =
      (∑ i, (W i i + V i)) / 2 - ∑ i, 1 / 2 * ((W i i + V i) * z i) := by
    rw [← Finset.sum_add_distrib, Finset.sum_div, ← Finset.sum_sub_distrib]
    refine Finset.sum_congr rfl fun i _ => ?_
    ring
  linear_combination e5

end ED
