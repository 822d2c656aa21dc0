import Verif.Lemmas.ZnResult

/-! # C40: projectors of cyclic groups -/

namespace ED.Props

open ED Classical
open scoped BigOperators

private theorem general {d : ℕ} {U : Matrix (Fin d) (Fin d) ℂ} (hU : PhasePermutation U) {n : ℕ} (hn : n ≠ 0)
    (hn' : n < 10 ^ 4) (hpow : U ^ n = 1) {δ : ℝ} (hδ0 : 0 ≤ δ) (hδ1 : δ ≤ 1 / 10 ^ 14)
    (hx : ∀ k < n, ∀ l < n, ‖znTable n k l - omega n k ^ l‖ ≤ δ) :
    ∃ projs, getZnProjectors U n = .ok (projs, (List.range n).map fun k : ℕ => 2 * Real.pi * (k : ℝ) / (n : ℝ)) ∧
      ZnGood U n (7 * δ) projs := by
  obtain ⟨σ, u, hu, hent⟩ := hU
  have h := znData_of ⟨hu, hent⟩ hn hn' hpow hδ0 hδ1 hx
  exact ⟨h.projs, zn_ok h hn', h.good⟩

/-- C40: for an operator that permutes basis states with phases and whose `n`-th power is the identity, the
projectors of `getZnProjectors` have orthonormal rows, are orthogonal to each other, resolve the identity
(so that their dimensions add up to the dimension of the space), and projector `k` picks the eigenvalue
`exp (-i k_k)` with the momentum `k_k = 2 π k / n` that is returned. Relations in which the rounding of the
characters to 14 decimals shows hold up to `10^-13`. Missing: `n ≥ 10^4`, where entries that should vanish
are not known to be smaller than the threshold of the library. -/
theorem C40_zn_partial {d : ℕ} {U : Matrix (Fin d) (Fin d) ℂ} (hU : PhasePermutation U) {n : ℕ} (hn : 0 < n)
    (hn' : n < 10 ^ 4) (hpow : U ^ n = 1) :
    ∃ projs : List (Rows d),
      getZnProjectors U n = .ok (projs, (List.range n).map fun k : ℕ => 2 * Real.pi * (k : ℝ) / (n : ℝ)) ∧
      projs.length = n ∧ (projs.map List.length).sum = d ∧
      (∀ P ∈ projs, ∀ (a b : ℕ) (ha : a < P.length) (hb : b < P.length),
        rowInner P[a] P[b] = if a = b then 1 else 0) ∧
      (∀ (k l : ℕ) (P Q : Rows d), projs[k]? = some P → projs[l]? = some Q → k ≠ l →
        ∀ r ∈ P, ∀ s ∈ Q, ‖rowInner r s‖ ≤ 1 / 10 ^ 13) ∧
      (∀ (k : ℕ) (P : Rows d), projs[k]? = some P → ∀ r ∈ P, ∀ j,
        ‖(∑ i, r i * U i j) - Complex.exp (-Complex.I * (2 * Real.pi * k / n)) * r j‖ ≤ 1 / 10 ^ 13) ∧
      ∀ i j : Fin d, ‖(projs.map fun P => (P.map fun r => (starRingEnd ℂ) (r i) * r j).sum).sum -
        if i = j then 1 else 0‖ ≤ 1 / 10 ^ 13 := by
  obtain ⟨projs, h1, h2⟩ := general hU hn.ne' hn' hpow (δ := 1 / 10 ^ 14) (by positivity) le_rfl
    (fun k _ l _ => table_near n k l)
  have hle : 7 * ((1 : ℝ) / 10 ^ 14) ≤ 1 / 10 ^ 13 := by norm_num
  exact ⟨projs, h1, h2.length, h2.total, h2.orthonormal,
    fun k l P Q hP hQ hkl r hr s hs => (h2.across k l P Q hP hQ hkl r hr s hs).trans hle,
    fun k P hP r hr j => (h2.eigen k P hP r hr j).trans hle, fun i j => (h2.resolution i j).trans hle⟩

/-! ## Exact tables -/

private theorem npRound_int (m : ℤ) : npRound 14 (m : ℝ) = m := by
  have h1 : ((m * 10 ^ 14 : ℤ) : ℝ) / 10 ^ 14 = m := by
    push_cast
    norm_num
  apply le_antisymm
  · have := npRound_le (K := ℝ) (d := 14) (x := m) (m := m * 10 ^ 14) h1.ge
    rwa [h1] at this
  · have := le_npRound (K := ℝ) (d := 14) (x := m) (m := m * 10 ^ 14) h1.le
    rwa [h1] at this

/-- A complex number with integer parts. -/
private def Gauss (z : ℂ) : Prop := ∃ a b : ℤ, z = ⟨a, b⟩

private theorem gauss_pow {z : ℂ} (h : Gauss z) (k : ℕ) : Gauss (z ^ k) := by
  induction k with
  | zero => exact ⟨1, 0, by rw [pow_zero]; apply Complex.ext <;> simp⟩
  | succ k ih =>
    obtain ⟨a, b, ha⟩ := ih
    obtain ⟨c, e, hc⟩ := h
    refine ⟨a * c - b * e, a * e + b * c, ?_⟩
    rw [pow_succ, ha, hc]
    apply Complex.ext <;> simp

private theorem table_exact {n k l : ℕ} (h : Gauss (omega n 1)) : ‖znTable n k l - omega n k ^ l‖ ≤ 0 := by
  have hz : Gauss (omega n k ^ l) := by
    rw [omega_eq_pow, ← pow_mul]
    exact gauss_pow h _
  unfold znTable
  rw [table_arg]
  obtain ⟨a, b, hab⟩ := hz
  rw [hab]
  simp only [npRound_int]
  simp

private theorem gauss_gen {n : ℕ} (h : n = 1 ∨ n = 2 ∨ n = 4) : Gauss (omega n 1) := by
  rcases h with rfl | rfl | rfl
  · refine ⟨1, 0, ?_⟩
    have := omega_pow_n (n := 1) one_ne_zero 1
    rw [pow_one] at this
    rw [this]
    apply Complex.ext <;> simp
  · refine ⟨-1, 0, ?_⟩
    unfold omega
    have e : (-2 * (Real.pi : ℂ) * Complex.I / ((2 : ℕ) : ℂ) * ((1 : ℕ) : ℂ)) = -(Real.pi * Complex.I) := by
      push_cast
      ring
    rw [e, Complex.exp_neg, Complex.exp_pi_mul_I]
    apply Complex.ext <;> norm_num
  · refine ⟨0, -1, ?_⟩
    unfold omega
    have e : (-2 * (Real.pi : ℂ) * Complex.I / ((4 : ℕ) : ℂ) * ((1 : ℕ) : ℂ)) = -(Real.pi / 2 * Complex.I) := by
      push_cast
      ring
    rw [e, Complex.exp_neg, Complex.exp_pi_div_two_mul_I, Complex.inv_I]
    apply Complex.ext <;> simp

/-- C40: if the characters are representable, for `n = 1, 2, 4`, all relations are exact. -/
theorem C40_exact {d : ℕ} {U : Matrix (Fin d) (Fin d) ℂ} (hU : PhasePermutation U) {n : ℕ}
    (hn : n = 1 ∨ n = 2 ∨ n = 4) (hpow : U ^ n = 1) :
    ∃ projs : List (Rows d),
      getZnProjectors U n = .ok (projs, (List.range n).map fun k : ℕ => 2 * Real.pi * (k : ℝ) / (n : ℝ)) ∧
      projs.length = n ∧ (projs.map List.length).sum = d ∧
      (∀ P ∈ projs, ∀ (a b : ℕ) (ha : a < P.length) (hb : b < P.length),
        rowInner P[a] P[b] = if a = b then 1 else 0) ∧
      (∀ (k l : ℕ) (P Q : Rows d), projs[k]? = some P → projs[l]? = some Q → k ≠ l →
        ∀ r ∈ P, ∀ s ∈ Q, rowInner r s = 0) ∧
      (∀ (k : ℕ) (P : Rows d), projs[k]? = some P → ∀ r ∈ P, ∀ j,
        ∑ i, r i * U i j = Complex.exp (-Complex.I * (2 * Real.pi * k / n)) * r j) ∧
      ∀ i j : Fin d, (projs.map fun P => (P.map fun r => (starRingEnd ℂ) (r i) * r j).sum).sum =
        if i = j then 1 else 0 := by
  obtain ⟨projs, h1, h2⟩ := general hU (by omega) (by omega) hpow (δ := 0) le_rfl (by positivity)
    (fun k _ l _ => table_exact (gauss_gen hn))
  rw [mul_zero] at h2
  exact ⟨projs, h1, h2.length, h2.total, h2.orthonormal,
    fun k l P Q hP hQ hkl r hr s hs => norm_le_zero_iff.1 (h2.across k l P Q hP hQ hkl r hr s hs),
    fun k P hP r hr j => sub_eq_zero.1 (norm_le_zero_iff.1 (h2.eigen k P hP r hr j)),
    fun i j => sub_eq_zero.1 (norm_le_zero_iff.1 (h2.resolution i j))⟩

/-- The hypotheses are met by the exchange of two states with a sign on a third one. -/
example : ∃ projs : List (Rows 3), getZnProjectors
      (Matrix.of ![![0, 1, 0], ![1, 0, 0], ![0, 0, -1]] : Matrix (Fin 3) (Fin 3) ℂ) 2 =
        .ok (projs, (List.range 2).map fun k : ℕ => 2 * Real.pi * (k : ℝ) / (2 : ℕ)) ∧
    (projs.map List.length).sum = 3 := by
  obtain ⟨projs, h1, -, h2, -⟩ := C40_exact
    (U := (Matrix.of ![![0, 1, 0], ![1, 0, 0], ![0, 0, -1]] : Matrix (Fin 3) (Fin 3) ℂ)) (n := 2)
    ⟨Equiv.swap 0 1, ![1, 1, -1], by intro i; fin_cases i <;> simp, by
      intro i j
      fin_cases i <;> fin_cases j <;> simp [Equiv.swap_apply_def]⟩ (Or.inr (Or.inl rfl)) (by
      rw [pow_two]
      ext i j
      fin_cases i <;> fin_cases j <;> simp [Matrix.mul_apply, Fin.sum_univ_three, Matrix.one_apply])
  exact ⟨projs, h1, h2⟩

end ED.Props
