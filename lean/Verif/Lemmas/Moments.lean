import Verif.Lemmas.SpinRotation
import Verif.Lemmas.SpinAlg
import Verif.Lemmas.Kramers

/-! # Traces of products of spin operators -/

namespace ED

open Matrix

section Trace

variable {n b : ℕ}

theorem trace_tensor (f : Fin n → Matrix (Fin b) (Fin b) ℂ) : trace (tensor f) = ∏ i, trace (f i) := by
  simp only [trace, diag_apply, tensor, of_apply]
  rw [Finset.prod_univ_sum, Fintype.piFinset_univ]

/-- A product of at most one chosen operator at every site. -/
def wordOp {α : Type} (S : α → Matrix (Fin b) (Fin b) ℂ) (g : Fin n → Option α) : Op n b := tensor fun i => ((g i).elim 1 S)

/-- Products of operators that are orthogonal to each other and to the identity are orthogonal. -/
theorem trace_words {α : Type} {S : α → Matrix (Fin b) (Fin b) ℂ} (h0 : ∀ a, trace (S a) = 0) (h2 : ∀ a a', a ≠ a' → trace (S a * S a') = 0)
    {g g' : Fin n → Option α} (h : g ≠ g') : trace (wordOp S g * wordOp S g') = 0 := by
  unfold wordOp
  rw [tensor_mul, trace_tensor]
  obtain ⟨i, hi⟩ := Function.ne_iff.1 h
  refine Finset.prod_eq_zero (Finset.mem_univ i) ?_
  cases hg : g i with
  | none =>
    cases hg' : g' i with
    | none => exact absurd (hg.trans hg'.symm) hi
    | some a => simp [h0]
  | some a =>
    cases hg' : g' i with
    | none => simp [h0]
    | some a' => simpa using h2 a a' fun e => hi (by rw [hg, hg', e])

theorem trace_word_sq {α : Type} {S : α → Matrix (Fin b) (Fin b) ℂ} {τ : ℂ} (h1 : ∀ a, trace (S a * S a) = τ * b) (g : Fin n → Option α) :
    trace (wordOp S g * wordOp S g) = τ ^ (Finset.univ.filter fun i => (g i).isSome).card * (b : ℂ) ^ n := by
  unfold wordOp
  rw [tensor_mul, trace_tensor]
  have : ∀ i, trace ((g i).elim 1 S * (g i).elim 1 S) = (if (g i).isSome then τ else 1) * b := by
    intro i
    cases hg : g i with
    | none => simp
    | some a => simp [h1]
  simp only [this, Finset.prod_mul_distrib, Finset.prod_const, Finset.card_univ, Fintype.card_fin]
  rw [Finset.prod_ite, Finset.prod_const, Finset.prod_const_one, mul_one]

theorem siteOp_word {α : Type} (S : α → Matrix (Fin b) (Fin b) ℂ) (i : Fin n) (a : α) :
    (siteOp (S a) i : Op n b) = wordOp S fun k => if k = i then some a else none := by
  rw [siteOp_eq_bop, bop, wordOp]
  congr 1
  funext k
  by_cases h : k = i
  · simp [h, fam1]
  · have : (k : ℕ) ≠ i := fun e => h (Fin.ext e)
    simp only [fam1, if_neg this, if_neg h]
    split_ifs <;> rfl

theorem siteOps_word {α : Type} (S : α → Matrix (Fin b) (Fin b) ℂ) {i j : Fin n} (hij : i ≠ j) (a : α) :
    (siteOp (S a) i * siteOp (S a) j : Op n b) = wordOp S fun k => if k = i ∨ k = j then some a else none := by
  rw [siteOp_word, siteOp_word, wordOp, wordOp, wordOp, tensor_mul]
  congr 1
  funext k
  by_cases h : k = i
  · have : k ≠ j := fun e => hij (h.symm.trans e)
    simp [h, hij]
  · by_cases h' : k = j
    · simp [h', hij.symm]
    · simp [h, h']

end Trace

/-- Spin components. -/
noncomputable def spinMats (d : ℕ) : Fin 3 → Matrix (Fin (d + 1)) (Fin (d + 1)) ℂ := ![sxM d, syM d, szM d]

theorem spM_zero_of {d : ℕ} {i j : Fin (d + 1)} (h : (i : ℕ) ≠ j + 1) : spM d i j = 0 := by
  simp only [spM, of_apply, if_neg h]

theorem smM_zero_of {d : ℕ} {i j : Fin (d + 1)} (h : (j : ℕ) ≠ i + 1) : smM d i j = 0 := by
  simp only [smM, of_apply, if_neg h]

theorem trace_sp (d : ℕ) : trace (spM d) = 0 := Finset.sum_eq_zero fun i _ => spM_zero_of (by omega)

theorem trace_sm (d : ℕ) : trace (smM d) = 0 := Finset.sum_eq_zero fun i _ => smM_zero_of (by omega)

theorem trace_sp_sp (d : ℕ) : trace (spM d * spM d) = 0 := by
  refine Finset.sum_eq_zero fun i _ => ?_
  rw [diag_apply, mul_apply]
  refine Finset.sum_eq_zero fun j _ => ?_
  by_cases h : (i : ℕ) = j + 1
  · rw [spM_zero_of (i := j) (by omega), mul_zero]
  · rw [spM_zero_of h, zero_mul]

theorem trace_sm_sm (d : ℕ) : trace (smM d * smM d) = 0 := by
  rw [← trace_transpose, transpose_mul, smM_transpose, trace_sp_sp]

theorem trace_sz (d : ℕ) : trace (szM d) = 0 := by
  have h := congrArg trace (reverse_sz d)
  have h1 : szM d = -(reverseSite d * (szM d)ᵀ * (reverseSite d)ᴴ) := by
    rw [← Matrix.neg_mul, ← reverse_sz, Matrix.mul_assoc, mul_eq_one_comm.1 (reverseSite_unitary d), Matrix.mul_one]
  have h2 := congrArg trace h1
  rw [trace_neg, Matrix.mul_assoc, trace_mul_comm, Matrix.mul_assoc, reverseSite_unitary, Matrix.mul_one, trace_transpose] at h2
  exact self_eq_neg.1 h2

theorem trace_sz_sp (d : ℕ) : trace (szM d * spM d) = 0 := by
  refine Finset.sum_eq_zero fun i _ => ?_
  rw [diag_apply, szM, diagonal_mul, spM_zero_of (by omega), mul_zero]

theorem trace_sz_sm (d : ℕ) : trace (szM d * smM d) = 0 := by
  refine Finset.sum_eq_zero fun i _ => ?_
  rw [diag_apply, szM, diagonal_mul, smM_zero_of (by omega), mul_zero]

/-- The mean square of a component of a spin of length `d / 2`. -/
noncomputable def meanSq (d : ℕ) : ℝ := d * (d + 2) / 12

theorem sum_sz_sq (d : ℕ) : ∑ i ∈ Finset.range (d + 1), ((d : ℝ) / 2 - i) ^ 2 = meanSq d * (d + 1) := by
  have key : ∀ (m : ℕ) (c : ℝ), ∑ i ∈ Finset.range m, (c - i) ^ 2 = m * c ^ 2 - c * (m * (m - 1)) + m * (m - 1) * (2 * m - 1) / 6 := by
    intro m c
    induction m with
    | zero => simp
    | succ m ih => rw [Finset.sum_range_succ, ih]; push_cast; ring
  rw [key, meanSq]
  push_cast
  ring

theorem sum_sp_sq (d : ℕ) : ∑ i ∈ Finset.range (d + 1), ((i : ℝ) + 1) * (d - i) = 2 * (meanSq d * (d + 1)) := by
  have key : ∀ (m : ℕ) (c : ℝ), ∑ i ∈ Finset.range m, ((i : ℝ) + 1) * (c - i) = c * (m * (m + 1) / 2) - (m - 1) * m * (m + 1) / 3 := by
    intro m c
    induction m with
    | zero => simp
    | succ m ih => rw [Finset.sum_range_succ, ih]; push_cast; ring
  rw [key, meanSq]
  push_cast
  ring

theorem trace_sz_sz (d : ℕ) : trace (szM d * szM d) = (meanSq d : ℂ) * ((d + 1 : ℕ) : ℂ) := by
  rw [szM, diagonal_mul_diagonal, trace_diagonal]
  have := sum_sz_sq d
  rw [← Fin.sum_univ_eq_sum_range (fun i => ((d : ℝ) / 2 - i) ^ 2)] at this
  rw [show (meanSq d : ℂ) * ((d + 1 : ℕ) : ℂ) = ((meanSq d * (d + 1) : ℝ) : ℂ) by push_cast; rfl, ← this]
  push_cast
  exact Finset.sum_congr rfl fun i _ => by ring

theorem trace_sp_sm (d : ℕ) : trace (smM d * spM d) = 2 * ((meanSq d : ℂ) * ((d + 1 : ℕ) : ℂ)) := by
  have h : ∀ i : Fin (d + 1), (smM d * spM d) i i = (((i : ℝ) + 1) * (d - i) : ℝ) := by
    intro i
    rw [mul_apply]
    by_cases hi : (i : ℕ) = d
    · rw [Finset.sum_eq_zero]
      · rw [hi]; simp
      · intro j _
        rw [smM_zero_of (by omega), zero_mul]
    · rw [Finset.sum_eq_single (⟨i + 1, by omega⟩ : Fin (d + 1))]
      · simp only [smM, spM, of_apply, if_true]
        rw [← Complex.ofReal_mul, Real.mul_self_sqrt]
        have : (i : ℝ) ≤ d := by exact_mod_cast Nat.lt_succ_iff.1 i.2
        have h0 : (0 : ℝ) ≤ i := Nat.cast_nonneg _
        exact mul_nonneg (by linarith) (by linarith)
      · intro j _ hj
        rw [smM_zero_of (fun e => hj (Fin.ext e)), zero_mul]
      · simp
  simp only [trace, diag_apply, h]
  have := sum_sp_sq d
  rw [← Fin.sum_univ_eq_sum_range (fun i => ((i : ℝ) + 1) * (d - i))] at this
  rw [← Complex.ofReal_sum, this]
  push_cast
  ring

theorem spinMats_trace (d : ℕ) (a : Fin 3) : trace (spinMats d a) = 0 := by
  fin_cases a
  · simp [spinMats, sxM, trace_add, trace_sp, trace_sm]
  · simp [spinMats, syM, trace_sub, trace_sp, trace_sm]
  · simp [spinMats, trace_sz]

theorem spinMats_sq (d : ℕ) (a : Fin 3) : trace (spinMats d a * spinMats d a) = (meanSq d : ℂ) * ((d + 1 : ℕ) : ℂ) := by
  have hps : trace (spM d * smM d) = trace (smM d * spM d) := trace_mul_comm _ _
  fin_cases a
  · change trace (sxM d * sxM d) = _
    rw [sxM, Matrix.smul_mul, Matrix.mul_smul, trace_smul, trace_smul, Matrix.add_mul, Matrix.mul_add, Matrix.mul_add, trace_add, trace_add, trace_add,
      trace_sp_sp, trace_sm_sm, hps, trace_sp_sm]
    simp only [smul_eq_mul]
    ring
  · change trace (syM d * syM d) = _
    rw [syM, Matrix.smul_mul, Matrix.mul_smul, trace_smul, trace_smul, Matrix.smul_mul, Matrix.mul_smul, trace_smul, trace_smul, Matrix.sub_mul,
      Matrix.mul_sub, Matrix.mul_sub, trace_sub, trace_sub, trace_sub, trace_sp_sp, trace_sm_sm, hps, trace_sp_sm]
    simp only [smul_eq_mul, one_div, Complex.inv_I]
    linear_combination (-(meanSq d : ℂ) * ((d + 1 : ℕ) : ℂ)) * Complex.I_mul_I
  · exact trace_sz_sz d

theorem spinMats_cross (d : ℕ) {a b : Fin 3} (h : a ≠ b) : trace (spinMats d a * spinMats d b) = 0 := by
  have hps : trace (spM d * smM d) = trace (smM d * spM d) := trace_mul_comm _ _
  have xy : trace (sxM d * syM d) = 0 := by
    rw [sxM, syM, Matrix.smul_mul, Matrix.mul_smul, Matrix.mul_smul, Matrix.add_mul, Matrix.mul_sub, Matrix.mul_sub, trace_smul, trace_smul, trace_smul,
      trace_add, trace_sub, trace_sub, trace_sp_sp, trace_sm_sm, hps]
    simp
  have zx : trace (szM d * sxM d) = 0 := by
    rw [sxM, Matrix.mul_smul, Matrix.mul_add, trace_smul, trace_add, trace_sz_sp, trace_sz_sm]
    simp
  have zy : trace (szM d * syM d) = 0 := by
    rw [syM, Matrix.mul_smul, Matrix.mul_smul, Matrix.mul_sub, trace_smul, trace_smul, trace_sub, trace_sz_sp, trace_sz_sm]
    simp
  fin_cases a <;> fin_cases b <;> first | exact absurd rfl h | exact xy | exact zx | exact zy | (rw [trace_mul_comm]; first | exact xy | exact zx | exact zy)

theorem trace_word {α : Type} {n b : ℕ} {S : α → Matrix (Fin b) (Fin b) ℂ} (h0 : ∀ a, trace (S a) = 0) {g : Fin n → Option α} {i : Fin n} {a : α}
    (hi : g i = some a) : trace (wordOp S g) = 0 := by
  unfold wordOp
  rw [trace_tensor]
  exact Finset.prod_eq_zero (Finset.mem_univ i) (by rw [hi]; exact h0 a)

/-- The trace of the square of a combination of different products. -/
theorem trace_expansion {α I : Type} [Fintype I] {n b : ℕ} {S : α → Matrix (Fin b) (Fin b) ℂ} (h0 : ∀ a, trace (S a) = 0)
    (h2 : ∀ a a', a ≠ a' → trace (S a * S a') = 0) (c : I → ℂ) (g : I → Fin n → Option α)
    (hg : ∀ x y, c x ≠ 0 → c y ≠ 0 → g x = g y → x = y) :
    trace ((∑ x, c x • wordOp S (g x)) * ∑ x, c x • wordOp S (g x) : Op n b) = ∑ x, c x ^ 2 * trace (wordOp S (g x) * wordOp S (g x) : Op n b) := by
  rw [Matrix.sum_mul, trace_sum]
  refine Finset.sum_congr rfl fun x _ => ?_
  rw [Matrix.mul_sum, trace_sum, Finset.sum_eq_single x]
  · rw [Matrix.smul_mul, Matrix.mul_smul, trace_smul, trace_smul, smul_eq_mul, smul_eq_mul]
    ring
  · intro y _ hy
    rw [Matrix.smul_mul, Matrix.mul_smul, trace_smul, trace_smul, smul_eq_mul, smul_eq_mul]
    by_cases hx : c x = 0
    · rw [hx, zero_mul]
    · by_cases hy' : c y = 0
      · rw [hy', zero_mul, mul_zero]
      · rw [trace_words h0 h2 fun e => hy (hg x y hx hy' e).symm, mul_zero, mul_zero]
  · simp

section Heis

variable {n : ℕ} (d : ℕ) (J : Fin 3 → Fin n → Fin n → ℂ) (h : Fin 3 → Fin n → ℂ)

/-- The terms of the Hamiltonian. -/
noncomputable def heisCoef : (Fin n × Fin n × Fin 3) ⊕ (Fin n × Fin 3) → ℂ
  | .inl x => if x.2.1 < x.1 then 2 * J x.2.2 x.1 x.2.1 else 0
  | .inr x => -h x.2 x.1

def heisWord : (Fin n × Fin n × Fin 3) ⊕ (Fin n × Fin 3) → Fin n → Option (Fin 3)
  | .inl x => fun k => if k = x.1 ∨ k = x.2.1 then some x.2.2 else none
  | .inr x => fun k => if k = x.1 then some x.2 else none

theorem heis_words : (heis (sxM d) (syM d) (szM d) (J 0) (J 1) (J 2) (h 0) (h 1) (h 2) : Op n (d + 1)) =
    ∑ x, heisCoef J h x • wordOp (spinMats d) (heisWord x) := by
  rw [Fintype.sum_sum_type, Fintype.sum_prod_type, Fintype.sum_prod_type, heis, sub_eq_add_neg, ← Finset.sum_neg_distrib]
  congr 1
  · refine Finset.sum_congr rfl fun i _ => ?_
    rw [Fintype.sum_prod_type]
    refine Finset.sum_congr rfl fun j _ => ?_
    rw [Fin.sum_univ_three]
    by_cases hij : j < i
    · simp only [heisCoef, heisWord, if_pos hij]
      rw [← siteOps_word (spinMats d) hij.ne' 0, ← siteOps_word (spinMats d) hij.ne' 1, ← siteOps_word (spinMats d) hij.ne' 2]
      rfl
    · simp only [heisCoef, if_neg hij, zero_smul, add_zero]
  · refine Finset.sum_congr rfl fun i _ => ?_
    rw [Fin.sum_univ_three]
    simp only [heisCoef, heisWord]
    rw [← siteOp_word (spinMats d) i 0, ← siteOp_word (spinMats d) i 1, ← siteOp_word (spinMats d) i 2, neg_smul, neg_smul, neg_smul, neg_add, neg_add]
    rfl

theorem heisWord_inj (x y : (Fin n × Fin n × Fin 3) ⊕ (Fin n × Fin 3)) (hx : heisCoef J h x ≠ 0) (hy : heisCoef J h y ≠ 0)
    (e : heisWord x = heisWord y) : x = y := by
  have key : ∀ k, heisWord x k = heisWord y k := congrFun e
  rcases x with ⟨i, j, a⟩ | ⟨i, a⟩ <;> rcases y with ⟨i', j', a'⟩ | ⟨i', a'⟩
  · have l1 : j < i := by by_contra hn; exact hx (if_neg hn)
    have l2 : j' < i' := by by_contra hn; exact hy (if_neg hn)
    have e1 := key i
    have e2 := key j
    have e3 := key i'
    have e4 := key j'
    simp only [heisWord, true_or, or_true, if_true] at e1 e2 e3 e4
    have q1 : i = i' ∨ i = j' := by by_contra hn; rw [if_neg hn] at e1; cases e1
    have q2 : j = i' ∨ j = j' := by by_contra hn; rw [if_neg hn] at e2; cases e2
    have q3 : a = a' := by rw [if_pos q1] at e1; exact Option.some.inj e1
    have q4 : i = i' ∧ j = j' := by
      simp only [Fin.ext_iff, Fin.lt_def] at *
      omega
    rw [q3, q4.1, q4.2]
  · have l1 : j < i := by by_contra hn; exact hx (if_neg hn)
    have e1 := key i
    have e2 := key j
    simp only [heisWord, true_or, or_true, if_true] at e1 e2
    have q1 : i = i' := by by_contra hn; rw [if_neg hn] at e1; cases e1
    have q2 : j = i' := by by_contra hn; rw [if_neg hn] at e2; cases e2
    exact absurd (q2.trans q1.symm) l1.ne
  · have l1 : j' < i' := by by_contra hn; exact hy (if_neg hn)
    have e1 := key i'
    have e2 := key j'
    simp only [heisWord, true_or, or_true, if_true] at e1 e2
    have q1 : i' = i := by by_contra hn; rw [if_neg hn] at e1; cases e1
    have q2 : j' = i := by by_contra hn; rw [if_neg hn] at e2; cases e2
    exact absurd (q2.trans q1.symm) l1.ne
  · have e1 := key i
    simp only [heisWord, if_true] at e1
    have q1 : i = i' := by by_contra hn; rw [if_neg hn] at e1; cases e1
    rw [if_pos q1] at e1
    rw [q1, Option.some.inj e1]

/-- The Hamiltonian is traceless. -/
theorem heis_trace : trace (heis (sxM d) (syM d) (szM d) (J 0) (J 1) (J 2) (h 0) (h 1) (h 2) : Op n (d + 1)) = 0 := by
  rw [heis_words, trace_sum]
  refine Finset.sum_eq_zero fun x _ => ?_
  rw [trace_smul]
  rcases x with x | x
  · rw [trace_word (spinMats_trace d) (i := x.1) (a := x.2.2) (by simp [heisWord]), smul_zero]
  · rw [trace_word (spinMats_trace d) (i := x.1) (a := x.2) (by simp [heisWord]), smul_zero]

/-- The trace of the square of the Hamiltonian. -/
theorem heis_trace_sq : trace ((heis (sxM d) (syM d) (szM d) (J 0) (J 1) (J 2) (h 0) (h 1) (h 2) : Op n (d + 1)) *
      heis (sxM d) (syM d) (szM d) (J 0) (J 1) (J 2) (h 0) (h 1) (h 2)) =
    ((meanSq d : ℂ) ^ 2 * (∑ i, ∑ j, if j < i then ∑ a, (2 * J a i j) ^ 2 else 0) + (meanSq d : ℂ) * ∑ i, ∑ a, h a i ^ 2) * ((d + 1 : ℕ) : ℂ) ^ n := by
  rw [heis_words, trace_expansion (spinMats_trace d) (fun a a' => spinMats_cross d) _ _ (heisWord_inj J h)]
  simp only [trace_word_sq (spinMats_sq d)]
  rw [Fintype.sum_sum_type, Fintype.sum_prod_type, Fintype.sum_prod_type, add_mul, Finset.mul_sum, Finset.sum_mul, Finset.mul_sum, Finset.sum_mul]
  congr 1
  · refine Finset.sum_congr rfl fun i _ => ?_
    rw [Fintype.sum_prod_type, Finset.mul_sum, Finset.sum_mul]
    refine Finset.sum_congr rfl fun j _ => ?_
    split_ifs with hij
    · rw [Finset.mul_sum, Finset.sum_mul]
      refine Finset.sum_congr rfl fun a _ => ?_
      have : (Finset.univ.filter fun k => (heisWord (Sum.inl (i, j, a)) k).isSome).card = 2 := by
        rw [show (Finset.univ.filter fun k => (heisWord (Sum.inl (i, j, a)) k).isSome) = {i, j} by
          ext k
          by_cases hk : k = i ∨ k = j <;> simp [heisWord, hk], Finset.card_pair hij.ne']
      rw [this]
      simp only [heisCoef, if_pos hij]
      ring
    · simp [heisCoef, hij]
  · refine Finset.sum_congr rfl fun i _ => ?_
    rw [Finset.mul_sum, Finset.sum_mul]
    refine Finset.sum_congr rfl fun a _ => ?_
    have : (Finset.univ.filter fun k => (heisWord (Sum.inr (i, a)) k).isSome).card = 1 := by
      rw [show (Finset.univ.filter fun k => (heisWord (Sum.inr (i, a)) k).isSome) = {i} by
        ext k
        by_cases hk : k = i <;> simp [heisWord, hk], Finset.card_singleton]
    rw [this]
    simp only [heisCoef]
    ring

end Heis

end ED
