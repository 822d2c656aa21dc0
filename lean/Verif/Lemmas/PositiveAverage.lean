import Verif.Lemmas.Perron
import Verif.Lemmas.Gibbs
import Verif.Lemmas.GibbsIneq

/-! # Averages in ensembles of matrices whose off-diagonal entries are negative up to phases -/

namespace ED

open Matrix

section

variable {ι : Type} [Fintype ι] [DecidableEq ι]

/-- The exponential of a matrix without negative entries has no negative entries, and those that are positive in some power are positive. -/
theorem exp_entries {K : Matrix ι ι ℝ} (hK : ∀ s t, 0 ≤ K s t) (s t : ι) :
    0 ≤ NormedSpace.exp K s t ∧ ∀ n : ℕ, 0 < (K ^ n) s t → 0 < NormedSpace.exp K s t := by
  have hpow : ∀ n : ℕ, ∀ s t, 0 ≤ (K ^ n) s t := by
    intro n
    induction n with
    | zero => intro s t; rw [pow_zero, one_apply]; split_ifs <;> norm_num
    | succ n ih => intro s t; rw [pow_succ, mul_apply]; exact Finset.sum_nonneg fun k _ => mul_nonneg (ih s k) (hK k t)
  have hs : HasSum (fun n : ℕ => ((n.factorial : ℝ)⁻¹ • K ^ n) s t) (NormedSpace.exp K s t) := by
    open scoped Matrix.Norms.Operator in
    have h := NormedSpace.exp_series_hasSum_exp' (𝕂 := ℝ) K
    exact h.map (Matrix.entryAddMonoidHom ℝ s t) (by
      change Continuous fun M : Matrix ι ι ℝ => M s t
      fun_prop)
  have hnn : ∀ n : ℕ, 0 ≤ ((n.factorial : ℝ)⁻¹ • K ^ n) s t := fun n => by
    rw [Matrix.smul_apply, smul_eq_mul]
    exact mul_nonneg (by positivity) (hpow n s t)
  refine ⟨hs.nonneg hnn, fun n hn => lt_of_lt_of_le ?_ (le_hasSum hs n fun m _ => hnn m)⟩
  rw [Matrix.smul_apply, smul_eq_mul]
  exact mul_pos (by positivity) hn

/-- Entries that are connected by a path of positive entries are positive in some power. -/
theorem pow_path {K : Matrix ι ι ℝ} (hK : ∀ s t, 0 ≤ K s t) {r : ι → ι → Prop} (hr : ∀ s t, r s t → 0 < K s t) {s t : ι} (h : Relation.ReflTransGen r s t) :
    ∃ n : ℕ, 0 < (K ^ n) s t := by
  have hpow : ∀ n : ℕ, ∀ s t, 0 ≤ (K ^ n) s t := by
    intro n
    induction n with
    | zero => intro s t; rw [pow_zero, one_apply]; split_ifs <;> norm_num
    | succ n ih => intro s t; rw [pow_succ, mul_apply]; exact Finset.sum_nonneg fun k _ => mul_nonneg (ih s k) (hK k t)
  induction h with
  | refl => exact ⟨0, by rw [pow_zero, one_apply_eq]; exact one_pos⟩
  | @tail u v _ hv ih =>
    obtain ⟨n, hn⟩ := ih
    refine ⟨n + 1, ?_⟩
    rw [pow_succ, mul_apply]
    exact Finset.sum_pos' (fun k _ => mul_nonneg (hpow n s k) (hK k v)) ⟨u, Finset.mem_univ u, mul_pos hn (hr u v hv)⟩

theorem exp_ofReal (K : Matrix ι ι ℝ) : NormedSpace.exp (K.map (fun x : ℝ => (x : ℂ))) = (NormedSpace.exp K).map fun x : ℝ => (x : ℂ) := by
  have hf : Continuous (Complex.ofRealHom.mapMatrix : Matrix ι ι ℝ →+* Matrix ι ι ℂ) := by
    change Continuous fun M : Matrix ι ι ℝ => M.map fun x : ℝ => (x : ℂ)
    exact continuous_id.matrix_map Complex.continuous_ofReal
  open scoped Matrix.Norms.Operator in
  exact (NormedSpace.map_exp (Complex.ofRealHom.mapMatrix : Matrix ι ι ℝ →+* Matrix ι ι ℂ) hf K).symm

variable {H : Matrix ι ι ℂ} {θ : ι → ℂ} {c : ι → ι → ℝ}

/-- Up to phases, all off-diagonal entries are negative or zero. -/
structure Gauged (H : Matrix ι ι ℂ) (θ : ι → ℂ) (c : ι → ι → ℝ) : Prop where
  phase : ∀ s, Complex.normSq (θ s) = 1
  nonneg : ∀ s t, 0 ≤ c s t
  off : ∀ s t, s ≠ t → H s t = -((c s t : ℂ) * (θ s * star (θ t)))

omit [DecidableEq ι] in
theorem Connected.gauged (hC : Connected H θ c) : Gauged H θ c := ⟨hC.phase, hC.nonneg, hC.off⟩

/-- Entries of the Boltzmann operator. -/
theorem Gauged.boltz (hC : Gauged H θ c) (hH : H.IsHermitian) {T : ℝ} (hT : 0 < T) :
    ∃ e : ι → ι → ℝ, (∀ s t, boltzOp H T s t = (e s t : ℂ) * (θ s * star (θ t))) ∧ (∀ s t, 0 ≤ e s t) ∧
      ∀ s t, Relation.ReflTransGen (fun s t => s ≠ t ∧ 0 < c s t) s t → 0 < e s t := by
  have hθ : ∀ s, star (θ s) * θ s = 1 := fun s => by
    rw [Complex.star_def, ← Complex.normSq_eq_conj_mul_self, hC.phase, Complex.ofReal_one]
  have hd : ∀ s, ((H s s).re : ℂ) = H s s := fun s => Complex.conj_eq_iff_re.1 (by
    have := congrFun (congrFun hH s) s
    rwa [conjTranspose_apply] at this)
  set κ : ℝ := ∑ s, |(H s s).re| / T with hκ
  set K : Matrix ι ι ℝ := Matrix.of fun s t => if s = t then κ - (H s s).re / T else c s t / T with hKdef
  have hK : ∀ s t, 0 ≤ K s t := by
    intro s t
    rw [hKdef, of_apply]
    split_ifs with h
    · have h1 : |(H s s).re| / T ≤ κ := Finset.single_le_sum (f := fun s => |(H s s).re| / T) (fun s _ => by positivity) (Finset.mem_univ s)
      have h2 : (H s s).re / T ≤ |(H s s).re| / T := div_le_div_of_nonneg_right (le_abs_self _) hT.le
      linarith
    · exact div_nonneg (hC.nonneg s t) hT.le
  set D : Matrix ι ι ℂ := diagonal θ with hD
  have d1 : Dᴴ * D = 1 := by
    rw [hD, diagonal_conjTranspose, diagonal_mul_diagonal, ← diagonal_one]
    congr 1
    funext s
    exact hθ s
  have d2 : D * Dᴴ = 1 := by
    rw [hD, diagonal_conjTranspose, diagonal_mul_diagonal, ← diagonal_one]
    congr 1
    funext s
    rw [mul_comm]
    exact hθ s
  have hsplit : -(1 / T : ℂ) • H = D * (K.map (fun x : ℝ => (x : ℂ)) + (-(κ : ℂ)) • (1 : Matrix ι ι ℂ)) * Dᴴ := by
    ext s t
    have hTc : (T : ℂ) ≠ 0 := by exact_mod_cast hT.ne'
    rw [hD, diagonal_conjTranspose, mul_diagonal, diagonal_mul, Matrix.add_apply, Matrix.smul_apply, Matrix.smul_apply, map_apply, hKdef, of_apply, one_apply,
      Pi.star_apply]
    by_cases h : s = t
    · subst h
      rw [if_pos rfl, if_pos rfl, mul_right_comm, mul_comm (θ s), hθ, ← hd s]
      push_cast
      simp only [smul_eq_mul, Complex.ofReal_re]
      ring
    · rw [if_neg h, if_neg h, hC.off s t h]
      push_cast
      simp only [smul_eq_mul]
      ring
  have hexp : boltzOp H T = D * (Complex.exp (-(κ : ℂ)) • (NormedSpace.exp K).map fun x : ℝ => (x : ℂ)) * Dᴴ := by
    have h3 : NormedSpace.exp ((-(κ : ℂ)) • (1 : Matrix ι ι ℂ)) = Complex.exp (-(κ : ℂ)) • (1 : Matrix ι ι ℂ) := by
      rw [Matrix.smul_one_eq_diagonal, Matrix.smul_one_eq_diagonal, Matrix.exp_diagonal]
      congr 1
      funext i
      rw [Pi.coe_exp, Complex.exp_eq_exp_ℂ]
    rw [boltzOp, hsplit, exp_unitary d1 d2, Matrix.exp_add_of_commute _ _ (Commute.smul_right (Commute.one_right _) _), h3, Matrix.mul_smul, Matrix.mul_one, exp_ofReal]
  refine ⟨fun s t => Real.exp (-κ) * NormedSpace.exp K s t, fun s t => ?_, fun s t => ?_, fun s t hst => ?_⟩
  · rw [hexp, hD, diagonal_conjTranspose, mul_diagonal, diagonal_mul, Matrix.smul_apply, map_apply, Pi.star_apply]
    push_cast
    simp only [smul_eq_mul]
    ring
  · exact mul_nonneg (Real.exp_pos _).le (exp_entries hK s t).1
  · obtain ⟨n, hn⟩ := pow_path hK (fun s t h => by
      rw [hKdef, of_apply, if_neg h.1]
      exact div_pos h.2 hT) hst
    exact mul_pos (Real.exp_pos _) ((exp_entries hK s t).2 n hn)

/-- Averages of operators that, up to the same phases, have no negative entries. -/
theorem Gauged.average [Nonempty ι] (hC : Gauged H θ c) (hH : H.IsHermitian) {T : ℝ} (hT : 0 < T) {O : Matrix ι ι ℂ} {o : ι → ι → ℝ}
    (hO : ∀ s t, O s t = (o s t : ℂ) * (θ s * star (θ t))) (hn : ∀ s t, 0 ≤ o s t) :
    0 ≤ thermalAvg H O T ∧ ((∃ s t, Relation.ReflTransGen (fun s t => s ≠ t ∧ 0 < c s t) s t ∧ 0 < o t s) → 0 < thermalAvg H O T) := by
  have hθ : ∀ s, star (θ s) * θ s = 1 := fun s => by
    rw [Complex.star_def, ← Complex.normSq_eq_conj_mul_self, hC.phase, Complex.ofReal_one]
  obtain ⟨e, e1, e2, e3⟩ := hC.boltz hH hT
  have htr : trace (boltzOp H T * O) = ((∑ s, ∑ t, e s t * o t s : ℝ) : ℂ) := by
    unfold trace
    push_cast
    refine Finset.sum_congr rfl fun s _ => ?_
    rw [diag_apply, mul_apply]
    refine Finset.sum_congr rfl fun t _ => ?_
    rw [e1, hO]
    linear_combination ((e s t : ℂ) * o t s * (star (θ t) * θ t)) * hθ s + ((e s t : ℂ) * o t s) * hθ t
  have hz := partitionFn_pos hH T
  have hval : thermalAvg H O T = (∑ s, ∑ t, e s t * o t s) / partitionFn H T := by
    rw [thermalAvg_ratio, htr, ← Complex.ofReal_div, Complex.ofReal_re]
  have hnn : ∀ s t, 0 ≤ e s t * o t s := fun s t => mul_nonneg (e2 s t) (hn t s)
  rw [hval]
  refine ⟨div_nonneg (Finset.sum_nonneg fun s _ => Finset.sum_nonneg fun t _ => hnn s t) hz.le, ?_⟩
  rintro ⟨s, t, h1, h3⟩
  refine div_pos (Finset.sum_pos' (fun s _ => Finset.sum_nonneg fun t _ => hnn s t) ⟨s, Finset.mem_univ s, ?_⟩) hz
  exact Finset.sum_pos' (fun t _ => hnn s t) ⟨t, Finset.mem_univ t, mul_pos (e3 s t h1) h3⟩

/-- Expectation values of such operators in a state with the same phases. -/
theorem expect_positive {θ : ι → ℂ} (hθ : ∀ s, Complex.normSq (θ s) = 1) {O : Matrix ι ι ℂ} {o : ι → ι → ℝ} (hO : ∀ s t, O s t = (o s t : ℂ) * (θ s * star (θ t)))
    (hn : ∀ s t, 0 ≤ o s t) {v : ι → ℂ} {z : ℂ} (hz : ‖z‖ = 1) (hv : ∀ s, v s = z * θ s * (‖v s‖ : ℂ)) :
    (star v ⬝ᵥ (O *ᵥ v)).re = ∑ s, ∑ t, ‖v s‖ * ‖v t‖ * o s t := by
  have hθ' : ∀ s, star (θ s) * θ s = 1 := fun s => by
    rw [Complex.star_def, ← Complex.normSq_eq_conj_mul_self, hθ, Complex.ofReal_one]
  have hz' : star z * z = 1 := by
    rw [Complex.star_def, ← Complex.normSq_eq_conj_mul_self, Complex.normSq_eq_norm_sq, hz]; simp
  have : star v ⬝ᵥ (O *ᵥ v) = ((∑ s, ∑ t, ‖v s‖ * ‖v t‖ * o s t : ℝ) : ℂ) := by
    push_cast
    simp only [dotProduct, mulVec, Finset.mul_sum]
    refine Finset.sum_congr rfl fun s _ => Finset.sum_congr rfl fun t _ => ?_
    have a1 : star v s = star z * star (θ s) * (‖v s‖ : ℂ) := by
      rw [Pi.star_apply]
      conv_lhs => rw [hv s]
      rw [star_mul', star_mul', Complex.star_def, Complex.conj_ofReal]
    rw [hO, a1]
    conv_lhs => rw [hv t]
    have e1 := hθ' s
    have e2 := hθ' t
    linear_combination ((‖v s‖ : ℂ) * ‖v t‖ * o s t * (star (θ s) * θ s) * (star (θ t) * θ t)) * hz' +
      ((‖v s‖ : ℂ) * ‖v t‖ * o s t * (star (θ t) * θ t)) * e1 + ((‖v s‖ : ℂ) * ‖v t‖ * o s t) * e2
  rw [this, Complex.ofReal_re]

end

end ED
